import Verif.Model.Codec
/-!
Transactions: instructions of this program, given as raw bytes, mixed with those of other programs (entrypoint.rs:8-20 is what the
runtime calls).  An instruction of another program that calls this program is split into what it does before, the call, and what it
does afterwards; the runtime does not let a program survive a failed call.
-/

namespace Verif

/-- What happens within a transaction. -/
inductive Action
  /-- this program is called with arbitrary accounts and bytes (entrypoint.rs:8-20) -/
  | call (accs : List AccountInfo) (data : Bytes)
  /-- another program changes the accounts -/
  | other (w : World)
  /-- another program fails -/
  | abort

/-- One action; `instructions/mod.rs:30-150` for calls of this program. -/
def runAction (env : Env) (now : Nat) (w : World) : Action → Option World
  | .call accs data =>
    match entrypoint env now w accs data with
    | .ok (w', _) => some w'
    | .error _ => none
  | .other w' => some w'
  | .abort => none

/-- The actions in order, until one fails. -/
def runActions (env : Env) (now : Nat) : World → List Action → Option World
  | w, [] => some w
  | w, a :: as =>
    match runAction env now w a with
    | some w' => runActions env now w' as
    | none => none

/-- What happens on the chain, as far as it is visible between transactions. -/
inductive Moment
  /-- a transaction -/
  | tx (as : List Action)
  /-- the clock advances -/
  | tick (seconds : Nat)
  /-- the runtime removes an account without lamports -/
  | gc (k : Key)

/-- A transaction takes effect as a whole or not at all (the runtime discards the changes of a failed transaction). -/
def Chain.after (env : Env) (s : Chain) : Moment → Chain
  | .tx as =>
    match runActions env s.now s.world as with
    | some w => { s with world := w }
    | none => s
  | .tick d => s.apply env (.tick d)
  | .gc k => s.apply env (.gc k)

end Verif
