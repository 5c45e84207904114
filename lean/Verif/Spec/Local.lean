import Verif.Model.Processor
/-!
Vocabulary for C83 and C84: which accounts an instruction names, and instructions that do not get in each other's way.
-/

namespace Verif.Spec

/-- The account is in the list of the instruction. -/
def Listed (accs : List AccountInfo) (k : Key) : Prop := ∃ a ∈ accs, a.key = k

/-- The account is in the list, with the privilege to write. -/
def Writable (accs : List AccountInfo) (k : Key) : Prop := ∃ a ∈ accs, a.key = k ∧ a.isWritable = true

/-- The same outcome of an instruction with the accounts `accs` in the worlds `w1` and `w2`: the same error, or success with
the same return data and the same listed accounts, all others being left as they were. -/
inductive SameResult (accs : List AccountInfo) (w1 w2 : World) :
    Res (World × Option Nat) → Res (World × Option Nat) → Prop
  | fails (e : Err) : SameResult accs w1 w2 (.error e) (.error e)
  | succeeds {w1' w2' : World} {ret : Option Nat} : (∀ k, Listed accs k → w1' k = w2' k) →
      (∀ k, ¬ Listed accs k → w1' k = w1 k ∧ w2' k = w2 k) → SameResult accs w1 w2 (.ok (w1', ret)) (.ok (w2', ret))

/-- Neither instruction names an account that the other may write to. -/
def Unrelated (accs1 accs2 : List AccountInfo) : Prop :=
  (∀ k, Writable accs1 k → ¬ Listed accs2 k) ∧ (∀ k, Writable accs2 k → ¬ Listed accs1 k)

/-- What an instruction leads to: the world after it (unchanged if it fails) and its outcome. -/
def outcome (env : Env) (now : Nat) (w : World) (accs : List AccountInfo) (i : Ix) : World × Except Err (Option Nat) :=
  match exec env now w accs i with
  | .ok (w', ret) => (w', .ok ret)
  | .error e => (w, .error e)

/-- An instruction submitted at a certain time. -/
structure Call where
  time : Nat
  accs : List AccountInfo
  ix : Ix

/-- Calls one after the other: the world afterwards and the outcome of each. -/
def runCalls (env : Env) (w : World) : List Call → World × List (Except Err (Option Nat))
  | [] => (w, [])
  | c :: cs =>
    let r := outcome env c.time w c.accs c.ix
    let rs := runCalls env r.1 cs
    (rs.1, r.2 :: rs.2)

/-- The calls of one of two groups, in a mixture of calls marked with their group. -/
def part (b : Bool) (zs : List (Bool × Call)) : List Call := (zs.filter fun z => z.1 == b).map (·.2)

/-- The entries of a list that belong to one of the groups. -/
def picked {α : Type} (b : Bool) (zs : List (Bool × Call)) (os : List α) : List α :=
  (((zs.map (·.1)).zip os).filter fun z => z.1 == b).map (·.2)

end Verif.Spec
