import Verif.Spec.Solvency
/-!
Specification vocabulary for the ledger of stakes: what the staking program (the deposit authority) knows about the stakes
of a pool, and what it means that it reports its operations honestly.  Nothing here mentions shares, tables or indexes,
except for the room that is left in the tables.
-/

namespace Verif.Spec

/-- A stake: `amount` tokens of the owner of `mining`, delegated to `delegate` (to nobody if that is the mining itself),
counted `times` times until midnight `expires` and once from then on. -/
structure StakeEntry where
  mining : Key
  delegate : Key
  amount : Nat
  times : Nat
  expires : Nat
  deriving DecidableEq

/-- What a stake counts for its owner on the day starting at `x`. -/
def StakeEntry.worth (y : StakeEntry) (x : Nat) : Int := if x < y.expires then y.amount * y.times else y.amount

/-- What a stake counts for the delegate. -/
def StakeEntry.lent (y : StakeEntry) : Int := if y.delegate = y.mining then 0 else y.amount

/-- The multiplier of the stake is used up. -/
def StakeEntry.Matured (y : StakeEntry) (now : Nat) : Prop := y.times = 1 ∨ y.expires ≤ now

/-- All stakes of a pool. -/
abbrev Ledger := List StakeEntry

/-- Weighted stake of the owner of `k` on the day starting at `x`. -/
def Ledger.own (L : Ledger) (k : Key) (x : Nat) : Int := (L.map fun y => if y.mining = k then y.worth x else 0).sum

/-- Stake delegated to `k` by others. -/
def Ledger.lentTo (L : Ledger) (k : Key) : Int := (L.map fun y => if y.delegate = k then y.lent else 0).sum

/-- All weighted stake and all delegated stake. -/
def Ledger.all (L : Ledger) (x : Nat) : Int := (L.map fun y => y.worth x + y.lent).sum

/-- The tables of the pool `P` and of the mining `M` can take an entry for date `e`. -/
def RoomFor (env : Env) (now : Nat) (w : World) (P M : Key) (e : Nat) : Prop :=
  (∀ p, PoolAt env w P p → HasRoom env.caps.pool p.diffs e) ∧
  ∀ m, MiningAt env w M m → HasRoom env.caps.mining (laterThan m.diffs (midnight now)) e

/-- Instructions that do not concern stakes. -/
def isService : Ix → Bool
  | .initializePool .. | .initializeMining .. | .fillVault .. | .claim | .distributeRewards => true
  | _ => false

/-- The successful instruction `i` with accounts `accs` is an honest report of an operation that turns the ledger `L` of
pool `P` into the second one.
* `deposit` adds a stake;
* `withdraw`, `slash` take tokens from a stake whose multiplier is used up, `slashLocked` also from a stake before its
  expiry; slashed stakes are not delegated;
* `extend` restarts a stake whose multiplier is used up;
* `redelegate` changes the delegate of one whole stake;
* `close` is for minings without stakes;
* `service`: initialization, fill, claim, distribution change nothing;
* `elsewhere`: operations for other pools change nothing, if they do not name a mining of `P` as old delegate. -/
inductive Reports (env : Env) (P : Key) (now : Nat) (w : World) (accs : List AccountInfo) :
    Ix → Ledger → Ledger → Prop
  | deposit {a : Nat} {l : LockupPeriod} {o d M D : Key} {k n : Nat} {L : Ledger}
      (pool : accs[0]?.map (·.key) = some P) (mining : accs[1]?.map (·.key) = some M)
      (delegate : accs[3]?.map (·.key) = some D) (member : ∃ x, Member env w P D x) (lockup : terms l = some (k, n))
      (room : RoomFor env now w P M (midnight now + 86400 * n)) :
      Reports env P now w accs (.depositMining a l o d) L (⟨M, D, a, k, midnight now + 86400 * n⟩ :: L)
  | withdraw {a : Nat} {o d : Key} {y : StakeEntry} {rest L : Ledger}
      (pool : accs[0]?.map (·.key) = some P) (mining : accs[1]?.map (·.key) = some y.mining)
      (delegate : accs[3]?.map (·.key) = some y.delegate) (held : L.Perm (y :: rest))
      (matured : y.Matured now) (enough : a ≤ y.amount) :
      Reports env P now w accs (.withdrawMining a o d) L ({ y with amount := y.amount - a } :: rest)
  | extend {ol nl : LockupPeriod} {ts a : Nat} {o d : Key} {y : StakeEntry} {k n k' n' : Nat} {rest L : Ledger}
      (pool : accs[0]?.map (·.key) = some P) (mining : accs[1]?.map (·.key) = some y.mining)
      (delegate : accs[3]?.map (·.key) = some y.delegate) (member : ∃ x, Member env w P y.delegate x)
      (held : L.Perm (y :: rest)) (matured : y.Matured now)
      (old : terms ol = some (k, n)) (times : y.times = k) (expires : y.expires = midnight ts + 86400 * n)
      (new : terms nl = some (k', n')) (room : RoomFor env now w P y.mining (midnight now + 86400 * n')) :
      Reports env P now w accs (.extendStake ol nl ts y.amount a o d) L
        ({ y with amount := y.amount + a, times := k', expires := midnight now + 86400 * n' } :: rest)
  | redelegate {nd New : Key} {y : StakeEntry} {rest L : Ledger}
      (pool : accs[0]?.map (·.key) = some P) (mining : accs[1]?.map (·.key) = some y.mining)
      (old : accs[4]?.map (·.key) = some y.delegate) (new : accs[5]?.map (·.key) = some New)
      (member : ∃ x, Member env w P New x) (held : L.Perm (y :: rest)) :
      Reports env P now w accs (.changeDelegate y.amount nd) L ({ y with delegate := New } :: rest)
  | slash {o : Key} {n : Nat} {y : StakeEntry} {rest L : Ledger}
      (pool : accs[1]?.map (·.key) = some P) (mining : accs[2]?.map (·.key) = some y.mining)
      (held : L.Perm (y :: rest)) (undelegated : y.delegate = y.mining) (matured : y.Matured now)
      (enough : n ≤ y.amount) :
      Reports env P now w accs (.slash o n n none) L ({ y with amount := y.amount - n } :: rest)
  | slashLocked {o : Key} {n ts : Nat} {y : StakeEntry} {rest L : Ledger}
      (pool : accs[1]?.map (·.key) = some P) (mining : accs[2]?.map (·.key) = some y.mining)
      (held : L.Perm (y :: rest)) (undelegated : y.delegate = y.mining) (expires : y.expires = midnight ts)
      (enough : n ≤ y.amount) :
      Reports env P now w accs (.slash o n (n * y.times) (some ts)) L ({ y with amount := y.amount - n } :: rest)
  | close {L : Ledger} (spent : ∀ y ∈ L, accs[0]?.map (·.key) = some y.mining → y.amount = 0) :
      Reports env P now w accs .closeMining L L
  | service {i : Ix} {L : Ledger} (h : isService i = true) : Reports env P now w accs i L L
  | elsewhere {i : Ix} {L : Ledger} (pool : poolArg accs i ≠ some P) (notClose : i ≠ .closeMining)
      (old : ∀ D, oldDelegateArg accs i = some D → ∀ x, ¬ Member env w P D x) : Reports env P now w accs i L L

/-- What an event does to the ledger of pool `P`.  Failed instructions do nothing; the pool and its minings keep their
rent, so that the runtime does not remove them. -/
def LedgerEvent (env : Env) (P : Key) (s : Chain) (L L' : Ledger) : Event → Prop
  | .ix accs i => NotPoolAsMining env s.world accs i ∧
      (((∃ r, exec env s.now s.world accs i = .ok r) ∧ Reports env P s.now s.world accs i L L') ∨
       ((∃ e, exec env s.now s.world accs i = .error e) ∧ L' = L))
  | .tick _ => L' = L
  | .gc k => L' = L ∧ k ≠ P ∧ ∀ m, ¬ Member env s.world P k m
  | .ext _ => L' = L

/-- Histories of honest operations, with the ledger kept along. -/
inductive LedgerRuns (env : Env) (P : Key) : Chain → Ledger → List Event → Chain → Ledger → Prop
  | nil (s : Chain) (L : Ledger) : LedgerRuns env P s L [] s L
  | cons {s s' : Chain} {L L1 L' : Ledger} {e : Event} {es : List Event} :
      e.Valid env s → LedgerEvent env P s L L1 e → LedgerRuns env P (s.apply env e) L1 es s' L' →
      LedgerRuns env P s L (e :: es) s' L'

end Verif.Spec
