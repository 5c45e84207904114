import Verif.Spec.Access
/-!
Vocabulary for C91: everything happens a number of days later.
-/

namespace Verif.Spec

/-- A table of dates, `n` days later. -/
def laterTable (n : Nat) (l : SMap) : SMap := l.map fun e => (e.1 + 86400 * n, e.2)

/-- A date `n` days later; zero stands for no date. -/
def laterDate (n t : Nat) : Nat := if t = 0 then 0 else t + 86400 * n

def laterMining (n : Nat) (m : Mining) : Mining := { m with diffs := laterTable n m.diffs }

def laterPool (n : Nat) (p : Pool) : Pool :=
  { p with diffs := laterTable n p.diffs, cumulative := laterTable n p.cumulative,
           distributionEndsAt := laterDate n p.distributionEndsAt }

def laterContent (n : Nat) : Content → Content
  | .pool p => .pool (laterPool n p)
  | .mining m => .mining (laterMining n m)
  | .token t => .token t
  | .zero => .zero
  | .mint => .mint
  | .other => .other

def laterAccount (n : Nat) (a : Account) : Account := { a with content := laterContent n a.content }

/-- All accounts, with every date in them `n` days later. -/
def laterWorld (n : Nat) (w : World) : World := fun k => laterAccount n (w k)

/-- The same instruction with the dates in its arguments `n` days later. -/
def laterIx (n : Nat) : Ix → Ix
  | .fillVault r t => .fillVault r (t + 86400 * n)
  | .extendStake ol nl ts b a o d => .extendStake ol nl (ts + 86400 * n) b a o d
  | .slash o k m e => .slash o k m (e.map (· + 86400 * n))
  | i => i

def laterChain (n : Nat) (s : Chain) : Chain := ⟨s.now + 86400 * n, laterWorld n s.world⟩

def laterEvent (n : Nat) : Event → Event
  | .ix accs i => .ix accs (laterIx n i)
  | .tick d => .tick d
  | .gc k => .gc k
  | .ext w => .ext (laterWorld n w)

/-- No pool is passed as a mining and no mining as a pool. -/
structure NoMixUp (w : World) (accs : List AccountInfo) (i : Ix) : Prop where
  pool : ∀ k, poolArg accs i = some k → ∀ m, (w k).content ≠ .mining m
  mining : ∀ k, miningArg accs i = some k → ∀ p, (w k).content ≠ .pool p
  delegate : ∀ k, delegateArg accs i = some k → ∀ p, (w k).content ≠ .pool p
  oldDelegate : ∀ k, oldDelegateArg accs i = some k → ∀ p, (w k).content ≠ .pool p

/-- The clock is at least one day after 1970, and a year after the dates of an instruction, `n` days later, is before the end
of the 64-bit calendar. -/
def InCalendar (n now : Nat) (i : Ix) : Prop :=
  86400 ≤ now ∧ now + 86400 * n + 366 * 86400 < 2 ^ 64 ∧
  match i with
  | .fillVault _ t => t + 86400 * n < 2 ^ 64
  | .extendStake _ _ ts _ _ _ _ => ts + 86400 * n + 366 * 86400 < 2 ^ 64
  | _ => True

/-- The two conditions, for an event. -/
def Dated (n : Nat) (s : Chain) : Event → Prop
  | .ix accs i => NoMixUp s.world accs i ∧ InCalendar n s.now i
  | _ => True

end Verif.Spec
