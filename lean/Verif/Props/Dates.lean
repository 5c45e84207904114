import Verif.Lemmas.PoolOps
import Verif.Lemmas.Preserve
import Verif.Spec.Terms
/-!
C42: expiry dates.  C45: lazy consumption of the pool's expirations.
-/

namespace Verif

open Spec

/-- C42: the expiry of a lockup that starts at `ts` is the beginning of that UTC day plus the number of days of the
published table; it exists exactly for the periods of the table, as long as it is a 64-bit timestamp. -/
theorem C42_expiry (per : LockupPeriod) (ts e : Nat) :
    per.endTimestamp ts = .ok e ↔
      ∃ k n, terms per = some (k, n) ∧ e = midnight ts + 86400 * n ∧ e < 2 ^ 64 := by
  rw [endTimestamp_ok, bod_eq_midnight]
  cases per <;> simp [LockupPeriod.days, terms, DAY, U64] <;>
    exact ⟨fun h => ⟨_, _, ⟨rfl, rfl⟩, by omega, by omega⟩, fun ⟨_, _, ⟨_, e⟩, h⟩ => by subst e; omega⟩

/-- C42: an expiry is at midnight, strictly after the start and at least four full days later. -/
theorem C42_later {per : LockupPeriod} {ts e : Nat} (h : per.endTimestamp ts = .ok e) :
    e % 86400 = 0 ∧ ts + 4 * 86400 < e ∧ e ≤ ts + 365 * 86400 := by
  rw [C42_expiry] at h
  obtain ⟨k, n, h1, rfl, -⟩ := h
  have h2 : 5 ≤ n ∧ n ≤ 365 := by cases per <;> simp [terms] at h1 <;> omega
  have h3 : midnight ts ≤ ts := by unfold midnight; omega
  have h4 : ts < midnight ts + 86400 := by unfold midnight; omega
  refine ⟨?_, ?_, ?_⟩
  · unfold midnight; omega
  · omega
  · omega

/-- C42: the program's own tables of multipliers and days are the published one. -/
theorem C42_table (per : LockupPeriod) :
    terms per = (match per.days with | .ok n => some (per.multiplier, n) | .error _ => none) := by
  cases per <;> rfl

/-- C42: a period outside of the table, and a timestamp too close to 2^64, give an error. -/
theorem C42_fails (per : LockupPeriod) (ts : Nat) :
    (∃ er, per.endTimestamp ts = .error er) ↔
      (per = .none ∨ ∃ k n, terms per = some (k, n) ∧ 2 ^ 64 ≤ midnight ts + 86400 * n) := by
  cases h : per.endTimestamp ts with
  | ok e =>
    rw [C42_expiry] at h
    obtain ⟨k, n, h1, rfl, h2⟩ := h
    constructor
    · rintro ⟨_, h⟩; cases h
    · rintro (h | ⟨k', n', h3, h4⟩)
      · subst h; cases h1
      · rw [h1] at h3; cases h3; omega
  | error er =>
    refine ⟨fun _ => ?_, fun _ => ⟨er, rfl⟩⟩
    cases ht : terms per with
    | none => left; cases per <;> simp [terms] at ht; rfl
    | some kn =>
      obtain ⟨k, n⟩ := kn
      refine Or.inr ⟨k, n, rfl, ?_⟩
      apply Classical.byContradiction
      intro hlt
      have : per.endTimestamp ts = .ok (midnight ts + 86400 * n) := (C42_expiry ..).mpr ⟨k, n, ht, rfl, by omega⟩
      rw [h] at this; cases this

example : LockupPeriod.oneYear.endTimestamp 1728000100 = .ok 1759536000 := rfl
example : ∃ er, LockupPeriod.flex.endTimestamp (2 ^ 64 - 1) = .error er := ⟨.panic, rfl⟩

/-- C45: consuming the pool's expirations at the beginning of day `b` succeeds exactly if the total covers them; then
it subtracts the sum of the amounts dated up to `b`, removes exactly these entries and changes nothing else. -/
theorem C45_consume {p p' : Pool} (hs : Sorted p.diffs) (b : Nat) :
    p.consumeOldModifiers b = .ok p' ↔ dueBy p.diffs b ≤ p.totalShare ∧
      p' = { p with totalShare := p.totalShare - dueBy p.diffs b, diffs := laterThan p.diffs b } := by
  rw [poolConsume_ok hs]; rfl

/-- C45: on every day from `b` on, the pool's total is the same as if nothing had been consumed. -/
theorem C45_neutral {p p' : Pool} (hs : Sorted p.diffs) {b : Nat} (h : p.consumeOldModifiers b = .ok p') :
    ∀ d, b ≤ d → totalOn p' d = totalOn p d := by
  rw [poolConsume_ok hs] at h
  obtain ⟨h1, rfl⟩ := h
  intro d hd
  have := dueBy_after p.diffs hd
  have := dueBy_mono p.diffs hd
  simp only [totalOn]
  omega

/-- C45: consuming at `b` and later at `d` is the same as consuming once at `d`, including whether it succeeds. -/
theorem C45_lazy {p p' : Pool} (hs : Sorted p.diffs) {b d : Nat} (h : b ≤ d) :
    (∃ p1, p.consumeOldModifiers b = .ok p1 ∧ p1.consumeOldModifiers d = .ok p') ↔ p.consumeOldModifiers d = .ok p' := by
  have e1 := dueBy_after p.diffs h
  have e2 := dueBy_mono p.diffs h
  constructor
  · rintro ⟨p1, h1, h2⟩
    rw [poolConsume_ok hs] at h1
    obtain ⟨h1, rfl⟩ := h1
    rw [poolConsume_ok (after_sorted hs _)] at h2
    obtain ⟨h2, rfl⟩ := h2
    simp only at h2
    rw [poolConsume_ok hs]
    refine ⟨by omega, ?_⟩
    simp only [after_after _ h]
    congr 1
    omega
  · intro h2
    rw [poolConsume_ok hs] at h2
    obtain ⟨h2, rfl⟩ := h2
    refine ⟨_, (poolConsume_ok hs).mpr ⟨by omega, rfl⟩, ?_⟩
    rw [poolConsume_ok (after_sorted hs _)]
    refine ⟨by simp only; omega, ?_⟩
    simp only [after_after _ h]
    congr 1
    omega

example : ∃ p1 p2 : Pool,
    ({ Pool.zero with totalShare := 100, diffs := [(86400, 30), (172800, 20), (259200, 5)] } : Pool).consumeOldModifiers
      86400 = .ok p1 ∧ p1.totalShare = 70 ∧ p1.consumeOldModifiers 172800 = .ok p2 ∧ p2.totalShare = 50 ∧
      p2.diffs = [(259200, 5)] := ⟨_, _, rfl, rfl, rfl, rfl, rfl⟩

end Verif
