import Verif.Lemmas.WorldEffects
/-!
Recorded expirations after a deposit.
-/

namespace Verif

open Spec

theorem recordedAt_get {l : SMap} (h : Sorted l) (e : Nat) : recordedAt l e = (l.get e).getD 0 := by
  induction l with
  | nil => rfl
  | cons a l ih =>
    rw [sorted_cons] at h
    obtain ⟨k, v⟩ := a
    by_cases he : e = k
    · subst he
      have h0 : (l.filter fun x => decide (x.1 = e)) = [] := by
        rw [List.filter_eq_nil_iff]
        intro x hx
        have := h.1 x hx
        simp at this ⊢; omega
      simp [recordedAt, SMap.get, h0]
    · have h1 := ih h.2
      have : ¬ k = e := fun h => he h.symm
      simp only [recordedAt, SMap.get, if_neg he] at h1 ⊢
      rw [List.filter_cons_of_neg (by simpa using this), h1]

theorem recordedAt_after (l : SMap) {b e : Nat} (h : b < e) : recordedAt (after l b) e = recordedAt l e := by
  unfold recordedAt after
  rw [List.filter_filter]
  congr 2
  congr 1
  funext x
  by_cases hx : x.1 = e
  · simp [hx, h]
  · simp [hx]

theorem recordedAt_addAt {D : SMap} (h : Sorted D) {cap e : Nat} (hr : Room cap D e) (v : Nat) :
    recordedAt (addAt cap D e v) e = recordedAt D e + v ∧ ∃ x ∈ addAt cap D e v, x.1 = e := by
  have h1 : (addAt cap D e v).get e = some ((D.get e).getD 0 + v) := by
    unfold Room at hr
    unfold addAt SMap.insert
    rw [if_pos hr, SMap.get_put, if_pos rfl]
  rw [recordedAt_get (addAt_sorted h ..), recordedAt_get h, h1]
  exact ⟨rfl, _, SMap.get_some_mem h1, rfl⟩

theorem withAdd_diffs {now a : Nat} {p p' : Pool} {d d' : Option Mining}
    (h : p.withDelegate d (Pool.delegateAdd now a) = .ok (p', d')) : p'.diffs = p.diffs := by
  cases d with
  | none => rw [withDelegate_none] at h; rw [h.1]
  | some y =>
    rw [withDelegate_some] at h
    obtain ⟨y', h, rfl⟩ := h
    rw [delegateAdd_ok] at h
    rw [h.2.2.2]

theorem deposit_recorded {caps : Caps} {now : Nat} {p p' : Pool} {m m' : Mining} {a : Nat} {per : LockupPeriod}
    {d d' : Option Mining} (hp : PoolOk now p) (hm : MiningOk m)
    (h : p.deposit caps now m a per d = .ok (p', m', d')) :
    ∃ k n, terms per = some (k, n) ∧
      (HasRoom caps.pool p.diffs (midnight now + 86400 * n) →
        recordedAt p'.diffs (midnight now + 86400 * n) = recordedAt p.diffs (midnight now + 86400 * n) + (a * k - a) ∧
        ∃ x ∈ p'.diffs, x.1 = midnight now + 86400 * n) ∧
      (HasRoom caps.mining (laterThan m.diffs (midnight now)) (midnight now + 86400 * n) →
        recordedAt m'.diffs (midnight now + 86400 * n) = recordedAt m.diffs (midnight now + 86400 * n) + (a * k - a) ∧
        ∃ x ∈ m'.diffs, x.1 = midnight now + 86400 * n) := by
  obtain ⟨m1, e, h1, h2, -, -, -, -, -, -, rfl, h9⟩ := deposit_ok (refresh_sorted hp hm) h
  obtain ⟨s1, o1, f1⟩ := refresh_same hp.history hm h1
  obtain ⟨r1, r2, r3⟩ := refresh_weight hp.history hm h1
  obtain ⟨n, g1, rfl, g3, g4⟩ := terms_ok h2
  refine ⟨per.multiplier, n, g1, fun hr => ?_, fun hr => ?_⟩
  · rw [withAdd_diffs h9]
    exact recordedAt_addAt hp.sorted (hasRoom_iff.mp hr) _
  · simp only
    have hr' : Room caps.mining m1.diffs (midnight now + 86400 * n) := by
      rw [r2, ← laterThan_eq, ← hasRoom_iff, bod_eq_midnight]; exact hr
    have h3 := recordedAt_addAt o1.sorted hr' (a * per.multiplier - a)
    rw [r2] at h3 ⊢
    rw [recordedAt_after m.diffs (b := bod now) (by rw [bod_eq_midnight]; omega)] at h3
    exact h3

end Verif
