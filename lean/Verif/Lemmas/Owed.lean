import Verif.Lemmas.Effects
/-!
How operations change what a mining is owed.
-/

namespace Verif

open Spec

theorem prec_eq : PRECISION = 10 ^ 16 := rfl

theorem earned_add_const {eff : Nat → Nat} {a i p : Nat} {l : List (Nat × Nat)} (h : MonoFrom p l) :
    earned (fun x => eff x + a) i p l = earned eff i p l + (max (lastIndex p l) i - max p i) * a := by
  induction l generalizing p with
  | nil => simp [earned, lastIndex]
  | cons e l ih =>
    rw [MonoFrom.cons] at h
    simp only [earned, lastIndex]
    rw [ih h.2]
    have h1 := h.2.le_last
    have : max (lastIndex e.2 l) i - max p i = (max e.2 i - max p i) + (max (lastIndex e.2 l) i - max e.2 i) := by omega
    rw [this, Nat.mul_add, Nat.add_mul]
    omega

/-- Distributions up to a date, and later ones. -/
theorem pending_split {cum : SMap} (hc : History cum) (m : Mining) {now : Nat} (hi : m.index ≤ indexBefore cum now) :
    pending m cum = entitlement m cum now +
      earned (earningOn m) (indexBefore cum now) (indexBefore cum now) (cum.filter fun e => decide (now ≤ e.1)) := by
  unfold pending entitlement
  conv => lhs; rw [filter_split hc.sorted now, earned_append]
  congr 1
  have hm := hc.monoFrom
  rw [filter_split hc.sorted now] at hm
  exact earned_index_congr (MonoFrom.append.mp hm).2 hi (Nat.le_refl _)

theorem entitlement_consumed {cum : SMap} (hc : History cum) {m : Mining} {now : Nat}
    (hi : indexBefore cum now ≤ m.index) : entitlement m cum now = 0 :=
  earned_consumed (Nat.zero_le _)
    (fun e he => Nat.le_trans ((hc.monoFrom.filter (fun e => decide (e.1 < now))).mem_le_last e he) hi)

theorem pending_consumed {cum : SMap} (hc : History cum) {m : Mining} (hi : lastIndex 0 cum ≤ m.index) :
    pending m cum = 0 :=
  earned_consumed (Nat.zero_le _) (fun e he => Nat.le_trans (hc.monoFrom.mem_le_last e he) hi)

theorem settled_index {cum : SMap} {now : Nat} (hs : Settled cum now) : indexBefore cum now = lastIndex 0 cum := by
  unfold indexBefore
  rw [List.filter_eq_self.mpr]
  intro e he; simpa using hs e he

theorem pending_le {m m' : Mining} (cum : SMap) (hi : m'.index = m.index)
    (he : ∀ e ∈ cum, earningOn m e.1 ≤ earningOn m' e.1) : pending m cum ≤ pending m' cum := by
  unfold pending; rw [hi]; exact earned_le he

theorem pending_congr {m m' : Mining} (cum : SMap) (hi : m'.index = m.index)
    (he : ∀ e ∈ cum, earningOn m' e.1 = earningOn m e.1) : pending m' cum = pending m cum := by
  unfold pending; rw [hi]; exact earned_congr he

/-- Delegated stake raised by `a`: at most the index growth since the last refresh times `a` more. -/
theorem pending_sfo {cum : SMap} (hc : History cum) (d : Mining) (a : Nat) :
    pending { d with stakeFromOthers := d.stakeFromOthers + a } cum ≤
      pending d cum + a * (lastIndex 0 cum - d.index) := by
  have h1 : pending { d with stakeFromOthers := d.stakeFromOthers + a } cum ≤
      earned (fun x => earningOn d x + a) d.index 0 cum := by
    unfold pending
    refine earned_le (fun e _ => ?_)
    simp only [earningOn]; omega
  rw [earned_add_const hc.monoFrom] at h1
  refine Nat.le_trans h1 (Nat.add_le_add_left (Nat.le_of_eq ?_) _)
  rw [Nat.mul_comm]; congr 1; omega

/-- … and exactly that much, if the stake covers the expirations. -/
theorem pending_sfo_eq {cum : SMap} (hc : History cum) (d : Mining) (a : Nat)
    (hb : ∀ e ∈ cum, dueBy d.diffs e.1 ≤ d.share + d.stakeFromOthers) :
    pending { d with stakeFromOthers := d.stakeFromOthers + a } cum =
      pending d cum + a * (lastIndex 0 cum - d.index) := by
  have h1 : pending { d with stakeFromOthers := d.stakeFromOthers + a } cum =
      earned (fun x => earningOn d x + a) d.index 0 cum := by
    unfold pending
    refine earned_congr (fun e he => ?_)
    have := hb e he
    simp only [earningOn]; omega
  rw [h1, earned_add_const hc.monoFrom, Nat.mul_comm a]
  unfold pending
  congr 2; omega

/-- Refreshing keeps what is owed, except for rounding. -/
theorem refresh_owed {cum : SMap} (hc : History cum) {now : Nat} {m m' : Mining} (hm : MiningOk m)
    (h : m.refreshRewards now cum = .ok m') :
    owed m' cum ≤ owed m cum ∧ owed m cum < owed m' cum + 10 ^ 16 * (expiredCount m (bod now) + 1) ∧
    m'.index = indexBefore cum now ∧ m.index ≤ indexBefore cum now ∧ m'.stakeFromOthers = m.stakeFromOthers ∧
    (∀ x, bod now ≤ x → earningOn m' x = earningOn m x) := by
  obtain ⟨c, rfl, h1, h2, h3, h4, h5, h6⟩ := refresh_ok hc hm.sorted h
  have hearn : ∀ x, bod now ≤ x → earningOn { m with
      index := indexBefore cum now, share := m.share - dueBy m.diffs (bod now), unclaimed := m.unclaimed + c,
      diffs := after m.diffs (bod now) } x = earningOn m x := by
    intro x hx
    have := dueBy_after m.diffs hx
    simp only [earningOn]
    omega
  have hsplit := pending_split hc m h2
  have hsplit' := pending_split hc { m with
      index := indexBefore cum now, share := m.share - dueBy m.diffs (bod now), unclaimed := m.unclaimed + c,
      diffs := after m.diffs (bod now) } (now := now) (Nat.le_refl _)
  rw [entitlement_consumed hc (Nat.le_refl _), earned_congr (eff' := earningOn m)] at hsplit'
  · refine ⟨?_, ?_, rfl, h2, rfl, hearn⟩
    · unfold owed
      rw [hsplit, hsplit', Nat.mul_add, ← prec_eq]
      omega
    · unfold owed
      rw [hsplit, hsplit', ← prec_eq]
      rw [Nat.mul_add, Nat.mul_add] at h6
      simp only [Nat.mul_add] at *
      omega
  · intro e he
    apply hearn
    have := (List.mem_filter.mp he).2
    simp only [decide_eq_true_eq] at this
    exact Nat.le_trans (bod_le now) this

/-- A mining that is up to date is owed exactly its unclaimed amount. -/
theorem owed_current {cum : SMap} (hc : History cum) {m : Mining} (hi : lastIndex 0 cum ≤ m.index) :
    owed m cum = 10 ^ 16 * m.unclaimed := by
  unfold owed; rw [pending_consumed hc hi]; rfl

theorem owed_le {m m' : Mining} (cum : SMap) (hu : m.unclaimed ≤ m'.unclaimed) (hi : m'.index = m.index)
    (he : ∀ e ∈ cum, earningOn m e.1 ≤ earningOn m' e.1) : owed m cum ≤ owed m' cum := by
  unfold owed
  exact Nat.add_le_add (Nat.mul_le_mul_left _ hu) (pending_le cum hi he)

/-- Refreshing a mining that is up to date credits nothing. -/
theorem refresh_again {cum : SMap} (hc : History cum) {now : Nat} {m m' : Mining} (hm : MiningOk m)
    (hi : m.index = indexBefore cum now) (h : m.refreshRewards now cum = .ok m') :
    m'.unclaimed = m.unclaimed ∧ m'.index = m.index := by
  obtain ⟨c, rfl, h1, h2, h3, h4, h5, h6⟩ := refresh_ok hc hm.sorted h
  rw [entitlement_consumed hc (Nat.le_of_eq hi.symm)] at h5
  have hc0 : c = 0 := by
    have : 0 < PRECISION := by decide
    rcases Nat.eq_zero_or_pos c with h0 | h0
    · exact h0
    · have := Nat.mul_pos this h0; omega
  subst hc0
  exact ⟨rfl, hi.symm⟩

/-- Delegated stake added to a mining. -/
theorem delegateAdd_owed {now a : Nat} {p p' : Pool} {d d' : Mining} (hc : History p.cumulative) (hd : MiningOk d)
    (h : Pool.delegateAdd now a p d = .ok (p', d')) :
    p'.cumulative = p.cumulative ∧ d'.index = indexBefore p.cumulative now ∧ d.index ≤ indexBefore p.cumulative now ∧
    owed d' p.cumulative ≤ owed d p.cumulative + a * (lastIndex 0 p.cumulative - d.index) ∧
    ((∀ e ∈ p.cumulative, e.1 ≤ bod now) →
      owed d p.cumulative + a * (lastIndex 0 p.cumulative - d.index) <
        owed d' p.cumulative + 10 ^ 16 * (expiredCount d (bod now) + 1)) := by
  rw [delegateAdd_ok] at h
  obtain ⟨_, _, h, rfl⟩ := h
  obtain ⟨h1, h2, h3, h4, h5, h6⟩ := refresh_owed hc (m := { d with stakeFromOthers := d.stakeFromOthers + a })
    ⟨hd.1, hd.2⟩ h
  have hs := pending_sfo hc d a
  refine ⟨rfl, h3, h4, ?_, ?_⟩
  · refine Nat.le_trans h1 ?_
    unfold owed at *
    simp only at *
    omega
  · intro hpast
    refine Nat.lt_of_le_of_lt ?_ h2
    obtain ⟨c, _, g1, _⟩ := refresh_ok hc (m := { d with stakeFromOthers := d.stakeFromOthers + a }) hd.1 h
    have := pending_sfo_eq hc d a (fun e he => by
      have := dueBy_mono d.diffs (hpast e he); simp only at g1; omega)
    unfold owed
    rw [this]
    simp only
    omega

/-- Delegated stake taken from a mining. -/
theorem delegateSub_owed {now a : Nat} {p p' : Pool} {d d' : Mining} (hc : History p.cumulative) (hd : MiningOk d)
    (h : Pool.delegateSub now a p d = .ok (p', d')) :
    p'.cumulative = p.cumulative ∧ d'.index = indexBefore p.cumulative now ∧ d.index ≤ indexBefore p.cumulative now ∧
    owed d' p.cumulative ≤ owed d p.cumulative ∧
    owed d p.cumulative < owed d' p.cumulative + a * (lastIndex 0 p.cumulative - d.index) +
        10 ^ 16 * (expiredCount d (bod now) + 1) ∧
    ((∀ e ∈ p.cumulative, e.1 ≤ bod now) →
      owed d' p.cumulative + a * (lastIndex 0 p.cumulative - d.index) ≤ owed d p.cumulative) := by
  rw [delegateSub_ok] at h
  obtain ⟨ha, _, h, rfl⟩ := h
  obtain ⟨h1, h2, h3, h4, h5, h6⟩ := refresh_owed hc (m := { d with stakeFromOthers := d.stakeFromOthers - a })
    ⟨hd.1, hd.2⟩ h
  have hd' : d = { ({ d with stakeFromOthers := d.stakeFromOthers - a } : Mining) with
      stakeFromOthers := d.stakeFromOthers - a + a } := by
    rw [Nat.sub_add_cancel ha]
  refine ⟨rfl, h3, h4, ?_, ?_, ?_⟩
  · refine Nat.le_trans h1 (owed_le _ (Nat.le_refl _) rfl (fun e _ => ?_))
    simp only [earningOn]; omega
  · have hs := pending_sfo hc { d with stakeFromOthers := d.stakeFromOthers - a } a
    simp only at hs
    rw [← hd'] at hs
    unfold owed at h2 ⊢
    simp only [expiredCount] at h2 ⊢
    omega
  · intro hpast
    refine Nat.le_trans (Nat.add_le_add_right h1 _) ?_
    obtain ⟨c, _, g1, _⟩ := refresh_ok hc (m := { d with stakeFromOthers := d.stakeFromOthers - a }) hd.1 h
    have := pending_sfo_eq hc { d with stakeFromOthers := d.stakeFromOthers - a } a (fun e he => by
      have := dueBy_mono d.diffs (hpast e he); simp only at g1 ⊢; omega)
    simp only at this
    rw [← hd'] at this
    unfold owed
    simp only at *
    omega

end Verif
