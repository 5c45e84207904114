import Verif.Lemmas.Basic
import Verif.Lemmas.Earned
/-!
What a successful `refresh_rewards` did.
-/

namespace Verif

open Spec

theorem updateIndex_ok {cum : SMap} (hs : Sorted cum) {date share u i u' i' : Nat} :
    Mining.updateIndex cum date share u i = .ok (u', i') ↔
      i ≤ indexBefore cum date ∧ (indexBefore cum date - i) * share < U128 ∧
      (indexBefore cum date - i) * share / PRECISION < U64 ∧
      (0 < (indexBefore cum date - i) * share / PRECISION →
        u + (indexBefore cum date - i) * share / PRECISION < U64) ∧
      u' = u + (indexBefore cum date - i) * share / PRECISION ∧ i' = indexBefore cum date := by
  unfold Mining.updateIndex
  simp only [findMaxLt_eq hs]
  generalize indexBefore cum date = F
  simp only [res_bind_ok, safeSub_ok, safeMul128_ok, safeDiv_ok, u64TryFrom_ok]
  have hPz : PRECISION ≠ 0 := by decide
  constructor
  · rintro ⟨d, ⟨h1, rfl⟩, p, ⟨h2, rfl⟩, q, ⟨_, rfl⟩, r, ⟨h4, rfl⟩, h5⟩
    generalize (F - i) * share / PRECISION = q at *
    split at h5
    · rename_i hr
      simp only [res_bind_ok, safeAdd64_ok, res_pure_ok, Prod.mk.injEq] at h5
      obtain ⟨x, ⟨h6, rfl⟩, rfl, rfl⟩ := h5
      exact ⟨h1, h2, h4, fun _ => h6, rfl, rfl⟩
    · rename_i hr
      simp only [res_bind_ok, res_pure_ok, Prod.mk.injEq] at h5
      obtain ⟨x, rfl, rfl, rfl⟩ := h5
      refine ⟨h1, h2, h4, fun h => absurd h hr, by omega, rfl⟩
  · rintro ⟨h1, h2, h4, h5, rfl, rfl⟩
    refine ⟨_, ⟨h1, rfl⟩, _, ⟨h2, rfl⟩, _, ⟨hPz, rfl⟩, _, ⟨h4, rfl⟩, ?_⟩
    generalize (i' - i) * share / PRECISION = q at *
    split
    · rename_i hr
      simp only [res_bind_ok, safeAdd64_ok, res_pure_ok, Prod.mk.injEq]
      exact ⟨_, ⟨h5 hr, rfl⟩, rfl, trivial⟩
    · rename_i hr
      simp only [res_bind_ok, res_pure_ok, Prod.mk.injEq]
      exact ⟨_, rfl, by omega, trivial⟩

/-- Dates at which expirations are due by `b`. -/
def dueDates (l : List (Nat × Nat)) (b : Nat) : List Nat := (l.filter fun e => decide (e.1 ≤ b)).map (·.1)

theorem dueDates_cons_le {a : Nat × Nat} {l : List (Nat × Nat)} {b : Nat} (h : a.1 ≤ b) :
    dueDates (a :: l) b = a.1 :: dueDates l b := by
  simp [dueDates, h]

theorem filter_le_nil {l : List (Nat × Nat)} {a : Nat × Nat} (hs : Sorted (a :: l)) {b : Nat} (h : b < a.1) :
    (a :: l).filter (fun e => decide (e.1 ≤ b)) = [] := by
  rw [sorted_cons] at hs
  rw [List.filter_eq_nil_iff]
  intro e he
  rcases List.mem_cons.mp he with he | he
  · subst he; simp; omega
  · have := hs.1 e he; simp; omega

theorem foldl_erase {l : SMap} (hs : Sorted l) (b : Nat) : (dueDates l b).foldl SMap.erase l = after l b := by
  induction l with
  | nil => rfl
  | cons a l ih =>
    by_cases h : a.1 ≤ b
    · rw [dueDates_cons_le h]
      have h1 : SMap.erase (a :: l) a.1 = l := by obtain ⟨k, v⟩ := a; simp [SMap.erase]
      rw [List.foldl_cons, h1, ih (sorted_cons.mp hs).2]
      unfold after
      rw [List.filter_cons]
      have : ¬ b < a.1 := by omega
      simp [this]
    · have h0 : dueDates (a :: l) b = [] := by
        unfold dueDates; rw [filter_le_nil hs (by omega)]; rfl
      rw [h0, List.foldl_nil, after_self]
      intro e he
      rcases List.mem_cons.mp he with he | he
      · subst he; omega
      · have := (sorted_cons.mp hs).1 e he; omega

/-- Stake over time of somebody with stake `sh` now and expirations `D`. -/
def effOf (sh : Nat) (D : List (Nat × Nat)) (d : Nat) : Nat := sh - dueBy D d

/-- One step of the expiration loop in terms of what is earned before `now`. -/
theorem earned_step {cum : SMap} (hc : History cum) {now e v sh i : Nat} {rest : List (Nat × Nat)}
    (hD : Sorted ((e, v) :: rest)) (he : e ≤ now) (hi : i ≤ indexBefore cum e) :
    earned (effOf sh ((e, v) :: rest)) i 0 (cum.filter fun x => decide (x.1 < now)) =
      (indexBefore cum e - i) * sh +
      earned (effOf (sh - v) rest) (indexBefore cum e) 0 (cum.filter fun x => decide (x.1 < now)) := by
  have hm := hc.monoFrom.filter (fun x => decide (x.1 < now))
  rw [filter_lt_split hc.sorted he] at hm ⊢
  rw [earned_append, earned_append]
  obtain ⟨hm1, hm2⟩ := MonoFrom.append.mp hm
  change MonoFrom (indexBefore cum e) _ at hm2
  change _ + earned _ _ (indexBefore cum e) _ = _ + (_ + earned _ _ (indexBefore cum e) _)
  have h1 : earned (effOf sh ((e, v) :: rest)) i 0 (cum.filter fun x => decide (x.1 < e)) =
      (indexBefore cum e - i) * sh := by
    rw [earned_congr (eff' := fun _ => sh)]
    · rw [earned_const hm1]
      change (max (indexBefore cum e) i - max 0 i) * sh = _
      congr 1; omega
    · intro x hx
      have hx2 := (List.mem_filter.mp hx).2
      simp only [decide_eq_true_eq] at hx2
      unfold effOf
      rw [dueBy_eq_zero]
      · omega
      · intro y hy
        rcases List.mem_cons.mp hy with hy | hy
        · subst hy; exact hx2
        · have := (sorted_cons.mp hD).1 y hy; simp at this; omega
  have h2 : earned (effOf (sh - v) rest) (indexBefore cum e) 0 (cum.filter fun x => decide (x.1 < e)) = 0 := by
    apply earned_consumed (Nat.zero_le _)
    exact hm1.mem_le_last
  rw [h1, h2, Nat.zero_add]
  congr 1
  rw [earned_index_congr hm2 hi (Nat.le_refl _)]
  apply earned_congr
  intro x hx
  have hx2 := (List.mem_filter.mp hx).2
  simp only [decide_eq_true_eq] at hx2
  unfold effOf
  rw [dueBy_cons, if_pos hx2.1]
  omega

theorem mul_div_bounds (x : Nat) : PRECISION * (x / PRECISION) ≤ x ∧ x ≤ PRECISION * (x / PRECISION) + (PRECISION - 1) := by
  unfold PRECISION; omega

theorem consumeLoop_ok {cum : SMap} (hc : History cum) {b now : Nat} (hb : b ≤ now) {D : List (Nat × Nat)}
    (hD : Sorted D) {s s' : Mining.Consume} (h : Mining.consumeLoop cum b D s = .ok s') :
    dueBy D b ≤ s.totalShare ∧ s'.totalShare = s.totalShare - dueBy D b ∧
    s'.processed = s.processed ++ dueDates D b ∧
    (D.all (fun e => decide (b < e.1)) = true → s'.index = s.index) ∧ s.index ≤ s'.index ∧
    (s.unclaimed < U64 → s'.unclaimed < U64) ∧
    ∃ c x, s'.unclaimed = s.unclaimed + c ∧
      earned (effOf s.totalShare D) s.index 0 (cum.filter fun x => decide (x.1 < now)) =
        x + earned (effOf s'.totalShare (after D b)) s'.index 0 (cum.filter fun x => decide (x.1 < now)) ∧
      PRECISION * c ≤ x ∧ x ≤ PRECISION * c + (PRECISION - 1) * (dueDates D b).length := by
  induction D generalizing s with
  | nil =>
    simp only [Mining.consumeLoop, Except.ok.injEq] at h
    subst h
    refine ⟨by simp, by simp, by simp [dueDates], by simp, Nat.le_refl _, id, 0, 0, rfl, ?_, by simp, by simp⟩
    simp [after]
  | cons a rest ih =>
    obtain ⟨e, v⟩ := a
    rw [Mining.consumeLoop] at h
    by_cases he : e > b
    · rw [if_pos he] at h
      cases h
      have hall : ∀ x ∈ (e, v) :: rest, b < x.1 := by
        intro x hx
        rcases List.mem_cons.mp hx with hx | hx
        · subst hx; exact he
        · have := (sorted_cons.mp hD).1 x hx; simp at this; omega
      have hdue := dueBy_eq_zero hall
      have hdates : dueDates ((e, v) :: rest) b = [] := by
        unfold dueDates; rw [filter_le_nil hD he]; rfl
      refine ⟨by omega, by omega, by simp [hdates], fun _ => rfl, Nat.le_refl _, id, 0, 0, rfl, ?_, by simp, by simp⟩
      rw [after_self _ hall, Nat.zero_add]
    · rw [if_neg he] at h
      simp only [res_bind_ok, Prod.exists, safeSub_ok] at h
      obtain ⟨u1, i1, hu, t1, ⟨hv, rfl⟩, h⟩ := h
      rw [updateIndex_ok hc.sorted] at hu
      obtain ⟨hi, hU128, hU64, hadd, rfl, rfl⟩ := hu
      have hD' := (sorted_cons.mp hD).2
      obtain ⟨g1, g2, g3, g4, g5, g6, c, x, g7, g8, g9, g10⟩ := ih hD' h
      have heb : e ≤ b := by omega
      have hdue : dueBy ((e, v) :: rest) b = v + dueBy rest b := by
        rw [dueBy_cons, if_pos heb]
      have hdates : dueDates ((e, v) :: rest) b = e :: dueDates rest b := dueDates_cons_le heb
      have hafter : after ((e, v) :: rest) b = after rest b := by
        unfold after; rw [List.filter_cons]; simp [show ¬ b < e by omega]
      simp only at g1 g2 g3 g4 g5 g6 g7 g8
      have hstep := earned_step hc hD (Nat.le_trans heb hb) hi (v := v) (sh := s.totalShare)
      obtain ⟨b1, b2⟩ := mul_div_bounds ((indexBefore cum e - s.index) * s.totalShare)
      refine ⟨by omega, by omega, ?_, ?_, by omega, ?_,
        (indexBefore cum e - s.index) * s.totalShare / PRECISION + c,
        (indexBefore cum e - s.index) * s.totalShare + x, by omega, ?_, ?_, ?_⟩
      · rw [g3, hdates]; simp
      · intro hall; simp at hall; omega
      · intro hu
        apply g6
        rcases Nat.eq_zero_or_pos ((indexBefore cum e - s.index) * s.totalShare / PRECISION) with h0 | h0
        · omega
        · exact hadd h0
      · rw [hstep, hafter, g8, Nat.add_assoc]
      · rw [Nat.mul_add]; omega
      · rw [Nat.mul_add, hdates, List.length_cons, Nat.mul_add]; omega

/-- `effOf` of a mining is its earning stake. -/
theorem effOf_mining (m : Mining) : effOf (m.share + m.stakeFromOthers) m.diffs = earningOn m := rfl

/-- Complete description of a successful refresh. -/
theorem refresh_ok {cum : SMap} (hc : History cum) {now : Nat} {m m' : Mining} (hd : Sorted m.diffs)
    (h : m.refreshRewards now cum = .ok m') :
    ∃ c, m' = { m with index := indexBefore cum now, share := m.share - dueBy m.diffs (bod now),
                       unclaimed := m.unclaimed + c, diffs := after m.diffs (bod now) } ∧
      dueBy m.diffs (bod now) ≤ m.share ∧ m.index ≤ indexBefore cum now ∧
      m.share + m.stakeFromOthers < U64 ∧
      (m.unclaimed < U64 → m.unclaimed + c < U64) ∧
      PRECISION * c ≤ entitlement m cum now ∧
      entitlement m cum now < PRECISION * (c + expiredCount m (bod now) + 1) := by
  unfold Mining.refreshRewards Mining.consumeOldModifiers at h
  simp only [res_bind_ok, Prod.exists, safeAdd64_ok, safeSub_ok, res_pure_ok, Prod.mk.injEq] at h
  obtain ⟨sh, ⟨hU, rfl⟩, m1, sh1, ⟨s, hs, rfl, rfl⟩, u, i, hu, sh2, ⟨hsub, rfl⟩, rfl⟩ := h
  obtain ⟨g1, g2, g3, g4, g5, g6, c, x, g7, g8, g9, g10⟩ := consumeLoop_ok hc (bod_le now) hd hs
  rw [updateIndex_ok hc.sorted] at hu
  obtain ⟨hi, hU128, hU64, hadd, rfl, rfl⟩ := hu
  simp only at g1 g2 g3 g4 g5 g6 g7 g8 hi hU128 hU64 hadd hsub ⊢
  have hfin : earned (effOf s.totalShare (after m.diffs (bod now))) s.index 0
      (cum.filter fun x => decide (x.1 < now)) = (indexBefore cum now - s.index) * s.totalShare := by
    have hm := hc.monoFrom.filter (fun x => decide (x.1 < now))
    rw [earned_congr (eff' := fun _ => s.totalShare)]
    · rw [earned_const hm]
      change (max (indexBefore cum now) s.index - max 0 s.index) * _ = _
      congr 1; omega
    · intro e he
      obtain ⟨he1, he2⟩ := List.mem_filter.mp he
      simp only [decide_eq_true_eq] at he2
      have hal := hc.aligned e he1
      unfold effOf
      rw [dueBy_eq_zero]
      · omega
      · intro y hy
        have := (mem_after.mp hy).2
        have : e.1 ≤ bod now := by unfold bod DAY at *; omega
        omega
  obtain ⟨b1, b2⟩ := mul_div_bounds ((indexBefore cum now - s.index) * s.totalShare)
  rw [hfin, effOf_mining] at g8
  change entitlement m cum now = _ at g8
  have hcount : (dueDates m.diffs (bod now)).length = expiredCount m (bod now) := by
    simp [dueDates, expiredCount]
  refine ⟨c + (indexBefore cum now - s.index) * s.totalShare / PRECISION, ?_, by omega, by omega, hU, ?_, ?_, ?_⟩
  · have e1 : s.processed.foldl SMap.erase m.diffs = after m.diffs (bod now) := by
      rw [g3, List.nil_append, foldl_erase hd]
    rw [e1]
    congr 1
    · omega
    · omega
  · intro hu
    have := g6 hu
    rcases Nat.eq_zero_or_pos ((indexBefore cum now - s.index) * s.totalShare / PRECISION) with h0 | h0
    · omega
    · have := hadd h0; omega
  · rw [Nat.mul_add]; omega
  · rw [hcount] at g10
    rw [g8, Nat.mul_add, Nat.mul_add, Nat.mul_add]
    have hp : PRECISION = (PRECISION - 1) + 1 := by decide
    have : (PRECISION - 1) * expiredCount m (bod now) ≤ PRECISION * expiredCount m (bod now) :=
      Nat.mul_le_mul_right _ (Nat.sub_le _ _)
    omega

end Verif
