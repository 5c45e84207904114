import Verif.Lemmas.Owed
/-!
Refreshing as a relation: exactly when it succeeds and with which result.
-/

namespace Verif

open Spec

/-- `Mining::update_index` succeeds with unclaimed amount `u'`. -/
def Upd (cum : SMap) (date sh u i u' : Nat) : Prop :=
  i ≤ indexBefore cum date ∧ (indexBefore cum date - i) * sh < U128 ∧
  (indexBefore cum date - i) * sh / PRECISION < U64 ∧
  (0 < (indexBefore cum date - i) * sh / PRECISION → u + (indexBefore cum date - i) * sh / PRECISION < U64) ∧
  u' = u + (indexBefore cum date - i) * sh / PRECISION

/-- The expiration loop up to `b` followed by the final update at `t`. -/
def RunOk (cum : SMap) (b t : Nat) : List (Nat × Nat) → (sh u i sh' u' : Nat) → Prop
  | [], sh, u, i, sh', u' => Upd cum t sh u i u' ∧ sh' = sh
  | (e, v) :: rest, sh, u, i, sh', u' =>
    if e > b then Upd cum t sh u i u' ∧ sh' = sh
    else ∃ u1, Upd cum e sh u i u1 ∧ v ≤ sh ∧ RunOk cum b t rest (sh - v) u1 (indexBefore cum e) sh' u'

theorem runOk_iff {cum : SMap} (hc : Sorted cum) {b t : Nat} {D : List (Nat × Nat)} (hD : Sorted D)
    {sh u i sh' u' : Nat} {pr : List Nat} :
    RunOk cum b t D sh u i sh' u' ↔ ∃ u1 i1, Mining.consumeLoop cum b D ⟨sh, u, i, pr⟩ =
        .ok ⟨sh', u1, i1, pr ++ dueDates D b⟩ ∧ Upd cum t sh' u1 i1 u' := by
  induction D generalizing sh u i pr with
  | nil =>
    simp only [RunOk, Mining.consumeLoop, dueDates, List.filter_nil, List.map_nil, List.append_nil, Except.ok.injEq,
      Mining.Consume.mk.injEq]
    constructor
    · rintro ⟨h, rfl⟩; exact ⟨u, i, ⟨rfl, rfl, rfl, trivial⟩, h⟩
    · rintro ⟨_, _, ⟨rfl, rfl, rfl, _⟩, h⟩; exact ⟨h, rfl⟩
  | cons a rest ih =>
    obtain ⟨e, v⟩ := a
    rw [RunOk, Mining.consumeLoop]
    by_cases he : e > b
    · rw [if_pos he, if_pos he]
      have hd : dueDates ((e, v) :: rest) b = [] := by
        unfold dueDates; rw [filter_le_nil hD he]; rfl
      simp only [hd, List.append_nil, Except.ok.injEq, Mining.Consume.mk.injEq]
      constructor
      · rintro ⟨h, rfl⟩; exact ⟨u, i, ⟨rfl, rfl, rfl, trivial⟩, h⟩
      · rintro ⟨_, _, ⟨rfl, rfl, rfl, _⟩, h⟩; exact ⟨h, rfl⟩
    · rw [if_neg he, if_neg he]
      have hd : dueDates ((e, v) :: rest) b = e :: dueDates rest b := dueDates_cons_le (by simp; omega)
      simp only [hd, res_bind_ok, Prod.exists, safeSub_ok]
      constructor
      · rintro ⟨u1, ⟨a1, a2, a3, a4, a5⟩, hv, h⟩
        rw [ih (sorted_cons.mp hD).2 (pr := pr ++ [e])] at h
        obtain ⟨u2, i2, h1, h2⟩ := h
        refine ⟨u2, i2, ⟨u1, indexBefore cum e, ?_, _, ⟨hv, rfl⟩, ?_⟩, h2⟩
        · rw [updateIndex_ok hc]; exact ⟨a1, a2, a3, a4, a5, rfl⟩
        · rw [h1]; simp
      · rintro ⟨u2, i2, ⟨u1, i1, hu, _, ⟨hv, rfl⟩, h1⟩, h2⟩
        rw [updateIndex_ok hc] at hu
        obtain ⟨a1, a2, a3, a4, a5, rfl⟩ := hu
        refine ⟨u1, ⟨a1, a2, a3, a4, a5⟩, hv, ?_⟩
        rw [ih (sorted_cons.mp hD).2 (pr := pr ++ [e])]
        exact ⟨u2, i2, by rw [h1]; simp, h2⟩

theorem refresh_iff {cum : SMap} (hc : History cum) {now : Nat} {m m' : Mining} (hd : Sorted m.diffs) :
    m.refreshRewards now cum = .ok m' ↔ m.share + m.stakeFromOthers < U64 ∧ ∃ sh' u',
      RunOk cum (bod now) now m.diffs (m.share + m.stakeFromOthers) m.unclaimed m.index sh' u' ∧
      m.stakeFromOthers ≤ sh' ∧
      m' = { m with index := indexBefore cum now, share := sh' - m.stakeFromOthers, unclaimed := u',
                    diffs := after m.diffs (bod now) } := by
  unfold Mining.refreshRewards Mining.consumeOldModifiers
  simp only [res_bind_ok, Prod.exists, safeAdd64_ok, safeSub_ok, res_pure_ok, Prod.mk.injEq]
  constructor
  · rintro ⟨sh, ⟨hU, rfl⟩, m1, sh1, ⟨s, hs, rfl, rfl⟩, u, i, hu, sh2, ⟨hsub, rfl⟩, rfl⟩
    obtain ⟨g1, g2, g3, -⟩ := consumeLoop_ok hc (bod_le now) hd hs
    rw [updateIndex_ok hc.sorted] at hu
    obtain ⟨a1, a2, a3, a4, a5, rfl⟩ := hu
    refine ⟨hU, s.totalShare, u, ?_, hsub, ?_⟩
    · rw [runOk_iff hc.sorted hd (pr := [])]
      refine ⟨s.unclaimed, s.index, ?_, a1, a2, a3, a4, a5⟩
      rw [hs]; congr 1
      obtain ⟨s1, s2, s3, s4⟩ := s
      simp only at g3; rw [g3]
    · simp only at g3
      rw [g3, List.nil_append, foldl_erase hd]
  · rintro ⟨hU, sh', u', hr, hsub, rfl⟩
    rw [runOk_iff hc.sorted hd (pr := [])] at hr
    obtain ⟨u1, i1, h1, a1, a2, a3, a4, a5⟩ := hr
    refine ⟨_, ⟨hU, rfl⟩, _, _, ⟨_, h1, rfl, rfl⟩, u', indexBefore cum now, ?_, _, ⟨hsub, rfl⟩, ?_⟩
    · rw [updateIndex_ok hc.sorted]; exact ⟨a1, a2, a3, a4, a5, rfl⟩
    · simp only [List.nil_append]; rw [foldl_erase hd]

/-- Starting with less unclaimed. -/
theorem Upd.less {cum : SMap} {date sh u i u' δ : Nat} (h : Upd cum date sh u i u') (hδ : δ ≤ u) :
    Upd cum date sh (u - δ) i (u' - δ) ∧ δ ≤ u' := by
  obtain ⟨a1, a2, a3, a4, rfl⟩ := h
  unfold Upd
  generalize (indexBefore cum date - i) * sh / PRECISION = q at *
  exact ⟨⟨a1, a2, a3, fun h => by have := a4 h; omega, by omega⟩, by omega⟩

theorem RunOk.less {cum : SMap} {b t : Nat} {D : List (Nat × Nat)} {sh u i sh' u' δ : Nat}
    (h : RunOk cum b t D sh u i sh' u') (hδ : δ ≤ u) : RunOk cum b t D sh (u - δ) i sh' (u' - δ) ∧ δ ≤ u' := by
  induction D generalizing sh u i with
  | nil =>
    obtain ⟨h1, h2⟩ := h
    exact ⟨⟨(h1.less hδ).1, h2⟩, (h1.less hδ).2⟩
  | cons a rest ih =>
    obtain ⟨e, v⟩ := a
    rw [RunOk] at h ⊢
    by_cases he : e > b
    · rw [if_pos he] at h ⊢
      exact ⟨⟨(h.1.less hδ).1, h.2⟩, (h.1.less hδ).2⟩
    · rw [if_neg he] at h ⊢
      obtain ⟨u1, h1, h2, h3⟩ := h
      obtain ⟨h4, h5⟩ := ih h3 (h1.less hδ).2
      exact ⟨⟨_, (h1.less hδ).1, h2, h4⟩, h5⟩

/-- Two partial credits round down to at most the credit of the whole, and lose at most 1. -/
theorem div_split (A B : Nat) : A / PRECISION + B / PRECISION ≤ (A + B) / PRECISION ∧
    (A + B) / PRECISION ≤ A / PRECISION + B / PRECISION + 1 := by
  unfold PRECISION; omega

/-- An update at `d` cut at an earlier date. -/
theorem Upd.cut {cum : SMap} (hc : History cum) {d1 d2 sh u i u1 u2 : Nat} (hd : d1 ≤ d2)
    (h1 : Upd cum d1 sh u i u1) (h2 : Upd cum d2 sh u i u2) :
    ∃ u12, Upd cum d2 sh u1 (indexBefore cum d1) u12 ∧ u12 ≤ u2 ∧ u2 ≤ u12 + 1 := by
  obtain ⟨a1, a2, a3, a4, rfl⟩ := h1
  obtain ⟨b1, b2, b3, b4, rfl⟩ := h2
  have hm := indexBefore_mono hc hd
  have e : (indexBefore cum d2 - i) * sh = (indexBefore cum d1 - i) * sh + (indexBefore cum d2 - indexBefore cum d1) * sh := by
    rw [← Nat.add_mul]; congr 1; omega
  have := div_split ((indexBefore cum d1 - i) * sh) ((indexBefore cum d2 - indexBefore cum d1) * sh)
  rw [← e] at this
  have hle : (indexBefore cum d2 - indexBefore cum d1) * sh ≤ (indexBefore cum d2 - i) * sh := by rw [e]; omega
  refine ⟨_, ⟨hm, Nat.lt_of_le_of_lt hle b2, Nat.lt_of_le_of_lt (Nat.div_le_div_right hle) b3, fun h => ?_, rfl⟩, ?_, ?_⟩
  all_goals
    generalize (indexBefore cum d2 - i) * sh / PRECISION = q at *
    generalize (indexBefore cum d1 - i) * sh / PRECISION = q1 at *
    generalize (indexBefore cum d2 - indexBefore cum d1) * sh / PRECISION = q2 at *
    try omega

/-- A run to `t2` cut at `t1`. -/
theorem RunOk.cut {cum : SMap} (hc : History cum) {b1 t1 b2 t2 : Nat} (hb : b1 ≤ b2) (ht : t1 ≤ t2)
    {D : List (Nat × Nat)} (hD : Sorted D) (hal : ∀ e ∈ D, b1 < e.1 → t1 ≤ e.1) {sh u i sh1 u1 sh2 u2 : Nat}
    (h1 : RunOk cum b1 t1 D sh u i sh1 u1) (h2 : RunOk cum b2 t2 D sh u i sh2 u2) :
    ∃ u12, RunOk cum b2 t2 (after D b1) sh1 u1 (indexBefore cum t1) sh2 u12 ∧ u12 ≤ u2 ∧ u2 ≤ u12 + 1 := by
  induction D generalizing sh u i with
  | nil =>
    obtain ⟨h1, rfl⟩ := h1
    obtain ⟨h2, rfl⟩ := h2
    obtain ⟨u12, h3, h4, h5⟩ := h1.cut hc ht h2
    exact ⟨u12, ⟨h3, rfl⟩, h4, h5⟩
  | cons a rest ih =>
    obtain ⟨e, v⟩ := a
    by_cases he : e > b1
    · have hall : ∀ x ∈ (e, v) :: rest, b1 < x.1 := by
        intro x hx
        rcases List.mem_cons.mp hx with hx | hx
        · subst hx; exact he
        · have := (sorted_cons.mp hD).1 x hx; simp at this; omega
      rw [after_self _ hall]
      rw [RunOk, if_pos he] at h1
      obtain ⟨h1, rfl⟩ := h1
      simp only [RunOk] at h2 ⊢
      by_cases he2 : e > b2
      · simp only [if_pos he2] at h2 ⊢
        obtain ⟨h2, rfl⟩ := h2
        obtain ⟨u12, h3, h4, h5⟩ := h1.cut hc ht h2
        exact ⟨u12, ⟨h3, rfl⟩, h4, h5⟩
      · simp only [if_neg he2] at h2 ⊢
        obtain ⟨u3, h3, hv, h4⟩ := h2
        obtain ⟨u4, h5, h6, h7⟩ := h1.cut hc (hal (e, v) (by simp) he) h3
        have hδ : u3 - u4 ≤ u3 := Nat.sub_le _ _
        obtain ⟨h8, h9⟩ := h4.less hδ
        have e1 : u3 - (u3 - u4) = u4 := by omega
        rw [e1] at h8
        exact ⟨_, ⟨u4, h5, hv, h8⟩, by omega, by omega⟩
    · rw [RunOk, if_neg he] at h1
      rw [RunOk, if_neg (by omega)] at h2
      obtain ⟨u3, a1, a2, a3⟩ := h1
      obtain ⟨u4, b1', b2', b3⟩ := h2
      have : u4 = u3 := b1'.2.2.2.2.trans a1.2.2.2.2.symm
      subst this
      have ha : after ((e, v) :: rest) b1 = after rest b1 := by
        unfold after; rw [List.filter_cons]; simp [show ¬ b1 < e by omega]
      rw [ha]
      exact ih (sorted_cons.mp hD).2 (fun x hx => hal x (by simp [hx])) a3 b3

/-- The final stake of a run. -/
theorem RunOk.share {cum : SMap} {b t : Nat} {D : List (Nat × Nat)} {sh u i sh' u' : Nat}
    (h : RunOk cum b t D sh u i sh' u') : sh' ≤ sh := by
  induction D generalizing sh u i with
  | nil => exact Nat.le_of_eq h.2
  | cons a rest ih =>
    obtain ⟨e, v⟩ := a
    rw [RunOk] at h
    split at h
    · exact Nat.le_of_eq h.2
    · obtain ⟨_, _, _, h⟩ := h
      exact Nat.le_trans (ih h) (Nat.sub_le _ _)

/-- Refreshing at `t1` and then at `t2`. -/
theorem refresh_twice {cum : SMap} (hc : History cum) {t1 t2 : Nat} (ht : t1 ≤ t2) {m m1 m2 : Mining}
    (hm : MiningOk m) (h1 : m.refreshRewards t1 cum = .ok m1) (h2 : m.refreshRewards t2 cum = .ok m2) :
    ∃ m12, m1.refreshRewards t2 cum = .ok m12 ∧ m12 = { m2 with unclaimed := m12.unclaimed } ∧
      m12.unclaimed ≤ m2.unclaimed ∧ m2.unclaimed ≤ m12.unclaimed + 1 := by
  rw [refresh_iff hc hm.sorted] at h1 h2
  obtain ⟨hU, sh1, u1, r1, s1, rfl⟩ := h1
  obtain ⟨-, sh2, u2, r2, s2, rfl⟩ := h2
  have hal : ∀ e ∈ m.diffs, bod t1 < e.1 → t1 ≤ e.1 := by
    intro e he hb
    have := hm.aligned e he
    unfold bod DAY at hb
    omega
  obtain ⟨u12, r12, k1, k2⟩ := r1.cut hc (bod_mono ht) ht hm.sorted hal r2
  refine ⟨_, (refresh_iff hc (after_sorted hm.sorted _)).mpr ⟨?_, sh2, u12, ?_, s2, rfl⟩, ?_, k1, k2⟩
  · have := r1.share; simp only; omega
  · simp only
    rw [Nat.sub_add_cancel s1]; exact r12
  · simp only
    rw [after_after _ (bod_mono ht)]

end Verif
