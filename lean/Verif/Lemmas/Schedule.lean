import Verif.Lemmas.Lifetime
/-!
The daily amounts of a pool that is not filled.
-/

namespace Verif

open Spec

variable {env : Env}

/-- Whole days for which the budget still has to last at the next distribution. -/
def daysToGo (p : Pool) (now : Nat) : Nat :=
  (p.distributionEndsAt - midnight now) / 86400 - (if NewDay p now then 1 else 2)

theorem daysToGo_tick {p : Pool} {now d : Nat} (hp : PoolOk now p) : daysToGo p (now + d) ≤ daysToGo p now := by
  have hm : midnight now = now / 86400 * 86400 := rfl
  have hm' : midnight (now + d) = (now + d) / 86400 * 86400 := rfl
  unfold daysToGo
  by_cases e : midnight (now + d) = midnight now
  · have : NewDay p (now + d) ↔ NewDay p now := by unfold NewDay; rw [e]
    rw [e]; simp only [this]; exact Nat.le_refl _
  · have h1 : midnight now + 86400 ≤ midnight (now + d) := by omega
    have h2 : (p.distributionEndsAt - midnight (now + d)) / 86400 ≤ (p.distributionEndsAt - midnight now) / 86400 - 1 := by
      omega
    have h3 : (if NewDay p now then 1 else 2) ≤ 2 := by split <;> omega
    have h4 : 1 ≤ (if NewDay p (now + d) then 1 else 2) := by split <;> omega
    omega

/-- With whole days left, the amount is an equal share. -/
theorem dailyAmount_share {avail ends now : Nat} (h : now + 86400 ≤ ends) :
    dailyAmount avail ends now = avail / ((ends - now) / 86400) := if_neg (by omega)

/-- What is left after a share of `1/n` lasts for `n - 1` days at the same rate. -/
theorem share_left {a b n k : Nat} (h : a * n ≤ b) (hk : n ≤ k) (hk0 : 0 < k) : a * (n - 1) ≤ b - b / k := by
  cases n with
  | zero => simp
  | succ n =>
    have h1 : b / k ≤ b / (n + 1) := Nat.div_le_div_left hk (Nat.succ_pos _)
    have h2 : a ≤ b / (n + 1) := (Nat.le_div_iff_mul_le (Nat.succ_pos _)).mpr h
    have h3 : b / (n + 1) * (n + 1) ≤ b := Nat.div_mul_le_self _ _
    have h4 : a * n ≤ b / (n + 1) * n := Nat.mul_le_mul_right _ h2
    rw [Nat.mul_add] at h3
    simp only [Nat.add_sub_cancel]
    omega

theorem PoolChange.rate {now : Nat} {w w' : World} {accs : List AccountInfo} {P : Key} {p p' : Pool} {i : Ix}
    (hp : PoolOk now p) (h : PoolChange env now w w' accs P p i p') (hnofill : addedTo accs P i = 0) {a : Nat}
    (hroom : p.cumulative.length < env.caps.index) (ha : a * daysToGo p now ≤ p.tokensAvailable) :
    a * daysToGo p' now ≤ p'.tokensAvailable ∧ p'.distributionEndsAt = p.distributionEndsAt := by
  cases h with
  | same other => exact ⟨ha, rfl⟩
  | stake hi quiet signed =>
    have e : daysToGo p' now = daysToGo p now := by
      have : NewDay p' now ↔ NewDay p now := by unfold NewDay; rw [quiet.cumulative]
      unfold daysToGo; simp only [this, quiet.ends]
    rw [e, quiet.avail]
    exact ⟨ha, quiet.ends⟩
  | fill acc signed nonzero future later endBound bound =>
    have hf : FirstIs accs P := firstIs_iff.mpr acc
    simp only [addedTo, if_pos hf] at hnofill
    exact absurd hnofill nonzero
  | @distribute _ r acc signed amount op same ok' =>
    have hr : r = dailyAmount p.tokensAvailable p.distributionEndsAt now := rewardsToDistribute_ok amount
    by_cases hn : NewDay p now
    · obtain ⟨T, h1, h2, h3, h4, hp'⟩ := distribute_new hp hn op
      have q1 : p'.distributionEndsAt = p.distributionEndsAt := by rw [hp']
      have q2 : p'.tokensAvailable = p.tokensAvailable - r := by rw [hp']
      have q3 : ¬ NewDay p' now := by
        intro h
        have e : p'.cumulative = p.cumulative ++ [(midnight now, p.index + 10 ^ 16 * r / T)] := by
          rw [hp']; exact if_pos hroom
        exact h (midnight now, p.index + 10 ^ 16 * r / T) (by rw [e]; simp) rfl
      have e1 : daysToGo p now = (p.distributionEndsAt - midnight now) / 86400 - 1 := by
        unfold daysToGo; rw [if_pos hn]
      have e2 : daysToGo p' now = (p.distributionEndsAt - midnight now) / 86400 - 1 - 1 := by
        unfold daysToGo; rw [if_neg q3, q1]; omega
      rw [e1] at ha
      rw [e2, q2]
      refine ⟨?_, q1⟩
      have hm : midnight now = now / 86400 * 86400 := rfl
      by_cases hd : now + 86400 ≤ p.distributionEndsAt
      · rw [hr, dailyAmount_share hd]
        exact share_left ha (by omega) (by omega)
      · have : (p.distributionEndsAt - midnight now) / 86400 - 1 - 1 = 0 := by omega
        rw [this]; simp
    · obtain ⟨T, -, rfl⟩ := distribute_again hp hn op
      exact ⟨ha, rfl⟩

theorem runs_rate {s s' : Chain} {es : List Event} (hw : Wf env s.now s.world) (hr : CleanRun env s es s') {P : Key}
    {p p' : Pool} (hp : PoolAt env s.world P p) (hl : 0 < (s.world P).lamports)
    (hfill : totalIn env (filledBy env P) s es = 0) (hp' : PoolAt env s'.world P p')
    (hroom : p'.cumulative.length < env.caps.index) {a : Nat} (ha : a * daysToGo p s.now ≤ p.tokensAvailable) :
    a * daysToGo p' s'.now ≤ p'.tokensAvailable ∧ p'.distributionEndsAt = p.distributionEndsAt := by
  induction hr generalizing p with
  | nil s => obtain rfl := PoolAt.unique hp hp'; exact ⟨ha, rfl⟩
  | @cons s s' e es hv hc hr' ih =>
    simp only [totalIn] at hfill
    obtain ⟨p1, h1, h2, h3⟩ := apply_pool hw hv hc hp hl
    have hlen : ∀ {q q' : Pool} {s s' : Chain} {es : List Event}, Wf env s.now s.world → CleanRun env s es s' →
        PoolAt env s.world P q → 0 < (s.world P).lamports → PoolAt env s'.world P q' →
        q.cumulative.length ≤ q'.cumulative.length := by
      intro q q' s s' es hw hr hq hl hq'
      obtain ⟨q1, k1, -, k2⟩ := runs_pool hw hr hq hl (fun _ x => q.cumulative <+: x.cumulative) (List.prefix_refl _) (by
        rintro s e q q' hw' hv hq i1 hev
        cases hev with
        | same => exact i1
        | ix ok change =>
          rcases (change.history (poolAt_good hw' hq).ok).1 with h1 | ⟨-, h1⟩
          · rw [h1]; exact i1
          · rw [h1]; exact i1.trans (List.prefix_append _ _))
      rw [PoolAt.unique hq' k1]
      exact k2.length_le
    have hroom0 : p.cumulative.length < env.caps.index :=
      Nat.lt_of_le_of_lt (hlen hw (RunsWith.cons hv hc hr') hp hl hp') hroom
    have hstep : a * daysToGo p1 (s.apply env e).now ≤ p1.tokensAvailable ∧
        p1.distributionEndsAt = p.distributionEndsAt := by
      cases h3 with
      | same none =>
        refine ⟨?_, rfl⟩
        cases e with
        | ix accs i => obtain ⟨er, hx⟩ := none accs i rfl; rw [apply_ix_error hx]; exact ha
        | tick d => exact Nat.le_trans (Nat.mul_le_mul_left _ (daysToGo_tick (poolAt_good hw hp).ok)) ha
        | gc => exact ha
        | ext => exact ha
      | @ix accs i w' ret _ ok change =>
        rw [apply_ix_ok ok]
        have hf : filledBy env P s (.ix accs i) = addedTo accs P i := by simp [filledBy, succeeded, ok]
        exact change.rate (poolAt_good hw hp).ok (by omega) hroom0 ha
    obtain ⟨h4, h5⟩ := ih (wf_apply hw hv hc) h1 h2 (by omega) hp' hstep.1
    exact ⟨h4, h5.trans hstep.2⟩

/-- Budget after a history without fills: unchanged, unless a distribution was made on a later day than `d`. -/
theorem runs_next {s s' : Chain} {es : List Event} (hw : Wf env s.now s.world) (hr : CleanRun env s es s') {P : Key}
    {p p' : Pool} (hp : PoolAt env s.world P p) (hl : 0 < (s.world P).lamports)
    (hfill : totalIn env (filledBy env P) s es = 0) (hp' : PoolAt env s'.world P p')
    (hroom : p'.cumulative.length < env.caps.index) {d A : Nat} (hd : ∃ t, d = midnight t ∧ t ≤ s.now)
    (hrec : ∃ e ∈ p.cumulative, e.1 = d)
    (ha : p.tokensAvailable = A ∨ ∃ e ∈ p.cumulative, d + 86400 ≤ e.1) :
    p'.tokensAvailable = A ∨ ∃ e ∈ p'.cumulative, d + 86400 ≤ e.1 := by
  induction hr generalizing p with
  | nil s => obtain rfl := PoolAt.unique hp hp'; exact ha
  | @cons s s' e es hv hc hr' ih =>
    simp only [totalIn] at hfill
    obtain ⟨p1, h1, h2, h3⟩ := apply_pool hw hv hc hp hl
    obtain ⟨t, ht1, ht2⟩ := hd
    have hnow : s.now ≤ (s.apply env e).now := by
      have := run_now_le (RunsWith.cons hv hc (RunsWith.nil (env := env) (C := CleanEvent env) (s.apply env e)))
      exact this
    have hcum : p.cumulative <+: p1.cumulative := by
      cases h3 with
      | same => exact List.prefix_refl _
      | ix ok change =>
        rcases (change.history (poolAt_good hw hp).ok).1 with h1 | ⟨-, h1⟩
        · rw [h1]; exact List.prefix_refl _
        · rw [h1]; exact List.prefix_append _ _
    obtain ⟨x, hx1, hx2⟩ := hrec
    refine ih (wf_apply hw hv hc) h1 h2 (by omega) hp' ⟨t, ht1, Nat.le_trans ht2 hnow⟩ ⟨x, hcum.subset hx1, hx2⟩ ?_
    rcases ha with ha | ⟨y, hy1, hy2⟩
    · cases h3 with
      | same none => exact Or.inl ha
      | @ix accs i w' ret _ ok change =>
        have hf : filledBy env P s (.ix accs i) = addedTo accs P i := by simp [filledBy, succeeded, ok]
        have hadd : addedTo accs P i = 0 := by omega
        cases change with
        | same other => exact Or.inl ha
        | stake hi quiet signed => rw [quiet.avail]; exact Or.inl ha
        | fill acc signed nonzero future later endBound bound =>
          simp only [addedTo, if_pos (firstIs_iff.mpr acc)] at hadd
          exact absurd hadd nonzero
        | @distribute _ r acc signed amount op same ok' =>
          by_cases hn : NewDay p s.now
          · obtain ⟨T, -, -, -, -, hp1⟩ := distribute_new (poolAt_good hw hp).ok hn op
            by_cases hroom1 : p.cumulative.length < env.caps.index
            · refine Or.inr ⟨(midnight s.now, p.index + 10 ^ 16 * r / T), ?_, ?_⟩
              · rw [hp1]; simp [hroom1]
              · have h5 := hn x hx1
                rw [hx2, ht1] at h5
                rw [ht1]
                unfold midnight at h5 ⊢
                simp only
                omega
            · obtain ⟨q, k1, -, k2⟩ := runs_pool (wf_apply hw hv hc) hr' h1 h2
                (fun _ x => p1.cumulative <+: x.cumulative) (List.prefix_refl _) (by
                  rintro s e q q' hw' hv hq i1 hev
                  cases hev with
                  | same => exact i1
                  | ix ok change =>
                    rcases (change.history (poolAt_good hw' hq).ok).1 with h1 | ⟨-, h1⟩
                    · rw [h1]; exact i1
                    · rw [h1]; exact i1.trans (List.prefix_append _ _))
              have h6 := k2.length_le
              rw [PoolAt.unique hp' k1] at hroom
              have h7 := hcum.length_le
              omega
          · obtain ⟨T, -, hp1⟩ := distribute_again (poolAt_good hw hp).ok hn op
            rw [hp1]; exact Or.inl ha
    · exact Or.inr ⟨y, hcum.subset hy1, hy2⟩

end Verif
