import Verif.Lemmas.Schedule
import Verif.Spec.Even
/-!
A budget that is distributed every day is spread evenly.
-/

namespace Verif

open Spec

variable {env : Env}

/-- A part of `n` tokens per day with `x` of the days one token more. -/
theorem share_exact {q x n : Nat} (hn : 0 < n) :
    q * n + min x n - (q * n + min x n) / n = q * (n - 1) + min x (n - 1) := by
  obtain ⟨c, rfl⟩ : ∃ c, n = c + 1 := ⟨n - 1, by omega⟩
  simp only [Nat.add_sub_cancel]
  have e3 : q * (c + 1) = q * c + q := by rw [Nat.mul_add, Nat.mul_one]
  by_cases h : x < c + 1
  · have e : (q * (c + 1) + min x (c + 1)) / (c + 1) = q := by
      rw [Nat.min_eq_left (by omega), Nat.mul_comm, Nat.mul_add_div hn, Nat.div_eq_of_lt h, Nat.add_zero]
    rw [e, e3]; omega
  · have e : (q * (c + 1) + min x (c + 1)) / (c + 1) = q + 1 := by
      rw [Nat.min_eq_right (by omega), Nat.mul_comm, Nat.mul_add_div hn, Nat.div_self hn]
    rw [e, e3]; omega

theorem PoolChange.spread {now : Nat} {w w' : World} {accs : List AccountInfo} {P : Key} {p p' : Pool} {i : Ix}
    (hp : PoolOk now p) (h : PoolChange env now w w' accs P p i p') (hnofill : addedTo accs P i = 0) {q x : Nat}
    (hroom : p.cumulative.length < env.caps.index)
    (hoff : i = .distributeRewards → FirstIs accs P → now % 86400 ≠ 0) 
    (ha : p.tokensAvailable = q * daysToGo p now + min x (daysToGo p now)) :
    p'.tokensAvailable = q * daysToGo p' now + min x (daysToGo p' now) := by
  cases h with
  | same other => exact ha
  | stake hi quiet signed =>
    have e : daysToGo p' now = daysToGo p now := by
      have : NewDay p' now ↔ NewDay p now := by unfold NewDay; rw [quiet.cumulative]
      unfold daysToGo; simp only [this, quiet.ends]
    rw [e, quiet.avail]
    exact ha
  | fill acc signed nonzero future later endBound bound =>
    have hf : FirstIs accs P := firstIs_iff.mpr acc
    simp only [addedTo, if_pos hf] at hnofill
    exact absurd hnofill nonzero
  | @distribute _ r acc signed amount op same ok' =>
    have hr : r = dailyAmount p.tokensAvailable p.distributionEndsAt now := rewardsToDistribute_ok amount
    by_cases hn : NewDay p now
    · obtain ⟨T, h1, h2, h3, h4, hp'⟩ := distribute_new hp hn op
      have q1 : p'.distributionEndsAt = p.distributionEndsAt := by rw [hp']
      have q2 : p'.tokensAvailable = p.tokensAvailable - r := by rw [hp']
      have q3 : ¬ NewDay p' now := by
        intro h
        have e : p'.cumulative = p.cumulative ++ [(midnight now, p.index + 10 ^ 16 * r / T)] := by
          rw [hp']; exact if_pos hroom
        exact h (midnight now, p.index + 10 ^ 16 * r / T) (by rw [e]; simp) rfl
      have e1 : daysToGo p now = (p.distributionEndsAt - midnight now) / 86400 - 1 := by
        unfold daysToGo; rw [if_pos hn]
      have e2 : daysToGo p' now = (p.distributionEndsAt - midnight now) / 86400 - 1 - 1 := by
        unfold daysToGo; rw [if_neg q3, q1]; omega
      rw [e1] at ha
      rw [e2, q2]
      have hm : midnight now = now / 86400 * 86400 := rfl
      have hm0 := hoff rfl (firstIs_iff.mpr acc)
      have hends := hp.ends
      by_cases hd : now + 86400 ≤ p.distributionEndsAt
      · rw [hr, dailyAmount_share hd]
        have : (p.distributionEndsAt - now) / 86400 = (p.distributionEndsAt - midnight now) / 86400 - 1 := by omega
        rw [this, ha]
        exact share_exact (by omega)
      · rw [hr]
        have : dailyAmount p.tokensAvailable p.distributionEndsAt now = p.tokensAvailable := if_pos (by omega)
        have h0 : (p.distributionEndsAt - midnight now) / 86400 - 1 - 1 = 0 := by omega
        rw [this, h0]; simp
    · obtain ⟨T, -, rfl⟩ := distribute_again hp hn op
      exact ha

theorem daysToGo_next {p : Pool} {now d st : Nat} (hp : PoolOk now p) (hst : midnight st ≤ midnight now)
    (h : EveryDay p st (now + d)) : daysToGo p (now + d) = daysToGo p now := by
  have hm : midnight now = now / 86400 * 86400 := rfl
  have hm' : midnight (now + d) = (now + d) / 86400 * 86400 := rfl
  by_cases e : midnight (now + d) = midnight now
  · have : NewDay p (now + d) ↔ NewDay p now := by unfold NewDay; rw [e]
    unfold daysToGo
    rw [e]; simp only [this]
  · have h1 : midnight now + 86400 ≤ midnight (now + d) := by omega
    have h2 : midnight (now + d) = midnight now + 86400 := by
      refine Classical.byContradiction fun hne => ?_
      obtain ⟨x, hx1, hx2⟩ := h (midnight now + 86400) (by omega) (by omega) (by omega)
      have := hp.past x hx1
      omega
    have h3 : ¬ NewDay p now := by
      obtain ⟨x, hx1, hx2⟩ := h (midnight now) hst (by omega) (by omega)
      exact fun hn => hn x hx1 hx2
    have h4 : NewDay p (now + d) := by
      intro x hx hh
      have := hp.past x hx
      omega
    unfold daysToGo
    rw [if_neg h3, if_pos h4, h2]
    omega

theorem runs_even {st : Nat} {s s' : Chain} {es : List Event} {P : Key} (hr : RunsWith env (OffMidnight env P) s es s') :
    Wf env s.now s.world → ∀ {p p' : Pool}, PoolAt env s.world P p → 0 < (s.world P).lamports →
    totalIn env (filledBy env P) s es = 0 → PoolAt env s'.world P p' → p'.cumulative.length < env.caps.index →
    midnight st ≤ midnight s.now → EveryDay p' st s'.now →
    ∀ {q x : Nat}, (EveryDay p st s.now → p.tokensAvailable = q * daysToGo p s.now + min x (daysToGo p s.now)) →
    p'.tokensAvailable = q * daysToGo p' s'.now + min x (daysToGo p' s'.now) := by
  induction hr with
  | nil s =>
    intro _ p p' hp _ _ hp' _ _ hev q z ha
    obtain rfl := PoolAt.unique hp hp'
    exact ha hev
  | @cons s s' e es hv hc hr' ih =>
    intro hw p p' hp hl hfill hp' hroom hst hev q z ha
    simp only [totalIn] at hfill
    obtain ⟨p1, h1, h2, h3⟩ := apply_pool hw hv hc.1 hp hl
    have hok := (poolAt_good hw hp).ok
    have hcum : p.cumulative <+: p1.cumulative := by
      cases h3 with
      | same => exact List.prefix_refl _
      | ix ok change =>
        rcases (change.history hok).1 with h1 | ⟨-, h1⟩
        · rw [h1]; exact List.prefix_refl _
        · rw [h1]; exact List.prefix_append _ _
    have hcum1 : p1.cumulative <+: p'.cumulative := by
      obtain ⟨q1, k1, -, k2⟩ := runs_pool (wf_apply hw hv hc.1) (hr'.weaken fun _ _ h => h.1) h1 h2
        (fun _ x => p1.cumulative <+: x.cumulative) (List.prefix_refl _) (by
          rintro s e q q' hw' hv hq i1 hev
          cases hev with
          | same => exact i1
          | ix ok change =>
            rcases (change.history (poolAt_good hw' hq).ok).1 with h1 | ⟨-, h1⟩
            · rw [h1]; exact i1
            · rw [h1]; exact i1.trans (List.prefix_append _ _))
      rw [PoolAt.unique hp' k1]
      exact k2
    have hroom0 : p.cumulative.length < env.caps.index := by
      have := hcum.length_le
      have := hcum1.length_le
      omega
    have hstep : EveryDay p1 st (s.apply env e).now → 
        p1.tokensAvailable = q * daysToGo p1 (s.apply env e).now + min z (daysToGo p1 (s.apply env e).now) := by
      cases h3 with
      | same none =>
        cases e with
        | ix accs i => obtain ⟨er, hx⟩ := none accs i rfl; rw [apply_ix_error hx]; exact ha
        | tick d =>
          intro h
          have h' : EveryDay p st (s.now + d) := h
          show p.tokensAvailable = q * daysToGo p (s.now + d) + min z (daysToGo p (s.now + d))
          rw [daysToGo_next hok hst h']
          exact ha fun x h1 h2 h3 => h' x h1 (Nat.lt_of_lt_of_le h2 (by unfold midnight; omega)) h3
        | gc => exact ha
        | ext => exact ha
      | @ix accs i w' ret _ ok change =>
        rw [apply_ix_ok ok]
        have hf : filledBy env P s (.ix accs i) = addedTo accs P i := by simp [filledBy, succeeded, ok]
        intro h
        have hsucc : succeeded env s accs i = true := by simp [succeeded, ok]
        refine change.spread hok (by omega) hroom0 ?_ (ha fun x k1 k2 k3 => ?_)
        · rintro rfl hf; exact hc.2 hsucc hf
        · obtain ⟨y, hy1, hy2⟩ := h x k1 k2 k3
          rcases (change.history hok).1 with g | ⟨-, g⟩
          · rw [g] at hy1; exact ⟨y, hy1, hy2⟩
          · rw [g] at hy1
            rcases List.mem_append.mp hy1 with hy1 | hy1
            · exact ⟨y, hy1, hy2⟩
            · simp only [List.mem_singleton] at hy1
              rw [hy1] at hy2
              simp only at hy2
              have k2' : x < midnight s.now := k2
              omega
    refine ih (wf_apply hw hv hc.1) h1 h2 (by omega) hp' hroom ?_ hev hstep
    have := run_now_le (RunsWith.cons hv hc (RunsWith.nil (env := env) (C := OffMidnight env P) (s.apply env e)))
    refine Nat.le_trans hst ?_
    unfold midnight; omega

end Verif
