import Verif.Lemmas.Distribution
import Verif.Lemmas.FullHistory
/-!
The reward budget and its distribution: conservation (C11), daily amount (C12), one distribution per day (C13), every
distribution recorded (C14), index history (C15), proportional split (C16), filling (C39), end of distribution (C40),
exhausting the budget (C41).
-/

namespace Verif

open Spec

section

variable {env : Env}

/-- C11, one instruction.  For every pool: new budget + distributed = old budget + filled, and the index grows by exactly
the distributed amount per unit of stake, rounded down.  Only FillVault and DistributeRewards called for this very pool
have non-zero amounts (`addedTo`, `distributedFrom`). -/
theorem C11_budget_instruction {now : Nat} {w w' : World} {accs : List AccountInfo} {i : Ix} {ret : Option Nat}
    (hw : Wf env now w) (hs : RealSigners accs) (hclean : NotPoolAsMining env w accs i)
    (h : exec env now w accs i = .ok (w', ret)) {k : Key} {p : Pool} (hp : PoolAt env w k p) :
    ∃ p', PoolAt env w' k p' ∧
      p'.tokensAvailable + distributedFrom accs now k p i = p.tokensAvailable + addedTo accs k i ∧
      p'.index = p.index + 10 ^ 16 * distributedFrom accs now k p i / (totalOn p (midnight now)).toNat := by
  obtain ⟨p', h1, h2, -⟩ := (step_of_exec hw hs hclean h).pool hp
  exact ⟨p', h1, h2.budget (poolAt_good hw hp).ok⟩

/-- C11, a new pool starts with an empty budget, an index of 0, no stake and an empty history. -/
theorem C11_new_pool {now : Nat} {w w' : World} {accs : List AccountInfo} {i : Ix} {ret : Option Nat}
    (hw : Wf env now w) (hs : RealSigners accs) (hclean : NotPoolAsMining env w accs i)
    (h : exec env now w accs i = .ok (w', ret)) {k : Key} {p' : Pool} (hp : PoolAt env w' k p')
    (hnew : ∀ q, ¬ PoolAt env w k q) :
    (∃ f d, i = .initializePool f d) ∧ FirstIs accs k ∧
    p'.tokensAvailable = 0 ∧ p'.index = 0 ∧ p'.totalShare = 0 ∧ p'.distributionEndsAt = 0 ∧ p'.diffs = [] ∧
      p'.cumulative = [] := by
  rcases (step_of_exec hw hs hclean h).newPool hp with ⟨p, h1⟩ | ⟨f, d, P, T, V, Y, A, rest, bump, rfl, rfl, rfl, rfl, -⟩
  · exact absurd h1 (hnew p)
  · exact ⟨⟨f, d, rfl⟩, rfl, rfl, rfl, rfl, rfl, rfl, rfl⟩

/-- C11, whole histories: budget at the end + everything distributed = budget at the start + everything filled. -/
theorem C11_budget_history {s s' : Chain} {es : List Event} (hw : Wf env s.now s.world) (hr : CleanRun env s es s')
    {k : Key} {p : Pool} (hp : PoolAt env s.world k p) (hl : 0 < (s.world k).lamports) :
    ∃ p', PoolAt env s'.world k p' ∧
      p'.tokensAvailable + totalIn env (distributedBy env k) s es =
        p.tokensAvailable + totalIn env (filledBy env k) s es := by
  induction hr generalizing p with
  | nil s => exact ⟨p, hp, rfl⟩
  | @cons s s' e es hv hc _ ih =>
    obtain ⟨p1, h1, h2, h3⟩ := apply_pool hw hv hc hp hl
    obtain ⟨p', h4, h5⟩ := ih (wf_apply hw hv hc) h1 h2
    refine ⟨p', h4, ?_⟩
    have h6 : p1.tokensAvailable + distributedBy env k s e = p.tokensAvailable + filledBy env k s e := by
      cases h3 with
      | same none =>
        cases e with
        | ix accs i =>
          obtain ⟨er, hx⟩ := none accs i rfl
          simp [distributedBy, filledBy, succeeded, hx, hp.2]
        | tick => rfl
        | gc => rfl
        | ext => rfl
      | ix ok change =>
        have := (change.budget (poolAt_good hw hp).ok).1
        simpa [distributedBy, filledBy, succeeded, ok, hp.2] using this
    simp only [totalIn]
    omega

/-- C12.  The amount is computed without overflow whatever the budget and the dates are. -/
theorem C12_amount_computable (p : Pool) (now : Nat) (h : p.tokensAvailable < 2 ^ 64) :
    p.rewardsToDistribute now = .ok (dailyAmount p.tokensAvailable p.distributionEndsAt now) ∧
    dailyAmount p.tokensAvailable p.distributionEndsAt now ≤ p.tokensAvailable :=
  ⟨rewardsToDistribute_eq now (by unfold U64; omega), dailyAmount_le _ _ _⟩

/-- C12, the instruction: on a day without recorded distribution exactly the daily amount leaves the budget; on a day that
has one, nothing does. -/
theorem C12_daily_amount {now : Nat} {w w' : World} {accs : List AccountInfo} {ret : Option Nat}
    (hw : Wf env now w) (hs : RealSigners accs) (h : exec env now w accs .distributeRewards = .ok (w', ret)) {P : Key}
    (hfirst : FirstIs accs P) :
    ∃ p p', PoolAt env w P p ∧ PoolAt env w' P p' ∧ Signed accs p.distributeAuthority ∧
      (NewDay p now → dailyAmount p.tokensAvailable p.distributionEndsAt now ≤ p.tokensAvailable ∧
        p'.tokensAvailable = p.tokensAvailable - dailyAmount p.tokensAvailable p.distributionEndsAt now) ∧
      (¬ NewDay p now → SameBudget p p') := by
  have hstep := step_of_exec hw hs (by exact trivial) h
  cases hstep with
  | stake _ op => exact op.elim
  | @distribute P' B rest p p' r accs_eq signed auth good pool pool' amount op same ok' frame shell =>
    subst accs_eq
    obtain rfl : P'.key = P := by simpa [FirstIs] using hfirst
    have hr := rewardsToDistribute_ok amount
    refine ⟨p, p', pool, pool', ⟨B, by simp, auth.symm, signed⟩, ?_, ?_⟩
    · intro hn
      obtain ⟨T, h1, h2, h3, h4, rfl⟩ := distribute_new good.ok hn op
      rw [← hr]; exact ⟨h3, rfl⟩
    · intro hn
      obtain ⟨T, h1, rfl⟩ := distribute_again good.ok hn op
      exact ⟨rfl, rfl, rfl, rfl⟩

/-- C13, as long as the index history is not full.  Full claim: without `hroom`; it is false, see
`C13_one_per_day_false`. -/
theorem C13_one_per_day_partial {s s2 : Chain} {es : List Event} {w1 w3 : World} {accs accs2 : List AccountInfo}
    {r1 r3 : Option Nat} {P : Key} {p : Pool} (hw : Wf env s.now s.world) (hs : RealSigners accs) (hs2 : RealSigners accs2)
    (h1 : exec env s.now s.world accs .distributeRewards = .ok (w1, r1)) (hf : FirstIs accs P)
    (hp : PoolAt env s.world P p) (hl : 0 < (s.world P).lamports)
    (hroom : p.cumulative.length < env.caps.index)
    (hr : CleanRun env { s with world := w1 } es s2) (hday : midnight s2.now = midnight s.now)
    (h3 : exec env s2.now s2.world accs2 .distributeRewards = .ok (w3, r3)) (hf2 : FirstIs accs2 P) :
    ∃ p2 p3, PoolAt env s2.world P p2 ∧ PoolAt env w3 P p3 ∧ SameBudget p2 p3 := by
  have hv : (Event.ix accs .distributeRewards).Valid env s := hs
  have hw1 : Wf env s.now w1 := wf_process hw hs (by exact trivial) (exec_ok.mp h1).1
  have hstep := step_of_exec hw hs (by exact trivial) h1
  obtain ⟨p1, g1, g2, g3, -⟩ := hstep.pool hp
  have hold : ¬ NewDay p1 s.now := by
    cases g2 with
    | same other => exact absurd (firstIs_iff.mp hf) (other rfl)
    | stake hi => cases hi
    | distribute acc signed amount op same ok' =>
      have hok := (poolAt_good hw hp).ok
      by_cases hn : NewDay p s.now
      · obtain ⟨T, _, _, _, _, rfl⟩ := distribute_new hok hn op
        intro hn'
        simp only [NewDay, if_pos hroom] at hn'
        exact hn' _ (List.mem_append_right _ (List.mem_singleton.mpr rfl)) rfl
      · obtain ⟨T, h1, rfl⟩ := distribute_again hok hn op
        exact hn
  obtain ⟨p2, q1, q2, q3⟩ := runs_pool (s := { s with world := w1 }) hw1 hr g1 (by rw [g3]; exact hl)
    (fun s' q => ∃ e ∈ q.cumulative, e.1 = midnight s.now) (by
      unfold NewDay at hold
      exact Classical.byContradiction fun hh => hold fun e he h => hh ⟨e, he, h⟩) (by
      rintro s' e q q' hw' hv' hq ⟨x, hx, hx2⟩ hev
      cases hev with
      | same => exact ⟨x, hx, hx2⟩
      | ix ok change =>
        refine ⟨x, ?_, hx2⟩
        rcases (change.history (poolAt_good hw' hq).ok).1 with h | ⟨-, h⟩ <;> rw [h]
        · exact hx
        · exact List.mem_append_left _ hx)
  obtain ⟨e, he, he2⟩ := q3
  have hw2 : Wf env s2.now s2.world := wf_runs hw1 (fun _ _ h => h) hr
  obtain ⟨p2', p3, k1, k2, -, -, k3⟩ := C12_daily_amount hw2 hs2 h3 hf2
  obtain rfl := PoolAt.unique q1 k1
  exact ⟨p2, p3, q1, k2, k3 (fun hn => hn e he (he2.trans hday.symm))⟩

/-- C14, as long as the index history is not full: a distribution that takes tokens from the budget (it does so only on a
day without recorded distribution) is recorded for that day.  Full claim: without `hroom`; it is false, see
`C14_recorded_false`. -/
theorem C14_recorded_partial {now : Nat} {w w' : World} {accs : List AccountInfo} {ret : Option Nat}
    (hw : Wf env now w) (hs : RealSigners accs) (h : exec env now w accs .distributeRewards = .ok (w', ret)) {P : Key}
    (hfirst : FirstIs accs P) :
    ∃ p p', PoolAt env w P p ∧ PoolAt env w' P p' ∧
      (p.cumulative.length < env.caps.index → p'.tokensAvailable ≠ p.tokensAvailable →
        ∃ T : Nat, totalOn p (midnight now) = T ∧ 0 < T ∧
          p'.cumulative = p.cumulative ++
            [(midnight now, p.index + 10 ^ 16 * (p.tokensAvailable - p'.tokensAvailable) / T)] ∧
          p'.index = p.index + 10 ^ 16 * (p.tokensAvailable - p'.tokensAvailable) / T) := by
  have hstep := step_of_exec hw hs (by exact trivial) h
  cases hstep with
  | stake _ op => exact op.elim
  | @distribute P' B rest p p' r accs_eq signed auth good pool pool' amount op same ok' frame shell =>
    subst accs_eq
    obtain rfl : P'.key = P := by simpa [FirstIs] using hfirst
    refine ⟨p, p', pool, pool', ?_⟩
    intro hroom hne
    by_cases hn : NewDay p now
    · obtain ⟨T, h1, h2, h3, h4, rfl⟩ := distribute_new good.ok hn op
      have e1 : p.tokensAvailable - (p.tokensAvailable - r) = r := by omega
      refine ⟨T, h1, h2, ?_, ?_⟩
      · simp only [if_pos hroom, e1]
      · simp only [e1]
    · obtain ⟨T, h1, rfl⟩ := distribute_again good.ok hn op
      exact absurd rfl hne

/-- C15.  Over any history the entries of the index history stay as they are (later ones are only appended), the history
is ordered by date with values that do not decrease, and the current index never decreases and is never below a recorded
value. -/
theorem C15_history_immutable {s s' : Chain} {es : List Event} (hw : Wf env s.now s.world) (hr : CleanRun env s es s')
    {k : Key} {p : Pool} (hp : PoolAt env s.world k p) (hl : 0 < (s.world k).lamports) :
    ∃ p', PoolAt env s'.world k p' ∧ p.cumulative <+: p'.cumulative ∧ p.index ≤ p'.index ∧
      p'.cumulative.Pairwise (fun a b => a.1 < b.1 ∧ a.2 ≤ b.2) ∧ ∀ e ∈ p'.cumulative, e.2 ≤ p'.index := by
  obtain ⟨p', h1, -, h2, h3⟩ := runs_pool hw hr hp hl (fun _ q => p.cumulative <+: q.cumulative ∧ p.index ≤ q.index)
    ⟨List.prefix_refl _, Nat.le_refl _⟩ (by
      rintro s e q q' hw' hv hq ⟨i1, i2⟩ hev
      cases hev with
      | same => exact ⟨i1, i2⟩
      | ix ok change =>
        obtain ⟨h1, h2⟩ := change.history (poolAt_good hw' hq).ok
        refine ⟨?_, Nat.le_trans i2 h2⟩
        rcases h1 with h1 | ⟨-, h1⟩
        · rw [h1]; exact i1
        · rw [h1]; exact i1.trans (List.prefix_append _ _))
  have hok := (poolAt_good (wf_runs hw (fun _ _ h => h) hr) h1).ok
  refine ⟨p', h1, h2, h3, ?_, hok.index⟩
  exact List.Pairwise.and hok.history.sorted hok.history.mono

/-- C16.  A recorded distribution of `r` tokens over the total stake `T` raises what a mining with stake `s` on that day is
entitled to by `floor(10^16 * r / T) * s` (in 1/10^16 token): at most `10^16 * r * s / T`, less than that by at most `s`,
and the same for equal stakes.  The mining itself is not touched.
`hidx`: the mining has not consumed an index beyond the pool's (it can have done so only through another pool's index). -/
theorem C16_proportional {s : Chain} {w' : World} {accs : List AccountInfo} {ret : Option Nat} {P M : Key} {p : Pool}
    {m : Mining} (hr : Reachable env s) (hs : RealSigners accs)
    (h : exec env s.now s.world accs .distributeRewards = .ok (w', ret)) (hfirst : FirstIs accs P)
    (hp : PoolAt env s.world P p) (hroom : p.cumulative.length < env.caps.index) (hnew : NewDay p s.now)
    (hm : MiningAt env s.world M m) (hidx : m.index ≤ p.index) :
    ∃ p' T, PoolAt env w' P p' ∧ MiningAt env w' M m ∧ totalOn p (midnight s.now) = (T : Nat) ∧ 0 < T ∧
      let r := p.tokensAvailable - p'.tokensAvailable
      let stake := earningOn m (midnight s.now)
      let gain := 10 ^ 16 * r / T * stake
      pending m p'.cumulative = pending m p.cumulative + gain ∧
      T * gain ≤ 10 ^ 16 * r * stake ∧ 10 ^ 16 * r * stake ≤ T * (gain + stake) := by
  have hw := reachable_wf hr
  have hstep := step_of_exec hw hs (by exact trivial) h
  cases hstep with
  | stake _ op => exact op.elim
  | @distribute P' B rest q p' r accs_eq signed auth good pool pool' amount op same ok' frame shell =>
    subst accs_eq
    obtain rfl : P'.key = P := by simpa [FirstIs] using hfirst
    obtain rfl := PoolAt.unique hp pool
    obtain ⟨T, h1, h2, h3, h4, rfl⟩ := distribute_new good.ok hnew op
    have hne : M ≠ P'.key := by rintro rfl; exact PoolAt.not_mining hp hm
    refine ⟨_, T, pool', (miningAt_congr (frame M hne)).mpr hm, h1, h2, ?_⟩
    have e1 : p.tokensAvailable - (p.tokensAvailable - r) = r := by omega
    have hlast := index_recorded hr hp hroom
    simp only [e1, if_pos hroom]
    refine ⟨?_, ?_, ?_⟩
    · unfold pending
      rw [earned_append, ← hlast]
      simp only [earned]
      rw [Nat.max_eq_left (Nat.le_trans hidx (Nat.le_add_right _ _)), Nat.max_eq_left hidx, Nat.add_sub_cancel_left]
      omega
    · rw [← Nat.mul_assoc]
      exact Nat.mul_le_mul_right _ (Nat.mul_div_le _ _)
    · have h5 : 10 ^ 16 * r ≤ T * (10 ^ 16 * r / T + 1) :=
        Nat.le_of_lt (Nat.lt_mul_div_succ _ h2)
      calc 10 ^ 16 * r * earningOn m (midnight s.now)
          ≤ T * (10 ^ 16 * r / T + 1) * earningOn m (midnight s.now) := Nat.mul_le_mul_right _ h5
        _ = _ := by rw [Nat.mul_assoc, Nat.add_mul, Nat.one_mul]

/-- C39. -/
theorem C39_fill_vault {now : Nat} {w w' : World} {accs : List AccountInfo} {r e : Nat} {ret : Option Nat}
    (hw : Wf env now w) (hs : RealSigners accs) (h : exec env now w accs (.fillVault r e) = .ok (w', ret)) :
    ∃ P T V F S p p', (∃ K rest, accs.map (·.key) = P :: T :: V :: F :: S :: K :: rest) ∧
      PoolAt env w P p ∧ PoolAt env w' P p' ∧ Signed accs F ∧ p.fillAuthority = F ∧
      env.vaultAddr P T p.bump = some V ∧ 0 < r ∧
      p' = { p with tokensAvailable := p.tokensAvailable + r, distributionEndsAt := midnight e } ∧
      midnight now ≤ midnight e ∧ p.distributionEndsAt ≤ midnight e ∧
      TokensMoved w w' S V r ∧ ∀ k, k ≠ P → k ≠ S → k ≠ V → w' k = w k := by
  have hstep := step_of_exec hw hs (by exact trivial) h
  cases hstep with
  | stake _ op => exact op.elim
  | @fill _ _ P T V F S K rest p w1 accs_eq signed auth good pool vault nonzero future later endBound bound pool' w1_frame
      transfer frame neS neV shell =>
    rw [bod_eq_midnight] at *
    rw [bod_eq_midnight] at *
    refine ⟨P.key, T.key, V.key, F.key, S.key, p, _, ⟨K.key, rest.map (·.key), by rw [accs_eq]; rfl⟩, pool,
      pool', ⟨F, by rw [accs_eq]; simp, rfl, signed⟩, auth, vault, Nat.pos_of_ne_zero nonzero, rfl, future, later, ?_, frame⟩
    have hm := transfer.moved
    unfold TokensMoved balance at *
    rw [w1_frame _ neS, w1_frame _ neV] at hm
    exact hm

/-- C40. -/
theorem C40_end_of_distribution {s s' : Chain} {es : List Event} (hw : Wf env s.now s.world) (hr : CleanRun env s es s')
    {k : Key} {p : Pool} (hp : PoolAt env s.world k p) (hl : 0 < (s.world k).lamports) :
    ∃ p', PoolAt env s'.world k p' ∧ p.distributionEndsAt ≤ p'.distributionEndsAt ∧ p'.distributionEndsAt % 86400 = 0 := by
  obtain ⟨p', h1, -, h2⟩ := runs_pool hw hr hp hl (fun _ q => p.distributionEndsAt ≤ q.distributionEndsAt)
    (Nat.le_refl _) (by
      rintro s e q q' hw' hv hq i1 hev
      cases hev with
      | same => exact i1
      | ix ok change => exact Nat.le_trans i1 (change.ends (poolAt_good hw' hq).ok))
  exact ⟨p', h1, h2, (poolAt_good (wf_runs hw (fun _ _ h => h) hr) h1).ok.ends⟩

/-- C41.  Once a distribution has been made (on a day without recorded one) with less than two whole days left, the budget is
empty, and stays empty as long as nobody fills the vault again. -/
theorem C41_exhausted {s s' : Chain} {es : List Event} {w1 : World} {accs : List AccountInfo} {ret : Option Nat} {P : Key}
    {p : Pool} (hw : Wf env s.now s.world) (hs : RealSigners accs)
    (h1 : exec env s.now s.world accs .distributeRewards = .ok (w1, ret)) (hf : FirstIs accs P)
    (hp : PoolAt env s.world P p) (hl : 0 < (s.world P).lamports) (hnew : NewDay p s.now)
    (hend : p.distributionEndsAt < s.now + 2 * 86400)
    (hr : CleanRun env { s with world := w1 } es s') (hfill : totalIn env (filledBy env P) { s with world := w1 } es = 0) :
    ∃ p', PoolAt env s'.world P p' ∧ p'.tokensAvailable = 0 := by
  have hw1 : Wf env s.now w1 := wf_process hw hs (by exact trivial) (exec_ok.mp h1).1
  obtain ⟨p0, p1, h2, h3, -, h4, -⟩ := C12_daily_amount hw hs h1 hf
  obtain rfl := PoolAt.unique hp h2
  have h5 := (h4 hnew).2
  have h6 : dailyAmount p.tokensAvailable p.distributionEndsAt s.now = p.tokensAvailable := by
    unfold dailyAmount
    split
    · rfl
    · have : (p.distributionEndsAt - s.now) / 86400 = 1 := by omega
      rw [this, Nat.div_one]
  have hstep := step_of_exec hw hs (by exact trivial) h1
  obtain ⟨p1', g1, -, g3, -⟩ := hstep.pool hp
  obtain ⟨p', h7, h8⟩ := C11_budget_history (s := { s with world := w1 }) hw1 hr h3 (by rw [g3]; exact hl)
  refine ⟨p', h7, ?_⟩
  omega

/-- C41, the amounts in between are even: if the next distribution is made when one whole day less is left, and nothing was filled
or distributed in between, it distributes the same amount or one token more. -/
theorem C41_even {s s' : Chain} {es : List Event} {w1 w2 : World} {accs accs' : List AccountInfo} {ret ret' : Option Nat} {P : Key}
    {p p1 p' p2 : Pool} (hw : Wf env s.now s.world) (hs : RealSigners accs)
    (h1 : exec env s.now s.world accs .distributeRewards = .ok (w1, ret)) (hf : FirstIs accs P)
    (hp : PoolAt env s.world P p) (hl : 0 < (s.world P).lamports) (hnew : NewDay p s.now) (hp1 : PoolAt env w1 P p1)
    (hr : CleanRun env { s with world := w1 } es s') (hfill : totalIn env (filledBy env P) { s with world := w1 } es = 0)
    (hdist : totalIn env (distributedBy env P) { s with world := w1 } es = 0) (hs' : RealSigners accs')
    (h2 : exec env s'.now s'.world accs' .distributeRewards = .ok (w2, ret')) (hf' : FirstIs accs' P)
    (hp' : PoolAt env s'.world P p') (hnew' : NewDay p' s'.now) (hp2 : PoolAt env w2 P p2)
    (hend : p'.distributionEndsAt = p.distributionEndsAt) (hleft : 0 < (p'.distributionEndsAt - s'.now) / 86400)
    (hday : (p.distributionEndsAt - s.now) / 86400 = (p'.distributionEndsAt - s'.now) / 86400 + 1) :
    p.tokensAvailable - p1.tokensAvailable ≤ p'.tokensAvailable - p2.tokensAvailable ∧
      p'.tokensAvailable - p2.tokensAvailable ≤ p.tokensAvailable - p1.tokensAvailable + 1 := by
  have hw1 : Wf env s.now w1 := wf_process hw hs (by exact trivial) (exec_ok.mp h1).1
  have hw' : Wf env s'.now s'.world := wf_runs (s := { s with world := w1 }) hw1 (fun _ _ h => h) hr
  obtain ⟨q, q1, a1, a2, -, a3, -⟩ := C12_daily_amount hw hs h1 hf
  obtain rfl := PoolAt.unique hp a1
  obtain rfl := PoolAt.unique hp1 a2
  obtain ⟨q, q2, b1, b2, -, b3, -⟩ := C12_daily_amount hw' hs' h2 hf'
  obtain rfl := PoolAt.unique hp' b1
  obtain rfl := PoolAt.unique hp2 b2
  obtain ⟨p1', g1, -, g3, -⟩ := (step_of_exec hw hs (by exact trivial) h1).pool hp
  obtain ⟨q, c1, c2⟩ := C11_budget_history (s := { s with world := w1 }) hw1 hr hp1 (by rw [g3]; exact hl)
  obtain rfl := PoolAt.unique hp' c1
  obtain ⟨a4, a5⟩ := a3 hnew
  obtain ⟨b4, b5⟩ := b3 hnew'
  have ha : dailyAmount p.tokensAvailable p.distributionEndsAt s.now =
      p.tokensAvailable / ((p.distributionEndsAt - s.now) / 86400) := by
    unfold dailyAmount; rw [if_neg (by omega)]
  have hb : dailyAmount p'.tokensAvailable p'.distributionEndsAt s'.now =
      p'.tokensAvailable / ((p'.distributionEndsAt - s'.now) / 86400) := by
    unfold dailyAmount; rw [if_neg (by omega)]
  have h3 := even_div p.tokensAvailable ((p.distributionEndsAt - s.now) / 86400) (by omega)
  have e1 : p'.tokensAvailable = p.tokensAvailable - p.tokensAvailable / ((p.distributionEndsAt - s.now) / 86400) := by omega
  have e2 : (p.distributionEndsAt - s.now) / 86400 - 1 = (p'.distributionEndsAt - s'.now) / 86400 := by omega
  rw [← e1, e2, ← ha, ← hb] at h3
  omega

end

/-- C13 is false in general: in a reachable state whose index history is full (1095 recorded distributions), two
DistributeRewards in the same second each take tokens from the budget. -/
theorem C13_one_per_day_false :
    ∃ s accs w1 w2 p p1 p2, Reachable Demo.env s ∧
      exec Demo.env s.now s.world accs .distributeRewards = .ok (w1, none) ∧
      exec Demo.env s.now w1 accs .distributeRewards = .ok (w2, none) ∧ FirstIs accs 100 ∧
      PoolAt Demo.env s.world 100 p ∧ PoolAt Demo.env w1 100 p1 ∧ PoolAt Demo.env w2 100 p2 ∧
      p.tokensAvailable = 1000 ∧ p1.tokensAvailable = 998 ∧ p2.tokensAvailable = 997 ∧
      p.index < p1.index ∧ p1.index < p2.index := by
  obtain ⟨s, c, w1, w2, h1, h2, h3, h4, h5, h6⟩ := Demo.long_twice
  exact ⟨s, _, w1, w2, _, _, _, h1, h3, h5, rfl, h2, h4, h6, rfl, rfl, rfl,
    show (0 : Nat) < 20000000000000 by decide, show (20000000000000 : Nat) < 30000000000000 by decide⟩

/-- C14 is false in general: in a reachable state whose index history is full, a distribution takes tokens from the budget
but leaves no record, so that no mining is ever credited anything for it. -/
theorem C14_recorded_false :
    ∃ s accs w1 p p1, Reachable Demo.env s ∧
      exec Demo.env s.now s.world accs .distributeRewards = .ok (w1, none) ∧ FirstIs accs 100 ∧
      PoolAt Demo.env s.world 100 p ∧ PoolAt Demo.env w1 100 p1 ∧
      p.tokensAvailable = 1000 ∧ p1.tokensAvailable = 998 ∧ p1.cumulative = p.cumulative ∧
      (∀ m, pending m p1.cumulative = pending m p.cumulative) := by
  obtain ⟨s, c, w1, w2, h1, h2, h3, h4, h5, h6⟩ := Demo.long_twice
  exact ⟨s, _, w1, _, _, h1, h3, rfl, h2, h4, rfl, rfl, rfl, fun _ => rfl⟩

/-! ### The hypotheses above can be met -/

namespace Demo

/-- The next day. -/
def nextDay : Chain := (run s0 (story ++ [.tick DAY])).getD s0

theorem nextDay_reachable : Reachable env nextDay := after_reachable (by decide +kernel)

/-- C11, C12, C14, C16: a distribution on a day without one, by the distribute authority, for a pool with room in the
history, stakers, and minings that are behind the pool's index; 1111 tokens leave the budget of 7778. -/
example : ∃ w', Succeeds nextDay [W 100, S 111] .distributeRewards w' := succeeds nextDay_reachable (by decide +kernel)

example : hasPool nextDay.world 100 (fun p => decide (p.tokensAvailable = 7778 ∧ NewDay p nextDay.now ∧
    p.cumulative.length < env.caps.index ∧ dailyAmount p.tokensAvailable p.distributionEndsAt nextDay.now = 1111) &&
    hasMining nextDay.world (mine 120 100) (fun m => decide (m.index ≤ p.index ∧
      earningOn m (midnight nextDay.now) = 3000))) = true := by decide +kernel

/-- C12: a second distribution on the same day succeeds, too. -/
example : ∃ w', Succeeds afterStory [W 100, S 111] .distributeRewards w' := succeeds afterStory_reachable (by decide +kernel)

/-- C39. -/
example : ∃ w', Succeeds afterStory [W 100, R 101, W (vaultOf 100 101), S 112, W 113, R 2]
    (.fillVault 500 (day0 + 20 * DAY)) w' := succeeds afterStory_reachable (by decide +kernel)

/-- C11, C15, C40: a history with fills, distributions and other instructions on a pool that holds lamports. -/
example : ∃ s', CleanRun env afterStory [fill 100 500 (day0 + 20 * DAY), .tick DAY, distribute 100, claim 100 121 131,
    distribute 100, withdraw 100 121 500 121, .tick DAY, distribute 100] s' := some_run (by decide +kernel)

example : hasPool afterStory.world 100 (fun _ => decide (0 < (afterStory.world 100).lamports)) = true := by decide +kernel

/-- C13: two distributions on one day with a history in between. -/
example : ∃ s', CleanRun env { nextDay with world := (nextDay.apply env (distribute 100)).world }
    [claim 100 121 131, .tick 3600, fill 100 500 (day0 + 20 * DAY), distribute 100] s' := some_run (by decide +kernel)

/-- C41: a distribution on the last but one day, followed by a history without fills. -/
def nearEnd : Chain := (run s0 (story ++ [.tick (7 * DAY)])).getD s0

example : ∃ w', Succeeds nearEnd [W 100, S 111] .distributeRewards w' :=
  succeeds (after_reachable (by decide +kernel)) (by decide +kernel)

example : hasPool nearEnd.world 100 (fun p => decide (NewDay p nearEnd.now ∧ 0 < p.tokensAvailable ∧
    p.distributionEndsAt < nearEnd.now + 2 * 86400)) = true := by decide +kernel

example : ∃ s', CleanRun env { nearEnd with world := (nearEnd.apply env (distribute 100)).world }
    [claim 100 121 131, .tick DAY, distribute 100] s' := some_run (by decide +kernel)

/-- C41, even amounts: distributions on two consecutive days, one whole day less being left, and a claim in between. -/
def inBetween : List Event := [claim 100 121 131, .tick DAY]

def dayAfter : Chain := (run { nextDay with world := (nextDay.apply env (distribute 100)).world } inBetween).getD nextDay

example : CleanRun env { nextDay with world := (nextDay.apply env (distribute 100)).world } inBetween dayAfter ∧
    totalIn env (filledBy env 100) { nextDay with world := (nextDay.apply env (distribute 100)).world } inBetween = 0 ∧
    totalIn env (distributedBy env 100) { nextDay with world := (nextDay.apply env (distribute 100)).world } inBetween = 0 := by
  have h : (run { nextDay with world := (nextDay.apply env (distribute 100)).world } inBetween).isSome = true := by decide +kernel
  refine ⟨run_sound ?_, by decide +kernel, by decide +kernel⟩
  unfold dayAfter
  revert h
  generalize run { nextDay with world := (nextDay.apply env (distribute 100)).world } inBetween = r
  cases r <;> simp

example : okEvent nextDay (distribute 100) = true ∧ okEvent dayAfter (distribute 100) = true ∧
    hasPool nextDay.world 100 (fun p => hasPool dayAfter.world 100 fun p' => decide (NewDay p nextDay.now ∧
      NewDay p' dayAfter.now ∧ 0 < (nextDay.world 100).lamports ∧ p'.distributionEndsAt = p.distributionEndsAt ∧
      0 < (p'.distributionEndsAt - dayAfter.now) / 86400 ∧
      (p.distributionEndsAt - nextDay.now) / 86400 = (p'.distributionEndsAt - dayAfter.now) / 86400 + 1)) = true :=
  ⟨by decide +kernel, by decide +kernel, by decide +kernel⟩

end Demo

end Verif
