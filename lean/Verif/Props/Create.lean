import Verif.Lemmas.Live2
import Verif.Props.Solvency
import Verif.Props.Access
/-!
More properties about operations that must not be blocked: C57 (filling the vault), C58 (closing a mining after a claim)
and C59 (creating pools and minings).
-/

namespace Verif

open Spec

section
variable {env : Env}

/-- C57: in every state, the fill authority can put any amount they own into the vault, to be distributed until any day
that is not before today and not before the end announced earlier, as long as the amounts fit into 64 bits. -/
theorem C57_fill_succeeds {now : Nat} {w : World} (hw : Wf env now w) {accs : List AccountInfo}
    {P T V F S K : AccountInfo} {rest : List AccountInfo} {p : Pool} {t u : TokenAcc} {r e : Nat}
    (hr : FillReady env w accs P T V F S K rest p t u) (h0 : 0 < r) (hn : r ≤ t.amount) (he : e < 2 ^ 64)
    (h1 : midnight now ≤ midnight e) (h2 : p.distributionEndsAt ≤ midnight e) (h3 : p.tokensAvailable + r < 2 ^ 64) :
    ∃ w', exec env now w accs (.fillVault r e) = .ok (w', none) :=
  fill_succeeds hw hr h0 hn he h1 h2 h3

/-- C58: right after a claim the same mining can be closed, unless others still delegate stake to it. -/
theorem C58_close_after_claim {now : Nat} {w w' : World} {accs : List AccountInfo} {ret : Option Nat}
    (hw : Wf env now w) (hs : RealSigners accs) (hclean : NotPoolAsMining env w accs .claim)
    (h : exec env now w accs .claim = .ok (w', ret)) {accs2 : List AccountInfo} {M O G A P : AccountInfo}
    {rest : List AccountInfo} {p : Pool} {m : Mining} (hM : accs[3]?.map (·.key) = some M.key)
    (hr : CloseReady env w' accs2 M O G A P rest p m) (hd : m.stakeFromOthers = 0) :
    ∃ w2, exec env now w' accs2 .closeMining = .ok (w2, none) := by
  have hw' : Wf env now w' := by
    have := wf_apply (s := ⟨now, w⟩) (e := .ix accs .claim) hw hs hclean
    rwa [apply_ix_ok (w' := w') (ret := ret) h] at this
  rw [exec_ok] at h
  obtain ⟨h, -⟩ := h
  simp only [process, res_bind_ok, res_pure_ok, Prod.mk.injEq, Prod.exists] at h
  obtain ⟨w1, n, h, rfl, rfl⟩ := h
  obtain ⟨Q, T, V, N, O', B, U, K, rest', q, m0, m1, rfl, b1, b2, he⟩ := claim_world hw hs hclean h
  simp only [List.getElem?_cons_zero, List.getElem?_cons_succ, Option.map_some, Option.some.injEq] at hM
  rw [hM] at he
  have e1 : m = { m1 with unclaimed := 0 } := MiningAt.unique hr.mining.1 he.mining'
  have hh := (poolAt_good hw he.pool).ok.history
  obtain ⟨c, hm1, g1, g2, g3, g4, g5, g6⟩ := refresh_ok hh he.miningOk.sorted he.refreshed
  have e2 : P.key = Q.key := by
    have : m.rewardPool = m0.rewardPool := by rw [e1, hm1]
    exact hr.mining.2.symm.trans (this.trans he.inPool)
  have e3 : w1 Q.key = w Q.key := by
    refine he.frame _ (Ne.symm he.ne) (fun e => ?_) (fun e => ?_)
    · exact env.program_ne_token ((he.pool.1.symm.trans (by rw [e])).trans he.vaultTok)
    · obtain ⟨t, ht, -⟩ := he.userTok
      exact env.program_ne_token ((he.pool.1.symm.trans (by rw [e])).trans ht.1)
  have e4 : p = q := by
    have := hr.pool
    rw [e2] at this
    unfold PoolAt at this
    rw [e3] at this
    exact PoolAt.unique this he.pool
  subst e4
  have hx : m.refreshRewards now p.cumulative = .ok m := by
    refine refresh_fixed hh (miningAt_ok hw' hr.mining.1).1 ?_ ?_ ?_
    · rw [e1, hm1]
    · rw [e1, hm1]
      intro x hx
      rw [← bod_eq_midnight]
      have := (List.mem_filter.mp hx).2
      simpa using this
    · rw [e1, hm1]
      have : m0.share - dueBy m0.diffs (bod now) + m0.stakeFromOthers ≤ m0.share + m0.stakeFromOthers := by omega
      exact Nat.lt_of_le_of_lt this g3
  exact close_exec hw' hr hx hd (by rw [e1])

/-- C59 for minings: anyone who can pay the rent can create the mining of any staker in any pool, as long as nothing is
stored at its address and nobody has sent lamports there.
Missing for the full property: addresses with lamports; see `C59_prefunded_false`. -/
theorem C59_create_mining_partial {now : Nat} {w : World} {accs : List AccountInfo} {P M Y K : AccountInfo}
    {rest : List AccountInfo} {p : Pool} {o : Key} {b : Nat} (hr : CreateMiningReady env w accs P M Y K rest p o b)
    (hu : Unused env w M.key) : ∃ w', exec env now w accs (.initializeMining o) = .ok (w', none) :=
  createMining_exec hr hu

/-- C59 for pools: anyone who can pay the rent can turn a zeroed account of the program into a pool for any mint, as long as
nothing is stored at the vault's address and nobody has sent lamports there.
Missing for the full property: addresses with lamports; see `C59_prefunded_false`. -/
theorem C59_create_pool_partial {now : Nat} {w : World} {accs : List AccountInfo} {P T V Y A R K L : AccountInfo}
    {rest : List AccountInfo} {b : Nat} {f d : Key} (hr : CreatePoolReady env w accs P T V Y A R K L rest b)
    (hu : Unused env w V.key) : ∃ w', exec env now w accs (.initializePool f d) = .ok (w', none) :=
  createPool_exec hr hu

/-- C59: a mining that was closed can be created again (as soon as the runtime has removed the empty account). -/
theorem C59_create_again {s : Chain} {accs : List AccountInfo} {w' : World} {ret : Option Nat} (hw : Wf env s.now s.world)
    (hs : RealSigners accs) (hclean : NotPoolAsMining env s.world accs .closeMining)
    (h : exec env s.now s.world accs .closeMining = .ok (w', ret)) {accs2 : List AccountInfo} {P M Y K : AccountInfo}
    {rest : List AccountInfo} {p : Pool} {o : Key} {b : Nat} (hM : accs[0]?.map (·.key) = some M.key)
    (hr : CreateMiningReady env ((Chain.mk s.now w').apply env (.gc M.key)).world accs2 P M Y K rest p o b) :
    Event.Valid env (Chain.mk s.now w') (.gc M.key) ∧
    ∃ w2, exec env s.now ((Chain.mk s.now w').apply env (.gc M.key)).world accs2 (.initializeMining o) = .ok (w2, none) := by
  obtain ⟨k, -, -, -, -, hk, -, -, -, -, -, -, -, -, -, -, -, e, -⟩ := C34_close hw hs hclean h
  have : k = M.key := Option.some.inj (hk.symm.trans hM)
  subst this
  refine ⟨?_, createMining_exec hr ?_⟩
  · show (w' M.key).lamports = 0
    rw [e]
  · simp [Unused, Chain.apply, World.set]

end

/-! ## Examples: the hypotheses are met -/

section Examples
open Demo

/-- A second filling of 5000 tokens until day 20 (conditions of `C57_fill_succeeds`). -/
example : Reachable Demo.env afterStory ∧ ∃ p t u, FillReady Demo.env afterStory.world
      [W 100, R 101, W (vaultOf 100 101), S 112, W 113, R 2] (W 100) (R 101) (W (vaultOf 100 101)) (S 112) (W 113) (R 2) []
      p t u ∧ 5000 ≤ t.amount ∧ midnight afterStory.now ≤ midnight (day0 + 20 * DAY) ∧
      p.distributionEndsAt ≤ midnight (day0 + 20 * DAY) ∧ p.tokensAvailable + 5000 < 2 ^ 64 := by
  refine ⟨afterStory_reachable, ?_⟩
  have h : hasPool afterStory.world 100 (fun p => hasToken afterStory.world 113 (fun t =>
      hasToken afterStory.world (vaultOf 100 101) (fun u =>
        decide (p.rewardMint = 101 ∧ Demo.env.findVault 100 101 = some (vaultOf 100 101, p.bump) ∧ p.fillAuthority = 112 ∧
          t.owner = 112 ∧ t.delegate ≠ some 112 ∧ t.frozen = false ∧ u.frozen = false ∧
          t.native = false ∧ t.mint = u.mint ∧ t.amount + u.amount < 2 ^ 64 ∧
          (afterStory.world (vaultOf 100 101)).lamports < 2 ^ 64 ∧
          (afterStory.world 101).owner = Demo.env.tokenProgram ∧
          (afterStory.world 112).owner ≠ Demo.env.tokenProgram ∧ 5000 ≤ t.amount ∧
          midnight afterStory.now ≤ midnight (day0 + 20 * DAY) ∧
          p.distributionEndsAt ≤ midnight (day0 + 20 * DAY) ∧ p.tokensAvailable + 5000 < 2 ^ 64)))) = true := by
    decide +kernel
  obtain ⟨p, hp, h⟩ := hasPool_sound h
  obtain ⟨t, ht, h⟩ := hasToken_sound h
  obtain ⟨u, hu, h⟩ := hasToken_sound h
  simp only [decide_eq_true_eq] at h
  obtain ⟨a1, a2, a3, a4, a5, a6, a7, a8, a9, a10, a11, a12, a14, a13⟩ := h
  exact ⟨p, t, u, ⟨rfl, hp, ⟨a1.symm, a12⟩, ⟨a2, hu⟩, ⟨a3.symm, rfl, by decide⟩, fun h => a14 h.1,
    ⟨ht, a4, a5⟩, rfl,
    ⟨a6, a7, a8, a9, a10, a11⟩, by decide⟩, a13⟩

/-- User 120 claims, which pays, and can then close their mining (conditions of `C58_close_after_claim`). -/
example : ∃ w' n, Succeeds afterStory [R 100, R 101, W (vaultOf 100 101), W (mine 120 100), S 120, S 110, W 130, R 2] .claim w' ∧
    returned afterStory (Demo.claim 100 120 130) = some n ∧ 0 < n ∧
    ∃ p m, CloseReady Demo.env w' [W (mine 120 100), S 120, W 102, S 110, R 100] (W (mine 120 100)) (S 120) (W 102) (S 110)
      (R 100) [] p m ∧ m.stakeFromOthers = 0 := by
  have h0 : okEvent afterStory (Demo.claim 100 120 130) = true := by decide +kernel
  obtain ⟨ret, h1⟩ := exec_of_ok h0
  obtain ⟨h2, h3⟩ := okEvent_sound h0
  have h4 : (match returned afterStory (Demo.claim 100 120 130) with | some n => decide (0 < n) | none => false) = true := by
    decide +kernel
  have h : hasPool (afterStory.apply Demo.env (Demo.claim 100 120 130)).world 100 (fun p => decide (p.depositAuthority = 110) &&
      memberB (afterStory.apply Demo.env (Demo.claim 100 120 130)).world 100 (mine 120 100) fun m =>
        decide (m.owner = 120 ∧ m.stakeFromOthers = 0)) = true := by decide +kernel
  obtain ⟨p, hp, h⟩ := hasPool_sound h
  simp only [Bool.and_eq_true, decide_eq_true_eq] at h
  obtain ⟨h5, h⟩ := h
  obtain ⟨m, hm, h6⟩ := memberB_sound h
  simp only [decide_eq_true_eq] at h6
  split at h4
  · rename_i n hn
    exact ⟨_, n, ⟨reachable_wf afterStory_reachable, h2, h3, ret, h1⟩, hn, by simpa using h4, p, m,
      ⟨rfl, hp, hm, ⟨h6.1.symm, rfl⟩, ⟨h5.symm, rfl⟩, by decide +kernel, by decide⟩, h6.2⟩
  · cases h4

/-- User 122 can get a mining (conditions of `C59_create_mining_partial`). -/
example : ∃ p, CreateMiningReady Demo.env afterStory.world [R 100, W (mine 122 100), SW 102, R 3] (R 100) (W (mine 122 100))
      (SW 102) (R 3) [] p 122 255 ∧ Unused Demo.env afterStory.world (mine 122 100) := by
  have h : hasPool afterStory.world 100 (fun _ => true) = true := by decide +kernel
  obtain ⟨p, hp, -⟩ := hasPool_sound h
  exact ⟨p, ⟨rfl, hp, rfl, ⟨rfl, by decide +kernel, by decide +kernel⟩, rfl, by decide, by decide⟩,
    by unfold Unused; decide +kernel⟩

/-- Account 200 can become a pool (conditions of `C59_create_pool_partial`). -/
example : CreatePoolReady Demo.env afterStory.world [W 200, R 101, W (vaultOf 200 101), SW 102, S 110, R 4, R 2, R 3] (W 200)
      (R 101) (W (vaultOf 200 101)) (SW 102) (S 110) (R 4) (R 2) (R 3) [] 255 ∧
    Unused Demo.env afterStory.world (vaultOf 200 101) :=
  ⟨⟨rfl, by decide +kernel, by decide +kernel, by decide, ⟨rfl, by decide +kernel, by decide +kernel⟩, by decide, by decide,
    by decide, by decide⟩, by unfold Unused; decide +kernel⟩

/-- User 120 claims and closes their mining, and can get a new one (conditions of `C59_create_again`). -/
example : ∃ s w', Succeeds s [W (mine 120 100), S 120, W 102, S 110, R 100] .closeMining w' ∧
    ∃ p, CreateMiningReady Demo.env ((Chain.mk s.now w').apply Demo.env (.gc (mine 120 100))).world
      [R 100, W (mine 120 100), SW 102, R 3] (R 100) (W (mine 120 100)) (SW 102) (R 3) [] p 120 255 := by
  have h0 : okEvent ((run s0 (story ++ [Demo.claim 100 120 130])).getD s0) (Demo.close 100 120) = true := by decide +kernel
  have hr := after_reachable (es := story ++ [Demo.claim 100 120 130]) (by decide +kernel)
  obtain ⟨ret, h1⟩ := exec_of_ok h0
  obtain ⟨h2, h3⟩ := okEvent_sound h0
  have h : hasPool ((Chain.mk ((run s0 (story ++ [Demo.claim 100 120 130])).getD s0).now
      (((run s0 (story ++ [Demo.claim 100 120 130])).getD s0).apply Demo.env (Demo.close 100 120)).world).apply Demo.env
      (.gc (mine 120 100))).world 100 (fun _ => true) = true := by decide +kernel
  obtain ⟨p, hp, -⟩ := hasPool_sound h
  exact ⟨_, _, ⟨reachable_wf hr, h2, h3, ret, h1⟩, p, ⟨rfl, hp, rfl, ⟨rfl, by decide +kernel, by decide +kernel⟩, rfl,
    by decide, by decide⟩⟩

end Examples

/-! ## Counterexample -/

section Counterexamples
open Demo

/-- C59 is false: whoever sends one lamport to the address of a mining, or to that of a vault, prevents its creation, since
the program creates accounts with `create_account`, which refuses addresses with lamports. -/
theorem C59_prefunded_false : ∃ s w', RunsWith Demo.env (CleanEvent Demo.env) s0 (story ++ [.ext w']) s ∧
    w' (mine 122 100) = { afterStory.world (mine 122 100) with lamports := 1 } ∧
    w' (vaultOf 200 101) = { afterStory.world (vaultOf 200 101) with lamports := 1 } ∧
    (∀ k, k ≠ mine 122 100 → k ≠ vaultOf 200 101 → w' k = afterStory.world k) ∧
    worldAfter afterStory (initMining 100 122) ≠ none ∧ worldAfter afterStory (initPool 200) ≠ none ∧
    worldAfter s (initMining 100 122) = none ∧ worldAfter s (initPool 200) = none := by
  let a1 : Account := { afterStory.world (mine 122 100) with lamports := 1 }
  let a2 : Account := { afterStory.world (vaultOf 200 101) with lamports := 1 }
  let w' := (afterStory.world.set (mine 122 100) a1).set (vaultOf 200 101) a2
  have hr : RunsWith Demo.env (CleanEvent Demo.env) s0 story afterStory := run_sound story_eq
  have o1 : (afterStory.world (mine 122 100)).owner = 3 := by decide +kernel
  have o2 : (afterStory.world (vaultOf 200 101)).owner = 3 := by decide +kernel
  have e1 : w' (mine 122 100) = a1 := by
    show ((afterStory.world.set (mine 122 100) a1).set (vaultOf 200 101) a2) (mine 122 100) = a1
    rw [world_set_ne _ _ (by decide), world_set_same]
  have e2 : w' (vaultOf 200 101) = a2 := world_set_same _ _ _
  have hne : ∀ k, k ≠ mine 122 100 → k ≠ vaultOf 200 101 → w' k = afterStory.world k := fun k h1 h2 => by
    show ((afterStory.world.set (mine 122 100) a1).set (vaultOf 200 101) a2) k = _
    rw [world_set_ne _ _ h2, world_set_ne _ _ h1]
  have hsame : ∀ k, (w' k).owner = (afterStory.world k).owner ∧ (w' k).len = (afterStory.world k).len ∧
      (w' k).content = (afterStory.world k).content ∧
      ((afterStory.world k).owner = 1 → w' k = afterStory.world k) := by
    intro k
    by_cases h1 : k = mine 122 100
    · subst h1; rw [e1]; exact ⟨rfl, rfl, rfl, fun h => by rw [o1] at h; cases h⟩
    · by_cases h2 : k = vaultOf 200 101
      · subst h2; rw [e2]; exact ⟨rfl, rfl, rfl, fun h => by rw [o2] at h; cases h⟩
      · rw [hne k h1 h2]; exact ⟨rfl, rfl, rfl, fun _ => rfl⟩
  have hv : (Event.ext w').Valid Demo.env afterStory := by
    refine ⟨fun k hk => ?_, fun k hk hk' => ?_, fun k _ hk => ?_, fun k _ hk => ?_⟩
    · rw [(hsame k).2.2.2 hk]; exact ⟨rfl, rfl, rfl, Nat.le_refl _⟩
    · rw [(hsame k).1] at hk'; exact absurd hk' hk
    · exact ⟨(hsame k).1.trans hk, (hsame k).2.1, (hsame k).2.2.1⟩
    · exact Or.inl ((hsame k).1.trans hk)
  have some_ne : ∀ ev : Event, (worldAfter afterStory ev).isSome = true → worldAfter afterStory ev ≠ none := by
    intro ev h h'; rw [h'] at h; cases h
  exact ⟨afterStory.apply Demo.env (.ext w'), w', hr.append (.cons hv trivial (.nil _)), e1, e2, hne,
    some_ne _ (by decide +kernel), some_ne _ (by decide +kernel), by decide +kernel, by decide +kernel⟩

end Counterexamples

end Verif
