import Verif.Spec.WindUp
import Verif.Lemmas.Exit
import Verif.Props.Claim
import Verif.Props.Create
import Verif.Props.Access
/-!
Leaving a pool: claim, then close.
-/

namespace Verif

open Spec

variable {env : Env}

/-- A successful claim, account by account. -/
theorem claim_accounts {now : Nat} {w w' : World} {P T V M O A U K : AccountInfo} {rest : List AccountInfo} {n : Nat}
    {t u : TokenAcc} (h : exec env now w (P :: T :: V :: M :: O :: A :: U :: K :: rest) .claim = .ok (w', some n))
    (hV : TokenAt env w V.key t) (hU : TokenAt env w U.key u) (hne : V.key ≠ U.key) (hd : t.delegate ≠ some A.key)
    (hn : t.native = false) :
    n ≤ t.amount ∧ w' V.key = { w V.key with content := .token { t with amount := t.amount - n } } ∧
      w' U.key = { w U.key with content := .token { u with amount := u.amount + n } } ∧
      (w' M.key).lamports = (w M.key).lamports ∧ ∀ k, k ≠ M.key → k ≠ V.key → k ≠ U.key → w' k = w k := by
  rw [exec_ok] at h
  obtain ⟨h, -⟩ := h
  simp only [process, res_bind_ok, res_pure_ok, Prod.mk.injEq, Option.some.injEq, Prod.exists] at h
  obtain ⟨w1, n', h, rfl, rfl⟩ := h
  obtain ⟨P', T', V', M', O', A', U', K', rest', ut, p, m, m1, e, -, -, -, h4, -, -, -, -, -, -, -, -, -, -, -, -, -, -, -, -,
    hn', h⟩ := processClaim_ok h
  cases e
  have hVM : V.key ≠ M.key := fun e => env.program_ne_token (h4.symm.trans (by rw [← e]; exact hV.1))
  have hUM : U.key ≠ M.key := fun e => env.program_ne_token (h4.symm.trans (by rw [← e]; exact hU.1))
  have put : ∀ k, k ≠ M.key → putMining env w M.key m1.claim k = w k := fun k hk => by
    unfold putMining; rw [world_set_ne _ _ hk]
  have putL : (putMining env w M.key m1.claim M.key).lamports = (w M.key).lamports := by
    unfold putMining storeMining
    rw [world_set_same]
    (repeat' split) <;> rfl
  rcases h with ⟨-, h⟩ | ⟨h0, rfl⟩
  · obtain ⟨s, d, s', -, -, -, g4, g5, g6, g7, -, -, g10, -, g12, g13⟩ := splTransfer_ok h
    rw [put _ hVM] at g4 g5
    rw [put _ hUM] at g6 g7
    obtain rfl : t = s := TokenAt.unique hV ⟨g4, g5⟩
    obtain rfl : u = d := TokenAt.unique hU ⟨g6, g7⟩
    have hs' : s' = t := by
      unfold transferAuth at g12
      rw [if_neg hd] at g12
      split at g12
      · cases g12; rfl
      · cases g12
    subst hs'
    rcases g13 with ⟨e, -⟩ | ⟨-, -, mv, hmv, -, -, rfl⟩
    · exact absurd e hne
    · obtain rfl := hmv hn
      rw [← hn'] at *
      refine ⟨g10, ?_, ?_, ?_, ?_⟩
      · rw [world_set_ne _ _ hne, world_set_same, put _ hVM, Nat.sub_zero]
      · rw [world_set_same, put _ hUM, Nat.add_zero]
      · rw [world_set_ne _ _ (Ne.symm hUM), world_set_ne _ _ (Ne.symm hVM), putL]
      · intro k k1 k2 k3
        rw [world_set_ne _ _ k3, world_set_ne _ _ k2, put _ k1]
  · rw [h0] at hn'
    subst hn'
    refine ⟨Nat.zero_le _, ?_, ?_, putL, fun k k1 _ _ => put k k1⟩
    · rw [put _ hVM, Nat.sub_zero]
      obtain ⟨-, hc⟩ := hV
      generalize w V.key = a at *
      cases a
      simp only at hc
      rw [hc]
    · rw [put _ hUM, Nat.add_zero]
      obtain ⟨-, hc⟩ := hU
      generalize w U.key = a at *
      cases a
      simp only at hc
      rw [hc]

/-- With no stake left, nothing is delegated. -/
theorem Booked.lent_zero {now : Nat} {w : World} {P : Key} {L : Ledger} (hb : Booked env now w P L)
    (hL : ∀ y ∈ L, y.amount = 0) {k : Key} {m : Mining} (hm : Member env w P k m) : m.stakeFromOthers = 0 := by
  have h := hb.lent k m hm
  have zero : L.lentTo k = 0 := by
    clear h hb
    unfold Ledger.lentTo
    induction L with
    | nil => rfl
    | cons y t ih =>
      rw [List.map_cons, List.sum_cons, ih fun z hz => hL z (by simp [hz])]
      unfold StakeEntry.lent
      rw [hL y (by simp)]
      simp
  rw [zero] at h
  exact_mod_cast h

/-- A staker leaves a pool that has no stakes any more. -/
theorem leave_step (hi : env.PdaInjective) {P V : Key} {s0 s : Chain} {es : List Event} {L : Ledger} (hg : Genesis env s0)
    (hr : HonestRun env P V s0 es s L) (hn : s.now < 2 ^ 64) (hL : ∀ y ∈ L, y.amount = 0) {p : Pool}
    (hp : PoolAt env s.world P p) (hV : env.findVault P p.rewardMint = some (V, p.bump)) (hA : p.depositAuthority ≠ 0)
    (hT : (s.world p.rewardMint).owner = env.tokenProgram) {t : TokenAcc}
    (hv : UsableVault env s.world V p.depositAuthority t) {x : Leaver} (hx : CanLeave env s.world P V t x)
    (hrent : (s.world x.wallet).lamports + (s.world x.mining).lamports < 2 ^ 64)
    (hl : (s.world x.account).lamports < 2 ^ 64) :
    ∃ n m w2, Member env s.world P x.mining m ∧
      10 ^ 16 * n ≤ 10 ^ 16 * m.unclaimed + entitlement m p.cumulative s.now ∧
      10 ^ 16 * m.unclaimed + entitlement m p.cumulative s.now < 10 ^ 16 * (n + expiredCount m (midnight s.now) + 1) ∧
      HonestRun env P V s0 (es ++ leave env P V p.rewardMint p.depositAuthority x) { s with world := w2 } L ∧
      RunsWith env (SucceedingEvent env) s (leave env P V p.rewardMint p.depositAuthority x) { s with world := w2 } ∧
      n ≤ t.amount ∧ w2 V = { s.world V with content := .token { t with amount := t.amount - n } } ∧
      (∀ u, TokenAt env s.world x.account u →
        w2 x.account = { s.world x.account with content := .token { u with amount := u.amount + n } }) ∧
      ((w2 x.mining).owner = (s.world x.mining).owner ∧ (w2 x.mining).lamports = 0 ∧ (w2 x.mining).content = .zero) ∧
      w2 x.wallet = { s.world x.wallet with lamports := (s.world x.wallet).lamports + (s.world x.mining).lamports } ∧
      ∀ k, k ≠ x.mining → k ≠ V → k ≠ x.account → k ≠ x.wallet → w2 k = s.world k := by
  have hw : Wf env s.now s.world := reachable_wf ⟨s0, es, hg, hr.ledger.clean⟩
  obtain ⟨m, hm, hmo⟩ := hx.mining
  obtain ⟨u, hu, huo, huf, hum, hua⟩ := hx.account
  obtain ⟨-, hb, -⟩ := honest_orderly_at hi hg hr hp
  have hsfo := hb.lent_zero hL hm
  have hs1 : RealSigners [(⟨P, false, true⟩ : AccountInfo), ⟨p.rewardMint, false, true⟩, ⟨V, false, true⟩,
      ⟨x.mining, false, true⟩, ⟨x.owner, true, true⟩, ⟨p.depositAuthority, true, true⟩, ⟨x.account, false, true⟩,
      ⟨env.tokenProgram, false, false⟩] := by
    intro a ha h
    simp only [List.mem_cons, List.not_mem_nil, or_false] at ha
    rcases ha with rfl | rfl | rfl | rfl | rfl | rfl | rfl | rfl <;> first | exact hx.owner | exact hA | cases h
  have hs2 : RealSigners [(⟨x.mining, false, true⟩ : AccountInfo), ⟨x.owner, true, true⟩, ⟨x.wallet, false, true⟩,
      ⟨p.depositAuthority, true, true⟩, ⟨P, false, true⟩] := by
    intro a ha h
    simp only [List.mem_cons, List.not_mem_nil, or_false] at ha
    rcases ha with rfl | rfl | rfl | rfl | rfl <;> first | exact hx.owner | exact hA | cases h
  have hc1 : NotPoolAsMining env s.world [(⟨P, false, true⟩ : AccountInfo), ⟨p.rewardMint, false, true⟩, ⟨V, false, true⟩,
      ⟨x.mining, false, true⟩, ⟨x.owner, true, true⟩, ⟨p.depositAuthority, true, true⟩, ⟨x.account, false, true⟩,
      ⟨env.tokenProgram, false, false⟩] .claim := by
    intro a ha q hq
    cases ha
    exact PoolAt.not_mining hq hm.1
  -- the keys
  have hVM : V ≠ x.mining := fun e => env.program_ne_token (hm.1.1.symm.trans (by rw [← e]; exact hv.vault.1))
  have hUM : x.account ≠ x.mining := fun e => env.program_ne_token (hm.1.1.symm.trans (by rw [← e]; exact hu.1))
  have hGM : x.wallet ≠ x.mining := fun e => env.program_ne_system (hm.1.1.symm.trans (by rw [← e]; exact hx.wallet))
  have hGV : x.wallet ≠ V := fun e => env.token_ne_system (hv.vault.1.symm.trans (by rw [← e]; exact hx.wallet))
  have hGU : x.wallet ≠ x.account := fun e => env.token_ne_system (hu.1.symm.trans (by rw [← e]; exact hx.wallet))
  have hPM : P ≠ x.mining := fun e => PoolAt.not_mining hp (e ▸ hm.1)
  have hPV : P ≠ V := fun e => env.program_ne_token (hp.1.symm.trans (by rw [e]; exact hv.vault.1))
  have hPU : P ≠ x.account := fun e => env.program_ne_token (hp.1.symm.trans (by rw [e]; exact hu.1))
  -- the claim
  have ready : ClaimReady env s.world [⟨P, false, true⟩, ⟨p.rewardMint, false, true⟩, ⟨V, false, true⟩,
      ⟨x.mining, false, true⟩, ⟨x.owner, true, true⟩, ⟨p.depositAuthority, true, true⟩, ⟨x.account, false, true⟩,
      ⟨env.tokenProgram, false, false⟩] ⟨P, false, true⟩ ⟨p.rewardMint, false, true⟩ ⟨V, false, true⟩
      ⟨x.mining, false, true⟩ ⟨x.owner, true, true⟩ ⟨p.depositAuthority, true, true⟩ ⟨x.account, false, true⟩
      ⟨env.tokenProgram, false, false⟩ [] p m t u := by
    refine ⟨rfl, hp, ⟨rfl, hT⟩, ⟨hV, hv.vault⟩, hm, ⟨hmo.symm, rfl⟩, ⟨rfl, rfl⟩, hv.single, ⟨hu, huo⟩, rfl,
      ⟨hv.usable.1, huf, hv.usable.2, hum.symm, hv.owner.1, hv.owner.2, hua, hl⟩, ?_⟩
    intro a ha h
    simp only [List.mem_cons, List.not_mem_nil, or_false] at ha
    rcases ha with rfl | rfl | rfl | rfl | rfl | rfl | rfl | rfl <;> try rfl
    rcases h with h | h | h
    · exact absurd h.symm hv.notProgram
    · exact absurd h.symm hx.notProgram.1
    · exact absurd h.symm hx.notProgram.2
  obtain ⟨w1, n, hx1, -⟩ := C63_claim hi hg hr hn rfl rfl ready
  obtain ⟨P1, T1, V1, M1, O1, A1, U1, rest1, p1, m0, c, e, c1, c2, c3, c4, c5, -, -, c6, c7, -⟩ :=
    C01_claim_exact hw hs1 hc1 hx1
  cases e
  obtain rfl := PoolAt.unique hp c1
  obtain rfl := MiningAt.unique hm.1 c2
  obtain ⟨b1, b2, b3, b4, b5⟩ := claim_accounts hx1 hv.vault hu (Ne.symm hx.other) hv.owner.2 hv.usable.2
  simp only at b1 b2 b3 b4 b5 c6 c7
  have hnc : n = m.unclaimed + c := by simpa using c5
  have h1 : HonestRun env P V s0 (es ++ [.ix [⟨P, false, true⟩, ⟨p.rewardMint, false, true⟩, ⟨V, false, true⟩,
      ⟨x.mining, false, true⟩, ⟨x.owner, true, true⟩, ⟨p.depositAuthority, true, true⟩, ⟨x.account, false, true⟩,
      ⟨env.tokenProgram, false, false⟩] .claim]) { s with world := w1 } L := by
    rw [← apply_ix_ok hx1]
    exact hr.snoc hs1 ⟨hc1, Or.inl ⟨⟨_, hx1⟩, .service rfl⟩⟩ fun _ =>
      ⟨fun _ h => (by cases h), fun _ M D p _ h => (by cases h), fun _ M D _ h => (by cases h), nofun⟩
  -- the closing
  generalize hm' : ({ m with index := indexBefore p.cumulative s.now
                             share := m.share - dueBy m.diffs (midnight s.now)
                             unclaimed := 0
                             diffs := laterThan m.diffs (midnight s.now) } : Mining) = m' at c6
  have e1 : m'.owner = m.owner := by rw [← hm']
  have e2 : m'.rewardPool = m.rewardPool := by rw [← hm']
  have e3 : m'.stakeFromOthers = m.stakeFromOthers := by rw [← hm']
  have hp1 : PoolAt env w1 P p := by unfold PoolAt; rw [c7]; exact hp
  have hc2 : NotPoolAsMining env w1 [(⟨x.mining, false, true⟩ : AccountInfo), ⟨x.owner, true, true⟩,
      ⟨x.wallet, false, true⟩, ⟨p.depositAuthority, true, true⟩, ⟨P, false, true⟩] .closeMining := by
    intro a ha q hq
    cases ha
    exact PoolAt.not_mining hq c6
  have hG1 : w1 x.wallet = s.world x.wallet := b5 _ hGM hGV hGU
  have ready2 : CloseReady env w1 [⟨x.mining, false, true⟩, ⟨x.owner, true, true⟩, ⟨x.wallet, false, true⟩,
      ⟨p.depositAuthority, true, true⟩, ⟨P, false, true⟩] ⟨x.mining, false, true⟩ ⟨x.owner, true, true⟩
      ⟨x.wallet, false, true⟩ ⟨p.depositAuthority, true, true⟩ ⟨P, false, true⟩ [] p m' := by
    refine ⟨rfl, hp1, ⟨c6, e2.trans hm.2⟩, ⟨(e1.trans hmo).symm, rfl⟩, ⟨rfl, rfl⟩, ⟨by rw [hG1]; exact hx.wallet, by rw [hG1, b4]; exact hrent⟩,
      ?_⟩
    intro a ha _
    simp only [List.mem_cons, List.not_mem_nil, or_false] at ha
    rcases ha with rfl | rfl | rfl | rfl | rfl <;> rfl
  obtain ⟨w2, hx2⟩ := C58_close_after_claim hw hs1 hc1 hx1 rfl ready2 (e3.trans hsfo)
  have hw1 : Wf env s.now w1 := reachable_wf (s := { s with world := w1 }) ⟨s0, _, hg, h1.ledger.clean⟩
  obtain ⟨M2, G2, P2, m2, p2, d1, d2, d3, -, -, -, -, -, -, -, -, -, d4, d5, d6⟩ := C34_close hw1 hs2 hc2 hx2
  cases d1
  cases d2
  have h2 := h1.snoc (e := .ix [⟨x.mining, false, true⟩, ⟨x.owner, true, true⟩, ⟨x.wallet, false, true⟩,
      ⟨p.depositAuthority, true, true⟩, ⟨P, false, true⟩] .closeMining) (L' := L) hs2
    ⟨hc2, Or.inl ⟨⟨_, hx2⟩, .close fun y hy _ => hL y hy⟩⟩ fun _ =>
      ⟨fun _ h => (by cases h), fun _ M D p _ h => (by cases h), fun _ M D _ h => (by cases h), nofun⟩
  rw [apply_ix_ok hx2, List.append_assoc] at h2
  refine ⟨n, m, w2, hm, ?_, ?_, h2, ?_, b1, ?_, ?_, ?_, ?_, ?_⟩
  · rw [hnc, Nat.mul_add]; omega
  · rw [hnc]
    have e : 10 ^ 16 * (m.unclaimed + c + expiredCount m (midnight s.now) + 1) =
        10 ^ 16 * m.unclaimed + 10 ^ 16 * (c + expiredCount m (midnight s.now) + 1) := by
      rw [← Nat.mul_add]; congr 1; omega
    rw [e]
    omega
  · refine .cons hs1 (by simp only [SucceedingEvent, succeeded, hx1]) ?_
    rw [apply_ix_ok hx1]
    refine .cons hs2 (by simp only [SucceedingEvent, succeeded, hx2]) ?_
    rw [apply_ix_ok hx2]
    exact .nil _
  · rw [d6 V hVM (Ne.symm hGV), b2]
  · intro u' hu'
    rw [TokenAt.unique hu' hu, d6 _ hUM (Ne.symm hGU), b3]
  · rw [d4]
    exact ⟨c6.1.trans hm.1.1.symm, rfl, rfl⟩
  · rw [d5, hG1, b4]
  · intro k k1 k2 k3 k4
    rw [d6 k k1 k4, b5 k k1 k2 k3]

/-- What the wallet `k` receives in rent. -/
theorem rent_le {w : World} {xs : List Leaver} {k : Key} : rentTo w xs k ≤ rentOf w xs := by
  unfold rentTo rentOf
  induction xs with
  | nil => exact Nat.le_refl _
  | cons x xs ih =>
    simp only [List.map_cons, List.sum_cons]
    split <;> omega

theorem rentOf_congr {w w' : World} {xs : List Leaver} (h : ∀ x ∈ xs, (w' x.mining).lamports = (w x.mining).lamports) :
    rentOf w' xs = rentOf w xs := by
  unfold rentOf
  congr 1
  exact List.map_congr_left h

theorem rentTo_congr {w w' : World} {xs : List Leaver} {k : Key}
    (h : ∀ x ∈ xs, (w' x.mining).lamports = (w x.mining).lamports) : rentTo w' xs k = rentTo w xs k := by
  unfold rentTo
  congr 1
  refine List.map_congr_left fun x hx => ?_
  rw [h x hx]

theorem receipts_congr {n n' : Key → Nat} {xs : List Leaver} {k : Key} (h : ∀ x ∈ xs, n' x.mining = n x.mining) :
    receipts n' xs k = receipts n xs k := by
  unfold receipts
  congr 1
  refine List.map_congr_left fun x hx => ?_
  rw [h x hx]

/-- All stakers leave, one after the other. -/
theorem leave_all (hi : env.PdaInjective) {P V : Key} {s0 : Chain} {L : Ledger} (hg : Genesis env s0)
    (hL : ∀ y ∈ L, y.amount = 0) {p : Pool} (hV : env.findVault P p.rewardMint = some (V, p.bump))
    (hA : p.depositAuthority ≠ 0) {xs : List Leaver} {es : List Event} {s : Chain} {t : TokenAcc}
    (hr : HonestRun env P V s0 es s L) (hn : s.now < 2 ^ 64) (hp : PoolAt env s.world P p)
    (hT : (s.world p.rewardMint).owner = env.tokenProgram) (hv : UsableVault env s.world V p.depositAuthority t)
    (hnd : (xs.map (·.mining)).Nodup) (hx : ∀ x ∈ xs, CanLeave env s.world P V t x)
    (hrent : ∀ x ∈ xs, (s.world x.wallet).lamports + rentOf s.world xs < 2 ^ 64)
    (hl : ∀ x ∈ xs, (s.world x.account).lamports < 2 ^ 64) :
    ∃ n w2, HonestRun env P V s0 (es ++ xs.flatMap (leave env P V p.rewardMint p.depositAuthority)) { s with world := w2 } L ∧
      RunsWith env (SucceedingEvent env) s (xs.flatMap (leave env P V p.rewardMint p.depositAuthority))
        { s with world := w2 } ∧
      (∀ x ∈ xs, ∃ m, Member env s.world P x.mining m ∧
        10 ^ 16 * n x.mining ≤ 10 ^ 16 * m.unclaimed + entitlement m p.cumulative s.now ∧
        10 ^ 16 * m.unclaimed + entitlement m p.cumulative s.now <
          10 ^ 16 * (n x.mining + expiredCount m (midnight s.now) + 1)) ∧
      balance w2 V + (xs.map fun x => n x.mining).sum = balance s.world V ∧
      (∀ k, k ≠ V → balance w2 k = balance s.world k + receipts n xs k) ∧
      (∀ x ∈ xs, (w2 x.mining).lamports = 0 ∧ (w2 x.mining).content = .zero) ∧
      (∀ k, (∀ x ∈ xs, k ≠ x.mining) → (w2 k).lamports = (s.world k).lamports + rentTo s.world xs k) ∧
      (∀ k, (s.world k).owner = env.programId → (∀ x ∈ xs, k ≠ x.mining) → w2 k = s.world k) ∧
      PoolAt env w2 P p ∧
      (∀ k m, Member env w2 P k m → Member env s.world P k m ∧ ∀ x ∈ xs, k ≠ x.mining) := by
  induction xs generalizing es s t with
  | nil =>
    refine ⟨fun _ => 0, s.world, ?_, ?_, nofun, rfl, fun _ _ => rfl, nofun, fun _ _ => rfl, fun _ _ _ => rfl, hp, fun k m h => ⟨h, nofun⟩⟩
    · rw [List.flatMap_nil, List.append_nil]; exact hr
    · exact .nil _
  | cons x xs ih =>
    have hrent' : ∀ y ∈ x :: xs, (s.world y.wallet).lamports + ((s.world x.mining).lamports + rentOf s.world xs) < 2 ^ 64 :=
      hrent
    rw [List.map_cons, List.nodup_cons] at hnd
    have hdiff : ∀ y ∈ xs, y.mining ≠ x.mining := fun y hy e => hnd.1 (List.mem_map.mpr ⟨y, hy, e⟩)
    have hcx := hx x (by simp)
    obtain ⟨n0, m0, w1, g1, g2, g3, g4, g5, g6, g7, g8, ⟨g9, g10, g11⟩, g12, g13⟩ := leave_step hi hg hr hn hL hp hV hA hT hv
      hcx (by have := hrent' x (by simp); omega) (hl x (by simp))
    obtain ⟨u, hu, -⟩ := hcx.account
    have hu1 := g8 u hu
    have hGM : x.wallet ≠ x.mining := fun e => env.program_ne_system (g1.1.1.symm.trans (by rw [← e]; exact hcx.wallet))
    have hVM : V ≠ x.mining := fun e => env.program_ne_token (g1.1.1.symm.trans (by rw [← e]; exact hv.vault.1))
    have hUM : x.account ≠ x.mining := fun e => env.program_ne_token (g1.1.1.symm.trans (by rw [← e]; exact hu.1))
    have hGV : x.wallet ≠ V := fun e => env.token_ne_system (hv.vault.1.symm.trans (by rw [← e]; exact hcx.wallet))
    have hGU : x.wallet ≠ x.account := fun e => env.token_ne_system (hu.1.symm.trans (by rw [← e]; exact hcx.wallet))
    -- accounts of the program other than the closed mining stay as they are
    have prog : ∀ k, (s.world k).owner = env.programId → k ≠ x.mining → w1 k = s.world k := by
      intro k hk hne
      refine g13 k hne ?_ ?_ ?_ <;> intro e
      · exact env.program_ne_token (hk.symm.trans (by rw [e]; exact hv.vault.1))
      · exact env.program_ne_token (hk.symm.trans (by rw [e]; exact hu.1))
      · exact env.program_ne_system (hk.symm.trans (by rw [e]; exact hcx.wallet))
    have owners : ∀ k, (w1 k).owner = (s.world k).owner := by
      intro k
      by_cases k1 : k = x.mining
      · rw [k1]; exact g9
      by_cases k2 : k = V
      · rw [k2, g7]
      by_cases k3 : k = x.account
      · rw [k3, hu1]
      by_cases k4 : k = x.wallet
      · rw [k4, g12]
      · rw [g13 k k1 k2 k3 k4]
    have lens : ∀ k, k ≠ x.mining → (w1 k).len = (s.world k).len := by
      intro k k1
      by_cases k2 : k = V
      · rw [k2, g7]
      by_cases k3 : k = x.account
      · rw [k3, hu1]
      by_cases k4 : k = x.wallet
      · rw [k4, g12]
      · rw [g13 k k1 k2 k3 k4]
    have lam : ∀ k, k ≠ x.mining → (w1 k).lamports =
        (s.world k).lamports + if x.wallet = k then (s.world x.mining).lamports else 0 := by
      intro k k1
      by_cases k4 : k = x.wallet
      · rw [k4, g12, if_pos rfl]
      rw [if_neg (Ne.symm k4), Nat.add_zero]
      by_cases k2 : k = V
      · rw [k2, g7]
      by_cases k3 : k = x.account
      · rw [k3, hu1]
      · rw [g13 k k1 k2 k3 k4]
    have bal : ∀ k, k ≠ V → balance w1 k = balance s.world k + if x.account = k then n0 else 0 := by
      intro k k2
      by_cases k3 : x.account = k
      · rw [if_pos k3, ← k3]
        unfold balance
        rw [hu1, hu.2]
      rw [if_neg k3, Nat.add_zero]
      by_cases k1 : k = x.mining
      · unfold balance
        rw [k1, g11, g1.1.2]
      by_cases k4 : k = x.wallet
      · exact balance_congr (by rw [k4, g12])
      · rw [balance_congr (by rw [g13 k k1 k2 (Ne.symm k3) k4])]
    have balV : balance w1 V + n0 = balance s.world V := by
      rw [TokenAt.balance hv.vault]
      unfold balance
      rw [g7]
      exact Nat.sub_add_cancel g6
    have hp1 : PoolAt env w1 P p := by
      unfold PoolAt
      rw [prog P hp.1 fun e => PoolAt.not_mining hp (e ▸ g1.1)]
      exact hp
    have mem : ∀ k m, k ≠ x.mining → (Member env w1 P k m ↔ Member env s.world P k m) := by
      intro k m hk
      constructor
      · intro h
        have h1 : (s.world k).owner = env.programId := (owners k).symm.trans h.1.1
        unfold Member MiningAt at h
        rw [prog k h1 hk] at h
        exact h
      · intro h
        unfold Member MiningAt
        rw [prog k h.1.1 hk]
        exact h
    have hv1 : UsableVault env w1 V p.depositAuthority { t with amount := t.amount - n0 } :=
      ⟨⟨by rw [g7]; exact hv.vault.1, by rw [g7]⟩, hv.usable, hv.owner, hv.notProgram, fun h => by
        by_cases k1 : p.depositAuthority = x.mining
        · rw [k1, g9] at h
          exact env.program_ne_token (g1.1.1.symm.trans h.1)
        · rw [owners, lens _ k1] at h
          exact hv.single h⟩
    have hcan : ∀ y ∈ xs, CanLeave env w1 P V { t with amount := t.amount - n0 } y := by
      intro y hy
      have hcy := hx y (by simp [hy])
      obtain ⟨m, hm, hmo⟩ := hcy.mining
      obtain ⟨v, k1, k2, k3, k4, k5⟩ := hcy.account
      refine ⟨⟨m, (mem _ m (hdiff y hy)).mpr hm, hmo⟩, hcy.owner, ?_, hcy.other, hcy.notProgram,
        (owners _).trans hcy.wallet⟩
      by_cases e : y.account = x.account
      · rw [e] at k1
        obtain rfl := TokenAt.unique hu k1
        refine ⟨{ u with amount := u.amount + n0 }, ?_, k2, k3, k4, ?_⟩
        · rw [e]
          exact ⟨by rw [owners]; exact hu.1, by rw [hu1]⟩
        · show t.amount - n0 + (u.amount + n0) < 2 ^ 64
          omega
      · refine ⟨v, ?_, k2, k3, k4, ?_⟩
        · have : w1 y.account = s.world y.account := by
            refine g13 _ ?_ hcy.other e ?_ <;> intro e'
            · exact env.program_ne_token (g1.1.1.symm.trans (by rw [← e']; exact k1.1))
            · exact env.token_ne_system (k1.1.symm.trans (by rw [e']; exact hcx.wallet))
          unfold TokenAt
          rw [this]
          exact k1
        · show t.amount - n0 + v.amount < 2 ^ 64
          omega
    have hmin : ∀ y ∈ xs, (w1 y.mining).lamports = (s.world y.mining).lamports := by
      intro y hy
      obtain ⟨m, hm, -⟩ := (hx y (by simp [hy])).mining
      rw [prog _ hm.1.1 (hdiff y hy)]
    obtain ⟨n1, w2, f1, f2, f3, f4, f5, f6, f7, f10, f8, f9⟩ := ih (es := es ++ leave env P V p.rewardMint p.depositAuthority x)
      (s := { s with world := w1 }) g4 hn hp1 ((owners _).trans hT) hv1 hnd.2 hcan (by
        intro y hy
        have h1 := hrent' y (by simp [hy])
        have hyM : y.wallet ≠ x.mining := fun e =>
          env.program_ne_system (g1.1.1.symm.trans (by rw [← e]; exact (hx y (by simp [hy])).wallet))
        show (w1 y.wallet).lamports + rentOf w1 xs < 2 ^ 64
        rw [lam _ hyM, rentOf_congr hmin]
        split <;> omega) (by
        intro y hy
        obtain ⟨v, k1, -⟩ := (hx y (by simp [hy])).account
        have hyM : y.account ≠ x.mining := fun e => env.program_ne_token (g1.1.1.symm.trans (by rw [← e]; exact k1.1))
        have hyG : x.wallet ≠ y.account := fun e => env.token_ne_system (k1.1.symm.trans (by rw [← e]; exact hcx.wallet))
        show (w1 y.account).lamports < 2 ^ 64
        rw [lam _ hyM, if_neg hyG]
        exact hl y (by simp [hy]))
    simp only at f4 f5 f7 f9 f10
    have hn1 : ∀ y ∈ xs, (fun k => if k = x.mining then n0 else n1 k) y.mining = n1 y.mining := fun y hy =>
      if_neg (hdiff y hy)
    refine ⟨fun k => if k = x.mining then n0 else n1 k, w2, ?_, g5.append f2, ?_, ?_, ?_, ?_, ?_, ?_, f8, ?_⟩
    · rw [List.flatMap_cons, ← List.append_assoc]; exact f1
    · intro y hy
      rcases List.mem_cons.mp hy with rfl | hy
      · simp only [if_true]
        exact ⟨m0, g1, g2, g3⟩
      · obtain ⟨m, h1, h2, h3⟩ := f3 y hy
        simp only [if_neg (hdiff y hy)]
        exact ⟨m, (mem _ m (hdiff y hy)).mp h1, h2, h3⟩
    · rw [List.map_cons, List.sum_cons, List.map_congr_left hn1]
      simp only [if_true]
      omega
    · intro k hk
      rw [f5 k hk, bal k hk]
      unfold receipts
      rw [List.map_cons, List.sum_cons]
      have : receipts (fun k => if k = x.mining then n0 else n1 k) xs k = receipts n1 xs k := receipts_congr hn1
      unfold receipts at this
      rw [this]
      simp only [if_true]
      omega
    · intro y hy
      rcases List.mem_cons.mp hy with rfl | hy
      · rw [f10 _ ((owners _).trans g1.1.1) fun z hz => Ne.symm (hdiff z hz)]
        exact ⟨g10, g11⟩
      · exact f6 y hy
    · intro k hk
      rw [f7 k fun y hy => hk y (by simp [hy]), lam k (hk x (by simp)), rentTo_congr hmin]
      unfold rentTo
      rw [List.map_cons, List.sum_cons]
      omega
    · intro k hk hne
      rw [f10 k ((owners k).trans hk) fun y hy => hne y (by simp [hy])]
      exact prog k hk (hne x (by simp))
    · intro k m h
      obtain ⟨h1, h2⟩ := f9 k m h
      by_cases e : k = x.mining
      · rw [e] at h1
        have := h1.1.2
        rw [g11] at this
        cases this
      · exact ⟨(mem k m e).mp h1, fun y hy => by
          rcases List.mem_cons.mp hy with rfl | hy
          · exact e
          · exact h2 y hy⟩

end Verif
