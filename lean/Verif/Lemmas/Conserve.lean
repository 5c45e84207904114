import Verif.Lemmas.Transfer
import Verif.Spec.Access
/-!
What any successful instruction does to owner, lamports and length of accounts, in arbitrary states.
-/

namespace Verif

open Spec

variable {env : Env}

theorem sumOver_congr {f g : Key → Nat} {ks : List Key} (h : ∀ k ∈ ks, f k = g k) : sumOver f ks = sumOver g ks := by
  unfold sumOver
  rw [List.map_congr_left h]

theorem sumOver_one {f g : Key → Nat} {ks : List Key} (hn : ks.Nodup) {a : Key} (ha : a ∈ ks)
    (h : ∀ k, k ≠ a → f k = g k) : sumOver f ks + g a = sumOver g ks + f a := by
  induction ks with
  | nil => cases ha
  | cons x t ih =>
    rw [List.nodup_cons] at hn
    have e : ∀ f : Key → Nat, sumOver f (x :: t) = f x + sumOver f t := fun f => by simp [sumOver]
    rw [e f, e g]
    rcases List.mem_cons.mp ha with rfl | ht
    · have : sumOver f t = sumOver g t := sumOver_congr fun k hk => h k (by rintro rfl; exact hn.1 hk)
      omega
    · have h1 := ih hn.2 ht
      have h2 := h x (by rintro rfl; exact hn.1 ht)
      omega

theorem sumOver_two {f g : Key → Nat} {ks : List Key} (hn : ks.Nodup) {a b : Key} (ha : a ∈ ks) (hb : b ∈ ks)
    (hab : a ≠ b) (h : ∀ k, k ≠ a → k ≠ b → f k = g k) (hs : f a + f b = g a + g b) : sumOver f ks = sumOver g ks := by
  have h1 := sumOver_one (f := fun k => if k = a then f a else g k) (g := g) hn ha (fun k hk => by simp [hk])
  have h2 := sumOver_one (f := f) (g := fun k => if k = a then f a else g k) hn hb (fun k hk => by
    by_cases e : k = a
    · simp [e]
    · simp [e, h k e hk])
  simp only [if_neg (Ne.symm hab), if_true] at h1 h2
  omega

/-- Only data of listed accounts of the program is written. -/
structure DataWrite (env : Env) (accs : List AccountInfo) (w w' : World) : Prop where
  shell : ∀ k, (w' k).owner = (w k).owner ∧ (w' k).lamports = (w k).lamports ∧ (w' k).len = (w k).len
  listed : ∀ k, w' k ≠ w k → k ∈ accs.map (·.key) ∧ (w k).owner = env.programId

theorem DataWrite.refl (accs : List AccountInfo) (w : World) : DataWrite env accs w w :=
  ⟨fun _ => ⟨rfl, rfl, rfl⟩, fun _ h => absurd rfl h⟩

theorem DataWrite.trans {accs : List AccountInfo} {w w1 w2 : World} (h1 : DataWrite env accs w w1)
    (h2 : DataWrite env accs w1 w2) : DataWrite env accs w w2 := by
  refine ⟨fun k => ?_, fun k hk => ?_⟩
  · obtain ⟨a1, a2, a3⟩ := h1.shell k
    obtain ⟨b1, b2, b3⟩ := h2.shell k
    exact ⟨b1.trans a1, b2.trans a2, b3.trans a3⟩
  · by_cases e : w2 k = w1 k
    · exact h1.listed k (by rw [← e]; exact hk)
    · obtain ⟨b1, b2⟩ := h2.listed k e
      exact ⟨b1, (h1.shell k).1 ▸ b2⟩

theorem dataWrite_set {accs : List AccountInfo} {w : World} {k : Key} {a : Account} (hk : k ∈ accs.map (·.key))
    (ho : (w k).owner = env.programId)
    (ha : a.owner = (w k).owner ∧ a.lamports = (w k).lamports ∧ a.len = (w k).len) :
    DataWrite env accs w (w.set k a) := by
  refine ⟨fun j => ?_, fun j hj => ?_⟩
  · by_cases e : j = k
    · subst e; rw [world_set_same]; exact ha
    · rw [world_set_ne _ _ e]; exact ⟨rfl, rfl, rfl⟩
  · by_cases e : j = k
    · subst e; exact ⟨hk, ho⟩
    · rw [world_set_ne _ _ e] at hj; exact absurd rfl hj

theorem dataWrite_putPool {accs : List AccountInfo} {w : World} {k : Key} (p : Pool) (hk : k ∈ accs.map (·.key))
    (ho : (w k).owner = env.programId) : DataWrite env accs w (putPool w k p) :=
  dataWrite_set hk ho ⟨rfl, rfl, rfl⟩

theorem dataWrite_putMining {accs : List AccountInfo} {w : World} {k : Key} (m : Mining) (hk : k ∈ accs.map (·.key))
    (ho : (w k).owner = env.programId) : DataWrite env accs w (putMining env w k m) := by
  refine dataWrite_set hk ho ?_
  unfold storeMining
  split
  · exact ⟨rfl, rfl, rfl⟩
  · split <;> exact ⟨rfl, rfl, rfl⟩

theorem dataWrite_putDelegate {accs : List AccountInfo} {w : World} {k : Key} (m : Option Mining)
    (hk : k ∈ accs.map (·.key)) (ho : (w k).owner = env.programId) : DataWrite env accs w (putDelegate env w k m) := by
  cases m with
  | none => exact .refl _ _
  | some m => exact dataWrite_putMining m hk ho

theorem StakeCall.dataWrite {w : World} {accs : List AccountInfo} {owner delegate : Key} {P M A D : AccountInfo}
    {p : Pool} {m : Mining} {d : Option Mining} (h : StakeCall env w accs owner delegate P M A D p m d) (p' : Pool)
    (m' : Mining) (d' : Option Mining) :
    DataWrite env accs w (putDelegate env (putMining env (putPool w P.key p') M.key m') D.key d') := by
  obtain ⟨rest, rfl⟩ := h.accs_eq
  have h1 : DataWrite env (P :: M :: A :: D :: rest) w (putPool w P.key p') := dataWrite_putPool p' (by simp) h.pool_owned
  have h2 := h1.trans (dataWrite_putMining m' (k := M.key) (by simp) ((h1.shell _).1.trans h.mining_owned))
  exact h2.trans (dataWrite_putDelegate d' (by simp) ((h2.shell _).1.trans h.del_owned))

/-- The effect of a successful instruction on everything but the program's own data. -/
inductive Outer (env : Env) (accs : List AccountInfo) (w w' : World) : Ix → Prop
  | data {i : Ix} (write : DataWrite env accs w w') : Outer env accs w w' i
  | transfer {i : Ix} {w1 : World} {S D F : AccountInfo} {n : Nat} (kind : movesTokens i = true)
      (write : DataWrite env accs w w1) (src : S ∈ accs) (dst : D ∈ accs) (auth : F ∈ accs) (signed : F.isSigner = true)
      (move : TransferEffect env w1 w' S.key D.key F.key n) : Outer env accs w w' i
  | create {i : Ix} {w1 : World} {Y T : AccountInfo} {n : Nat} (kind : movesLamports i = true)
      (payer : Y ∈ accs) (target : T ∈ accs) (ne : Y.key ≠ T.key) (payerOwner : (w Y.key).owner = env.systemProgram)
      (targetOwner : (w T.key).owner = env.systemProgram) (empty : (w T.key).lamports = 0)
      (enough : n ≤ (w Y.key).lamports) (after : (w1 Y.key).lamports = (w Y.key).lamports - n)
      (after' : (w1 T.key).lamports = n) (zero : tokens env w1 T.key = 0) (tok : tokens env w1 Y.key = 0)
      (frame : ∀ k, k ≠ Y.key → k ≠ T.key → w1 k = w k) (write : DataWrite env accs w1 w') : Outer env accs w w' i
  | close {M G : AccountInfo} (mining : M ∈ accs) (target : G ∈ accs) (ne : M.key ≠ G.key)
      (mOwner : (w M.key).owner = env.programId) (gOwner : (w G.key).owner = env.systemProgram)
      (mAfter : w' M.key = { w M.key with lamports := 0, content := .zero })
      (gAfter : w' G.key = { w G.key with lamports := (w G.key).lamports + (w M.key).lamports })
      (frame : ∀ k, k ≠ M.key → k ≠ G.key → w' k = w k) : Outer env accs w w' .closeMining

theorem tokens_of_owner {w : World} {k : Key} (h : (w k).owner ≠ env.tokenProgram) : tokens env w k = 0 := by
  unfold tokens; rw [if_neg h]

theorem DataWrite.tokens {accs : List AccountInfo} {w w' : World} (h : DataWrite env accs w w') (k : Key) :
    Spec.tokens env w' k = Spec.tokens env w k := by
  by_cases e : w' k = w k
  · unfold Spec.tokens balance; rw [e]
  · have h1 := (h.listed k e).2
    have h2 := (h.shell k).1
    rw [tokens_of_owner (w := w) (by rw [h1]; exact env.program_ne_token), tokens_of_owner (by
      rw [h2, h1]; exact env.program_ne_token)]

theorem outer_of_process {now : Nat} {w w' : World} {accs : List AccountInfo} {i : Ix} {ret : Option Nat}
    (h : process env now w accs i = .ok (w', ret)) : Outer env accs w w' i := by
  cases i with
  | initializePool f d =>
    simp only [process, res_bind_ok, res_pure_ok, Prod.mk.injEq] at h
    obtain ⟨w1, h, rfl, rfl⟩ := h
    obtain ⟨P, T, V, Y, A, R, K, S, rest, p, bump, wa, wb, rfl, h1, h2, h3, h4, h5, h6, h7, h8,
      h9, h10, h11, h12, h13, h14, h15, h16, rfl⟩ := processInitializePool_ok h
    rw [createAccount_ok] at h14
    obtain ⟨_, c1, c2, c3, c4, rfl⟩ := h14
    rw [initializeTokenAccount_ok] at h16
    obtain ⟨_, _, rfl⟩ := h16
    refine .create (Y := Y) (T := V) (n := env.rentMin TOKEN_LEN) rfl (by simp) (by simp) c1 c3.2 c2.2.2 c2.1 c4 ?_ ?_ ?_ ?_ ?_
      (dataWrite_putPool _ (by simp) ?_)
    · rw [world_set_ne _ _ c1, world_set_ne _ _ c1, world_set_same]
    · rw [world_set_same, world_set_same]
    · unfold tokens balance; rw [world_set_same]; simp
    · rw [tokens_of_owner]
      rw [world_set_ne _ _ c1, world_set_ne _ _ c1, world_set_same]
      show (w Y.key).owner ≠ _
      rw [c3.2]; exact fun e => env.token_ne_system e.symm
    · intro k k1 k2
      rw [world_set_ne _ _ k2, world_set_ne _ _ k2, world_set_ne _ _ k1]
    · rw [world_set_ne _ _ (Ne.symm h13.2), world_set_ne _ _ (Ne.symm h13.2), world_set_ne _ _ (Ne.symm h13.1)]
      exact h1
  | fillVault r e =>
    simp only [process, res_bind_ok, res_pure_ok, Prod.mk.injEq] at h
    obtain ⟨w1, h, rfl, rfl⟩ := h
    obtain ⟨P, T, V, F, S, K, rest, p, rfl, h1, h2, h3, h4, h5, h6, h7, h8, h9, h10, h11, h12, h13,
      h14, h15, h16, h17⟩ := processFillVault_ok h
    exact .transfer (S := S) (D := V) (F := F) rfl (dataWrite_putPool _ (by simp) h1) (by simp) (by simp) (by simp) h4
      (transfer_effect h17)
  | initializeMining o =>
    simp only [process, res_bind_ok, res_pure_ok, Prod.mk.injEq] at h
    obtain ⟨w1, h, rfl, rfl⟩ := h
    obtain ⟨P, M, Y, S, rest, bump, wa, rfl, h1, h2, h3, h4, h5, h6, rfl⟩ := processInitializeMining_ok h
    rw [createAccount_ok] at h6
    obtain ⟨_, c1, c2, c3, c4, rfl⟩ := h6
    refine .create (Y := Y) (T := M) (n := env.rentMin MINING_LEN) rfl (by simp) (by simp) c1 c3.2 c2.2.2 c2.1 c4 ?_ ?_ ?_ ?_ ?_
      (dataWrite_putMining _ (by simp) ?_)
    · rw [world_set_ne _ _ c1, world_set_same]
    · rw [world_set_same]
    · rw [tokens_of_owner]; rw [world_set_same]; exact env.program_ne_token
    · rw [tokens_of_owner]
      rw [world_set_ne _ _ c1, world_set_same]
      show (w Y.key).owner ≠ _
      rw [c3.2]; exact fun e => env.token_ne_system e.symm
    · intro k k1 k2
      rw [world_set_ne _ _ k2, world_set_ne _ _ k1]
    · rw [world_set_same]
  | depositMining a l o d =>
    simp only [process, res_bind_ok, res_pure_ok, Prod.mk.injEq] at h
    obtain ⟨w1, h, rfl, rfl⟩ := h
    obtain ⟨P, M, A, D, p, m, d, p', m', d', hc, _, rfl⟩ := processDepositMining_ok h
    exact .data (hc.dataWrite _ _ _)
  | withdrawMining a o d =>
    simp only [process, res_bind_ok, res_pure_ok, Prod.mk.injEq] at h
    obtain ⟨w1, h, rfl, rfl⟩ := h
    obtain ⟨P, M, A, D, p, m, d, p', m', d', hc, _, rfl⟩ := processWithdrawMining_ok h
    exact .data (hc.dataWrite _ _ _)
  | extendStake ol nl ts b a o d =>
    simp only [process, res_bind_ok, res_pure_ok, Prod.mk.injEq] at h
    obtain ⟨w1, h, rfl, rfl⟩ := h
    obtain ⟨P, M, A, D, p, m, d, p', m', d', hc, _, rfl⟩ := processExtendStake_ok h
    exact .data (hc.dataWrite _ _ _)
  | claim =>
    simp only [process, res_bind_ok, res_pure_ok, Prod.mk.injEq, Prod.exists] at h
    obtain ⟨w1, n, h, rfl, rfl⟩ := h
    obtain ⟨P, T, V, M, O, A, U, K, rest, ut, p, m, m1, rfl, h1, h2, h3, h4, h5, h6, h7, h8, h9, h10, h11, h12, h13, h14,
      h15, h16, h17, h18, h19, h20, h21, h22⟩ := processClaim_ok h
    rcases h22 with ⟨_, h22⟩ | ⟨_, rfl⟩
    · exact .transfer (S := V) (D := U) (F := A) rfl (dataWrite_putMining _ (by simp) h4) (by simp) (by simp) (by simp) h6
        (transfer_effect h22)
    · exact .data (dataWrite_putMining _ (by simp) h4)
  | distributeRewards =>
    simp only [process, res_bind_ok, res_pure_ok, Prod.mk.injEq] at h
    obtain ⟨w1, h, rfl, rfl⟩ := h
    obtain ⟨P, B, rest, p, p', r, rfl, h1, h2, h3, h4, h5, h6, h7, rfl⟩ := processDistributeRewards_ok h
    exact .data (dataWrite_putPool _ (by simp) h1)
  | closeMining =>
    simp only [process, res_bind_ok, res_pure_ok, Prod.mk.injEq] at h
    obtain ⟨w1, h, rfl, rfl⟩ := h
    obtain ⟨M, O, G, A, P, rest, p, m, m1, rfl, h1, h2, h3, h4, h5, h6, h7, h8, h9, h10, h11, h12, h13, h14, h15, h16,
      rfl⟩ := processCloseMining_ok h
    have hne : M.key ≠ G.key := by
      intro e; rw [e] at h1; exact env.program_ne_system (h1.symm.trans h3)
    refine .close (M := M) (G := G) (by simp) (by simp) hne h1 h3 ?_ ?_ ?_
    · rw [world_set_same]
    · rw [world_set_ne _ _ (Ne.symm hne), world_set_same]
    · intro k k1 k2; rw [world_set_ne _ _ k1, world_set_ne _ _ k2]
  | changeDelegate a nd =>
    simp only [process, res_bind_ok, res_pure_ok, Prod.mk.injEq] at h
    obtain ⟨w1, h, rfl, rfl⟩ := h
    obtain ⟨P, M, A, O, Old, New, rest, p, m, dn, od, p', m', dn', od', rfl, h1, h2, h3, h4, h5, h6, h7, h8, h9, h10, h11,
      h12, rfl⟩ := processChangeDelegate_ok h
    have a1 : DataWrite env (P :: M :: A :: O :: Old :: New :: rest) w (putPool w P.key p') :=
      dataWrite_putPool p' (by simp) h1
    have a2 := a1.trans (dataWrite_putMining m' (k := M.key) (by simp) ((a1.shell _).1.trans h2))
    have a3 := a2.trans (dataWrite_putDelegate od' (k := Old.key) (by simp) ((a2.shell _).1.trans h5))
    exact .data (a3.trans (dataWrite_putDelegate dn' (by simp) ((a3.shell _).1.trans h6)))
  | slash o n mu ex =>
    simp only [process, res_bind_ok, res_pure_ok, Prod.mk.injEq] at h
    obtain ⟨w1, h, rfl, rfl⟩ := h
    obtain ⟨A, P, M, rest, p, m, p', m', rfl, h1, h2, h3, h4, h5, h6, rfl⟩ := processSlash_ok h
    have a1 : DataWrite env (A :: P :: M :: rest) w (putPool w P.key p') := dataWrite_putPool p' (by simp) h2
    exact .data (a1.trans (dataWrite_putMining m' (k := M.key) (by simp) ((a1.shell _).1.trans h3)))
  | decreaseRewards o n =>
    simp only [process, res_bind_ok, res_pure_ok, Prod.mk.injEq] at h
    obtain ⟨w1, h, rfl, rfl⟩ := h
    obtain ⟨A, P, M, rest, p, m, m', rfl, h1, h2, h3, h4, h5, h6, rfl⟩ := processDecreaseRewards_ok h
    exact .data (dataWrite_putMining m' (by simp) h3)

/-- Accounts that change were listed. -/
theorem Outer.listed {w w' : World} {accs : List AccountInfo} {i : Ix} (h : Outer env accs w w' i) {k : Key}
    (hk : w' k ≠ w k) : k ∈ accs.map (·.key) := by
  cases h with
  | data write => exact (write.listed k hk).1
  | @transfer _ w1 S D F n kind write src dst auth signed move =>
    by_cases e1 : k = S.key
    · rw [e1]; exact List.mem_map_of_mem src
    by_cases e2 : k = D.key
    · rw [e2]; exact List.mem_map_of_mem dst
    · rw [move.frame k e1 e2] at hk; exact (write.listed k hk).1
  | @create _ w1 Y T n kind payer target ne payerOwner targetOwner empty enough after after' zero tok frame write =>
    by_cases e1 : k = Y.key
    · rw [e1]; exact List.mem_map_of_mem payer
    by_cases e2 : k = T.key
    · rw [e2]; exact List.mem_map_of_mem target
    · rw [← frame k e1 e2] at hk; exact (write.listed k hk).1
  | @close M G mining target ne mOwner gOwner mAfter gAfter frame =>
    by_cases e1 : k = M.key
    · rw [e1]; exact List.mem_map_of_mem mining
    by_cases e2 : k = G.key
    · rw [e2]; exact List.mem_map_of_mem target
    · exact absurd (frame k e1 e2) hk

theorem TransferEffect.tokens {w w' : World} {S D F : Key} {n : Nat} (h : TransferEffect env w w' S D F n) :
    (S = D ∧ w' = w) ∨ (S ≠ D ∧ Spec.tokens env w' S + n = Spec.tokens env w S ∧
      Spec.tokens env w' D = Spec.tokens env w D + n) := by
  obtain ⟨t, t', h1, h2, -⟩ := h.srcTok
  obtain ⟨d, d', h3, h4, -⟩ := h.dstTok
  rcases h.moved with ⟨rfl, e⟩ | ⟨hne, m1, m2, m3⟩
  · refine Or.inl ⟨rfl, funext fun k => ?_⟩
    by_cases ek : k = S
    · rw [ek]; exact e
    · exact h.frame k ek ek
  · refine Or.inr ⟨hne, ?_, ?_⟩
    · unfold Spec.tokens; rw [if_pos h1.1, if_pos h2.1]; omega
    · unfold Spec.tokens; rw [if_pos h3.1, if_pos h4.1]; omega

/-- Sums of lamports. -/
theorem Outer.lamports {w w' : World} {accs : List AccountInfo} {i : Ix} (h : Outer env accs w w' i) {ks : List Key}
    (hn : ks.Nodup) (hc : ∀ a ∈ accs, a.key ∈ ks) :
    sumOver (fun k => (w' k).lamports) ks = sumOver (fun k => (w k).lamports) ks := by
  cases h with
  | data write => exact sumOver_congr fun k _ => (write.shell k).2.1
  | @transfer _ w1 S D F n kind write src dst auth signed move =>
    have e1 : sumOver (fun k => (w1 k).lamports) ks = sumOver (fun k => (w k).lamports) ks :=
      sumOver_congr fun k _ => (write.shell k).2.1
    rw [← e1]
    rcases move.moved with ⟨e, h2⟩ | ⟨hne, -⟩
    · refine sumOver_congr fun k _ => ?_
      by_cases ek : k = S.key
      · rw [ek, h2]
      · rw [move.frame k ek (by rw [← e]; exact ek)]
    · refine sumOver_two hn (hc _ src) (hc _ dst) hne (fun k k1 k2 => by rw [move.frame k k1 k2]) ?_
      have := move.lamports
      omega
  | @create _ w1 Y T n kind payer target ne payerOwner targetOwner empty enough after after' zero tok frame write =>
    have e1 : sumOver (fun k => (w' k).lamports) ks = sumOver (fun k => (w1 k).lamports) ks :=
      sumOver_congr fun k _ => (write.shell k).2.1
    rw [e1]
    exact sumOver_two hn (hc _ payer) (hc _ target) ne (fun k k1 k2 => by rw [frame k k1 k2]) (by omega)
  | @close M G mining target ne mOwner gOwner mAfter gAfter frame =>
    exact sumOver_two hn (hc _ mining) (hc _ target) ne (fun k k1 k2 => by rw [frame k k1 k2])
      (by rw [mAfter, gAfter]; simp only; omega)

/-- Token amounts of single accounts. -/
theorem Outer.tokens_same {w w' : World} {accs : List AccountInfo} {i : Ix} (h : Outer env accs w w' i)
    (hi : movesTokens i = false) (k : Key) : tokens env w' k = tokens env w k := by
  cases h with
  | data write => exact write.tokens k
  | transfer kind => rw [kind] at hi; cases hi
  | @create _ w1 Y T n kind payer target ne payerOwner targetOwner empty enough after after' zero tok frame write =>
    have hs : env.systemProgram ≠ env.tokenProgram := fun e => env.token_ne_system e.symm
    rw [write.tokens k]
    by_cases e1 : k = Y.key
    · rw [e1, tok, tokens_of_owner (by rw [payerOwner]; exact hs)]
    by_cases e2 : k = T.key
    · rw [e2, zero, tokens_of_owner (by rw [targetOwner]; exact hs)]
    · unfold tokens balance; rw [frame k e1 e2]
  | @close M G mining target ne mOwner gOwner mAfter gAfter frame =>
    have hs : env.systemProgram ≠ env.tokenProgram := fun e => env.token_ne_system e.symm
    by_cases e1 : k = M.key
    · rw [e1, tokens_of_owner (by rw [mAfter]; show (w M.key).owner ≠ _; rw [mOwner]; exact env.program_ne_token),
        tokens_of_owner (by rw [mOwner]; exact env.program_ne_token)]
    by_cases e2 : k = G.key
    · rw [e2, tokens_of_owner (by rw [gAfter]; show (w G.key).owner ≠ _; rw [gOwner]; exact hs),
        tokens_of_owner (by rw [gOwner]; exact hs)]
    · unfold tokens balance; rw [frame k e1 e2]

/-- Sums of token amounts. -/
theorem Outer.tokens_sum {w w' : World} {accs : List AccountInfo} {i : Ix} (h : Outer env accs w w' i) {ks : List Key}
    (hn : ks.Nodup) (hc : ∀ a ∈ accs, a.key ∈ ks) : sumOver (tokens env w') ks = sumOver (tokens env w) ks := by
  by_cases hi : movesTokens i = false
  · exact sumOver_congr fun k _ => h.tokens_same hi k
  · cases h with
    | data write => exact sumOver_congr fun k _ => write.tokens k
    | @transfer _ w1 S D F n kind write src dst auth signed move =>
      rw [show sumOver (tokens env w) ks = sumOver (tokens env w1) ks from
        sumOver_congr fun k _ => (write.tokens k).symm]
      rcases move.tokens with ⟨-, e⟩ | ⟨hne, h1, h2⟩
      · rw [e]
      · exact sumOver_two hn (hc _ src) (hc _ dst) hne
          (fun k k1 k2 => by unfold tokens balance; rw [move.frame k k1 k2]) (by omega)
    | create kind => cases i <;> first | exact absurd rfl hi | cases kind
    | close => exact absurd rfl hi

end Verif
