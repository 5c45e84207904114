import Verif.Spec.Rent
import Verif.Lemmas.Conserve
/-!
Lemmas for C121: what instructions do to lamports and sizes of accounts.
-/

namespace Verif

open Spec

variable {env : Env}

theorem rentRule_of_same {a b : Account} (h1 : b.lamports = a.lamports) (h2 : b.len = a.len) : RentRule env a b := by
  intro h
  unfold RentPaying at *
  rw [h1, h2] at h
  exact ⟨h, h2, Nat.le_of_eq h1⟩

theorem rentRule_of_exempt {a b : Account} (h : b.lamports = 0 ∨ env.rentMin b.len ≤ b.lamports) : RentRule env a b := by
  rintro ⟨h1, h2⟩
  omega

theorem Spec.RentRule.trans {a b c : Account} (h1 : RentRule env a b) (h2 : RentRule env b c) : RentRule env a c := by
  intro h
  obtain ⟨x1, x2, x3⟩ := h2 h
  obtain ⟨y1, y2, y3⟩ := h1 x1
  exact ⟨y1, x2.trans y2, Nat.le_trans x3 y3⟩

theorem transfer_lamports {w w' : World} {src dst auth : AccountInfo} {n : Nat} (h : splTransfer env w src dst auth n = .ok w') :
    ∃ s d, TokenAt env w src.key s ∧ TokenAt env w dst.key d ∧ (w' = w ∨ ∃ mv, mv ≤ (if s.native = true then s.amount else 0) ∧
      (∀ k, (w' k).len = (w k).len) ∧ (w' src.key).lamports = (w src.key).lamports - mv ∧
      (w' dst.key).lamports = (w dst.key).lamports + mv ∧ ∀ k, k ≠ src.key → k ≠ dst.key → w' k = w k) := by
  unfold splTransfer at h
  simp only [res_bind_ok, ensure_ok, tokenOf_ok] at h
  obtain ⟨_, ⟨h1, h2, h3⟩, s, ⟨h4, h5⟩, d, ⟨h6, h7⟩, _, ⟨h8, h9⟩, _, h10, _, h11, _, -, s', h12, h⟩ := h
  refine ⟨s, d, ⟨h4, h5⟩, ⟨h6, h7⟩, ?_⟩
  split at h
  · rw [res_pure_ok] at h
    exact Or.inl h.symm
  · rename_i hne
    simp only [res_bind_ok, ensure_ok, res_pure_ok] at h
    obtain ⟨_, h13, _, ⟨h14, h15⟩, rfl⟩ := h
    refine Or.inr ⟨if s.native = true then n else 0, ?_, ?_, ?_, ?_, ?_⟩
    · split <;> omega
    · intro k
      by_cases k1 : k = dst.key
      · subst k1; rw [world_set_same]
      · rw [world_set_ne _ _ k1]
        by_cases k2 : k = src.key
        · subst k2; rw [world_set_same]
        · rw [world_set_ne _ _ k2]
    · rw [world_set_ne _ _ hne, world_set_same]
    · rw [world_set_same]
    · intro k k1 k2
      rw [world_set_ne _ _ k2, world_set_ne _ _ k1]

/-- What an instruction does to the lamports and sizes of accounts. -/
inductive Balances (env : Env) (accs : List AccountInfo) (w w' : World) : Ix → Prop
  | same {i : Ix} (free : paysFor env accs i = none) (h : ∀ k, (w' k).lamports = (w k).lamports ∧ (w' k).len = (w k).len) : Balances env accs w w' i
  | transfer {i : Ix} {S D : AccountInfo} {s d : TokenAcc} {mv : Nat} (free : paysFor env accs i = none) (src : S ∈ accs) (dst : D ∈ accs)
      (sTok : TokenAt env w S.key s) (dTok : TokenAt env w D.key d) (le : mv ≤ (if s.native = true then s.amount else 0))
      (len : ∀ k, (w' k).len = (w k).len) (from' : (w' S.key).lamports = (w S.key).lamports - mv)
      (to' : (w' D.key).lamports = (w D.key).lamports + mv)
      (frame : ∀ k, k ≠ S.key → k ≠ D.key → (w' k).lamports = (w k).lamports) : Balances env accs w w' i
  | create {i : Ix} {Y T : Key} {n l : Nat} (pays : paysFor env accs i = some (Y, n)) (cost : n = env.rentMin l)
      (ne : Y ≠ T) (enough : n ≤ (w Y).lamports) (payer : (w' Y).lamports = (w Y).lamports - n) (pLen : (w Y).len = 0)
      (pLen' : (w' Y).len = 0) (target : (w' T).lamports = n) (tLen : (w' T).len = l)
      (frame : ∀ k, k ≠ Y → k ≠ T → (w' k).lamports = (w k).lamports ∧ (w' k).len = (w k).len) : Balances env accs w w' i
  | close {M G : AccountInfo} (mining : M ∈ accs) (target : accs[2]? = some G) (ne : M.key ≠ G.key) (long : 1776 ≤ (w M.key).len)
      (mOwner : (w M.key).owner = env.programId) (mAfter : (w' M.key).lamports = 0)
      (gAfter : (w' G.key).lamports = (w G.key).lamports + (w M.key).lamports) (gLen : (w' G.key).len = (w G.key).len)
      (mLen : (w' M.key).len = (w M.key).len)
      (frame : ∀ k, k ≠ M.key → k ≠ G.key → w' k = w k) : Balances env accs w w' .closeMining

theorem DataWrite.balances {accs : List AccountInfo} {w w' : World} {i : Ix} (h : DataWrite env accs w w')
    (hn : paysFor env accs i = none) : Balances env accs w w' i := .same hn fun k => ⟨(h.shell k).2.1, (h.shell k).2.2⟩

theorem balances_transfer {accs : List AccountInfo} {w w1 w' : World} {i : Ix} {S D F : AccountInfo} {n : Nat}
    (hn : paysFor env accs i = none) (hw : DataWrite env accs w w1) (hS : S ∈ accs) (hD : D ∈ accs) (h : splTransfer env w1 S D F n = .ok w') :
    Balances env accs w w' i := by
  obtain ⟨s, d, hs, hd, h⟩ := transfer_lamports h
  have e : ∀ k, (w1 k).owner = env.tokenProgram → w1 k = w k := by
    intro k hk
    apply Classical.byContradiction
    intro hne
    have := (hw.listed _ hne).2
    rw [← (hw.shell k).1, hk] at this
    exact env.program_ne_token this.symm
  rcases h with rfl | ⟨mv, h1, h2, h3, h4, h5⟩
  · exact hw.balances hn
  · refine .transfer hn hS hD (s := s) (d := d) (mv := mv) ?_ ?_ h1 ?_ ?_ ?_ ?_
    · unfold TokenAt; rw [← e _ hs.1]; exact hs
    · unfold TokenAt; rw [← e _ hd.1]; exact hd
    · intro k; rw [h2, (hw.shell k).2.2]
    · rw [h3, (hw.shell _).2.1]
    · rw [h4, (hw.shell _).2.1]
    · intro k k1 k2; rw [h5 k k1 k2, (hw.shell _).2.1]

theorem balances {now : Nat} {w w' : World} {accs : List AccountInfo} {i : Ix} {ret : Option Nat}
    (h : process env now w accs i = .ok (w', ret)) : Balances env accs w w' i := by
  cases i with
  | initializePool f d =>
    simp only [process, res_bind_ok, res_pure_ok, Prod.mk.injEq] at h
    obtain ⟨w1, h, rfl, rfl⟩ := h
    obtain ⟨P, T, V, Y, A, R, K, S, rest, p, bump, wa, wb, rfl, h1, h2, h3, h4, h5, h6, h7, h8,
      h9, h10, h11, h12, h13, h14, h15, h16, rfl⟩ := processInitializePool_ok h
    rw [createAccount_ok] at h14
    obtain ⟨_, c1, c2, c3, c4, rfl⟩ := h14
    rw [initializeTokenAccount_ok] at h16
    obtain ⟨_, _, rfl⟩ := h16
    refine .create (Y := Y.key) (T := V.key) (n := env.rentMin TOKEN_LEN) (l := TOKEN_LEN) rfl rfl c1 c4 ?_ c3.1 ?_ ?_ ?_ ?_
    · unfold putPool; rw [world_set_ne _ _ h13.1, world_set_ne _ _ c1, world_set_ne _ _ c1, world_set_same]
    · unfold putPool; rw [world_set_ne _ _ h13.1, world_set_ne _ _ c1, world_set_ne _ _ c1, world_set_same]; exact c3.1
    · unfold putPool; rw [world_set_ne _ _ h13.2, world_set_same, world_set_same]
    · unfold putPool; rw [world_set_ne _ _ h13.2, world_set_same, world_set_same]
    · intro k k1 k2
      unfold putPool
      by_cases k3 : k = P.key
      · subst k3
        rw [world_set_same]
        simp only [storePool]
        rw [world_set_ne _ _ k2, world_set_ne _ _ k2, world_set_ne _ _ k1]
        exact ⟨rfl, rfl⟩
      · rw [world_set_ne _ _ k3, world_set_ne _ _ k2, world_set_ne _ _ k2, world_set_ne _ _ k1]
        exact ⟨rfl, rfl⟩
  | fillVault r e =>
    simp only [process, res_bind_ok, res_pure_ok, Prod.mk.injEq] at h
    obtain ⟨w1, h, rfl, rfl⟩ := h
    obtain ⟨P, T, V, F, S, K, rest, p, rfl, h1, h2, h3, h4, h5, h6, h7, h8, h9, h10, h11, h12, h13,
      h14, h15, h16, h17⟩ := processFillVault_ok h
    exact balances_transfer (S := S) (D := V) (F := F) rfl (dataWrite_putPool _ (by simp) h1) (by simp) (by simp) h17
  | initializeMining o =>
    simp only [process, res_bind_ok, res_pure_ok, Prod.mk.injEq] at h
    obtain ⟨w1, h, rfl, rfl⟩ := h
    obtain ⟨P, M, Y, S, rest, bump, wa, rfl, h1, h2, h3, h4, h5, h6, rfl⟩ := processInitializeMining_ok h
    rw [createAccount_ok] at h6
    obtain ⟨_, c1, c2, c3, c4, rfl⟩ := h6
    have hd : DataWrite env [M] ((w.set Y.key { w Y.key with lamports := (w Y.key).lamports - env.rentMin MINING_LEN }).set M.key
        { owner := env.programId, lamports := env.rentMin MINING_LEN, len := MINING_LEN, content := .zero }) _ :=
      dataWrite_putMining (Mining.init P.key o bump) (k := M.key) (by simp) (by rw [world_set_same])
    refine .create (Y := Y.key) (T := M.key) (n := env.rentMin MINING_LEN) (l := MINING_LEN) rfl rfl c1 c4 ?_ c3.1 ?_ ?_ ?_ ?_
    · rw [(hd.shell _).2.1, world_set_ne _ _ c1, world_set_same]
    · rw [(hd.shell _).2.2, world_set_ne _ _ c1, world_set_same]; exact c3.1
    · rw [(hd.shell _).2.1, world_set_same]
    · rw [(hd.shell _).2.2, world_set_same]
    · intro k k1 k2
      rw [(hd.shell _).2.1, (hd.shell _).2.2, world_set_ne _ _ k2, world_set_ne _ _ k1]
      exact ⟨rfl, rfl⟩
  | closeMining =>
    simp only [process, res_bind_ok, res_pure_ok, Prod.mk.injEq] at h
    obtain ⟨w1, h, rfl, rfl⟩ := h
    obtain ⟨M, O, G, A, P, rest, p, m, m1, rfl, h1, h2, h3, h4, h5, h6, h7, h8, h9, h10, h11, h12, h13, h14, h15, h16, rfl⟩ :=
      processCloseMining_ok h
    have hne : M.key ≠ G.key := by
      intro he
      rw [he, h3] at h1
      exact env.program_ne_system h1.symm
    refine .close (M := M) (G := G) (by simp) rfl hne h10 h1 ?_ ?_ ?_ ?_ ?_
    · rw [world_set_same]
    · rw [world_set_ne _ _ (Ne.symm hne), world_set_same]
    · rw [world_set_ne _ _ (Ne.symm hne), world_set_same]
    · rw [world_set_same]
    · intro k k1 k2; rw [world_set_ne _ _ k1, world_set_ne _ _ k2]
  | claim =>
    simp only [process, res_bind_ok, res_pure_ok, Prod.mk.injEq, Prod.exists] at h
    obtain ⟨w1, n, h, rfl, rfl⟩ := h
    obtain ⟨P, T, V, M, O, A, U, K, rest, ut, p, m, m1, rfl, h1, h2, h3, h4, h5, h6, h7, h8, h9, h10, h11, h12, h13, h14,
      h15, h16, h17, h18, h19, h20, h21, h22⟩ := processClaim_ok h
    rcases h22 with ⟨_, h22⟩ | ⟨_, rfl⟩
    · exact balances_transfer (S := V) (D := U) (F := A) rfl (dataWrite_putMining _ (by simp) h4) (by simp) (by simp) h22
    · exact (dataWrite_putMining _ (by simp) h4).balances rfl
  | _ =>
    cases outer_of_process h with
    | data write => exact write.balances rfl
    | transfer kind => cases kind
    | create kind => cases kind

theorem payer_of {now : Nat} {w w' : World} {accs : List AccountInfo} {i : Ix} {ret : Option Nat}
    (h : process env now w accs i = .ok (w', ret)) {k : Key} {n : Nat} (hk : paysFor env accs i = some (k, n)) :
    ∃ l, n = env.rentMin l ∧ n ≤ (w k).lamports ∧ (w' k).lamports = (w k).lamports - n ∧ (w k).len = 0 ∧ (w' k).len = 0 := by
  cases balances h with
  | same free => rw [free] at hk; cases hk
  | transfer free => rw [free] at hk; cases hk
  | create pays cost ne enough payer pLen pLen' =>
    rw [pays] at hk
    cases hk
    exact ⟨_, cost, enough, payer, pLen, pLen'⟩
  | close => cases hk

end Verif
