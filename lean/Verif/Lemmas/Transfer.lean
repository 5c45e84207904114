import Verif.Lemmas.WorldEffects
/-!
Effect of token transfers and of Claim on accounts.
-/

namespace Verif

open Spec

variable {env : Env}

/-- Token accounts keep mint, owner and frozen state. -/
def SameToken (t t' : TokenAcc) : Prop := t'.mint = t.mint ∧ t'.owner = t.owner ∧ t'.frozen = t.frozen

/-- What a successful transfer did. -/
structure TransferEffect (env : Env) (w w' : World) (src dst auth : Key) (n : Nat) : Prop where
  moved : TokensMoved w w' src dst n
  frame : ∀ k, k ≠ src → k ≠ dst → w' k = w k
  srcTok : ∃ t t', TokenAt env w src t ∧ TokenAt env w' src t' ∧ SameToken t t' ∧
    (t.delegate = some auth ∨ t.owner = auth) ∧ n ≤ t.amount
  dstTok : ∃ t t', TokenAt env w dst t ∧ TokenAt env w' dst t' ∧ SameToken t t'
  sameMint : ∀ s d, TokenAt env w src s → TokenAt env w dst d → s.mint = d.mint
  lamports : ((w' src).lamports : Int) + (w' dst).lamports = (w src).lamports + (w dst).lamports
  native : ∀ t, TokenAt env w src t → t.native = false → ∀ k, (w' k).lamports = (w k).lamports
  meta' : ∀ k, (w' k).owner = (w k).owner ∧ (w' k).len = (w k).len

theorem TokenAt.unique {w : World} {k : Key} {p q : TokenAcc} (h : TokenAt env w k p) (h' : TokenAt env w k q) :
    p = q := by
  have := h.2.symm.trans h'.2; cases this; rfl

theorem TokenAt.balance {w : World} {k : Key} {t : TokenAcc} (h : TokenAt env w k t) : balance w k = t.amount := by
  unfold Spec.balance; rw [h.2]

theorem transfer_effect {w w' : World} {src dst auth : AccountInfo} {n : Nat}
    (h : splTransfer env w src dst auth n = .ok w') : TransferEffect env w w' src.key dst.key auth.key n := by
  obtain ⟨s, d, s', h1, h2, h3, h4, h5, h6, h7, h8, h9, h10, h11, h12, h13⟩ := splTransfer_ok h
  obtain ⟨a1, a2, a3, a4, a5, a6⟩ := transferAuth_ok h12
  have ts : TokenAt env w src.key s := ⟨h4, h5⟩
  have td : TokenAt env w dst.key d := ⟨h6, h7⟩
  have hmint : ∀ s2 d2, TokenAt env w src.key s2 → TokenAt env w dst.key d2 → s2.mint = d2.mint := by
    intro s2 d2 e1 e2
    rw [TokenAt.unique e1 ts, TokenAt.unique e2 td]; exact h11
  rcases h13 with ⟨he, rfl⟩ | ⟨hne, hov, mv, hnat, hm1, hm2, rfl⟩
  · exact ⟨Or.inl ⟨he, rfl⟩, fun _ _ _ => rfl, ⟨s, s, ts, ts, ⟨rfl, rfl, rfl⟩, a1, h10⟩, ⟨d, d, td, td, rfl, rfl, rfl⟩,
      hmint, rfl, fun _ _ _ _ => rfl, fun _ => ⟨rfl, rfl⟩⟩
  · have es : ∀ A B, (World.set (World.set w src.key A) dst.key B) src.key = A := by
      intro A B; rw [world_set_ne _ _ hne, world_set_same]
    have ed : ∀ A B, (World.set (World.set w src.key A) dst.key B) dst.key = B := by
      intro A B; rw [world_set_same]
    have ts' : TokenAt env (World.set (World.set w src.key { w src.key with
                content := .token { s' with amount := s.amount - n }, lamports := (w src.key).lamports - mv })
              dst.key { w dst.key with
                content := .token { d with amount := d.amount + n }, lamports := (w dst.key).lamports + mv }) src.key
              { s' with amount := s.amount - n } := by
      unfold TokenAt; rw [es]; exact ⟨h4, rfl⟩
    have td' : TokenAt env (World.set (World.set w src.key { w src.key with
                content := .token { s' with amount := s.amount - n }, lamports := (w src.key).lamports - mv })
              dst.key { w dst.key with
                content := .token { d with amount := d.amount + n }, lamports := (w dst.key).lamports + mv }) dst.key
              { d with amount := d.amount + n } := by
      unfold TokenAt; rw [ed]; exact ⟨h6, rfl⟩
    refine ⟨Or.inr ⟨hne, ?_, ?_, ?_⟩, ?_, ⟨s, _, ts, ts', ⟨a2, a3, a5⟩, a1, h10⟩, ⟨d, _, td, td', rfl, rfl, rfl⟩, hmint,
      ?_, ?_, ?_⟩
    · rw [TokenAt.balance ts]; exact h10
    · rw [TokenAt.balance ts, TokenAt.balance ts']
    · rw [TokenAt.balance td, TokenAt.balance td']
    · intro k k1 k2; rw [world_set_ne _ _ k2, world_set_ne _ _ k1]
    · rw [es, ed]; simp only; omega
    · intro t ht hn k
      obtain rfl := hnat (by rw [TokenAt.unique ts ht]; exact hn)
      by_cases k2 : k = dst.key
      · subst k2; rw [ed]; rfl
      · rw [world_set_ne _ _ k2]
        by_cases k1 : k = src.key
        · subst k1; rw [world_set_same]; rfl
        · rw [world_set_ne _ _ k1]
    · intro k
      by_cases k2 : k = dst.key
      · subst k2; rw [ed]; exact ⟨rfl, rfl⟩
      · rw [world_set_ne _ _ k2]
        by_cases k1 : k = src.key
        · subst k1; rw [world_set_same]; exact ⟨rfl, rfl⟩
        · rw [world_set_ne _ _ k1]; exact ⟨rfl, rfl⟩

/-- What a successful Claim checked and did (`P` pool, `T` mint, `V` vault, `M` mining, `O` owner, `A` deposit
authority, `U` receiving token account). -/
structure ClaimEffect (env : Env) (now : Nat) (w w' : World) (P T V M O A U : Key) (p : Pool)
    (m m1 : Mining) (n : Nat) : Prop where
  good : GoodPool env now P (w P).len p
  pool : PoolAt env w P p
  mining : MiningAt env w M m
  miningOk : MiningOk m
  init : InitMining env M (w M).len m
  ne : M ≠ P
  auth : p.depositAuthority = A
  owner : m.owner = O
  inPool : m.rewardPool = P
  vaultAddr : env.vaultAddr P T p.bump = some V
  userTok : ∃ t, TokenAt env w U t ∧ t.owner = O
  vaultTok : (w V).owner = env.tokenProgram
  refreshed : m.refreshRewards now p.cumulative = .ok m1
  amount : n = m1.unclaimed
  mining' : MiningAt env w' M { m1 with unclaimed := 0 }
  frame : ∀ k, k ≠ M → k ≠ V → k ≠ U → w' k = w k
  zero : n = 0 → ∀ k, k ≠ M → w' k = w k
  transfer : 0 < n → ∃ w1, (∀ k, k ≠ M → w1 k = w k) ∧ TransferEffect env w1 w' V U A n
  vaultNe : V ≠ M
  userNe : U ≠ M
  lamports : (w' M).lamports = (w M).lamports
  accOwner : (w' M).owner = (w M).owner ∧ (w' M).len = (w M).len

theorem claim_world {now : Nat} {w w' : World} {accs : List AccountInfo} {n : Nat} (hw : Wf env now w)
    (hs : RealSigners accs) (hclean : NotPoolAsMining env w accs .claim) (h : processClaim env now w accs = .ok (w', n)) :
    ∃ P T V M O A U K rest p m m1, accs = P :: T :: V :: M :: O :: A :: U :: K :: rest ∧ O.isSigner = true ∧
      A.isSigner = true ∧
      ClaimEffect env now w w' P.key T.key V.key M.key O.key A.key U.key p m m1 n := by
  obtain ⟨P, T, V, M, O, A, U, K, rest, ut, p, m, m1, rfl, h1, h2, h3, h4, h5, h6, h7, h8, h9, h10, h11, h12, h13, h14,
    h15, h16, h17, h18, h19, h20, h21, h22⟩ := processClaim_ok h
  refine ⟨P, T, V, M, O, A, U, K, rest, p, m, m1, rfl, h5, h6, ?_⟩
  have hdep : A.key ≠ 0 := hs A (by simp) h6
  have hown : O.key ≠ 0 := hs O (by simp) h5
  obtain ⟨hpc, hg⟩ := pool_slot (hw P.key) h1 h11 h12 hdep (Or.inl h13)
  have hnp : ∀ q, (w M.key).content ≠ .pool q := fun q hq => hclean M (by simp) q ⟨h4, hq⟩
  obtain ⟨hm, hmv⟩ := mining_view (hw M.key) h4 h16 hnp
  have hmi : (w M.key).content = .mining m ∧ InitMining env M.key (w M.key).len m := by
    rcases hmv with hmv | ⟨hb, _⟩
    · exact hmv
    · exact absurd (h17.symm.trans hb.owner) hown
  have hMat : MiningAt env w M.key m := ⟨h4, hmi.1⟩
  have vne : V.key ≠ M.key := by
    intro e; rw [e, h4] at h3; exact env.program_ne_token h3
  have une : U.key ≠ M.key := by
    intro e; rw [e, h4] at h7; exact env.program_ne_token h7
  have hput : MiningAt env (putMining env w M.key m1.claim) M.key m1.claim := putMining_at hMat _
  have hput2 : (putMining env w M.key m1.claim M.key).lamports = (w M.key).lamports ∧
      (putMining env w M.key m1.claim M.key).owner = (w M.key).owner ∧
      (putMining env w M.key m1.claim M.key).len = (w M.key).len := by
    unfold putMining; rw [world_set_same]; unfold storeMining
    split
    · exact ⟨rfl, rfl, rfl⟩
    · split <;> exact ⟨rfl, rfl, rfl⟩
  rcases h22 with ⟨hpos, ht⟩ | ⟨hz, rfl⟩
  · have te := transfer_effect ht
    have hM : w' M.key = putMining env w M.key m1.claim M.key := te.frame M.key (Ne.symm vne) (Ne.symm une)
    refine ⟨hg, ⟨h1, hpc⟩, hMat, hm, hmi.2, h14, h13.symm, h17, h18, h19, ⟨ut, ⟨h7, h9⟩, h10⟩, h3, h20, h21, ?_, ?_, ?_, ?_,
      vne, une, ?_, ?_⟩
    · exact (miningAt_congr hM).mpr hput
    · intro k k1 k2 k3
      rw [te.frame k k2 k3, putMining_ne _ _ k1]
    · intro h0; omega
    · intro _
      rw [h21]
      exact ⟨_, fun k hk => putMining_ne _ _ hk, te⟩
    · rw [hM]; exact hput2.1
    · rw [hM]; exact hput2.2
  · refine ⟨hg, ⟨h1, hpc⟩, hMat, hm, hmi.2, h14, h13.symm, h17, h18, h19, ⟨ut, ⟨h7, h9⟩, h10⟩, h3, h20, h21, hput, ?_, ?_,
      ?_, vne, une, hput2.1, hput2.2⟩
    · intro k k1 _ _; exact putMining_ne _ _ k1
    · intro _ k hk; exact putMining_ne _ _ hk
    · intro h0; omega

theorem ClaimEffect.moved {now : Nat} {w w' : World} {pool mint vault mining owner dep user : Key} {p : Pool}
    {m m1 : Mining} {n : Nat} (h : ClaimEffect env now w w' pool mint vault mining owner dep user p m m1 n) :
    TokensMoved w w' vault user n := by
  rcases Nat.eq_zero_or_pos n with hz | hp
  · have h1 : w' vault = w vault := h.zero hz _ h.vaultNe
    have h2 : w' user = w user := h.zero hz _ h.userNe
    by_cases e : vault = user
    · exact Or.inl ⟨e, h1⟩
    · refine Or.inr ⟨e, by omega, ?_, ?_⟩
      · unfold balance; rw [h1, hz]; rfl
      · unfold balance; rw [h2, hz]; rfl
  · obtain ⟨w1, h1, h2⟩ := h.transfer hp
    have e1 : w1 vault = w vault := h1 _ h.vaultNe
    have e2 : w1 user = w user := h1 _ h.userNe
    rcases h2.moved with ⟨a, b⟩ | ⟨a, b, c, d⟩
    · exact Or.inl ⟨a, by rw [b, e1]⟩
    · refine Or.inr ⟨a, ?_, ?_, ?_⟩
      · unfold balance at b ⊢; rw [← e1]; exact b
      · rw [c]; unfold balance; rw [e1]
      · rw [d]; unfold balance; rw [e2]

end Verif
