import Verif.Spec.Gifts
import Verif.Lemmas.Inversion
import Verif.Lemmas.WfLemmas
/-!
Instructions in a world with gifts.
-/

namespace Verif

open Spec

variable {env : Env} {f g : Key → Nat}

theorem bind_mono {α β γ : Type} {x : Res α} {y : α → Res β} {z : α → Res γ} {b : β} {c : γ}
    (h : ∀ a, y a = .ok b → z a = .ok c) : (x >>= y) = .ok b → (x >>= z) = .ok c := by
  rw [res_bind_ok, res_bind_ok]
  rintro ⟨a, h1, h2⟩
  exact ⟨a, h1, h a h2⟩

theorem view_mining_gift (t : Nat) (c : Content) : viewMining env (addTokens t c) = viewMining env c := by cases c <;> rfl

theorem view_pool_gift (t : Nat) (c : Content) : viewPool env (addTokens t c) = viewPool env c := by cases c <;> rfl

theorem gifted_next (w : World) (o : Key) (accs : List AccountInfo) :
    nextWithOwner (gifted w f g) o accs = nextWithOwner w o accs := rfl

theorem gifted_uninit (w : World) (accs : List AccountInfo) :
    nextUninitialized (gifted w f g) accs = nextUninitialized w accs := by
  have h : ∀ t (c : Content), (addTokens t c).allZero = c.allZero := by intro t c; cases c <;> rfl
  unfold nextUninitialized gifted
  simp only [h]

theorem gifted_loadMining (w : World) (k : Key) : loadMining env (gifted w f g k) = loadMining env (w k) := by
  unfold loadMining gifted
  simp only [view_mining_gift]

theorem gifted_loadPool (w : World) (k : Key) : loadPool env (gifted w f g k) = loadPool env (w k) := by
  unfold loadPool gifted
  simp only [view_pool_gift]

theorem gifted_both (w : World) (o : Key) (M P A : AccountInfo) :
    getPoolAndMining env (gifted w f g) o M P A = getPoolAndMining env w o M P A := by
  unfold getPoolAndMining
  simp only [gifted_loadMining, gifted_loadPool]

theorem gifted_delegate (w : World) (D M : AccountInfo) (d P : Key) :
    loadDelegate env (gifted w f g) D M d P = loadDelegate env w D M d P := by
  unfold loadDelegate verifyDelegate
  simp only [gifted_loadMining]

theorem gifted_oldDelegate (w : World) (D M : AccountInfo) (P : Key) :
    loadOldDelegate env (gifted w f g) D M P = loadOldDelegate env w D M P := by
  unfold loadOldDelegate
  simp only [gifted_loadMining]

theorem gifted_set (w : World) (k : Key) (a : Account) :
    gifted (w.set k a) f g = (gifted w f g).set k { a with lamports := a.lamports + f k, content := addTokens (g k) a.content } := by
  funext j
  by_cases h : j = k
  · subst h
    rw [world_set_same]
    unfold gifted
    rw [world_set_same]
  · rw [world_set_ne _ _ h]
    unfold gifted
    rw [world_set_ne _ _ h]

theorem gifted_putPool (w : World) (k : Key) (p : Pool) : putPool (gifted w f g) k p = gifted (putPool w k p) f g := by
  unfold putPool
  rw [gifted_set]
  rfl

theorem gifted_putMining (w : World) (k : Key) (m : Mining) : putMining env (gifted w f g) k m = gifted (putMining env w k m) f g := by
  unfold putMining
  rw [gifted_set]
  congr 1
  unfold storeMining
  show (if viewMining env (addTokens (g k) (w k).content) = some m then _ else _) = _
  rw [view_mining_gift]
  split
  · rfl
  · show (match addTokens (g k) (w k).content with | .pool p => _ | _ => _) = _
    cases (w k).content <;> rfl

theorem gifted_putDelegate (w : World) (k : Key) (d : Option Mining) :
    putDelegate env (gifted w f g) k d = gifted (putDelegate env w k d) f g := by
  cases d with
  | none => rfl
  | some m => exact gifted_putMining w k m

section
variable {now : Nat} {w w' : World} {accs : List AccountInfo}

theorem gifted_deposit {a : Nat} {l : LockupPeriod} {o d : Key} : processDepositMining env now w accs a l o d = .ok w' →
    processDepositMining env now (gifted w f g) accs a l o d = .ok (gifted w' f g) := by
  unfold processDepositMining
  simp only [gifted_next, gifted_both, gifted_delegate, gifted_putPool, gifted_putMining, gifted_putDelegate]
  repeat (refine bind_mono fun _ => ?_)
  rw [res_pure_ok, res_pure_ok]
  exact fun h => by rw [h]

theorem gifted_withdraw {a : Nat} {o d : Key} : processWithdrawMining env now w accs a o d = .ok w' →
    processWithdrawMining env now (gifted w f g) accs a o d = .ok (gifted w' f g) := by
  unfold processWithdrawMining
  simp only [gifted_next, gifted_both, gifted_delegate, gifted_putPool, gifted_putMining, gifted_putDelegate]
  repeat (refine bind_mono fun _ => ?_)
  rw [res_pure_ok, res_pure_ok]
  exact fun h => by rw [h]

theorem gifted_extend {ol nl : LockupPeriod} {ts b a : Nat} {o d : Key} : processExtendStake env now w accs ol nl ts b a o d = .ok w' →
    processExtendStake env now (gifted w f g) accs ol nl ts b a o d = .ok (gifted w' f g) := by
  unfold processExtendStake
  simp only [gifted_next, gifted_both, gifted_delegate, gifted_putPool, gifted_putMining, gifted_putDelegate]
  repeat (refine bind_mono fun _ => ?_)
  rw [res_pure_ok, res_pure_ok]
  exact fun h => by rw [h]

theorem gifted_distribute : processDistributeRewards env now w accs = .ok w' →
    processDistributeRewards env now (gifted w f g) accs = .ok (gifted w' f g) := by
  unfold processDistributeRewards
  simp only [gifted_next, gifted_loadPool, gifted_putPool]
  repeat (refine bind_mono fun _ => ?_)
  rw [res_pure_ok, res_pure_ok]
  exact fun h => by rw [h]

theorem gifted_redelegate {a : Nat} {d : Key} : processChangeDelegate env now w accs a d = .ok w' →
    processChangeDelegate env now (gifted w f g) accs a d = .ok (gifted w' f g) := by
  unfold processChangeDelegate
  simp only [gifted_next, gifted_both, gifted_delegate, gifted_putPool, gifted_putMining, gifted_putDelegate,
    gifted_oldDelegate]
  repeat (refine bind_mono fun _ => ?_)
  rw [res_pure_ok, res_pure_ok]
  exact fun h => by rw [h]

theorem gifted_slash {o : Key} {n m : Nat} {e : Option Nat} : processSlash env now w accs o n m e = .ok w' →
    processSlash env now (gifted w f g) accs o n m e = .ok (gifted w' f g) := by
  unfold processSlash
  simp only [gifted_next, gifted_both, gifted_putPool, gifted_putMining]
  repeat (refine bind_mono fun _ => ?_)
  rw [res_pure_ok, res_pure_ok]
  exact fun h => by rw [h]

theorem gifted_decrease {o : Key} {n : Nat} : processDecreaseRewards env w accs o n = .ok w' →
    processDecreaseRewards env (gifted w f g) accs o n = .ok (gifted w' f g) := by
  unfold processDecreaseRewards
  simp only [gifted_next, gifted_both, gifted_putMining]
  repeat (refine bind_mono fun _ => ?_)
  rw [res_pure_ok, res_pure_ok]
  exact fun h => by rw [h]

theorem acc_eq {a b : Account} (h1 : a.owner = b.owner) (h2 : a.lamports = b.lamports) (h3 : a.len = b.len)
    (h4 : a.content = b.content) : a = b := by
  cases a; cases b; simp_all

theorem set_congr {k j : Key} {a a' b b' : Account} (h1 : a = a') (h2 : b = b') :
    (w.set k a).set j b = (w.set k a').set j b' := by rw [h1, h2]

theorem gifted_auth {s s' : TokenAcc} {auth : Key} {n : Nat} (t : Nat) (h : transferAuth s auth n = .ok s') :
    transferAuth { s with amount := s.amount + t } auth n = .ok { s' with amount := s'.amount + t } ∧ s'.amount = s.amount := by
  unfold transferAuth at h ⊢
  dsimp only at h ⊢
  split at h
  · rename_i h1
    rw [if_pos h1]
    split at h
    · rename_i h2
      rw [if_pos h2]
      obtain rfl := Except.ok.inj h
      exact ⟨rfl, rfl⟩
    · cases h
  · rename_i h1
    rw [if_neg h1]
    split at h
    · rename_i h2
      rw [if_pos h2]
      obtain rfl := Except.ok.inj h
      exact ⟨rfl, rfl⟩
    · cases h

/-- There is room for what a transfer moves. -/
def TransferFits (f g : Key → Nat) (w : World) (src dst : Key) : Prop := src ≠ dst →
  (gifted w f g src).lamports + (gifted w f g dst).lamports < 2 ^ 64 ∧
    tokensTogether (gifted w f g src).content (gifted w f g dst).content < 2 ^ 64

theorem gifted_transfer {src dst auth : AccountInfo} {n : Nat} (hf : TransferFits f g w src.key dst.key)
    (h : splTransfer env w src dst auth n = .ok w') :
    splTransfer env (gifted w f g) src dst auth n = .ok (gifted w' f g) := by
  unfold splTransfer at h ⊢
  simp only [res_bind_ok, ensure_ok, tokenOf_ok] at h ⊢
  obtain ⟨_, h1, s, ⟨h4, h5⟩, d, ⟨h6, h7⟩, _, h8, _, h10, _, h11, _, h12, s', h13, h⟩ := h
  obtain ⟨k1, k2⟩ := gifted_auth (g src.key) h13
  have c1 : (gifted w f g src.key).content = .token { s with amount := s.amount + g src.key } := by
    show addTokens (g src.key) (w src.key).content = _
    rw [h5]; rfl
  have c2 : (gifted w f g dst.key).content = .token { d with amount := d.amount + g dst.key } := by
    show addTokens (g dst.key) (w dst.key).content = _
    rw [h7]; rfl
  refine ⟨(), h1, _, ⟨h4, c1⟩, _, ⟨h6, c2⟩, (), h8, (), Nat.le_trans h10 (Nat.le_add_right _ _), (), h11, (), h12, _, k1, ?_⟩
  split at h
  · rename_i he
    rw [if_pos he]
    rw [res_pure_ok] at h ⊢
    rw [h]
  · rename_i he
    rw [if_neg he]
    simp only [res_bind_ok, ensure_ok, res_pure_ok] at h ⊢
    obtain ⟨_, h14, _, ⟨h15, h16⟩, rfl⟩ := h
    obtain ⟨f1, f2⟩ := hf he
    have f2 : s.amount + g src.key + (d.amount + g dst.key) < 2 ^ 64 := by
      rw [c1, c2] at f2
      simpa [tokensTogether, h11] using f2
    have f1 : (w src.key).lamports + f src.key + ((w dst.key).lamports + f dst.key) < 2 ^ 64 := f1
    refine ⟨(), by unfold U64; omega, (), ⟨?_, ?_⟩, ?_⟩
    · exact Nat.le_trans h15 (Nat.le_add_right _ _)
    · show (w dst.key).lamports + f dst.key + _ < U64
      unfold U64; omega
    · rw [gifted_set, gifted_set]
      refine set_congr (acc_eq rfl ?_ rfl ?_) (acc_eq rfl ?_ rfl ?_)
      · show (w src.key).lamports + f src.key - _ = (w src.key).lamports - _ + f src.key
        omega
      · show Content.token { s' with amount := s.amount + g src.key - n } = .token { s' with amount := s.amount - n + g src.key }
        have : s.amount + g src.key - n = s.amount - n + g src.key := by omega
        rw [this]
      · show (w dst.key).lamports + f dst.key + _ = (w dst.key).lamports + _ + f dst.key
        omega
      · show Content.token { d with amount := d.amount + g dst.key + n } = .token { d with amount := d.amount + n + g dst.key }
        have : d.amount + g dst.key + n = d.amount + n + g dst.key := by omega
        rw [this]

theorem gifted_create {payer to : AccountInfo} {len : Nat} {owner : Key} (h1 : f to.key = 0)
    (h : createAccount env w payer to len owner = .ok w') :
    createAccount env (gifted w f g) payer to len owner = .ok (gifted w' f g) := by
  rw [createAccount_ok] at h ⊢
  obtain ⟨a1, a2, ⟨a3, a4, a5⟩, a6, a7, rfl⟩ := h
  refine ⟨a1, a2, ⟨?_, a4, a5⟩, a6, Nat.le_trans a7 (Nat.le_add_right _ _), ?_⟩
  · show (w to.key).lamports + f to.key = 0
    omega
  · rw [gifted_set, gifted_set, h1]
    refine set_congr (acc_eq rfl ?_ rfl rfl) (acc_eq rfl rfl rfl rfl)
    show (w payer.key).lamports - _ + f payer.key = (w payer.key).lamports + f payer.key - _
    omega

theorem gifted_initToken {acc mint auth : Key} (h1 : g acc = 0)
    (h : initializeTokenAccount env w acc mint auth = .ok w') :
    initializeTokenAccount env (gifted w f g) acc mint auth = .ok (gifted w' f g) := by
  rw [initializeTokenAccount_ok] at h ⊢
  obtain ⟨⟨a1, a2⟩, a3, rfl⟩ := h
  refine ⟨⟨a1, ?_⟩, ?_, ?_⟩
  · show addTokens _ (w acc).content = _
    rw [a2]; rfl
  · rcases a3 with e | ⟨e1, e2⟩
    · exact Or.inl e
    · refine Or.inr ⟨e1, ?_⟩
      show addTokens _ (w mint).content = _
      rw [e2]; rfl
  · rw [gifted_set, h1]
    rfl

theorem gifted_initPool {fa da : Key} (hc : ∀ k, creates accs (.initializePool fa da) = some k → f k = 0 ∧ g k = 0)
    (h : processInitializePool env w accs fa da = .ok w') :
    processInitializePool env (gifted w f g) accs fa da = .ok (gifted w' f g) := by
  unfold processInitializePool at h ⊢
  simp only [gifted_next, gifted_uninit, gifted_loadPool]
  simp only [res_bind_ok, nextWithOwner_ok, nextUninitialized_ok, nextSigner_ok, nextWithKey_ok, Prod.exists, res_pure_ok] at h ⊢
  obtain ⟨P, _, ⟨rfl, a1⟩, T, _, ⟨rfl, a2⟩, V, _, ⟨rfl, a3⟩, Y, _, ⟨rfl, a4⟩, A, _, ⟨rfl, a5⟩, R, _, ⟨rfl, a6⟩, K, _, ⟨rfl, a7⟩,
    L, rest, ⟨rfl, a8⟩, _, b1, p, b2, _, b3, vk, bump, b4, _, b5, _, b6, w1, b7, _, b8, w2, b9, rfl⟩ := h
  obtain ⟨c1, c2⟩ := hc V.key rfl
  exact ⟨P, _, ⟨rfl, a1⟩, T, _, ⟨rfl, a2⟩, V, _, ⟨rfl, a3⟩, Y, _, ⟨rfl, a4⟩, A, _, ⟨rfl, a5⟩, R, _, ⟨rfl, a6⟩, K, _, ⟨rfl, a7⟩,
    L, rest, ⟨rfl, a8⟩, _, b1, p, b2, _, b3, vk, bump, b4, _, b5, _, b6, _, gifted_create c1 b7, _, b8, _,
    gifted_initToken c2 b9, gifted_putPool _ _ _⟩

theorem gifted_initMining {o : Key} (hc : ∀ k, creates accs (.initializeMining o) = some k → f k = 0 ∧ g k = 0)
    (h : processInitializeMining env w accs o = .ok w') :
    processInitializeMining env (gifted w f g) accs o = .ok (gifted w' f g) := by
  unfold processInitializeMining at h ⊢
  simp only [gifted_next, gifted_uninit]
  simp only [res_bind_ok, nextWithOwner_ok, nextUninitialized_ok, nextSigner_ok, nextWithKey_ok, Prod.exists, res_pure_ok] at h ⊢
  obtain ⟨P, _, ⟨rfl, a1⟩, M, _, ⟨rfl, a3⟩, Y, _, ⟨rfl, a4⟩, L, rest, ⟨rfl, a8⟩, vk, bump, b4, _, b5, w1, b7, rfl⟩ := h
  obtain ⟨c1, c2⟩ := hc M.key rfl
  exact ⟨P, _, ⟨rfl, a1⟩, M, _, ⟨rfl, a3⟩, Y, _, ⟨rfl, a4⟩, L, rest, ⟨rfl, a8⟩, vk, bump, b4, _, b5, _, gifted_create c1 b7,
    gifted_putMining _ _ _⟩

theorem fits_transfer {v : World} {src dst : AccountInfo} (hf : Fits accs (gifted w f g)) (m1 : src ∈ accs) (m2 : dst ∈ accs)
    (h1 : v src.key = w src.key) (h2 : v dst.key = w dst.key) : TransferFits f g v src.key dst.key := by
  intro hne
  have e1 : gifted v f g src.key = gifted w f g src.key := by unfold gifted; rw [h1]
  have e2 : gifted v f g dst.key = gifted w f g dst.key := by unfold gifted; rw [h2]
  rw [e1, e2]
  exact hf src m1 dst m2 hne

theorem gifted_fill {r e : Nat} (hf : Fits accs (gifted w f g)) (h : processFillVault env now w accs r e = .ok w') :
    processFillVault env now (gifted w f g) accs r e = .ok (gifted w' f g) := by
  unfold processFillVault at h ⊢
  simp only [gifted_next, gifted_loadPool]
  simp only [res_bind_ok, nextWithOwner_ok, nextSigner_ok, nextWithKey_ok, ensure_ok, Prod.exists] at h ⊢
  obtain ⟨P, _, ⟨rfl, a1⟩, T, _, ⟨rfl, a2⟩, V, _, ⟨rfl, a3⟩, F, _, ⟨rfl, a4⟩, S, _, ⟨rfl, a5⟩, K, rest, ⟨rfl, a6⟩, _, b1, p, b2,
    _, b3, vk, b4, _, b5, _, b6, dd, b7, en, b8, av, b9, _, b10, b11⟩ := h
  refine ⟨P, _, ⟨rfl, a1⟩, T, _, ⟨rfl, a2⟩, V, _, ⟨rfl, a3⟩, F, _, ⟨rfl, a4⟩, S, _, ⟨rfl, a5⟩, K, rest, ⟨rfl, a6⟩, (), b1, p, b2,
    _, b3, vk, b4, _, b5, (), b6, dd, b7, en, b8, av, b9, (), b10, ?_⟩
  rw [gifted_putPool]
  exact gifted_transfer (fits_transfer hf (by simp) (by simp) (putPool_ne w _ b10.1) (putPool_ne w _ b10.2.1)) b11

theorem unpack_gift {a : Account} {l t : Nat} {x : TokenAcc} (h : unpackToken a = .ok x) :
    unpackToken { a with lamports := l, content := addTokens t a.content } = .ok { x with amount := x.amount + t } := by
  unfold unpackToken at h ⊢
  split at h
  · rename_i y e
    obtain rfl := Except.ok.inj h
    dsimp only
    rw [e]
    rfl
  · split at h <;> cases h
  · cases h

theorem gifted_claim {n : Nat} (hf : Fits accs (gifted w f g)) (h : processClaim env now w accs = .ok (w', n)) :
    processClaim env now (gifted w f g) accs = .ok (gifted w' f g, n) := by
  unfold processClaim at h ⊢
  simp only [gifted_next, gifted_loadPool, gifted_loadMining, gifted_putMining]
  simp only [res_bind_ok, nextWithOwner_ok, nextSigner_ok, nextWithKey_ok, Prod.exists, res_pure_ok, Prod.mk.injEq] at h ⊢
  obtain ⟨P, _, ⟨rfl, a1⟩, T, _, ⟨rfl, a2⟩, V, _, ⟨rfl, a3⟩, M, _, ⟨rfl, a4⟩, O, _, ⟨rfl, a5⟩, A, _, ⟨rfl, a6⟩, U, _, ⟨rfl, a7⟩,
    K, rest, ⟨rfl, a8⟩, ut, b1, _, b2, p, b3, _, b4, _, b5, m, b6, _, b7, _, b8, vk, b9, _, b10, m1, b11, b12⟩ := h
  refine ⟨P, _, ⟨rfl, a1⟩, T, _, ⟨rfl, a2⟩, V, _, ⟨rfl, a3⟩, M, _, ⟨rfl, a4⟩, O, _, ⟨rfl, a5⟩, A, _, ⟨rfl, a6⟩, U, _, ⟨rfl, a7⟩,
    K, rest, ⟨rfl, a8⟩, _, unpack_gift b1, _, b2, p, b3, _, b4, _, b5, m, b6, _, b7, _, b8, vk, b9, _, b10, m1, b11, ?_⟩
  have hne : ∀ k, (w k).owner = env.tokenProgram → k ≠ M.key := by
    rintro k hk rfl
    exact env.program_ne_token (a4.symm.trans hk)
  split at b12
  · rename_i hn
    rw [if_pos hn]
    simp only [res_bind_ok, res_pure_ok, Prod.mk.injEq] at b12 ⊢
    obtain ⟨w1, b12, rfl, rfl⟩ := b12
    exact ⟨_, gifted_transfer (fits_transfer hf (by simp) (by simp) (putMining_ne w _ (hne _ a3)) (putMining_ne w _ (hne _ a7))) b12, rfl, rfl⟩
  · rename_i hn
    rw [if_neg hn]
    simp only [res_bind_ok, res_pure_ok, Prod.mk.injEq] at b12 ⊢
    obtain ⟨w1, rfl, rfl, rfl⟩ := b12
    exact ⟨_, rfl, rfl, rfl⟩

theorem gifted_close (hf : Fits accs (gifted w f g)) (h : processCloseMining env now w accs = .ok w') :
    processCloseMining env now (gifted w f g) accs = .ok (gifted w' (giftsAfter f accs .closeMining) g) := by
  unfold processCloseMining at h ⊢
  simp only [gifted_next, gifted_loadPool, gifted_loadMining]
  simp only [res_bind_ok, nextWithOwner_ok, nextSigner_ok, safeAdd64_ok, Prod.exists, res_pure_ok] at h ⊢
  obtain ⟨M, _, ⟨rfl, a1⟩, O, _, ⟨rfl, a2⟩, G, _, ⟨rfl, a3⟩, A, _, ⟨rfl, a4⟩, P, rest, ⟨rfl, a5⟩, p, b1, _, b2, _, b3, m, b4,
    _, b5, m1, b6, _, b7, _, b8, l, ⟨b9, rfl⟩, rfl⟩ := h
  have hGM : M.key ≠ G.key := by
    intro e
    rw [e] at a1
    exact env.program_ne_system (a1.symm.trans a3)
  refine ⟨M, _, ⟨rfl, a1⟩, O, _, ⟨rfl, a2⟩, G, _, ⟨rfl, a3⟩, A, _, ⟨rfl, a4⟩, P, rest, ⟨rfl, a5⟩, p, b1, _, b2, _, b3, m, b4,
    _, b5, m1, b6, _, b7, _, b8, _, ⟨?_, rfl⟩, ?_⟩
  · have := (hf M (by simp) G (by simp) hGM).1
    unfold U64; omega
  · funext k
    by_cases hM : k = M.key
    · subst hM
      rw [world_set_same]
      unfold gifted
      rw [world_set_same, world_set_ne _ _ hGM]
      simp [giftsAfter, addTokens, world_set_ne _ _ hGM]
    · rw [world_set_ne _ _ hM]
      by_cases hG : k = G.key
      · subst hG
        rw [world_set_same]
        unfold gifted
        rw [world_set_ne _ _ hM, world_set_same]
        refine acc_eq rfl ?_ rfl rfl
        simp only [giftsAfter, if_neg hM, if_pos]
        omega
      · rw [world_set_ne _ _ hG]
        unfold gifted
        rw [world_set_ne _ _ hM, world_set_ne _ _ hG]
        simp only [giftsAfter, if_neg hM, if_neg hG]

/-- Every instruction. -/
theorem gifted_exec {i : Ix} {r : Option Nat} (hf : Fits accs (gifted w f g))
    (hc : ∀ k, creates accs i = some k → f k = 0 ∧ g k = 0)
    (hm : ∀ a ∈ accs, a.isWritable = false → giftsAfter f accs i a.key = f a.key) (h : exec env now w accs i = .ok (w', r)) :
    exec env now (gifted w f g) accs i = .ok (gifted w' (giftsAfter f accs i) g, r) := by
  rw [exec_ok] at h ⊢
  obtain ⟨h, hro⟩ := h
  have hp : process env now (gifted w f g) accs i = .ok (gifted w' (giftsAfter f accs i) g, r) := by
    cases i with
    | claim =>
      simp only [process, res_bind_ok, res_pure_ok, Prod.mk.injEq, Prod.exists] at h ⊢
      obtain ⟨v1, n, h, rfl, rfl⟩ := h
      exact ⟨_, _, gifted_claim hf h, rfl, rfl⟩
    | initializePool fa da =>
      simp only [process, res_bind_ok, res_pure_ok, Prod.mk.injEq] at h ⊢
      obtain ⟨v1, h, rfl, rfl⟩ := h
      exact ⟨_, gifted_initPool hc h, rfl, rfl⟩
    | initializeMining o =>
      simp only [process, res_bind_ok, res_pure_ok, Prod.mk.injEq] at h ⊢
      obtain ⟨v1, h, rfl, rfl⟩ := h
      exact ⟨_, gifted_initMining hc h, rfl, rfl⟩
    | fillVault a e =>
      simp only [process, res_bind_ok, res_pure_ok, Prod.mk.injEq] at h ⊢
      obtain ⟨v1, h, rfl, rfl⟩ := h
      exact ⟨_, gifted_fill hf h, rfl, rfl⟩
    | closeMining =>
      simp only [process, res_bind_ok, res_pure_ok, Prod.mk.injEq] at h ⊢
      obtain ⟨v1, h, rfl, rfl⟩ := h
      exact ⟨_, gifted_close hf h, rfl, rfl⟩
    | depositMining a l o d =>
      simp only [process, res_bind_ok, res_pure_ok, Prod.mk.injEq] at h ⊢
      obtain ⟨v1, h, rfl, rfl⟩ := h
      exact ⟨_, gifted_deposit h, rfl, rfl⟩
    | withdrawMining a o d =>
      simp only [process, res_bind_ok, res_pure_ok, Prod.mk.injEq] at h ⊢
      obtain ⟨v1, h, rfl, rfl⟩ := h
      exact ⟨_, gifted_withdraw h, rfl, rfl⟩
    | extendStake ol nl ts b a o d =>
      simp only [process, res_bind_ok, res_pure_ok, Prod.mk.injEq] at h ⊢
      obtain ⟨v1, h, rfl, rfl⟩ := h
      exact ⟨_, gifted_extend h, rfl, rfl⟩
    | distributeRewards =>
      simp only [process, res_bind_ok, res_pure_ok, Prod.mk.injEq] at h ⊢
      obtain ⟨v1, h, rfl, rfl⟩ := h
      exact ⟨_, gifted_distribute h, rfl, rfl⟩
    | changeDelegate a d =>
      simp only [process, res_bind_ok, res_pure_ok, Prod.mk.injEq] at h ⊢
      obtain ⟨v1, h, rfl, rfl⟩ := h
      exact ⟨_, gifted_redelegate h, rfl, rfl⟩
    | slash o n m e =>
      simp only [process, res_bind_ok, res_pure_ok, Prod.mk.injEq] at h ⊢
      obtain ⟨v1, h, rfl, rfl⟩ := h
      exact ⟨_, gifted_slash h, rfl, rfl⟩
    | decreaseRewards o n =>
      simp only [process, res_bind_ok, res_pure_ok, Prod.mk.injEq] at h ⊢
      obtain ⟨v1, h, rfl, rfl⟩ := h
      exact ⟨_, gifted_decrease h, rfl, rfl⟩
  refine ⟨hp, fun a ha hw => ?_⟩
  have e := hro a ha hw
  unfold gifted
  rw [e, hm a ha hw]

end

end Verif
