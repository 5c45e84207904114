import Verif.Lemmas.Shift
/-!
Instructions and histories do not depend on the date (C91).
-/

namespace Verif

open Spec

variable {env : Env} (n : Nat)

theorem laterWorld_set (w : World) (k : Key) (a : Account) :
    (laterWorld n w).set k (laterAccount n a) = laterWorld n (w.set k a) := by
  funext j
  unfold World.set laterWorld
  dsimp only
  split <;> rfl

theorem laterWorld_at (w : World) (k : Key) : laterWorld n w k = laterAccount n (w k) := rfl

theorem laterContent_pool {c : Content} (h : ∀ p, c ≠ .pool p) : ∀ p, laterContent n c ≠ .pool p := by
  intro p hp
  cases c <;> simp [laterContent] at hp
  exact h _ rfl

theorem viewMining_later {c : Content} (h : ∀ p, c ≠ .pool p) :
    viewMining env (laterContent n c) = (viewMining env c).map (laterMining n) := by
  cases c <;> first
    | exact absurd rfl (h _)
    | simp [viewMining, laterContent, laterMining_zero]

theorem viewPool_later {c : Content} (h : ∀ m, c ≠ .mining m) :
    viewPool env (laterContent n c) = (viewPool env c).map (laterPool n) := by
  cases c <;> first
    | exact absurd rfl (h _)
    | simp [viewPool, laterContent, laterPool_zero]

theorem loadMining_later {a : Account} (h : ∀ p, a.content ≠ .pool p) :
    loadMining env (laterAccount n a) = (loadMining env a).map (laterMining n) := by
  unfold loadMining
  refine bind_map fun _ _ => ?_
  simp only [laterAccount, viewMining_later n h, okOr_map]

theorem loadPool_later {a : Account} (h : ∀ p, a.content ≠ .mining p) :
    loadPool env (laterAccount n a) = (loadPool env a).map (laterPool n) := by
  unfold loadPool
  refine bind_map fun _ _ => ?_
  simp only [laterAccount, viewPool_later n h, okOr_map]

theorem storeMining_later {a : Account} (h : ∀ p, a.content ≠ .pool p) (m : Mining) :
    storeMining env (laterAccount n a) (laterMining n m) = laterAccount n (storeMining env a m) := by
  have hv : viewMining env (laterAccount n a).content = some (laterMining n m) ↔ viewMining env a.content = some m := by
    simp only [laterAccount, viewMining_later n h]
    cases viewMining env a.content with
    | none => simp
    | some n => simp [laterMining_eq]
  unfold storeMining
  simp only [hv]
  split
  · rfl
  · cases hc : a.content <;> first
      | exact absurd hc (h _)
      | simp [laterAccount, laterContent, hc]

theorem putPool_later (w : World) (k : Key) (p : Pool) :
    putPool (laterWorld n w) k (laterPool n p) = laterWorld n (putPool w k p) := by
  unfold putPool
  rw [← laterWorld_set]
  rfl

theorem putMining_later {w : World} {k : Key} (h : ∀ p, (w k).content ≠ .pool p) (m : Mining) :
    putMining env (laterWorld n w) k (laterMining n m) = laterWorld n (putMining env w k m) := by
  unfold putMining
  rw [laterWorld_at, storeMining_later n h, laterWorld_set]

theorem putDelegate_later {w : World} {k : Key} (h : ∀ p, (w k).content ≠ .pool p) (m : Option Mining) :
    putDelegate env (laterWorld n w) k (m.map (laterMining n)) = laterWorld n (putDelegate env w k m) := by
  cases m with
  | none => rfl
  | some m => exact putMining_later n h m

theorem putPool_noPool {w : World} {k j : Key} {p : Pool} (hj : j ≠ k) (h : ∀ p, (w j).content ≠ .pool p) :
    ∀ q, (putPool w k p j).content ≠ .pool q := by
  unfold putPool World.set
  rw [if_neg hj]
  exact h

theorem putMining_noPool {w : World} {k j : Key} {m : Mining} (hk : ∀ p, (w k).content ≠ .pool p)
    (h : ∀ p, (w j).content ≠ .pool p) : ∀ q, (putMining env w k m j).content ≠ .pool q := by
  unfold putMining World.set
  split
  · intro q
    unfold storeMining
    split
    · exact hk q
    · cases hc : (w k).content <;> first
        | exact absurd hc (hk _)
        | simp
  · exact h

theorem putDelegate_noPool {w : World} {k j : Key} {m : Option Mining} (hk : ∀ p, (w k).content ≠ .pool p)
    (h : ∀ p, (w j).content ≠ .pool p) : ∀ q, (putDelegate env w k m j).content ≠ .pool q := by
  cases m with
  | none => exact h
  | some m => exact putMining_noPool hk h

section
variable {β γ : Type} {accs : List AccountInfo} {w : World}
  {f : AccountInfo × List AccountInfo → Res γ} {g : AccountInfo × List AccountInfo → Res β} {h : β → γ}

theorem next_later {x y : Res (AccountInfo × List AccountInfo)} (e : x = y) (hy : ∀ z, y = .ok z → accs = z.1 :: z.2)
    (H : ∀ a l, accs = a :: l → f (a, l) = (g (a, l)).map h) : (x >>= f) = (y >>= g).map h := by
  subst e
  exact bind_map fun z hz => H z.1 z.2 (hy z hz)

theorem nextWithOwner_later {o : Key} (H : ∀ a l, accs = a :: l → f (a, l) = (g (a, l)).map h) :
    (nextWithOwner (laterWorld n w) o accs >>= f) = (nextWithOwner w o accs >>= g).map h := by
  refine next_later rfl (fun z hz => ?_) H
  exact (nextWithOwner_ok.mp hz).1

theorem nextUninitialized_later (H : ∀ a l, accs = a :: l → f (a, l) = (g (a, l)).map h) :
    (nextUninitialized (laterWorld n w) accs >>= f) = (nextUninitialized w accs >>= g).map h := by
  refine next_later ?_ (fun z hz => ?_) H
  · unfold nextUninitialized
    cases accs with
    | nil => rfl
    | cons a l =>
      show (ensure ((laterContent n _).allZero = _) _ >>= _) = (ensure _ _ >>= _)
      simp only [allZero_later]
  · exact (nextUninitialized_ok.mp hz).1

theorem nextSigner_later (H : ∀ a l, accs = a :: l → f (a, l) = (g (a, l)).map h) :
    (nextSigner accs >>= f) = (nextSigner accs >>= g).map h := by
  refine next_later rfl (fun z hz => ?_) H
  exact (nextSigner_ok.mp hz).1

theorem nextWithKey_later {o : Key} (H : ∀ a l, accs = a :: l → f (a, l) = (g (a, l)).map h) :
    (nextWithKey o accs >>= f) = (nextWithKey o accs >>= g).map h := by
  refine next_later rfl (fun z hz => ?_) H
  exact (nextWithKey_ok.mp hz).1

end

theorem getPoolAndMining_later {w : World} {M P : AccountInfo} (o : Key) (A : AccountInfo)
    (hm : ∀ p, (w M.key).content ≠ .pool p) (hp : ∀ m, (w P.key).content ≠ .mining m) :
    getPoolAndMining env (laterWorld n w) o M P A =
      (getPoolAndMining env w o M P A).map fun x => (laterPool n x.1, laterMining n x.2) := by
  unfold getPoolAndMining
  exact bind_map2 (loadMining_later n hm) fun m _ => bind_map2 (loadPool_later n hp) fun p _ => bind_map fun _ _ =>
    bind_map fun _ _ => bind_map fun _ _ => bind_map fun _ _ => bind_map fun _ _ => rfl

theorem verifyDelegate_later {w : World} {D : AccountInfo} (d P : Key) (hm : ∀ p, (w D.key).content ≠ .pool p) :
    verifyDelegate env (laterWorld n w) D d P = verifyDelegate env w D d P := by
  have : ∀ x : Res Unit, x = x.map id := fun x => by cases x <;> rfl
  rw [this (verifyDelegate env w D d P)]
  unfold verifyDelegate
  exact bind_map fun _ _ => bind_map2 (loadMining_later n hm) fun m _ => bind_map fun _ _ => this _

theorem loadDelegate_later {w : World} {D M : AccountInfo} (d P : Key) (hm : ∀ p, (w D.key).content ≠ .pool p) :
    loadDelegate env (laterWorld n w) D M d P = (loadDelegate env w D M d P).map fun x => x.map (laterMining n) := by
  unfold loadDelegate
  rw [verifyDelegate_later n d P hm]
  split
  · exact bind_map fun _ _ => bind_map2 (loadMining_later n hm) fun m _ => rfl
  · rfl

theorem loadOldDelegate_later {w : World} {D M : AccountInfo} (P : Key) (hm : ∀ p, (w D.key).content ≠ .pool p) :
    loadOldDelegate env (laterWorld n w) D M P = (loadOldDelegate env w D M P).map fun x => x.map (laterMining n) := by
  unfold loadOldDelegate
  split
  · exact bind_map fun _ _ => bind_map2 (loadMining_later n hm) fun m _ => rfl
  · rfl

theorem tokenOf_later (a : Account) : tokenOf env (laterAccount n a) = tokenOf env a := by
  unfold tokenOf laterAccount
  dsimp only
  split
  · cases a.content <;> rfl
  · rfl

theorem unpackToken_later (a : Account) : unpackToken (laterAccount n a) = unpackToken a := by
  unfold unpackToken laterAccount
  dsimp only
  cases a.content <;> rfl

theorem splTransfer_later (w : World) (S D A : AccountInfo) (k : Nat) :
    splTransfer env (laterWorld n w) S D A k = (splTransfer env w S D A k).map (laterWorld n) := by
  unfold splTransfer
  simp only [laterWorld_at, tokenOf_later]
  refine bind_map fun _ _ => bind_map fun s _ => bind_map fun d _ => bind_map fun _ _ => bind_map fun _ _ =>
    bind_map fun _ _ => bind_map fun _ _ => bind_map fun s' _ => ?_
  split
  · rfl
  · refine bind_map fun _ _ => bind_map fun _ _ => ?_
    simp only [pure, Except.pure, Except.map]
    rw [← laterWorld_set, ← laterWorld_set]
    rfl

theorem createAccount_later (w : World) (S D : AccountInfo) (k : Nat) (o : Key) :
    createAccount env (laterWorld n w) S D k o = (createAccount env w S D k o).map (laterWorld n) := by
  unfold createAccount
  simp only [laterWorld_at]
  refine bind_map fun _ _ => bind_map fun _ _ => bind_map fun _ _ => bind_map fun _ _ => bind_map fun _ _ => ?_
  simp only [pure, Except.pure, Except.map]
  rw [← laterWorld_set, ← laterWorld_set]
  rfl

theorem createAccount_noPool {w w' : World} {S D : AccountInfo} {k : Nat} {o : Key}
    (h : createAccount env w S D k o = .ok w') : ∀ p, (w' D.key).content ≠ .pool p := by
  have h := (createAccount_ok.mp h).2.2.2.2.2
  subst h
  intro p
  simp [World.set]

theorem initializeTokenAccount_later (w : World) (a m o : Key) :
    initializeTokenAccount env (laterWorld n w) a m o = (initializeTokenAccount env w a m o).map (laterWorld n) := by
  unfold initializeTokenAccount
  simp only [laterWorld_at]
  refine ensure_congr ?_ _ fun _ => ensure_congr ?_ _ fun _ => ?_
  · exact and_congr Iff.rfl (laterContent_zero n _)
  · exact or_congr Iff.rfl (and_congr Iff.rfl (laterContent_mint n _))
  · simp only [pure, Except.pure, Except.map]
    rw [← laterWorld_set]
    rfl

/-! ### The instructions -/

theorem loadDelegate_ne {w : World} {D M P : AccountInfo} {d : Key} {x : Option Mining} (hne : M.key ≠ P.key)
    (h : loadDelegate env w D M d P.key = .ok x) : D.key ≠ P.key := by
  unfold loadDelegate at h
  split at h
  · obtain ⟨_, h, _⟩ := res_bind_ok.mp h
    unfold verifyDelegate at h
    obtain ⟨_, h, _⟩ := res_bind_ok.mp h
    exact ensure_ok.mp h
  · rename_i e
    exact fun e' => e fun e'' => hne (e''.trans e')

theorem loadOldDelegate_ne {w : World} {D M P : AccountInfo} {x : Option Mining} (hne : M.key ≠ P.key)
    (h : loadOldDelegate env w D M P.key = .ok x) : D.key ≠ P.key := by
  unfold loadOldDelegate at h
  split at h
  · obtain ⟨_, h, _⟩ := res_bind_ok.mp h
    exact ensure_ok.mp h
  · rename_i e
    exact fun e' => e fun e'' => hne (e''.trans e')

theorem later_stake_end {w : World} {P M D : AccountInfo} {x : Pool × Mining × Option Mining} (hne : M.key ≠ P.key)
    (hd : D.key ≠ P.key) (hM : ∀ p, (w M.key).content ≠ .pool p) (hD : ∀ p, (w D.key).content ≠ .pool p) :
    (pure (putDelegate env (putMining env (putPool (laterWorld n w) P.key (laterPool n x.1)) M.key
      (laterMining n x.2.1)) D.key (x.2.2.map (laterMining n))) : Res World) =
    (pure (putDelegate env (putMining env (putPool w P.key x.1) M.key x.2.1) D.key x.2.2) : Res World).map (laterWorld n) := by
  rw [putPool_later, putMining_later n (putPool_noPool hne hM),
    putDelegate_later n (putMining_noPool (putPool_noPool hne hM) (putPool_noPool hd hD))]
  rfl

variable {t : Nat} {accs : List AccountInfo} {w : World}

theorem processDepositMining_later (k : Nat) (l : LockupPeriod) (o d : Key) (hn : NoMixUp w accs (.depositMining k l o d))
    (ht : t + 86400 * n + 366 * 86400 < 2 ^ 64) :
    processDepositMining env (t + 86400 * n) (laterWorld n w) accs k l o d =
      (processDepositMining env t w accs k l o d).map (laterWorld n) := by
  unfold processDepositMining
  refine nextWithOwner_later n fun P _ h1 => nextWithOwner_later n fun M _ h2 => nextSigner_later fun A _ h3 =>
    nextWithOwner_later n fun D _ h4 => ?_
  subst h1 h2 h3 h4
  exact ensure_congr Iff.rfl _ fun hne => bind_map2 (getPoolAndMining_later n o A (hn.mining _ rfl) (hn.pool _ rfl)) fun x _ =>
    bind_map2 (loadDelegate_later n d P.key (hn.delegate _ rfl)) fun y hy =>
    bind_map2 (deposit_later n env.caps t x.1 x.2 k l y ht) fun z _ =>
    later_stake_end n hne (loadDelegate_ne hne hy) (hn.mining _ rfl) (hn.delegate _ rfl)

theorem processWithdrawMining_later (k : Nat) (o d : Key) (hn : NoMixUp w accs (.withdrawMining k o d)) :
    processWithdrawMining env (t + 86400 * n) (laterWorld n w) accs k o d =
      (processWithdrawMining env t w accs k o d).map (laterWorld n) := by
  unfold processWithdrawMining
  refine nextWithOwner_later n fun P _ h1 => nextWithOwner_later n fun M _ h2 => nextSigner_later fun A _ h3 =>
    nextWithOwner_later n fun D _ h4 => ?_
  subst h1 h2 h3 h4
  exact ensure_congr Iff.rfl _ fun hne => bind_map2 (getPoolAndMining_later n o A (hn.mining _ rfl) (hn.pool _ rfl)) fun x _ =>
    bind_map2 (loadDelegate_later n d P.key (hn.delegate _ rfl)) fun y hy =>
    bind_map2 (withdraw_later n t x.1 x.2 k y) fun z _ =>
    later_stake_end n hne (loadDelegate_ne hne hy) (hn.mining _ rfl) (hn.delegate _ rfl)

theorem processExtendStake_later (ol nl : LockupPeriod) (ts b a : Nat) (o d : Key)
    (hn : NoMixUp w accs (.extendStake ol nl ts b a o d))
    (ht : t + 86400 * n + 366 * 86400 < 2 ^ 64) (hs : ts + 86400 * n + 366 * 86400 < 2 ^ 64) :
    processExtendStake env (t + 86400 * n) (laterWorld n w) accs ol nl (ts + 86400 * n) b a o d =
      (processExtendStake env t w accs ol nl ts b a o d).map (laterWorld n) := by
  unfold processExtendStake
  refine nextWithOwner_later n fun P _ h1 => nextWithOwner_later n fun M _ h2 => nextSigner_later fun A _ h3 =>
    nextWithOwner_later n fun D _ h4 => ?_
  subst h1 h2 h3 h4
  exact ensure_congr Iff.rfl _ fun hne => bind_map2 (getPoolAndMining_later n o A (hn.mining _ rfl) (hn.pool _ rfl)) fun x _ =>
    bind_map2 (loadDelegate_later n d P.key (hn.delegate _ rfl)) fun y hy =>
    bind_map2 (extend_later n env.caps t x.1 x.2 ol nl ts b a y ht hs) fun z _ =>
    later_stake_end n hne (loadDelegate_ne hne hy) (hn.mining _ rfl) (hn.delegate _ rfl)

theorem processChangeDelegate_later (k : Nat) (d : Key) (hn : NoMixUp w accs (.changeDelegate k d)) :
    processChangeDelegate env (t + 86400 * n) (laterWorld n w) accs k d =
      (processChangeDelegate env t w accs k d).map (laterWorld n) := by
  unfold processChangeDelegate
  refine nextWithOwner_later n fun P _ h1 => nextWithOwner_later n fun M _ h2 => nextSigner_later fun A _ h3 =>
    nextSigner_later fun O _ h4 => nextWithOwner_later n fun D _ h5 => nextWithOwner_later n fun E _ h6 => ?_
  subst h1 h2 h3 h4 h5 h6
  have hM := hn.mining _ rfl
  have hD := hn.oldDelegate _ rfl
  have hE := hn.delegate _ rfl
  refine bind_map fun _ _ => ensure_congr Iff.rfl _ fun hne =>
    bind_map2 (getPoolAndMining_later n O.key A hM (hn.pool _ rfl)) fun x _ =>
    bind_map2 (loadDelegate_later n d P.key hE) fun y hy =>
    bind_map2 (refreshRewards_later n t x.1.cumulative x.2) fun _ _ => bind_map2 (loadOldDelegate_later n P.key hD) fun y' hy' =>
    bind_map2 (changeDelegate_later n t x.1 x.2 y y' k) fun z _ => ?_
  have h1 := putPool_noPool (p := z.1) hne hM
  have h2 := putPool_noPool (p := z.1) (loadOldDelegate_ne hne hy') hD
  have h3 := putPool_noPool (p := z.1) (loadDelegate_ne hne hy) hE
  have h4 := putMining_noPool (env := env) (m := z.2.1) h1 h2
  have h5 := putMining_noPool (env := env) (m := z.2.1) h1 h3
  dsimp only
  rw [putPool_later, putMining_later n h1, putDelegate_later n h4, putDelegate_later n (putDelegate_noPool h4 h5)]
  rfl

theorem processSlash_later (o : Key) (a b : Nat) (e : Option Nat) (hn : NoMixUp w accs (.slash o a b e)) :
    processSlash env (t + 86400 * n) (laterWorld n w) accs o a b (e.map (· + 86400 * n)) =
      (processSlash env t w accs o a b e).map (laterWorld n) := by
  unfold processSlash
  refine nextSigner_later fun A _ h1 => nextWithOwner_later n fun P _ h2 => nextWithOwner_later n fun M _ h3 => ?_
  subst h1 h2 h3
  have hM := hn.mining _ rfl
  refine ensure_congr Iff.rfl _ fun hne => bind_map2 (getPoolAndMining_later n o A hM (hn.pool _ rfl)) fun x _ =>
    bind_map2 (slash_later n t x.1 x.2 a b e) fun z _ => ?_
  dsimp only
  rw [putPool_later, putMining_later n (putPool_noPool hne hM)]
  rfl

theorem processDecreaseRewards_later (o : Key) (k : Nat) (hn : NoMixUp w accs (.decreaseRewards o k)) :
    processDecreaseRewards env (laterWorld n w) accs o k = (processDecreaseRewards env w accs o k).map (laterWorld n) := by
  unfold processDecreaseRewards
  refine nextSigner_later fun A _ h1 => nextWithOwner_later n fun P _ h2 => nextWithOwner_later n fun M _ h3 => ?_
  subst h1 h2 h3
  have hM := hn.mining _ rfl
  refine bind_map fun _ _ => bind_map2 (getPoolAndMining_later n o A hM (hn.pool _ rfl)) fun x _ =>
    bind_map2 (decreaseRewards_later n x.2 k) fun z _ => ?_
  rw [putMining_later n hM]
  rfl

theorem processDistributeRewards_later (hn : NoMixUp w accs .distributeRewards) :
    processDistributeRewards env (t + 86400 * n) (laterWorld n w) accs =
      (processDistributeRewards env t w accs).map (laterWorld n) := by
  unfold processDistributeRewards
  refine nextWithOwner_later n fun P _ h1 => nextSigner_later fun A _ h2 => ?_
  subst h1 h2
  refine bind_map2 (loadPool_later n (hn.pool _ rfl)) fun p _ => ?_
  rw [rewardsToDistribute_later]
  refine bind_map fun k _ => bind_map fun _ _ => bind_map2 (distribute_later n env.caps t p k) fun q _ => ?_
  rw [putPool_later]
  rfl

theorem processCloseMining_later (hn : NoMixUp w accs .closeMining) :
    processCloseMining env (t + 86400 * n) (laterWorld n w) accs = (processCloseMining env t w accs).map (laterWorld n) := by
  unfold processCloseMining
  refine nextWithOwner_later n fun M _ h1 => nextSigner_later fun O _ h2 => nextWithOwner_later n fun T _ h3 =>
    nextSigner_later fun A _ h4 => nextWithOwner_later n fun P _ h5 => ?_
  subst h1 h2 h3 h4 h5
  refine bind_map2 (loadPool_later n (hn.pool _ rfl)) fun p _ => bind_map fun _ _ => bind_map fun _ _ =>
    bind_map2 (loadMining_later n (hn.mining _ rfl)) fun m _ => bind_map fun _ _ =>
    bind_map2 (refreshRewards_later n t p.cumulative m) fun m' _ => bind_map fun _ _ => bind_map fun _ _ =>
    bind_map fun k _ => ?_
  simp only [pure, Except.pure, Except.map]
  have e : (laterWorld n w).set T.key { laterWorld n w T.key with lamports := k } =
    laterWorld n (w.set T.key { w T.key with lamports := k }) := laterWorld_set n w T.key { w T.key with lamports := k }
  rw [e, ← laterWorld_set n (w.set T.key { w T.key with lamports := k })]
  rfl

theorem processClaim_later (hn : NoMixUp w accs .claim) :
    processClaim env (t + 86400 * n) (laterWorld n w) accs =
      (processClaim env t w accs).map fun x => (laterWorld n x.1, x.2) := by
  unfold processClaim
  refine nextWithOwner_later n fun P _ h1 => nextWithOwner_later n fun T _ h2 => nextWithOwner_later n fun V _ h3 =>
    nextWithOwner_later n fun M _ h4 => nextSigner_later fun O _ h5 => nextSigner_later fun A _ h6 =>
    nextWithOwner_later n fun U _ h7 => nextWithKey_later fun X _ h8 => ?_
  subst h1 h2 h3 h4 h5 h6 h7 h8
  simp only [laterWorld_at, unpackToken_later]
  have hM := hn.mining _ rfl
  refine bind_map fun u _ => bind_map fun _ _ => bind_map2 (loadPool_later n (hn.pool _ rfl)) fun p _ =>
    bind_map fun _ _ => bind_map fun _ _ => bind_map2 (loadMining_later n hM) fun m _ => bind_map fun _ _ =>
    bind_map fun _ _ => bind_map fun _ _ => bind_map fun _ _ =>
    bind_map2 (refreshRewards_later n t p.cumulative m) fun m' _ => ?_
  have e : (laterMining n m').claim = laterMining n m'.claim := rfl
  have e' : (laterMining n m').unclaimed = m'.unclaimed := rfl
  rw [e, e', putMining_later n hM]
  split
  · exact bind_map2 (splTransfer_later n _ V U A _) fun _ _ => rfl
  · rfl

theorem processFillVault_later (k e : Nat) (hn : NoMixUp w accs (.fillVault k e)) (ht : 86400 ≤ t)
    (he : e + 86400 * n < 2 ^ 64) :
    processFillVault env (t + 86400 * n) (laterWorld n w) accs k (e + 86400 * n) =
      (processFillVault env t w accs k e).map (laterWorld n) := by
  unfold processFillVault
  refine nextWithOwner_later n fun P _ h1 => nextWithOwner_later n fun T _ h2 => nextWithOwner_later n fun V _ h3 =>
    nextSigner_later fun A _ h4 => nextWithOwner_later n fun S _ h5 => nextWithKey_later fun X _ h6 => ?_
  subst h1 h2 h3 h4 h5 h6
  have hb : bod e ≤ e := Nat.sub_le _ _
  have hn0 : 0 < bod t := by unfold bod DAY; omega
  refine bind_map fun _ _ => bind_map2 (loadPool_later n (hn.pool _ rfl)) fun p _ => bind_map fun _ _ => bind_map fun _ _ =>
    bind_map fun _ _ => ensure_congr (by rw [bod_later, bod_later]; omega) _ fun hpast => ?_
  rw [bod_later]
  have hend : (laterPool n p).distributionEndsAt = laterDate n p.distributionEndsAt := rfl
  by_cases hle : p.distributionEndsAt ≤ bod e
  · have h1 : safeSub (bod e + 86400 * n) (laterPool n p).distributionEndsAt =
        .ok (bod e + 86400 * n - laterDate n p.distributionEndsAt) := by
      rw [hend]
      exact safeSub_ok.mpr ⟨by unfold laterDate; split <;> omega, rfl⟩
    have h2 : safeSub (bod e) p.distributionEndsAt = .ok (bod e - p.distributionEndsAt) := safeSub_ok.mpr ⟨hle, rfl⟩
    have h3 : safeAdd64 (laterPool n p).distributionEndsAt (bod e + 86400 * n - laterDate n p.distributionEndsAt) =
        .ok (bod e + 86400 * n) := by
      rw [hend]
      refine safeAdd64_ok.mpr ⟨?_, ?_⟩ <;> unfold laterDate <;> split <;> (try unfold U64) <;> omega
    have h4 : safeAdd64 p.distributionEndsAt (bod e - p.distributionEndsAt) = .ok (bod e) := by
      refine safeAdd64_ok.mpr ⟨?_, ?_⟩ <;> (try unfold U64) <;> omega
    rw [h1, h2]
    simp only [bind, Except.bind, h3, h4]
    refine bind_map (x := safeAdd64 p.tokensAvailable k) fun av _ => bind_map fun _ _ => ?_
    have e1 : { laterPool n p with distributionEndsAt := bod e + 86400 * n, tokensAvailable := av } =
        laterPool n { p with distributionEndsAt := bod e, tokensAvailable := av } := by
      have : laterDate n (bod e) = bod e + 86400 * n := by unfold laterDate; rw [if_neg (by omega)]
      simp only [laterPool, this]
    rw [e1, putPool_later]
    exact splTransfer_later n _ S V A k
  · have h1 : safeSub (bod e + 86400 * n) (laterPool n p).distributionEndsAt = .error mathOverflow := by
      rw [hend]
      unfold safeSub laterDate
      rw [if_neg (by split <;> omega)]
    have h2 : safeSub (bod e) p.distributionEndsAt = .error mathOverflow := by
      unfold safeSub
      rw [if_neg hle]
    rw [h1, h2]
    rfl

theorem processInitializeMining_later (o : Key) :
    processInitializeMining env (laterWorld n w) accs o = (processInitializeMining env w accs o).map (laterWorld n) := by
  unfold processInitializeMining
  refine nextWithOwner_later n fun P _ _ => nextUninitialized_later n fun M _ _ => nextSigner_later fun Y _ _ =>
    nextWithKey_later fun X _ _ => bind_map fun k _ => bind_map fun _ _ =>
    bind_map2 (createAccount_later n w Y M _ _) fun w' hw' => ?_
  have e : Mining.init P.key o k.2 = laterMining n (Mining.init P.key o k.2) := rfl
  rw [e, putMining_later n (createAccount_noPool hw')]
  rfl

theorem processInitializePool_later (f d : Key) (hn : NoMixUp w accs (.initializePool f d)) :
    processInitializePool env (laterWorld n w) accs f d = (processInitializePool env w accs f d).map (laterWorld n) := by
  unfold processInitializePool
  refine nextWithOwner_later n fun P _ h1 => nextWithOwner_later n fun T _ h2 => nextUninitialized_later n fun V _ h3 =>
    nextSigner_later fun Y _ h4 => nextSigner_later fun A _ h5 => nextWithKey_later fun R _ h6 => nextWithKey_later fun X _ h7 =>
    nextWithKey_later fun X' _ h8 => ?_
  subst h1 h2 h3 h4 h5 h6 h7 h8
  refine bind_map fun _ _ => bind_map2 (loadPool_later n (hn.pool _ rfl)) fun p _ => bind_map fun _ _ => bind_map fun k _ =>
    bind_map fun _ _ => bind_map fun _ _ => bind_map2 (createAccount_later n w Y V _ _) fun w' _ => bind_map fun _ _ =>
    bind_map2 (initializeTokenAccount_later n w' V.key T.key A.key) fun w'' _ => ?_
  have e : Pool.init k.2 A.key d f T.key = laterPool n (Pool.init k.2 A.key d f T.key) := by
    simp [Pool.init, Pool.zero, laterPool, laterTable, laterDate]
  rw [e, putPool_later]
  rfl

theorem process_later {i : Ix} (hn : NoMixUp w accs i) (hc : InCalendar n t i) :
    process env (t + 86400 * n) (laterWorld n w) accs (laterIx n i) =
      (process env t w accs i).map fun x => (laterWorld n x.1, x.2) := by
  obtain ⟨h1, h2, h3⟩ := hc
  cases i <;> simp only [process, laterIx]
  · exact bind_map2 (processInitializePool_later n _ _ hn) fun _ _ => rfl
  · exact bind_map2 (processFillVault_later n _ _ hn h1 h3) fun _ _ => rfl
  · exact bind_map2 (processInitializeMining_later n _) fun _ _ => rfl
  · exact bind_map2 (processDepositMining_later n _ _ _ _ hn h2) fun _ _ => rfl
  · exact bind_map2 (processWithdrawMining_later n _ _ _ hn) fun _ _ => rfl
  · exact bind_map2 (processClaim_later n hn) fun _ _ => rfl
  · exact bind_map2 (processExtendStake_later n _ _ _ _ _ _ _ hn h2 h3) fun _ _ => rfl
  · exact bind_map2 (processDistributeRewards_later n hn) fun _ _ => rfl
  · exact bind_map2 (processCloseMining_later n hn) fun _ _ => rfl
  · exact bind_map2 (processChangeDelegate_later n _ _ hn) fun _ _ => rfl
  · exact bind_map2 (processSlash_later n _ _ _ _ hn) fun _ _ => rfl
  · exact bind_map2 (processDecreaseRewards_later n _ _ hn) fun _ _ => rfl

theorem exec_later {i : Ix} (hn : NoMixUp w accs i) (hc : InCalendar n t i) :
    exec env (t + 86400 * n) (laterWorld n w) accs (laterIx n i) =
      (exec env t w accs i).map fun x => (laterWorld n x.1, x.2) := by
  unfold exec
  refine bind_map2 (process_later n hn hc) fun ⟨w', ret⟩ _ => ensure_congr ?_ _ fun _ => rfl
  exact forall_congr' fun a => forall_congr' fun _ => imp_congr Iff.rfl (laterAccount_eq n)

theorem extOk_later {w w' : World} : ExtOk env (laterWorld n w) (laterWorld n w') ↔ ExtOk env w w' := by
  constructor
  · intro h
    refine ⟨fun k hk => ?_, fun k hk hk' => ?_, fun k hk hk' => ?_, h.4⟩
    · obtain ⟨a, b, c, d⟩ := h.1 k hk
      exact ⟨a, b, (laterContent_eq n).mp c, d⟩
    · obtain ⟨a, b⟩ := h.2 k hk hk'
      exact ⟨(laterContent_zero n _).mp a, b⟩
    · obtain ⟨a, b, c⟩ := h.3 k hk hk'
      exact ⟨a, b, (laterContent_eq n).mp c⟩
  · intro h
    refine ⟨fun k hk => ?_, fun k hk hk' => ?_, fun k hk hk' => ?_, h.4⟩
    · obtain ⟨a, b, c, d⟩ := h.1 k hk
      exact ⟨a, b, (laterContent_eq n).mpr c, d⟩
    · obtain ⟨a, b⟩ := h.2 k hk hk'
      exact ⟨(laterContent_zero n _).mpr a, b⟩
    · obtain ⟨a, b, c⟩ := h.3 k hk hk'
      exact ⟨a, b, (laterContent_eq n).mpr c⟩

theorem valid_later {s : Chain} {e : Event} : (laterEvent n e).Valid env (laterChain n s) ↔ e.Valid env s := by
  cases e with
  | ix accs i => exact Iff.rfl
  | tick d => exact Iff.rfl
  | gc k => exact Iff.rfl
  | ext w => exact extOk_later n

end Verif
