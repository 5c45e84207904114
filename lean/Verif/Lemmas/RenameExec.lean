import Verif.Lemmas.Rename
/-!
Instructions and histories commute with an exchange of all addresses (C90).
-/

namespace Verif

open Spec

variable {env : Env} (r : Renaming)

theorem Spec.Renaming.to_zero {k : Key} : r.to k = 0 ↔ k = 0 := by
  conv => lhs; rw [← r.zero, r.to_eq]

section
variable {β γ : Type} {accs : List AccountInfo} {w : World}
  {f : AccountInfo × List AccountInfo → Res γ} {g : AccountInfo × List AccountInfo → Res β} {h : β → γ}

theorem nextAcc_ren : nextAcc (accs.map r.info) = (nextAcc accs).map fun x => (r.info x.1, x.2.map r.info) := by
  cases accs <;> rfl

theorem nextWithOwner_ren {o : Key} (H : ∀ a l, f (r.info a, l.map r.info) = (g (a, l)).map h) :
    (nextWithOwner (r.world w) (r.to o) (accs.map r.info) >>= f) = (nextWithOwner w o accs >>= g).map h := by
  refine bind_map2 (k := fun x => (r.info x.1, x.2.map r.info)) ?_ fun x _ => H x.1 x.2
  unfold nextWithOwner
  refine bind_map2 (nextAcc_ren r) fun x _ => ?_
  refine ensure_congr ?_ _ fun _ => rfl
  show (r.world w (r.to x.1.key)).owner = _ ↔ _
  rw [r.world_at]
  exact r.to_eq

theorem nextUninitialized_ren (H : ∀ a l, f (r.info a, l.map r.info) = (g (a, l)).map h) :
    (nextUninitialized (r.world w) (accs.map r.info) >>= f) = (nextUninitialized w accs >>= g).map h := by
  refine bind_map2 (k := fun x => (r.info x.1, x.2.map r.info)) ?_ fun x _ => H x.1 x.2
  unfold nextUninitialized
  refine bind_map2 (nextAcc_ren r) fun x _ => ?_
  refine ensure_congr ?_ _ fun _ => rfl
  show (r.world w (r.to x.1.key)).content.allZero = _ ↔ _
  rw [r.world_at]
  show (r.content _).allZero = _ ↔ _
  rw [r.allZero]

theorem nextSigner_ren (H : ∀ a l, f (r.info a, l.map r.info) = (g (a, l)).map h) :
    (nextSigner (accs.map r.info) >>= f) = (nextSigner accs >>= g).map h := by
  refine bind_map2 (k := fun x => (r.info x.1, x.2.map r.info)) ?_ fun x _ => H x.1 x.2
  unfold nextSigner
  exact bind_map2 (nextAcc_ren r) fun x _ => bind_map fun _ _ => rfl

theorem nextWithKey_ren {o : Key} (H : ∀ a l, f (r.info a, l.map r.info) = (g (a, l)).map h) :
    (nextWithKey (r.to o) (accs.map r.info) >>= f) = (nextWithKey o accs >>= g).map h := by
  refine bind_map2 (k := fun x => (r.info x.1, x.2.map r.info)) ?_ fun x _ => H x.1 x.2
  unfold nextWithKey
  exact bind_map2 (nextAcc_ren r) fun x _ => ensure_congr r.to_eq _ fun _ => rfl

end

section
variable {α β : Type} {f : Unit → Res β} {g : Unit → Res α} {k : α → β}

theorem assertKey_ren {a b : Key} (H : f () = (g ()).map k) :
    (assertKey (r.to a) (r.to b) >>= f) = (assertKey a b >>= g).map k :=
  ensure_congr r.to_eq _ fun _ => H

theorem ensure_ne_ren {a b : Key} {e : Err} (H : f () = (g ()).map k) :
    (ensure (r.to a ≠ r.to b) e >>= f) = (ensure (a ≠ b) e >>= g).map k :=
  ensure_congr (not_congr r.to_eq) _ fun _ => H

end

theorem miningAddr_ren (o p : Key) (b : Nat) :
    (r.env env).miningAddr (r.to o) (r.to p) b = (env.miningAddr o p b).map r.to := by
  simp only [Renaming.env, r.back_to]

theorem vaultAddr_ren (o p : Key) (b : Nat) :
    (r.env env).vaultAddr (r.to o) (r.to p) b = (env.vaultAddr o p b).map r.to := by
  simp only [Renaming.env, r.back_to]

theorem findMining_ren (o p : Key) :
    (r.env env).findMining (r.to o) (r.to p) = (env.findMining o p).map fun x => (r.to x.1, x.2) := by
  simp only [Renaming.env, r.back_to]

theorem findVault_ren (o p : Key) :
    (r.env env).findVault (r.to o) (r.to p) = (env.findVault o p).map fun x => (r.to x.1, x.2) := by
  simp only [Renaming.env, r.back_to]

theorem getPoolAndMining_ren (w : World) (o : Key) (M P A : AccountInfo) :
    getPoolAndMining (r.env env) (r.world w) (r.to o) (r.info M) (r.info P) (r.info A) =
      (getPoolAndMining env w o M P A).map fun x => (r.pool x.1, r.mining x.2) := by
  unfold getPoolAndMining
  simp only [Renaming.info, r.world_at]
  refine bind_map2 (loadMining_ren r _) fun m _ => bind_map2 (loadPool_ren r _) fun p _ => ?_
  refine bind_map2 (k := r.to) ?_ fun k _ => assertKey_ren r <| assertKey_ren r <| assertKey_ren r <|
    ensure_congr r.to_eq _ fun _ => rfl
  rw [miningAddr_ren, okOr_map]; rfl

theorem verifyDelegate_ren (w : World) (D : AccountInfo) (d P : Key) :
    verifyDelegate (r.env env) (r.world w) (r.info D) (r.to d) (r.to P) = verifyDelegate env w D d P := by
  have : ∀ x : Res Unit, x = x.map id := fun x => by cases x <;> rfl
  rw [this (verifyDelegate env w D d P)]
  unfold verifyDelegate
  simp only [Renaming.info, r.world_at]
  refine ensure_ne_ren r <| bind_map2 (loadMining_ren r _) fun m _ => ?_
  refine bind_map2 (k := r.to) ?_ fun k _ => ?_
  · rw [miningAddr_ren, okOr_map]; rfl
  · rw [← this]
    simp only [ensure, r.to_eq]

theorem loadDelegate_ren (w : World) (D M : AccountInfo) (d P : Key) :
    loadDelegate (r.env env) (r.world w) (r.info D) (r.info M) (r.to d) (r.to P) =
      (loadDelegate env w D M d P).map fun x => x.map r.mining := by
  unfold loadDelegate
  rw [verifyDelegate_ren]
  simp only [Renaming.info, r.world_at, ne_eq, r.to_eq]
  split
  · exact bind_map fun _ _ => bind_map2 (loadMining_ren r _) fun m _ => rfl
  · rfl

theorem loadOldDelegate_ren (w : World) (D M : AccountInfo) (P : Key) :
    loadOldDelegate (r.env env) (r.world w) (r.info D) (r.info M) (r.to P) =
      (loadOldDelegate env w D M P).map fun x => x.map r.mining := by
  unfold loadOldDelegate
  simp only [Renaming.info, r.world_at, ne_eq, r.to_eq]
  split
  · exact bind_map fun _ _ => bind_map2 (loadMining_ren r _) fun m _ => rfl
  · rfl

theorem tokenOf_ren (a : Account) : tokenOf (r.env env) (r.account a) = (tokenOf env a).map r.token := by
  unfold tokenOf
  have : (r.account a).owner = (r.env env).tokenProgram ↔ a.owner = env.tokenProgram := r.to_eq
  simp only [this]
  split
  · show (match r.content a.content with | .token t => .ok t | _ => .error .token : Res TokenAcc) = _
    cases a.content <;> rfl
  · rfl

theorem unpackToken_ren (a : Account) : unpackToken (r.account a) = (unpackToken a).map r.token := by
  unfold unpackToken
  rw [Renaming.account]
  cases hc : a.content <;> simp only [Renaming.content] <;> first | rfl | (split <;> rfl)

theorem transferAuth_ren (s : TokenAcc) (a : Key) (n : Nat) :
    transferAuth (r.token s) (r.to a) n = (transferAuth s a n).map r.token := by
  unfold transferAuth
  have h1 : (r.token s).delegate = some (r.to a) ↔ s.delegate = some a := by
    simp only [Renaming.token]
    cases s.delegate with
    | none => simp
    | some k => simp [r.to_eq]
  have h2 : (r.token s).owner = r.to a ↔ s.owner = a := r.to_eq
  simp only [h1, h2]
  split
  · show (if n ≤ s.delegatedAmount then _ else _) = _
    split
    · simp only [Except.map, Renaming.token]
      congr 2
      split
      · rename_i h; exact if_pos h
      · rename_i h; exact if_neg h
    · rfl
  · split <;> rfl

theorem splTransfer_ren (w : World) (S D A : AccountInfo) (n : Nat) :
    splTransfer (r.env env) (r.world w) (r.info S) (r.info D) (r.info A) n = (splTransfer env w S D A n).map r.world := by
  unfold splTransfer
  simp only [Renaming.info, r.world_at]
  refine bind_map fun _ _ => bind_map2 (tokenOf_ren r _) fun s _ => bind_map2 (tokenOf_ren r _) fun d _ => bind_map fun _ _ =>
    bind_map fun _ _ => ensure_congr r.to_eq _ fun _ => ensure_congr ?_ _ fun _ =>
    bind_map2 (transferAuth_ren r s A.key n) fun s' _ => ?_
  · exact not_congr (and_congr r.to_eq Iff.rfl)
  · simp only [r.to_eq]
    split
    · rfl
    · refine bind_map fun _ _ => bind_map fun _ _ => ?_
      simp only [pure, Except.pure, Except.map]
      rw [← r.world_set, ← r.world_set]
      rfl

theorem createAccount_ren (w : World) (S D : AccountInfo) (n : Nat) (o : Key) :
    createAccount (r.env env) (r.world w) (r.info S) (r.info D) n (r.to o) = (createAccount env w S D n o).map r.world := by
  unfold createAccount
  simp only [Renaming.info, r.world_at]
  refine bind_map fun _ _ => ensure_ne_ren r <| ensure_congr ?_ _ fun _ => ensure_congr ?_ _ fun _ => bind_map fun _ _ => ?_
  · exact and_congr Iff.rfl (and_congr Iff.rfl r.to_eq)
  · exact and_congr Iff.rfl r.to_eq
  · simp only [pure, Except.pure, Except.map]
    rw [← r.world_set, ← r.world_set]
    rfl

theorem content_ren_zero (c : Content) : r.content c = .zero ↔ c = .zero := by cases c <;> simp [Renaming.content]

theorem content_ren_mint (c : Content) : r.content c = .mint ↔ c = .mint := by cases c <;> simp [Renaming.content]

theorem initializeTokenAccount_ren (w : World) (a m o : Key) :
    initializeTokenAccount (r.env env) (r.world w) (r.to a) (r.to m) (r.to o) =
      (initializeTokenAccount env w a m o).map r.world := by
  have hn : r.to m = (r.env env).nativeMint ↔ m = env.nativeMint := r.to_eq
  unfold initializeTokenAccount
  simp only [r.world_at]
  refine ensure_congr ?_ _ fun _ => ensure_congr ?_ _ fun _ => ?_
  · exact and_congr r.to_eq (content_ren_zero r _)
  · exact or_congr hn (and_congr r.to_eq (content_ren_mint r _))
  · simp only [pure, Except.pure, Except.map, hn]
    rw [← r.world_set]
    rfl

/-! ### The instructions -/

theorem ren_stake_end {w : World} {P M D : AccountInfo} {x : Pool × Mining × Option Mining} :
    (pure (putDelegate (r.env env) (putMining (r.env env) (putPool (r.world w) (r.to P.key) (r.pool x.1)) (r.to M.key)
      (r.mining x.2.1)) (r.to D.key) (x.2.2.map r.mining)) : Res World) =
    (pure (putDelegate env (putMining env (putPool w P.key x.1) M.key x.2.1) D.key x.2.2) : Res World).map r.world := by
  rw [putPool_ren, putMining_ren, putDelegate_ren]; rfl

variable {t : Nat} {accs : List AccountInfo} {w : World}

theorem processDepositMining_ren (n : Nat) (l : LockupPeriod) (o d : Key) :
    processDepositMining (r.env env) t (r.world w) (accs.map r.info) n l (r.to o) (r.to d) =
      (processDepositMining env t w accs n l o d).map r.world := by
  unfold processDepositMining
  exact nextWithOwner_ren r fun P _ => nextWithOwner_ren r fun M _ => nextSigner_ren r fun A _ =>
    nextWithOwner_ren r fun D _ => ensure_ne_ren r <| bind_map2 (getPoolAndMining_ren r w o M P A) fun x _ =>
    bind_map2 (loadDelegate_ren r w D M d P.key) fun y _ => bind_map2 (deposit_ren r env.caps t x.1 x.2 n l y) fun z _ =>
    ren_stake_end r

theorem processWithdrawMining_ren (n : Nat) (o d : Key) :
    processWithdrawMining (r.env env) t (r.world w) (accs.map r.info) n (r.to o) (r.to d) =
      (processWithdrawMining env t w accs n o d).map r.world := by
  unfold processWithdrawMining
  exact nextWithOwner_ren r fun P _ => nextWithOwner_ren r fun M _ => nextSigner_ren r fun A _ =>
    nextWithOwner_ren r fun D _ => ensure_ne_ren r <| bind_map2 (getPoolAndMining_ren r w o M P A) fun x _ =>
    bind_map2 (loadDelegate_ren r w D M d P.key) fun y _ => bind_map2 (withdraw_ren r t x.1 x.2 n y) fun z _ =>
    ren_stake_end r

theorem processExtendStake_ren (ol nl : LockupPeriod) (ts b a : Nat) (o d : Key) :
    processExtendStake (r.env env) t (r.world w) (accs.map r.info) ol nl ts b a (r.to o) (r.to d) =
      (processExtendStake env t w accs ol nl ts b a o d).map r.world := by
  unfold processExtendStake
  exact nextWithOwner_ren r fun P _ => nextWithOwner_ren r fun M _ => nextSigner_ren r fun A _ =>
    nextWithOwner_ren r fun D _ => ensure_ne_ren r <| bind_map2 (getPoolAndMining_ren r w o M P A) fun x _ =>
    bind_map2 (loadDelegate_ren r w D M d P.key) fun y _ =>
    bind_map2 (extend_ren r env.caps t x.1 x.2 ol nl ts b a y) fun z _ => ren_stake_end r

theorem processChangeDelegate_ren (n : Nat) (d : Key) :
    processChangeDelegate (r.env env) t (r.world w) (accs.map r.info) n (r.to d) =
      (processChangeDelegate env t w accs n d).map r.world := by
  unfold processChangeDelegate
  refine nextWithOwner_ren r fun P _ => nextWithOwner_ren r fun M _ => nextSigner_ren r fun A _ => nextSigner_ren r fun O _ =>
    nextWithOwner_ren r fun D _ => nextWithOwner_ren r fun E _ => ensure_ne_ren r <| ensure_ne_ren r <|
    bind_map2 (getPoolAndMining_ren r w O.key M P A) fun x _ => bind_map2 (loadDelegate_ren r w E M d P.key) fun y _ =>
    bind_map2 (refreshRewards_ren r t x.1.cumulative x.2) fun _ _ => bind_map2 (loadOldDelegate_ren r w D M P.key) fun y' _ => bind_map2 (changeDelegate_ren r t x.1 x.2 y y' n) fun z _ => ?_
  dsimp only [Renaming.info]
  rw [putPool_ren, putMining_ren, putDelegate_ren, putDelegate_ren]; rfl

theorem processSlash_ren (o : Key) (n k : Nat) (e : Option Nat) :
    processSlash (r.env env) t (r.world w) (accs.map r.info) (r.to o) n k e =
      (processSlash env t w accs o n k e).map r.world := by
  unfold processSlash
  refine nextSigner_ren r fun A _ => nextWithOwner_ren r fun P _ => nextWithOwner_ren r fun M _ => ensure_ne_ren r <|
    bind_map2 (getPoolAndMining_ren r w o M P A) fun x _ => bind_map2 (slash_ren r t x.1 x.2 n k e) fun z _ => ?_
  dsimp only [Renaming.info]
  rw [putPool_ren, putMining_ren]; rfl

theorem processDecreaseRewards_ren (o : Key) (n : Nat) :
    processDecreaseRewards (r.env env) (r.world w) (accs.map r.info) (r.to o) n =
      (processDecreaseRewards env w accs o n).map r.world := by
  unfold processDecreaseRewards
  refine nextSigner_ren r fun A _ => nextWithOwner_ren r fun P _ => nextWithOwner_ren r fun M _ => ensure_ne_ren r <|
    bind_map2 (getPoolAndMining_ren r w o M P A) fun x _ => bind_map2 (decreaseRewards_ren r x.2 n) fun z _ => ?_
  dsimp only [Renaming.info]
  rw [putMining_ren]; rfl

theorem processDistributeRewards_ren :
    processDistributeRewards (r.env env) t (r.world w) (accs.map r.info) =
      (processDistributeRewards env t w accs).map r.world := by
  unfold processDistributeRewards
  refine nextWithOwner_ren r fun P _ => nextSigner_ren r fun A _ => ?_
  dsimp only [Renaming.info]
  rw [r.world_at]
  refine bind_map2 (loadPool_ren r _) fun p _ => bind_map fun n _ => assertKey_ren r <|
    bind_map2 (distribute_ren r env.caps t p n) fun q _ => ?_
  rw [putPool_ren]; rfl

theorem processCloseMining_ren :
    processCloseMining (r.env env) t (r.world w) (accs.map r.info) = (processCloseMining env t w accs).map r.world := by
  unfold processCloseMining
  refine nextWithOwner_ren r fun M _ => nextSigner_ren r fun O _ => nextWithOwner_ren r fun T _ => nextSigner_ren r fun A _ =>
    nextWithOwner_ren r fun P _ => ?_
  dsimp only [Renaming.info]
  simp only [r.world_at]
  refine bind_map2 (loadPool_ren r _) fun p _ => assertKey_ren r <| ensure_ne_ren r <| bind_map2 (loadMining_ren r _) fun m _ =>
    assertKey_ren r <| bind_map2 (refreshRewards_ren r t p.cumulative m) fun m' _ => bind_map fun _ _ => bind_map fun _ _ =>
    bind_map fun n _ => ?_
  simp only [pure, Except.pure, Except.map]
  have e : (r.world w).set (r.to T.key) { r.account (w T.key) with lamports := n } =
    r.world (w.set T.key { w T.key with lamports := n }) := r.world_set w T.key { w T.key with lamports := n }
  rw [e, r.world_at, ← r.world_set (w.set T.key { w T.key with lamports := n })]
  rfl

theorem processClaim_ren :
    processClaim (r.env env) t (r.world w) (accs.map r.info) =
      (processClaim env t w accs).map fun x => (r.world x.1, x.2) := by
  unfold processClaim
  refine nextWithOwner_ren r fun P _ => nextWithOwner_ren r fun T _ => nextWithOwner_ren r fun V _ =>
    nextWithOwner_ren r fun M _ => nextSigner_ren r fun O _ => nextSigner_ren r fun A _ => nextWithOwner_ren r fun U _ =>
    nextWithKey_ren r fun X _ => ?_
  dsimp only [Renaming.info]
  simp only [r.world_at]
  refine bind_map2 (unpackToken_ren r _) fun u _ => assertKey_ren r <| bind_map2 (loadPool_ren r _) fun p _ =>
    assertKey_ren r <| ensure_ne_ren r <| bind_map2 (loadMining_ren r _) fun m _ => assertKey_ren r <| assertKey_ren r <|
    bind_map2 (k := r.to) ?_ fun k _ => assertKey_ren r <| bind_map2 (refreshRewards_ren r t p.cumulative m) fun m' _ => ?_
  · exact (congrArg (okOr · _) (vaultAddr_ren r P.key T.key p.bump)).trans (okOr_map _ _ _)
  · have e : (r.mining m').claim = r.mining m'.claim := rfl
    have e' : (r.mining m').unclaimed = m'.unclaimed := rfl
    rw [e, e', putMining_ren]
    split
    · exact bind_map2 (splTransfer_ren r _ V U A _) fun _ _ => rfl
    · rfl

theorem processFillVault_ren (n e : Nat) :
    processFillVault (r.env env) t (r.world w) (accs.map r.info) n e = (processFillVault env t w accs n e).map r.world := by
  unfold processFillVault
  refine nextWithOwner_ren r fun P _ => nextWithOwner_ren r fun T _ => nextWithOwner_ren r fun V _ =>
    nextSigner_ren r fun A _ => nextWithOwner_ren r fun S _ => nextWithKey_ren r fun X _ => bind_map fun _ _ => ?_
  dsimp only [Renaming.info]
  simp only [r.world_at]
  refine bind_map2 (loadPool_ren r _) fun p _ => assertKey_ren r <| bind_map2 (k := r.to) ?_ fun k _ => assertKey_ren r <|
    bind_map fun _ _ => bind_map fun _ _ => bind_map fun en _ => bind_map fun av _ => ensure_congr ?_ _ fun _ => ?_
  · exact (congrArg (okOr · _) (vaultAddr_ren r P.key T.key p.bump)).trans (okOr_map _ _ _)
  · simp only [ne_eq, r.to_eq]
  · have e := putPool_ren r w P.key { p with distributionEndsAt := en, tokensAvailable := av }
    exact (congrArg (splTransfer (r.env env) · (r.info S) (r.info V) (r.info A) n) e).trans (splTransfer_ren r _ S V A n)

theorem processInitializeMining_ren (o : Key) :
    processInitializeMining (r.env env) (r.world w) (accs.map r.info) (r.to o) =
      (processInitializeMining env w accs o).map r.world := by
  unfold processInitializeMining
  refine nextWithOwner_ren r fun P _ => nextUninitialized_ren r fun M _ => nextSigner_ren r fun Y _ =>
    nextWithKey_ren r fun X _ => bind_map2 (k := fun x => (r.to x.1, x.2)) ?_ fun k _ => assertKey_ren r <|
    bind_map2 (createAccount_ren r w Y M _ _) fun w' _ => ?_
  · exact (congrArg (okOr · _) (findMining_ren r o P.key)).trans (okOr_map _ _ _)
  · have e : Mining.init (r.to P.key) (r.to o) k.2 = r.mining (Mining.init P.key o k.2) := by
      simp [Mining.init, Mining.zero, Renaming.mining, r.zero]
    dsimp only [Renaming.info]
    rw [e, putMining_ren]; rfl

theorem processInitializePool_ren (f d : Key) :
    processInitializePool (r.env env) (r.world w) (accs.map r.info) (r.to f) (r.to d) =
      (processInitializePool env w accs f d).map r.world := by
  unfold processInitializePool
  refine nextWithOwner_ren r fun P _ => nextWithOwner_ren r fun T _ => nextUninitialized_ren r fun V _ =>
    nextSigner_ren r fun Y _ => nextSigner_ren r fun A _ => nextWithKey_ren r fun R _ => nextWithKey_ren r fun X _ =>
    nextWithKey_ren r fun X' _ => ?_
  dsimp only [Renaming.info]
  simp only [r.world_at]
  refine bind_map fun _ _ => bind_map2 (loadPool_ren r _) fun p _ => bind_map fun _ _ =>
    bind_map2 (k := fun x => (r.to x.1, x.2)) ?_ fun k _ => assertKey_ren r <| ensure_congr ?_ _ fun _ =>
    bind_map2 (createAccount_ren r w Y V _ _) fun w' _ => ensure_congr ?_ _ fun _ =>
    bind_map2 (initializeTokenAccount_ren r w' V.key T.key A.key) fun w'' _ => ?_
  · exact (congrArg (okOr · _) (findVault_ren r P.key T.key)).trans (okOr_map _ _ _)
  · simp only [ne_eq, r.to_eq]
  · simp only [ne_eq, r.to_eq]
  · have e : Pool.init k.2 (r.to A.key) (r.to d) (r.to f) (r.to T.key) = r.pool (Pool.init k.2 A.key d f T.key) := by
      simp [Pool.init, Pool.zero, Renaming.pool]
    rw [e, putPool_ren]; rfl

theorem process_ren (i : Ix) :
    process (r.env env) t (r.world w) (accs.map r.info) (r.ix i) =
      (process env t w accs i).map fun x => (r.world x.1, x.2) := by
  cases i <;> simp only [process, Renaming.ix]
  · exact bind_map2 (processInitializePool_ren r _ _) fun _ _ => rfl
  · exact bind_map2 (processFillVault_ren r _ _) fun _ _ => rfl
  · exact bind_map2 (processInitializeMining_ren r _) fun _ _ => rfl
  · exact bind_map2 (processDepositMining_ren r _ _ _ _) fun _ _ => rfl
  · exact bind_map2 (processWithdrawMining_ren r _ _ _) fun _ _ => rfl
  · exact bind_map2 (processClaim_ren r) fun _ _ => rfl
  · exact bind_map2 (processExtendStake_ren r _ _ _ _ _ _ _) fun _ _ => rfl
  · exact bind_map2 (processDistributeRewards_ren r) fun _ _ => rfl
  · exact bind_map2 (processCloseMining_ren r) fun _ _ => rfl
  · exact bind_map2 (processChangeDelegate_ren r _ _) fun _ _ => rfl
  · exact bind_map2 (processSlash_ren r _ _ _ _) fun _ _ => rfl
  · exact bind_map2 (processDecreaseRewards_ren r _ _) fun _ _ => rfl

theorem exec_ren (i : Ix) :
    exec (r.env env) t (r.world w) (accs.map r.info) (r.ix i) =
      (exec env t w accs i).map fun x => (r.world x.1, x.2) := by
  unfold exec
  refine bind_map2 (process_ren r i) fun ⟨w', ret⟩ _ => ensure_congr ?_ _ fun _ => rfl
  have h : ∀ k, r.world w' (r.to k) = r.world w (r.to k) ↔ w' k = w k := by
    intro k
    rw [r.world_at, r.world_at, r.account_eq]
  simp only [List.mem_map, forall_exists_index, and_imp, forall_apply_eq_imp_iff₂]
  exact forall_congr' fun a => forall_congr' fun _ => imp_congr Iff.rfl (h a.key)

theorem apply_ren (s : Chain) (e : Event) : (r.chain s).apply (r.env env) (r.event e) = r.chain (s.apply env e) := by
  cases e with
  | ix accs i =>
    simp only [Chain.apply, Renaming.event, Renaming.chain, exec_ren]
    cases exec env s.now s.world accs i with
    | error e => rfl
    | ok x => rfl
  | tick d => rfl
  | gc k =>
    simp only [Chain.apply, Renaming.event, Renaming.chain]
    rw [← r.world_set]
    rfl
  | ext w => rfl

theorem isPda_ren {k : Key} : (r.env env).IsPda (r.to k) ↔ env.IsPda k := by
  unfold Env.IsPda
  refine or_congr ⟨?_, ?_⟩ ⟨?_, ?_⟩
  · rintro ⟨o, p, b, h⟩
    obtain ⟨k', h1, h2⟩ := Option.map_eq_some_iff.mp h
    exact ⟨_, _, b, h1.trans (by rw [r.to_eq.mp h2])⟩
  · rintro ⟨o, p, b, h⟩
    exact ⟨r.to o, r.to p, b, by rw [miningAddr_ren, h]; rfl⟩
  · rintro ⟨o, p, b, h⟩
    obtain ⟨k', h1, h2⟩ := Option.map_eq_some_iff.mp h
    exact ⟨_, _, b, h1.trans (by rw [r.to_eq.mp h2])⟩
  · rintro ⟨o, p, b, h⟩
    exact ⟨r.to o, r.to p, b, by rw [vaultAddr_ren, h]; rfl⟩

theorem forall_ren {p q : Key → Prop} (h : ∀ k, p (r.to k) ↔ q k) : (∀ k, p k) ↔ ∀ k, q k :=
  ⟨fun H k => (h k).mp (H _), fun H k => by have := (h (r.back k)).mpr (H _); rwa [r.to_back] at this⟩

theorem content_ren_eq {a b : Content} : r.content a = r.content b ↔ a = b :=
  ⟨fun h => by rw [← r.content_to a, h, r.content_to], fun h => by rw [h]⟩

theorem extOk_ren {w w' : World} : ExtOk (r.env env) (r.world w) (r.world w') ↔ ExtOk env w w' := by
  have ow : ∀ (w : World) k (o : Key), (r.world w (r.to k)).owner = r.to o ↔ (w k).owner = o := by
    intro w k o; rw [r.world_at]; exact r.to_eq
  have h1 := forall_ren r (p := fun k => (r.world w k).owner = (r.env env).programId →
    (r.world w' k).owner = (r.world w k).owner ∧ (r.world w' k).len = (r.world w k).len ∧
    (r.world w' k).content = (r.world w k).content ∧ (r.world w k).lamports ≤ (r.world w' k).lamports)
    (q := fun k => (w k).owner = env.programId → (w' k).owner = (w k).owner ∧ (w' k).len = (w k).len ∧
      (w' k).content = (w k).content ∧ (w k).lamports ≤ (w' k).lamports) fun k => by
    simp only [r.world_at]
    exact imp_congr r.to_eq (and_congr r.to_eq (and_congr Iff.rfl (and_congr (content_ren_eq r) Iff.rfl)))
  have h2 := forall_ren r (p := fun k => (r.world w k).owner ≠ (r.env env).programId →
    (r.world w' k).owner = (r.env env).programId → (r.world w' k).content = .zero ∧ ¬ (r.env env).IsPda k ∧ k ≠ 0)
    (q := fun k => (w k).owner ≠ env.programId → (w' k).owner = env.programId → (w' k).content = .zero ∧ ¬ env.IsPda k ∧ k ≠ 0)
    fun k => by
    simp only [r.world_at]
    exact imp_congr (not_congr r.to_eq) (imp_congr r.to_eq (and_congr (content_ren_zero r _)
      (and_congr (not_congr (isPda_ren r)) (not_congr (r.to_zero)))))
  have h3 := forall_ren r (p := fun k => (r.env env).IsPda k → (r.world w k).owner = (r.env env).systemProgram →
    (r.world w' k).owner = (r.env env).systemProgram ∧ (r.world w' k).len = (r.world w k).len ∧
    (r.world w' k).content = (r.world w k).content)
    (q := fun k => env.IsPda k → (w k).owner = env.systemProgram → (w' k).owner = env.systemProgram ∧
      (w' k).len = (w k).len ∧ (w' k).content = (w k).content) fun k => by
    simp only [r.world_at]
    exact imp_congr (isPda_ren r) (imp_congr r.to_eq (and_congr r.to_eq (and_congr Iff.rfl (content_ren_eq r))))
  have h4 := forall_ren r (p := fun k => (r.env env).IsPda k → (r.world w k).owner = (r.env env).tokenProgram →
    (r.world w' k).owner = (r.env env).tokenProgram ∨ (r.world w' k).owner = (r.env env).systemProgram)
    (q := fun k => env.IsPda k → (w k).owner = env.tokenProgram → (w' k).owner = env.tokenProgram ∨
      (w' k).owner = env.systemProgram) fun k => by
    simp only [r.world_at]
    exact imp_congr (isPda_ren r) (imp_congr r.to_eq (or_congr r.to_eq r.to_eq))
  exact ⟨fun h => ⟨h1.mp h.1, h2.mp h.2, h3.mp h.3, h4.mp h.4⟩, fun h => ⟨h1.mpr h.1, h2.mpr h.2, h3.mpr h.3, h4.mpr h.4⟩⟩

theorem valid_ren {s : Chain} {e : Event} : (r.event e).Valid (r.env env) (r.chain s) ↔ e.Valid env s := by
  cases e with
  | ix accs i =>
    simp only [Event.Valid, Renaming.event, List.mem_map, forall_exists_index, and_imp, forall_apply_eq_imp_iff₂]
    exact forall_congr' fun a => forall_congr' fun _ => imp_congr Iff.rfl (not_congr r.to_zero)
  | tick d => exact Iff.rfl
  | gc k =>
    simp only [Event.Valid, Renaming.event, Renaming.chain, r.world_at]
    exact Iff.rfl
  | ext w => exact extOk_ren r

end Verif
