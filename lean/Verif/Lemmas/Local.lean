import Verif.Spec.Local
import Verif.Lemmas.Time
/-!
Instructions read and write nothing but the accounts in their list (C83).
-/

namespace Verif

open Spec

variable {env : Env}

/-- `w` on the accounts in `K`, `v` elsewhere. -/
def over (K : Key → Prop) [DecidablePred K] (v w : World) : World := fun k => if K k then w k else v k

section
variable {K : Key → Prop} [DecidablePred K] {v w : World}

theorem over_at {k : Key} (h : K k) : over K v w k = w k := if_pos h

theorem over_set {k : Key} (h : K k) (a : Account) : (over K v w).set k a = over K v (w.set k a) := by
  funext j
  by_cases hj : j = k
  · subst hj; rw [world_set_same, over_at h, world_set_same]
  · rw [world_set_ne _ _ hj]
    unfold over
    rw [world_set_ne _ _ hj]

theorem bind_map {α β γ : Type} {x : Res α} {f : α → Res γ} {g : α → Res β} {h : β → γ}
    (H : ∀ a, x = .ok a → f a = (g a).map h) : (x >>= f) = (x >>= g).map h := by
  cases x with
  | error e => rfl
  | ok a => exact H a rfl

theorem bind_map2 {α β γ δ : Type} {x : Res α} {y : Res β} {k : β → α} {f : α → Res γ} {g : β → Res δ} {h : δ → γ}
    (hx : x = y.map k) (H : ∀ b, y = .ok b → f (k b) = (g b).map h) : (x >>= f) = (y >>= g).map h := by
  subst hx
  cases y with
  | error e => rfl
  | ok a => exact H a rfl

omit [DecidablePred K] in
theorem next_over {β γ : Type} {x y : Res (AccountInfo × List AccountInfo)} {accs : List AccountInfo}
    (hx : ∀ a r, accs = a :: r → x = y) (hn : accs = [] → x = y) (hy : ∀ a r, y = .ok (a, r) → accs = a :: r)
    (hK : ∀ a ∈ accs, K a.key)
    {f : AccountInfo × List AccountInfo → Res γ} {g : AccountInfo × List AccountInfo → Res β} {h : β → γ}
    (H : ∀ a r, K a.key → (∀ b ∈ r, K b.key) → f (a, r) = (g (a, r)).map h) : (x >>= f) = (y >>= g).map h := by
  have hxy : x = y := by
    cases accs with
    | nil => exact hn rfl
    | cons a r => exact hx a r rfl
  subst hxy
  refine bind_map fun ⟨a, r⟩ ha => ?_
  have := hy a r ha
  subst this
  exact H a r (hK a (List.mem_cons_self ..)) fun b hb => hK b (List.mem_cons_of_mem _ hb)

theorem nextWithOwner_over {β γ : Type} {accs : List AccountInfo} {o : Key} (hK : ∀ a ∈ accs, K a.key)
    {f : AccountInfo × List AccountInfo → Res γ} {g : AccountInfo × List AccountInfo → Res β} {h : β → γ}
    (H : ∀ a r, K a.key → (∀ b ∈ r, K b.key) → f (a, r) = (g (a, r)).map h) :
    (nextWithOwner (over K v w) o accs >>= f) = (nextWithOwner w o accs >>= g).map h :=
  next_over
    (fun a r he => by
      subst he
      have := over_at (v := v) (w := w) (hK a (List.mem_cons_self ..))
      simp only [nextWithOwner, nextAcc, bind, Except.bind, this])
    (fun he => by subst he; rfl) (fun _ _ h => (nextWithOwner_ok.mp h).1) hK H

theorem nextUninitialized_over {β γ : Type} {accs : List AccountInfo} (hK : ∀ a ∈ accs, K a.key)
    {f : AccountInfo × List AccountInfo → Res γ} {g : AccountInfo × List AccountInfo → Res β} {h : β → γ}
    (H : ∀ a r, K a.key → (∀ b ∈ r, K b.key) → f (a, r) = (g (a, r)).map h) :
    (nextUninitialized (over K v w) accs >>= f) = (nextUninitialized w accs >>= g).map h :=
  next_over
    (fun a r he => by
      subst he
      have := over_at (v := v) (w := w) (hK a (List.mem_cons_self ..))
      simp only [nextUninitialized, nextAcc, bind, Except.bind, this])
    (fun he => by subst he; rfl) (fun _ _ h => (nextUninitialized_ok.mp h).1) hK H

omit [DecidablePred K] in
theorem nextSigner_over {β γ : Type} {accs : List AccountInfo} (hK : ∀ a ∈ accs, K a.key)
    {f : AccountInfo × List AccountInfo → Res γ} {g : AccountInfo × List AccountInfo → Res β} {h : β → γ}
    (H : ∀ a r, K a.key → (∀ b ∈ r, K b.key) → f (a, r) = (g (a, r)).map h) :
    (nextSigner accs >>= f) = (nextSigner accs >>= g).map h :=
  next_over (fun _ _ _ => rfl) (fun _ => rfl) (fun _ _ h => (nextSigner_ok.mp h).1) hK H

omit [DecidablePred K] in
theorem nextWithKey_over {β γ : Type} {accs : List AccountInfo} {k : Key} (hK : ∀ a ∈ accs, K a.key)
    {f : AccountInfo × List AccountInfo → Res γ} {g : AccountInfo × List AccountInfo → Res β} {h : β → γ}
    (H : ∀ a r, K a.key → (∀ b ∈ r, K b.key) → f (a, r) = (g (a, r)).map h) :
    (nextWithKey k accs >>= f) = (nextWithKey k accs >>= g).map h :=
  next_over (fun _ _ _ => rfl) (fun _ => rfl) (fun _ _ h => (nextWithKey_ok.mp h).1) hK H

theorem putPool_over {k : Key} (h : K k) (p : Pool) : putPool (over K v w) k p = over K v (putPool w k p) := by
  unfold putPool
  rw [over_at h, over_set h]

theorem putMining_over {k : Key} (h : K k) (m : Mining) :
    putMining env (over K v w) k m = over K v (putMining env w k m) := by
  unfold putMining
  rw [over_at h, over_set h]

theorem putDelegate_over {k : Key} (h : K k) (m : Option Mining) :
    putDelegate env (over K v w) k m = over K v (putDelegate env w k m) := by
  cases m with
  | none => rfl
  | some m => exact putMining_over h m

theorem getPoolAndMining_over {o : Key} {M P A : AccountInfo} (hM : K M.key) (hP : K P.key) :
    getPoolAndMining env (over K v w) o M P A = getPoolAndMining env w o M P A := by
  unfold getPoolAndMining
  rw [over_at hM, over_at hP]

theorem loadDelegate_over {D M : AccountInfo} (hD : K D.key) (d P : Key) :
    loadDelegate env (over K v w) D M d P = loadDelegate env w D M d P := by
  unfold loadDelegate verifyDelegate
  rw [over_at hD]

theorem loadOldDelegate_over {D M : AccountInfo} (hD : K D.key) (P : Key) :
    loadOldDelegate env (over K v w) D M P = loadOldDelegate env w D M P := by
  unfold loadOldDelegate
  rw [over_at hD]

theorem splTransfer_over {S D A : AccountInfo} (hS : K S.key) (hD : K D.key) (hA : K A.key) (n : Nat) :
    splTransfer env (over K v w) S D A n = (splTransfer env w S D A n).map (over K v) := by
  unfold splTransfer
  rw [over_at hS, over_at hD, over_at hA]
  refine bind_map fun _ _ => bind_map fun _ _ => bind_map fun _ _ => bind_map fun _ _ => bind_map fun _ _ => bind_map fun _ _ =>
    bind_map fun _ _ => bind_map fun _ _ => ?_
  split
  · rfl
  · refine bind_map fun _ _ => bind_map fun _ _ => ?_
    dsimp only
    rw [over_set hS, over_set hD]; rfl

theorem createAccount_over {S D : AccountInfo} (hS : K S.key) (hD : K D.key) (n : Nat) (o : Key) :
    createAccount env (over K v w) S D n o = (createAccount env w S D n o).map (over K v) := by
  unfold createAccount
  rw [over_at hS, over_at hD]
  refine bind_map fun _ _ => bind_map fun _ _ => bind_map fun _ _ => bind_map fun _ _ => bind_map fun _ _ => ?_
  dsimp only
  rw [over_set hS, over_set hD]; rfl

theorem initializeTokenAccount_over {a m o : Key} (ha : K a) (hm : K m) :
    initializeTokenAccount env (over K v w) a m o = (initializeTokenAccount env w a m o).map (over K v) := by
  unfold initializeTokenAccount
  rw [over_at ha, over_at hm]
  refine bind_map fun _ _ => bind_map fun _ _ => ?_
  dsimp only
  rw [over_set ha]; rfl

theorem processDepositMining_over {t : Nat} {accs : List AccountInfo} (hK : ∀ a ∈ accs, K a.key) (n : Nat) (l : LockupPeriod) (o d : Key) :
    processDepositMining env t (over K v w) accs n l o d = (processDepositMining env t w accs n l o d).map (over K v) := by
  unfold processDepositMining
  refine nextWithOwner_over hK fun P _ hP hK => nextWithOwner_over hK fun M _ hM hK => nextSigner_over hK fun A _ hA hK =>
    nextWithOwner_over hK fun D _ hD hK => bind_map fun _ _ => ?_
  rw [getPoolAndMining_over hM hP, loadDelegate_over hD]
  refine bind_map fun _ _ => bind_map fun _ _ => bind_map fun _ _ => ?_
  dsimp only
  rw [putPool_over hP, putMining_over hM, putDelegate_over hD]; rfl

theorem processWithdrawMining_over {t : Nat} {accs : List AccountInfo} (hK : ∀ a ∈ accs, K a.key) (n : Nat) (o d : Key) :
    processWithdrawMining env t (over K v w) accs n o d = (processWithdrawMining env t w accs n o d).map (over K v) := by
  unfold processWithdrawMining
  refine nextWithOwner_over hK fun P _ hP hK => nextWithOwner_over hK fun M _ hM hK => nextSigner_over hK fun A _ hA hK =>
    nextWithOwner_over hK fun D _ hD hK => bind_map fun _ _ => ?_
  rw [getPoolAndMining_over hM hP, loadDelegate_over hD]
  refine bind_map fun _ _ => bind_map fun _ _ => bind_map fun _ _ => ?_
  dsimp only
  rw [putPool_over hP, putMining_over hM, putDelegate_over hD]; rfl

theorem processExtendStake_over {t : Nat} {accs : List AccountInfo} (hK : ∀ a ∈ accs, K a.key) (ol nl : LockupPeriod) (ts b a : Nat) (o d : Key) :
    processExtendStake env t (over K v w) accs ol nl ts b a o d = (processExtendStake env t w accs ol nl ts b a o d).map (over K v) := by
  unfold processExtendStake
  refine nextWithOwner_over hK fun P _ hP hK => nextWithOwner_over hK fun M _ hM hK => nextSigner_over hK fun A _ hA hK =>
    nextWithOwner_over hK fun D _ hD hK => bind_map fun _ _ => ?_
  rw [getPoolAndMining_over hM hP, loadDelegate_over hD]
  refine bind_map fun _ _ => bind_map fun _ _ => bind_map fun _ _ => ?_
  dsimp only
  rw [putPool_over hP, putMining_over hM, putDelegate_over hD]; rfl

theorem processChangeDelegate_over {t : Nat} {accs : List AccountInfo} (hK : ∀ a ∈ accs, K a.key) (n : Nat) (d : Key) :
    processChangeDelegate env t (over K v w) accs n d = (processChangeDelegate env t w accs n d).map (over K v) := by
  unfold processChangeDelegate
  refine nextWithOwner_over hK fun P _ hP hK => nextWithOwner_over hK fun M _ hM hK => nextSigner_over hK fun A _ hA hK =>
    nextSigner_over hK fun O _ hO hK => nextWithOwner_over hK fun D _ hD hK => nextWithOwner_over hK fun E _ hE hK =>
    bind_map fun _ _ => bind_map fun _ _ => ?_
  rw [getPoolAndMining_over hM hP, loadDelegate_over hE, loadOldDelegate_over hD]
  refine bind_map fun _ _ => bind_map fun _ _ => bind_map fun _ _ => bind_map fun _ _ => bind_map fun _ _ => ?_
  dsimp only
  rw [putPool_over hP, putMining_over hM, putDelegate_over hD, putDelegate_over hE]; rfl

theorem processSlash_over {t : Nat} {accs : List AccountInfo} (hK : ∀ a ∈ accs, K a.key) (o : Key) (n k : Nat)
    (e : Option Nat) :
    processSlash env t (over K v w) accs o n k e = (processSlash env t w accs o n k e).map (over K v) := by
  unfold processSlash
  refine nextSigner_over hK fun A _ hA hK => nextWithOwner_over hK fun P _ hP hK => nextWithOwner_over hK fun M _ hM hK =>
    bind_map fun _ _ => ?_
  rw [getPoolAndMining_over hM hP]
  refine bind_map fun _ _ => bind_map fun _ _ => ?_
  dsimp only
  rw [putPool_over hP, putMining_over hM]; rfl

theorem processDecreaseRewards_over {accs : List AccountInfo} (hK : ∀ a ∈ accs, K a.key) (o : Key) (n : Nat) :
    processDecreaseRewards env (over K v w) accs o n = (processDecreaseRewards env w accs o n).map (over K v) := by
  unfold processDecreaseRewards
  refine nextSigner_over hK fun A _ hA hK => nextWithOwner_over hK fun P _ hP hK => nextWithOwner_over hK fun M _ hM hK =>
    bind_map fun _ _ => ?_
  rw [getPoolAndMining_over hM hP]
  refine bind_map fun _ _ => bind_map fun _ _ => ?_
  rw [putMining_over hM]; rfl

theorem processDistributeRewards_over {t : Nat} {accs : List AccountInfo} (hK : ∀ a ∈ accs, K a.key) :
    processDistributeRewards env t (over K v w) accs = (processDistributeRewards env t w accs).map (over K v) := by
  unfold processDistributeRewards
  refine nextWithOwner_over hK fun P _ hP hK => nextSigner_over hK fun A _ hA hK => ?_
  dsimp only
  rw [over_at hP]
  refine bind_map fun _ _ => bind_map fun _ _ => bind_map fun _ _ => bind_map fun _ _ => ?_
  rw [putPool_over hP]; rfl

theorem processCloseMining_over {t : Nat} {accs : List AccountInfo} (hK : ∀ a ∈ accs, K a.key) :
    processCloseMining env t (over K v w) accs = (processCloseMining env t w accs).map (over K v) := by
  unfold processCloseMining
  refine nextWithOwner_over hK fun M _ hM hK => nextSigner_over hK fun O _ hO hK => nextWithOwner_over hK fun T _ hT hK =>
    nextSigner_over hK fun A _ hA hK => nextWithOwner_over hK fun P _ hP hK => ?_
  dsimp only
  rw [over_at hP, over_at hM, over_at hT]
  refine bind_map fun _ _ => bind_map fun _ _ => bind_map fun _ _ => bind_map fun _ _ => bind_map fun _ _ =>
    bind_map fun _ _ => bind_map fun _ _ => bind_map fun _ _ => bind_map fun _ _ => ?_
  rw [over_set hT, over_at hM, over_set hM]; rfl

theorem processClaim_over {t : Nat} {accs : List AccountInfo} (hK : ∀ a ∈ accs, K a.key) :
    processClaim env t (over K v w) accs = (processClaim env t w accs).map fun r => (over K v r.1, r.2) := by
  unfold processClaim
  refine nextWithOwner_over hK fun P _ hP hK => nextWithOwner_over hK fun T _ hT hK => nextWithOwner_over hK fun V _ hV hK =>
    nextWithOwner_over hK fun M _ hM hK => nextSigner_over hK fun O _ hO hK => nextSigner_over hK fun A _ hA hK =>
    nextWithOwner_over hK fun U _ hU hK => nextWithKey_over hK fun X _ _ hK => ?_
  dsimp only
  rw [over_at hP, over_at hM, over_at hU]
  refine bind_map fun _ _ => bind_map fun _ _ => bind_map fun _ _ => bind_map fun _ _ => bind_map fun _ _ =>
    bind_map fun _ _ => bind_map fun _ _ => bind_map fun _ _ => bind_map fun _ _ => bind_map fun _ _ =>
    bind_map fun m _ => ?_
  rw [putMining_over hM]
  split
  · exact bind_map2 (splTransfer_over hV hU hA _) fun _ _ => rfl
  · rfl

theorem processFillVault_over {t : Nat} {accs : List AccountInfo} (hK : ∀ a ∈ accs, K a.key) (n e : Nat) :
    processFillVault env t (over K v w) accs n e = (processFillVault env t w accs n e).map (over K v) := by
  unfold processFillVault
  refine nextWithOwner_over hK fun P _ hP hK => nextWithOwner_over hK fun T _ hT hK => nextWithOwner_over hK fun V _ hV hK =>
    nextSigner_over hK fun A _ hA hK => nextWithOwner_over hK fun S _ hS hK => nextWithKey_over hK fun X _ _ hK => ?_
  dsimp only
  rw [over_at hP]
  refine bind_map fun _ _ => bind_map fun _ _ => bind_map fun _ _ => bind_map fun _ _ => bind_map fun _ _ =>
    bind_map fun _ _ => bind_map fun _ _ => bind_map fun _ _ => bind_map fun _ _ => bind_map fun _ _ => ?_
  rw [putPool_over hP]
  exact splTransfer_over hS hV hA _

theorem processInitializeMining_over {accs : List AccountInfo} (hK : ∀ a ∈ accs, K a.key) (o : Key) :
    processInitializeMining env (over K v w) accs o = (processInitializeMining env w accs o).map (over K v) := by
  unfold processInitializeMining
  refine nextWithOwner_over hK fun P _ hP hK => nextUninitialized_over hK fun M _ hM hK => nextSigner_over hK fun Y _ hY hK =>
    nextWithKey_over hK fun X _ _ hK => ?_
  refine bind_map fun _ _ => bind_map fun _ _ => bind_map2 (createAccount_over hY hM _ _) fun _ _ => ?_
  rw [putMining_over hM]; rfl

theorem processInitializePool_over {accs : List AccountInfo} (hK : ∀ a ∈ accs, K a.key) (f d : Key) :
    processInitializePool env (over K v w) accs f d = (processInitializePool env w accs f d).map (over K v) := by
  unfold processInitializePool
  refine nextWithOwner_over hK fun P _ hP hK => nextWithOwner_over hK fun T _ hT hK => nextUninitialized_over hK fun V _ hV hK =>
    nextSigner_over hK fun Y _ hY hK => nextSigner_over hK fun A _ hA hK => nextWithKey_over hK fun R _ hR hK =>
    nextWithKey_over hK fun X _ _ hK => nextWithKey_over hK fun X _ _ hK => ?_
  dsimp only
  rw [over_at hP]
  refine bind_map fun _ _ => bind_map fun _ _ => bind_map fun _ _ => bind_map fun _ _ => bind_map fun _ _ =>
    bind_map fun _ _ => bind_map2 (createAccount_over hY hV _ _) fun _ _ => bind_map fun _ _ =>
    bind_map2 (initializeTokenAccount_over hV hT) fun _ _ => ?_
  rw [putPool_over hP]; rfl

theorem process_over {t : Nat} {accs : List AccountInfo} (hK : ∀ a ∈ accs, K a.key) (i : Ix) :
    process env t (over K v w) accs i = (process env t w accs i).map fun r => (over K v r.1, r.2) := by
  cases i <;> simp only [process]
  · exact bind_map2 (processInitializePool_over hK _ _) fun _ _ => rfl
  · exact bind_map2 (processFillVault_over hK _ _) fun _ _ => rfl
  · exact bind_map2 (processInitializeMining_over hK _) fun _ _ => rfl
  · exact bind_map2 (processDepositMining_over hK _ _ _ _) fun _ _ => rfl
  · exact bind_map2 (processWithdrawMining_over hK _ _ _) fun _ _ => rfl
  · exact bind_map2 (processClaim_over hK) fun _ _ => rfl
  · exact bind_map2 (processExtendStake_over hK _ _ _ _ _ _ _) fun _ _ => rfl
  · exact bind_map2 (processDistributeRewards_over hK) fun _ _ => rfl
  · exact bind_map2 (processCloseMining_over hK) fun _ _ => rfl
  · exact bind_map2 (processChangeDelegate_over hK _ _) fun _ _ => rfl
  · exact bind_map2 (processSlash_over hK _ _ _ _) fun _ _ => rfl
  · exact bind_map2 (processDecreaseRewards_over hK _ _) fun _ _ => rfl

theorem exec_over {t : Nat} {accs : List AccountInfo} (hK : ∀ a ∈ accs, K a.key) (i : Ix) :
    exec env t (over K v w) accs i = (exec env t w accs i).map fun r => (over K v r.1, r.2) := by
  unfold exec
  refine bind_map2 (process_over hK i) fun ⟨w', ret⟩ _ => ?_
  have : (∀ a ∈ accs, a.isWritable = false → over K v w' a.key = over K v w a.key) ↔
      ∀ a ∈ accs, a.isWritable = false → w' a.key = w a.key := by
    constructor <;> intro h a ha hw <;> have := h a ha hw
    · rwa [over_at (hK a ha), over_at (hK a ha)] at this
    · rwa [over_at (hK a ha), over_at (hK a ha)]
  dsimp only
  simp only [this]
  exact bind_map fun _ _ => rfl

end

open Classical in
/-- The outcome in a world that agrees on the listed accounts. -/
theorem exec_agree {t : Nat} {accs : List AccountInfo} {w1 w2 : World} (h : ∀ k, Listed accs k → w1 k = w2 k) (i : Ix) :
    exec env t w2 accs i = (exec env t w1 accs i).map fun r => (over (Listed accs) w2 r.1, r.2) := by
  have e : w2 = over (Listed accs) w2 w1 := by
    funext k
    unfold over
    split
    · rename_i hk; exact (h k hk).symm
    · rfl
  conv => lhs; rw [e]
  exact exec_over (fun a ha => ⟨a, ha, rfl⟩) i

open Classical in
theorem exec_local {t : Nat} {accs : List AccountInfo} {w1 w2 : World} (h : ∀ k, Listed accs k → w1 k = w2 k) (i : Ix) :
    SameResult accs w1 w2 (exec env t w1 accs i) (exec env t w2 accs i) := by
  have h1 := exec_agree (env := env) (t := t) h i
  have h2 := exec_agree (env := env) (t := t) (fun k hk => (h k hk).symm) i
  cases hx : exec env t w1 accs i with
  | error e => rw [h1, hx]; exact .fails e
  | ok r =>
    rw [h1, hx] at h2 ⊢
    refine .succeeds (fun k hk => (over_at hk).symm) fun k hk => ⟨?_, if_neg hk⟩
    simp only [Except.map, Except.ok.injEq] at h2
    have := congrArg Prod.fst h2
    have := congrFun this k
    dsimp only at this
    unfold over at this
    rwa [if_neg hk] at this

/-- Nothing but writable accounts changes. -/
theorem outcome_unwritable {t : Nat} {accs : List AccountInfo} {w : World} {i : Ix} {k : Key} (hk : ¬ Writable accs k) :
    (outcome env t w accs i).1 k = w k := by
  have h0 := exec_local (env := env) (t := t) (accs := accs) (w1 := w) (w2 := w) (fun _ _ => rfl) i
  unfold outcome
  cases hx : exec env t w accs i with
  | error e => rfl
  | ok r =>
    dsimp only
    by_cases hl : Listed accs k
    · obtain ⟨a, ha, rfl⟩ := hl
      have hw : a.isWritable = false := by
        cases he : a.isWritable with
        | false => rfl
        | true => exact absurd ⟨a, ha, rfl, he⟩ hk
      unfold exec at hx
      simp only [res_bind_ok, ensure_ok, res_pure_ok] at hx
      obtain ⟨x, _, _, h2, rfl⟩ := hx
      exact h2 a ha hw
    · rw [hx] at h0
      cases h0 with
      | succeeds _ h2 => exact (h2 k hl).1

/-- Agreement on a set of accounts that contains the listed ones is kept. -/
theorem outcome_agree {t : Nat} {accs : List AccountInfo} {w1 w2 : World} {S : Key → Prop} (hS : ∀ k, Listed accs k → S k)
    (h : ∀ k, S k → w1 k = w2 k) (i : Ix) :
    (outcome env t w1 accs i).2 = (outcome env t w2 accs i).2 ∧
    ∀ k, S k → (outcome env t w1 accs i).1 k = (outcome env t w2 accs i).1 k := by
  have h0 := exec_local (env := env) (t := t) (fun k hk => h k (hS k hk)) i
  unfold outcome
  generalize exec env t w1 accs i = x at h0
  generalize exec env t w2 accs i = y at h0
  cases h0 with
  | fails e => exact ⟨rfl, h⟩
  | succeeds h1 h2 =>
    refine ⟨rfl, fun k hk => ?_⟩
    by_cases hl : Listed accs k
    · exact h1 k hl
    · dsimp only; rw [(h2 k hl).1, (h2 k hl).2, h k hk]

theorem part_cons_same (b : Bool) (c : Call) (zs : List (Bool × Call)) : part b ((b, c) :: zs) = c :: part b zs := by
  simp [part]

theorem part_cons_other (b : Bool) (c : Call) (zs : List (Bool × Call)) : part b ((!b, c) :: zs) = part b zs := by
  simp [part]

theorem runCalls_apart (b : Bool) {S : Key → Prop} : ∀ (zs : List (Bool × Call)) {w1 w2 : World},
    (∀ x ∈ part b zs, ∀ k, Listed x.accs k → S k) →
    (∀ y ∈ part (!b) zs, ∀ k, Writable y.accs k → ¬ S k) →
    (∀ k, S k → w1 k = w2 k) →
    picked b zs (runCalls env w1 (zs.map (·.2))).2 = (runCalls env w2 (part b zs)).2 ∧
    ∀ k, S k → (runCalls env w1 (zs.map (·.2))).1 k = (runCalls env w2 (part b zs)).1 k
  | [], _, _, _, _, h => ⟨rfl, h⟩
  | (c, x) :: zs, w1, w2, hb, ho, h => by
    by_cases hc : c = b
    · subst hc
      rw [part_cons_same] at hb ⊢
      have h1 := outcome_agree (env := env) (t := x.time) (hb x (List.mem_cons_self ..)) h x.ix
      have h2 := runCalls_apart c zs (fun y hy => hb y (List.mem_cons_of_mem _ hy))
        (fun y hy => ho y (by
          have := part_cons_other (!c) x zs
          rw [Bool.not_not] at this
          rw [this]; exact hy)) h1.2
      refine ⟨?_, h2.2⟩
      simp only [List.map_cons, runCalls, picked] at h2 ⊢
      rw [h1.1]
      simp only [List.zip_cons_cons, List.map_cons, List.filter_cons, beq_self_eq_true, ↓reduceIte, h2.1]
    · have hc' : c = !b := by cases c <;> cases b <;> first | rfl | exact absurd rfl hc
      subst hc'
      rw [part_cons_other] at hb ⊢
      rw [part_cons_same] at ho
      have h1 : ∀ k, S k → (outcome env x.time w1 x.accs x.ix).1 k = w2 k := by
        intro k hk
        rw [outcome_unwritable (fun hw => ho x (List.mem_cons_self ..) k hw hk)]
        exact h k hk
      have h2 := runCalls_apart b zs hb (fun y hy => ho y (List.mem_cons_of_mem _ hy)) h1
      refine ⟨?_, h2.2⟩
      simp only [List.map_cons, runCalls, picked] at h2 ⊢
      have hne : ((!b) == b) = false := by cases b <;> rfl
      simp only [List.zip_cons_cons, List.filter_cons, hne, Bool.false_eq_true, ↓reduceIte, h2.1]

theorem runCalls_unwritable {k : Key} : ∀ (zs : List Call) {w : World}, (∀ x ∈ zs, ¬ Writable x.accs k) →
    (runCalls env w zs).1 k = w k
  | [], _, _ => rfl
  | x :: zs, w, h => by
    simp only [runCalls]
    rw [runCalls_unwritable zs fun y hy => h y (List.mem_cons_of_mem _ hy), outcome_unwritable (h x (List.mem_cons_self ..))]

/-- A check of independence, for examples. -/
def apart (accs1 accs2 : List AccountInfo) : Bool :=
  accs1.all (fun a => !a.isWritable || accs2.all fun b => decide (b.key ≠ a.key)) &&
  accs2.all (fun a => !a.isWritable || accs1.all fun b => decide (b.key ≠ a.key))

theorem apart_sound {accs1 accs2 : List AccountInfo} (h : apart accs1 accs2 = true) : Unrelated accs1 accs2 := by
  simp only [apart, Bool.and_eq_true, List.all_eq_true, Bool.or_eq_true, Bool.not_eq_eq_eq_not, Bool.not_true,
    decide_eq_true_eq] at h
  constructor
  · rintro k ⟨a, ha, rfl, hw⟩ ⟨b, hb, hk⟩
    rcases h.1 a ha with h1 | h1
    · rw [hw] at h1; cases h1
    · exact h1 b hb hk
  · rintro k ⟨a, ha, rfl, hw⟩ ⟨b, hb, hk⟩
    rcases h.2 a ha with h1 | h1
    · rw [hw] at h1; cases h1
    · exact h1 b hb hk

end Verif
