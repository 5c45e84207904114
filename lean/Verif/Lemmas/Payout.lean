import Verif.Lemmas.Live
import Verif.Spec.Payout
/-!
What the vault of a pool holds is what was filled and not yet paid out.
-/

namespace Verif

open Spec

variable {env : Env}

theorem Shell.balance_eq {now : Nat} {w w' : World} (hw : Wf env now w) {k : Key} (h : Shell env (w k) (w' k)) :
    Spec.balance w' k = Spec.balance w k := by
  rcases h.2.2.2 with e | ⟨e, ⟨p, p', h1, h2⟩ | ⟨m', h1, -⟩⟩
  · exact balance_congr e
  · unfold Spec.balance; rw [h1, h2]
  · rw [balance_of_program hw e]; unfold Spec.balance; rw [h1]

/-- The balance of a pool's vault after an instruction. -/
theorem Step.vaultBalance {now : Nat} {w w' : World} {accs : List AccountInfo} {i : Ix} {ret : Option Nat}
    (hi : env.PdaInjective) (hw : Wf env now w) {P V : Key} {p : Pool} (hv : Vaulted env w P)
    (hV : env.findVault P p.rewardMint = some (V, p.bump)) (hp : PoolAt env w P p)
    (source : ∀ r e, i = .fillVault r e → accs[4]?.map (·.key) ≠ some V)
    (receiver : i = .claim → accs[6]?.map (·.key) ≠ some V) (h : Step env now w w' accs i ret) :
    balance w' V + paidOut accs P i ret = balance w V + addedTo accs P i := by
  have hVa := env.findVault_spec _ _ _ _ hV
  have notMining : ∀ {k m}, InitMining env k (w k).len m → V ≠ k := by
    rintro k m h rfl; exact hi.disjoint _ _ _ _ _ _ _ h.addr hVa
  have notPda : ∀ {k}, ¬ env.IsPda k → V ≠ k := by
    rintro k h rfl; exact h (Or.inr ⟨_, _, _, hVa⟩)
  cases h with
  | @stake i _ _ _ _ _ _ _ _ _ _ _ op _ _ _ _ _ _ _ _ shell _ =>
    have hbal := Shell.balance_eq hw (shell V)
    cases i <;> first | exact op.elim | (simp only [paidOut, addedTo]; omega)
  | redelegate _ _ _ _ _ _ _ _ _ _ _ _ _ _ _ _ shell _ _ =>
    have hbal := Shell.balance_eq hw (shell V)
    simp only [paidOut, addedTo]; omega
  | decrease _ _ _ _ _ _ _ _ _ _ shell =>
    have hbal := Shell.balance_eq hw (shell V)
    simp only [paidOut, addedTo]; omega
  | distribute _ _ _ _ _ _ _ _ _ _ _ shell =>
    have hbal := Shell.balance_eq hw (shell V)
    simp only [paidOut, addedTo]; omega
  | @claim Q T K M O A U Kk rest q m m1 n accs_eq signedO signedA eff =>
    subst accs_eq
    have hU : V ≠ U.key := fun e => receiver rfl (by rw [e]; rfl)
    have hM : V ≠ M.key := notMining eff.init
    by_cases e : Q.key = P
    · rw [e] at eff
      obtain rfl := PoolAt.unique hp eff.pool
      have hK := vault_eq hv hp eff.vaultAddr eff.vaultTok hV
      have e1 : paidOut (Q :: T :: K :: M :: O :: A :: U :: Kk :: rest) P .claim (some n) = n := by
        simp [paidOut, FirstIs, e]
      rw [e1]; simp only [addedTo]
      by_cases hn : n = 0
      · have := balance_congr (w := w) (w' := w') (k := V) (by rw [eff.zero hn _ hM])
        omega
      · obtain ⟨w1, h1, h2⟩ := eff.transfer (Nat.pos_of_ne_zero hn)
        have h3 := balance_congr (w := w) (w' := w1) (k := V) (by rw [h1 _ hM])
        rw [hK] at h2
        rcases h2.moved with ⟨h4, -⟩ | ⟨-, h4, h5, -⟩
        · exact absurd h4 hU
        · omega
    · have e1 : paidOut (Q :: T :: K :: M :: O :: A :: U :: Kk :: rest) P .claim (some n) = 0 := by
        simp [paidOut, FirstIs, e]
      rw [e1]; simp only [addedTo]
      have hKV : V ≠ K.key := by
        rintro rfl
        exact e (hi.vault _ _ _ _ _ _ _ eff.vaultAddr hVa).1
      exact congrArg (· + 0) (balance_congr (by rw [eff.frame V hM hKV hU]))
  | @fill r e0 Q T K F S Kk rest q w1 accs_eq signed auth good pool vault nonzero future later endBound bound pool' w1_frame
      transfer frame neS neV shell =>
    subst accs_eq
    have hS : V ≠ S.key := fun e => source r e0 rfl (by rw [e]; rfl)
    have hQ : V ≠ Q.key := notPda good.notPda
    simp only [paidOut]
    by_cases e : Q.key = P
    · rw [e] at vault pool
      obtain rfl := PoolAt.unique hp pool
      obtain ⟨t, t', ht, -⟩ := transfer.dstTok
      have hK : K.key = V := vault_eq hv hp vault (by rw [← w1_frame K.key neV]; exact ht.1) hV
      have e1 : addedTo (Q :: T :: K :: F :: S :: Kk :: rest) P (.fillVault r e0) = r := by
        simp [addedTo, FirstIs, e]
      rw [e1]
      have h3 := balance_congr (w := w) (w' := w1) (k := V) (by rw [w1_frame _ hQ])
      rw [hK] at transfer
      have := (transfer_balance (k := V) transfer).2.2 rfl (Ne.symm hS)
      omega
    · have e1 : addedTo (Q :: T :: K :: F :: S :: Kk :: rest) P (.fillVault r e0) = 0 := by
        simp [addedTo, FirstIs, e]
      rw [e1]
      have hKV : V ≠ K.key := by
        rintro rfl
        exact e (hi.vault _ _ _ _ _ _ _ vault hVa).1
      exact congrArg (· + 0) (balance_congr (by rw [frame V hQ hS hKV]))
  | @close M O G A Q rest q m m1 accs_eq signedO signedA good pool auth mining init miningOk owner refreshed sfo paid target
      closed credited frame ne neG =>
    simp only [paidOut, addedTo]
    have hM : V ≠ M.key := notMining init
    refine congrArg (· + 0) (balance_congr ?_)
    by_cases e : V = G.key
    · rw [e, credited]
    · rw [frame V hM e]
  | @initPool f d Q T K Y A R Kk S rest bump accs_eq signedY signedA owned len fresh notPda' vault pool' vaultBefore vault'
      payer payer' frame neVP neYP neYV =>
    simp only [paidOut, addedTo]
    have e : Q.key ≠ P := by
      intro e
      rw [e] at fresh
      rcases fresh with h | ⟨m, h, -⟩ <;> rw [hp.2] at h <;> cases h
    have hKV : V ≠ K.key := by
      rintro rfl
      exact e (hi.vault _ _ _ _ _ _ _ (env.findVault_spec _ _ _ _ vault) hVa).1
    refine congrArg (· + 0) (balance_congr ?_)
    by_cases e : V = Y.key
    · rw [e, payer']
    · rw [frame V (notPda notPda') hKV e]
  | @initMining o Q M Y S rest bump accs_eq signedY owned addr before mining' payer payer' frame ne neP =>
    simp only [paidOut, addedTo]
    have hM : V ≠ M.key := by
      rintro rfl
      exact hi.disjoint _ _ _ _ _ _ _ (env.findMining_spec _ _ _ _ addr) hVa
    refine congrArg (· + 0) (balance_congr ?_)
    by_cases e : V = Y.key
    · rw [e, payer']
    · rw [frame V hM e]

/-- The pool's budget and its vault, with `F` filled, `D` distributed and `Q` paid out so far. -/
structure Accounts (env : Env) (w : World) (P V : Key) (F D Q : Nat) : Prop where
  none : (∀ p, ¬ PoolAt env w P p) → F = 0 ∧ D = 0 ∧ Q = 0
  some : ∀ p, PoolAt env w P p → env.findVault P p.rewardMint = some (V, p.bump) →
    p.tokensAvailable + D = F ∧ balance w V + Q = F

theorem paid_none {now : Nat} {w w' : World} {accs : List AccountInfo} {i : Ix} {ret : Option Nat} {P : Key}
    (hn : ∀ p, ¬ PoolAt env w P p) (h : Step env now w w' accs i ret) :
    paidOut accs P i ret = 0 ∧ addedTo accs P i = 0 := by
  cases h with
  | @stake i _ _ _ _ _ _ _ _ _ _ _ op => cases i <;> first | exact op.elim | exact ⟨rfl, rfl⟩
  | claim accs_eq _ _ eff =>
    subst accs_eq
    refine ⟨?_, rfl⟩
    simp only [paidOut]
    refine if_neg fun e => ?_
    have e1 := eff.pool
    simp only [FirstIs, List.head?_cons, Option.map_some, Option.some.injEq] at e
    exact hn _ (e ▸ e1)
  | fill accs_eq _ _ _ pool =>
    subst accs_eq
    refine ⟨rfl, ?_⟩
    simp only [addedTo]
    refine if_neg fun e => ?_
    simp only [FirstIs, List.head?_cons, Option.map_some, Option.some.injEq] at e
    exact hn _ (e ▸ pool)
  | _ => exact ⟨rfl, rfl⟩

theorem distributed_none {now : Nat} {w w' : World} {accs : List AccountInfo} {i : Ix} {ret : Option Nat} {P : Key}
    (hn : ∀ p, ¬ PoolAt env w P p) (h : Step env now w w' accs i ret) (q : Pool) : distributedFrom accs now P q i = 0 := by
  cases h with
  | @stake i _ _ _ _ _ _ _ _ _ _ _ op => cases i <;> first | exact op.elim | rfl
  | distribute accs_eq _ _ _ pool =>
    subst accs_eq
    simp only [distributedFrom]
    refine if_neg fun e => ?_
    have e := e.1
    simp only [FirstIs, List.head?_cons, Option.map_some, Option.some.injEq] at e
    exact hn _ (e ▸ pool)
  | _ => rfl

theorem apply_accounts (hi : env.PdaInjective) {s : Chain} {P V : Key} {e : Event} (hv : e.Valid env s)
    (hc : CleanEvent env s e) (ho : Orderly env P V s e) (hse : Sealed V s e) (hw : Wf env s.now s.world)
    (hvt : Vaulted env s.world P) {F D Q : Nat} (h : Accounts env s.world P V F D Q) :
    Accounts env (s.apply env e).world P V (F + filledBy env P s e) (D + distributedBy env P s e)
      (Q + paidBy env P s e) := by
  have outside : ∀ {w' : World}, (∀ p, PoolAt env w' P p ↔ PoolAt env s.world P p) → balance w' V = balance s.world V →
      Accounts env w' P V F D Q := fun h1 h2 =>
    ⟨fun hn => h.none fun p hp => hn p ((h1 p).mpr hp), fun p hp hV => by rw [h2]; exact h.some p ((h1 p).mp hp) hV⟩
  cases e with
  | ix accs i =>
    cases hx : exec env s.now s.world accs i with
    | error e =>
      rw [apply_ix_error hx]
      have h1 : filledBy env P s (.ix accs i) = 0 := by simp [filledBy, succeeded, hx]
      have h2 : distributedBy env P s (.ix accs i) = 0 := by simp only [distributedBy, succeeded, hx]; split <;> simp
      have h3 : paidBy env P s (.ix accs i) = 0 := by simp [paidBy, hx]
      rw [h1, h2, h3]; exact h
    | ok r =>
      obtain ⟨w', ret⟩ := r
      rw [apply_ix_ok hx]
      have hst := step_of_exec hw hv hc hx
      have h1 : filledBy env P s (.ix accs i) = addedTo accs P i := by simp [filledBy, succeeded, hx]
      have h3 : paidBy env P s (.ix accs i) = paidOut accs P i ret := by simp [paidBy, hx]
      rw [h1, h3]
      by_cases hn : ∃ p, PoolAt env s.world P p
      · obtain ⟨p, hp⟩ := hn
        have h2 : distributedBy env P s (.ix accs i) = distributedFrom accs s.now P p i := by
          simp [distributedBy, succeeded, hx, hp.2]
        rw [h2]
        obtain ⟨p1, k1, k2, -⟩ := hst.pool hp
        refine ⟨fun hn => absurd k1 (hn p1), fun p' hp' hV => ?_⟩
        obtain rfl := PoolAt.unique hp' k1
        have hsame := hst.samePool hp k1
        have hV' : env.findVault P p.rewardMint = some (V, p.bump) := by rw [← hsame.rewardMint, ← hsame.bump]; exact hV
        obtain ⟨a1, a2⟩ := h.some p hp hV'
        have b1 := (k2.budget (poolAt_good hw hp).ok).1
        have b2 := hst.vaultBalance hi hw hvt hV' hp ho.2.source (fun e => hse e)
        show p'.tokensAvailable + _ = _ ∧ balance w' V + _ = _
        omega
      · have hn' : ∀ p, ¬ PoolAt env s.world P p := fun p hp => hn ⟨p, hp⟩
        obtain ⟨p1, p2⟩ := paid_none hn' hst
        have h2 : distributedBy env P s (.ix accs i) = 0 := by
          simp only [distributedBy]
          split
          · split
            · exact distributed_none hn' hst _
            · rfl
          · rfl
        obtain ⟨rfl, rfl, rfl⟩ := h.none hn'
        rw [p1, p2, h2]
        refine ⟨fun _ => ⟨rfl, rfl, rfl⟩, fun p' hp' hV => ?_⟩
        rcases hst.newPool hp' with hex | ⟨f, d, X, T, K, Y, A, rest, bump, h4, h5, h6, h7, -⟩
        · exact absurd hex hn
        · subst h4 h5 h6 h7
          refine ⟨rfl, ?_⟩
          cases hst with
          | stake _ op => exact op.elim
          | initPool accs_eq _ _ _ _ _ _ vault pool' _ vault' =>
            injection accs_eq with e1 e2
            injection e2 with e2 e3
            subst e1 e2
            have h8 : (w' X.key).content = _ := hp'.2
            rw [pool'] at h8
            injection h8 with h8
            rw [← h8] at hV
            have h9 : env.findVault X.key T.key = some (V, _) := hV
            rw [vault] at h9
            injection h9 with h9
            injection h9 with h9 _
            subst h9
            show balance w' _ + _ = _
            unfold balance; rw [vault']
  | tick d => exact h
  | gc j =>
    obtain ⟨h1, h2⟩ := ho
    have e1 : ∀ k, k ≠ j → (s.apply env (.gc j)).world k = s.world k := fun k hk => world_set_ne _ _ hk
    exact outside (fun p => poolAt_congr (e1 P (Ne.symm h1))) (balance_congr (by rw [e1 V (Ne.symm h2)]))
  | ext w' =>
    refine outside (fun p => ⟨fun hp => ?_, fun hp => ?_⟩) hse
    · by_cases ho : (s.world P).owner = env.programId
      · obtain ⟨e1, -, e3, e4⟩ := hv.program_owned P ho
        exact ⟨ho, e3 ▸ hp.2⟩
      · have h1 := (hv.new_zero P ho hp.1).1
        have h5 : (w' P).content = _ := hp.2
        rw [h1] at h5; cases h5
    · obtain ⟨e1, -, e3, e4⟩ := hv.program_owned P hp.1
      exact ⟨e1.trans hp.1, e3.trans hp.2⟩

/-- Over a whole orderly history. -/
theorem runs_accounts (hi : env.PdaInjective) {P V : Key} (hP0 : P ≠ 0) {s0 s : Chain} {es : List Event}
    (hg : Genesis env s0) (hr : RunsWith env (fun s e => Orderly env P V s e ∧ Sealed V s e) s0 es s) (hn : s.now < 2 ^ 64) :
    Accounts env s.world P V (totalIn env (filledBy env P) s0 es) (totalIn env (distributedBy env P) s0 es)
      (totalIn env (paidBy env P) s0 es) := by
  have key : ∀ {s1 s : Chain} {es : List Event}, RunsWith env (fun s e => Orderly env P V s e ∧ Sealed V s e) s1 es s →
      ∀ es0, RunsWith env (Orderly env P V) s0 es0 s1 → s.now < 2 ^ 64 → ∀ F D Q, Accounts env s1.world P V F D Q →
      Accounts env s.world P V (F + totalIn env (filledBy env P) s1 es) (D + totalIn env (distributedBy env P) s1 es)
        (Q + totalIn env (paidBy env P) s1 es) := by
    intro s1 s es hr
    induction hr with
    | nil => intro _ _ _ F D Q h; exact h
    | @cons s s' e es hv hc hr' ih =>
      intro es0 h0 hn F D Q h
      have hnow : s.now < 2 ^ 64 := by
        have h1 : RunsWith env (fun s e => Orderly env P V s e ∧ Sealed V s e) s (e :: es) s' := .cons hv hc hr'
        exact Nat.lt_of_le_of_lt (run_now_le h1) hn
      obtain ⟨-, h2, -, h4⟩ := runs_solvent hi hP0 hg h0 hnow
      have := ih (es0 ++ [e]) (h0.append (.cons hv hc.1 (.nil _))) hn _ _ _
        (apply_accounts hi hv hc.1.clean hc.1 hc.2 h2 h4.vaults h)
      simp only [totalIn, ← Nat.add_assoc]
      exact this
  have := key hr [] (.nil _) hn 0 0 0 ⟨fun _ => ⟨rfl, rfl, rfl⟩, fun p hp _ => by
    have := (hg.owned P hp.1).1; rw [hp.2] at this; cases this⟩
  simpa using this

end Verif
