import Verif.Lemmas.SolvencyStep
import Verif.Lemmas.Distribution
import Verif.Lemmas.Ranges
import Verif.Lemmas.Run
/-!
The books of an orderly pool stay balanced through every event.
-/

namespace Verif

open Spec

variable {env : Env}

/-- A token account is either an old one or the vault of a new pool. -/
theorem Step.tokenOwner {now : Nat} {w w' : World} {accs : List AccountInfo} {i : Ix} {ret : Option Nat}
    (h : Step env now w w' accs i ret) {K : Key} (hK : (w' K).owner = env.tokenProgram) :
    (w K).owner = env.tokenProgram ∨ ∃ Q T A d f bump, env.findVault Q T = some (K, bump) ∧
      PoolAt env w' Q (Pool.init bump A d f T) := by
  have kept : w' K = w K → (w K).owner = env.tokenProgram := fun e => by rw [← e]; exact hK
  cases h with
  | stake accs_eq op chk del quiet same sfo ok' sameDel eff shell => exact Or.inl ((shell K).1 ▸ hK)
  | redelegate accs_eq signed op chk newDel oldOk oldAt ne quiet same sfo ok' sameNew sameOld neP eff shell =>
    exact Or.inl ((shell K).1 ▸ hK)
  | decrease accs_eq chk pool op mining mining' same ok' sfo frame shell => exact Or.inl ((shell K).1 ▸ hK)
  | distribute accs_eq signed auth good pool pool' amount op same ok' frame shell => exact Or.inl ((shell K).1 ▸ hK)
  | @claim Q T W M O A U Kk rest q m m1 n accs_eq signedO signedA eff =>
    left
    by_cases e1 : K = M.key
    · rw [e1, ← eff.accOwner.1, ← e1]; exact hK
    by_cases hn : n = 0
    · exact kept (eff.zero hn _ e1)
    · obtain ⟨w1, h1, h2⟩ := eff.transfer (Nat.pos_of_ne_zero hn)
      rw [← h1 _ e1, ← (h2.meta' K).1]; exact hK
  | @fill r e0 Q T W F S Kk rest q w1 accs_eq signed auth good pool vault nonzero future later endBound bound pool' w1_frame
      transfer frame neS neV shell =>
    left
    rw [← (shell K).1, ← (transfer.meta' K).1]; exact hK
  | @close M O G A Q rest q m m1 accs_eq signedO signedA good pool auth mining init miningOk owner refreshed sfo paid target
      closed credited frame ne neG =>
    left
    by_cases e1 : K = M.key
    · have := hK; rw [e1, closed] at this; rw [e1]; exact this
    by_cases e2 : K = G.key
    · have := hK; rw [e2, credited] at this; rw [e2]; exact this
    · exact kept (frame K e1 e2)
  | @initPool f d Q T W Y A R Kk S rest bump accs_eq signedY signedA owned len fresh notPda vault pool' vaultBefore vault'
      payer payer' frame neVP neYP neYV =>
    by_cases e1 : K = W.key
    · right
      refine ⟨Q.key, T.key, A.key, d, f, bump, e1 ▸ vault, ?_, ?_⟩
      · rw [pool']; exact owned
      · rw [pool']
    left
    by_cases e2 : K = Q.key
    · have := hK; rw [e2, pool'] at this; rw [e2]; exact this
    by_cases e3 : K = Y.key
    · have := hK; rw [e3, payer'] at this; rw [e3]; exact this
    · exact kept (frame K e2 e1 e3)
  | @initMining o Q M Y S rest bump accs_eq signedY owned addr before mining' payer payer' frame ne neP =>
    left
    by_cases e1 : K = M.key
    · have := hK; rw [e1, mining'] at this; exact absurd this env.program_ne_token
    by_cases e3 : K = Y.key
    · have := hK; rw [e3, payer'] at this; rw [e3]; exact this
    · exact kept (frame K e1 e3)

theorem Step.samePool {now : Nat} {w w' : World} {accs : List AccountInfo} {i : Ix} {ret : Option Nat}
    (h : Step env now w w' accs i ret) {k : Key} {p p' : Pool} (hp : PoolAt env w k p) (hp' : PoolAt env w' k p') :
    SamePool p p' := by
  obtain ⟨q, h1, h2, -⟩ := h.pool hp
  obtain rfl := PoolAt.unique hp' h1
  cases h2 with
  | same => exact .refl p
  | stake _ quiet _ => exact quiet.same
  | distribute _ _ _ _ same _ => exact same
  | fill _ _ _ _ _ _ _ => exact ⟨rfl, rfl, rfl, rfl, rfl, rfl⟩

theorem Step.vaulted {now : Nat} {w w' : World} {accs : List AccountInfo} {i : Ix} {ret : Option Nat}
    (hi : env.PdaInjective) {P : Key} (hv : Vaulted env w P) (h : Step env now w w' accs i ret) : Vaulted env w' P := by
  intro T b K hK ho
  rcases h.tokenOwner ho with h1 | ⟨Q, T', A, d, f, bump, h1, h2⟩
  · obtain ⟨p, h2, h3, h4⟩ := hv T b K hK h1
    obtain ⟨p', h5, -⟩ := h.pool h2
    have hs := h.samePool h2 h5
    exact ⟨p', h5, hs.rewardMint.trans h3, hs.bump.trans h4⟩
  · obtain ⟨rfl, rfl, rfl⟩ := hi.vault _ _ _ _ _ _ _ hK (env.findVault_spec _ _ _ _ h1)
    exact ⟨_, h2, rfl, rfl⟩

/-- While there is no pool at `P`, nothing happens to its minings. -/
theorem Step.noPool {now : Nat} {w w' : World} {accs : List AccountInfo} {i : Ix} {ret : Option Nat}
    (hi : env.PdaInjective) {P V : Key} (hP0 : P ≠ 0) (ho : OrderlyIx env P V now w accs i)
    (hn : ∀ p, ¬ PoolAt env w P p) (h : Step env now w w' accs i ret) : Moves env w w' P [] := by
  have other : ∀ {Q p}, PoolAt env w Q p → Q ≠ P := by rintro Q p h rfl; exact hn p h
  cases h with
  | @stake _ Q M A D q q' m m' d d' accs_eq op chk del quiet same sfo ok' sameDel eff shell written =>
    have e := other eff.pool
    refine eff.moves_other same sameDel written ?_ ?_
    · rw [chk.inPool]; exact e
    · intro x hx
      rcases (del x hx).pool hi with h1 | h1 <;> rw [h1]
      · exact e
      · exact Ne.symm hP0
  | @redelegate a nd Q M A O Old New rest q q' m m' od od' dn dn' accs_eq signed op chk newDel oldOk oldAt ne quiet same sfo
      ok' sameNew sameOld neP eff shell writtenOld writtenNew =>
    subst accs_eq
    have e := other eff.pool
    refine eff.moves_other same sameOld sameNew writtenOld writtenNew ?_ ?_ ?_
    · rw [chk.inPool]; exact e
    · intro x hx hxp
      rcases oldAt x hx with ⟨h1, -⟩ | h1
      · exact ho.otherPools (by show some Q.key ≠ some P; simpa using e) Old.key rfl x ⟨h1, hxp⟩
      · rw [h1.pool] at hxp; exact hP0 hxp.symm
    · intro x hx
      rcases (newDel x hx).pool hi with h1 | h1 <;> rw [h1]
      · exact e
      · exact Ne.symm hP0
  | @decrease o n A Q M rest q m m' accs_eq chk pool op mining mining' same ok' sfo frame shell =>
    have e := other pool
    refine moves_nil fun k y hy => ?_
    by_cases e2 : k = M.key
    · subst e2
      rw [MiningAt.unique hy.1 mining'] at hy
      exact absurd (chk.inPool.symm.trans (same.rewardPool.symm.trans hy.2)) e
    · exact Or.inl (frame k e2)
  | @claim Q T K M O A U Kk rest q m m1 n accs_eq signedO signedA eff =>
    have e := other eff.pool
    obtain ⟨t, ht, -⟩ := eff.userTok
    have tokens : ∀ k, k ≠ M.key → (w' k).owner = (w k).owner := by
      intro k hk
      by_cases hn : n = 0
      · rw [eff.zero hn _ hk]
      · obtain ⟨w1, h1, h2⟩ := eff.transfer (Nat.pos_of_ne_zero hn)
        rw [(h2.meta' k).1, h1 _ hk]
    refine moves_nil fun k y hy => ?_
    by_cases e2 : k = M.key
    · subst e2
      rw [MiningAt.unique hy.1 eff.mining'] at hy
      have hsame := (refresh_same eff.good.ok.history eff.miningOk eff.refreshed).1
      exact absurd (eff.inPool.symm.trans (hsame.rewardPool.symm.trans hy.2)) e
    by_cases e1 : k = K.key
    · subst e1
      have := tokens _ e2; rw [eff.vaultTok] at this
      exact absurd (hy.1.1.symm.trans this) env.program_ne_token
    by_cases e3 : k = U.key
    · subst e3
      have := tokens _ e2; rw [ht.1] at this
      exact absurd (hy.1.1.symm.trans this) env.program_ne_token
    · exact Or.inl (eff.frame k e2 e1 e3)
  | @distribute Q B rest q q' r accs_eq signed auth good pool pool' amount op same ok' frame shell =>
    refine moves_nil fun k y hy => ?_
    by_cases e2 : k = Q.key
    · subst e2; exact absurd hy.1 (PoolAt.not_mining pool')
    · exact Or.inl (frame k e2)
  | @fill r e0 Q T K F S Kk rest q w1 accs_eq signed auth good pool vault nonzero future later endBound bound pool' w1_frame
      transfer frame neS neV shell =>
    obtain ⟨t, t', ht, ht', -⟩ := transfer.srcTok
    obtain ⟨u, u', hu, hu', -⟩ := transfer.dstTok
    refine moves_nil fun k y hy => ?_
    by_cases e1 : k = Q.key
    · subst e1; exact absurd hy.1 (PoolAt.not_mining pool')
    by_cases e2 : k = S.key
    · subst e2; exact absurd (hy.1.1.symm.trans ht'.1) env.program_ne_token
    by_cases e3 : k = K.key
    · subst e3; exact absurd (hy.1.1.symm.trans hu'.1) env.program_ne_token
    · exact Or.inl (frame k e1 e2 e3)
  | @close M O G A Q rest q m m1 accs_eq signedO signedA good pool auth mining init miningOk owner refreshed sfo paid target
      closed credited frame ne neG =>
    refine moves_nil fun k y hy => ?_
    by_cases e1 : k = M.key
    · subst e1
      have := hy.1.2; rw [closed] at this; cases this
    by_cases e2 : k = G.key
    · subst e2
      have := hy.1.1; rw [credited] at this
      exact absurd (this.symm.trans target) env.program_ne_system
    · exact Or.inl (frame k e1 e2)
  | @initPool f d Q T K Y A R Kk S rest bump accs_eq signedY signedA owned len fresh notPda vault pool' vaultBefore vault'
      payer payer' frame neVP neYP neYV =>
    refine moves_nil fun k y hy => ?_
    by_cases e1 : k = Q.key
    · subst e1; have := hy.1.2; rw [pool'] at this; cases this
    by_cases e2 : k = K.key
    · subst e2; have := hy.1.2; rw [vault'] at this; cases this
    by_cases e3 : k = Y.key
    · subst e3
      have := hy.1.1; rw [payer'] at this
      exact absurd (this.symm.trans payer.2.1) env.program_ne_system
    · exact Or.inl (frame k e1 e2 e3)
  | @initMining o Q M Y S rest bump accs_eq signedY owned addr before mining' payer payer' frame ne neP =>
    refine moves_nil fun k y hy => ?_
    by_cases e2 : k = M.key
    · subst e2
      have := hy.1.2; rw [mining'] at this
      cases this
      exact Or.inr (Or.inr ⟨rfl, rfl, rfl, rfl, rfl⟩)
    by_cases e3 : k = Y.key
    · subst e3
      have := hy.1.1; rw [payer'] at this
      exact absurd (this.symm.trans payer.2.1) env.program_ne_system
    · exact Or.inl (frame k e2 e3)

/-! ## A distribution -/

/-- A later distribution gives every mining its index increment times its stake of the day. -/
theorem owed_append {cum : SMap} (hc : History cum) {m : Mining} (hi : m.index ≤ lastIndex 0 cum) (d q : Nat) :
    owed m (cum ++ [(d, lastIndex 0 cum + q)]) = owed m cum + q * earningOn m d := by
  unfold owed pending
  rw [earned_append]
  simp only [earned, Nat.add_zero]
  rw [Nat.max_eq_left (by omega), Nat.max_eq_left hi, Nat.add_sub_cancel_left]
  omega

theorem indexBefore_append {cum : SMap} {d x : Nat} (hx : lastIndex 0 cum ≤ x) (hc : History cum) (t : Nat) :
    indexBefore cum t ≤ indexBefore (cum ++ [(d, x)]) t := by
  unfold indexBefore
  rw [List.filter_append, lastIndex_append]
  by_cases h : d < t
  · rw [show List.filter (fun e : Nat × Nat => decide (e.1 < t)) [(d, x)] = [(d, x)] by simp [h]]
    exact Nat.le_trans (indexBefore_le_last hc t) hx
  · rw [show List.filter (fun e : Nat × Nat => decide (e.1 < t)) [(d, x)] = [] by simp [h]]
    exact Nat.le_refl _

theorem sumOver_add_mul (f g : Key → Nat) (q : Nat) (S : List Key) :
    sumOver (fun k => f k + q * g k) S = sumOver f S + q * sumOver g S := by
  induction S with
  | nil => simp [sumOver]
  | cons k t ih =>
    rw [sumOver_cons, sumOver_cons, sumOver_cons, ih, Nat.mul_add]; omega

theorem totalOn_after {p : Pool} {T d x : Nat} (hT : totalOn p d = T) (hx : d ≤ x) :
    totalOn { p with totalShare := T, diffs := after p.diffs d } x = totalOn p x := by
  have := dueBy_after p.diffs hx
  unfold totalOn at *
  simp only
  omega

/-! ## The books -/

/-- The books of the pool `p` at `P` with vault `V` are in order. -/
structure Books (env : Env) (now : Nat) (w : World) (P V : Key) (p : Pool) : Prop where
  sound : ∀ k m, Member env w P k m → Sound now p.cumulative m
  small : ∀ k m, Member env w P k m → m.share + m.stakeFromOthers < 2 ^ 64
  cover : ∀ x, midnight now ≤ x → Bounded (ofMember env w P fun m => earningOn m x) (totalOn p x)
  funds : Bounded (ofMember env w P fun m => owed m p.cumulative)
    (10 ^ 16 * (balance w V : Int) - 10 ^ 16 * (p.tokensAvailable : Int))

theorem Turn.keeps {now : Nat} {w w' : World} {P V : Key} {p p' : Pool} {L : List (Key × Mining × Mining)}
    (hV : env.findVault P p.rewardMint = some (V, p.bump)) (hp : PoolOk now p)
    (hrec : p.cumulative.length < env.caps.index → p.index = lastIndex 0 p.cumulative)
    (hfit : p'.totalShare < 2 ^ 64) (hm : Moves env w w' P L) (ht : Turn env now w w' P V p p' L)
    (hb : Books env now w P V p) : Books env now w' P V p' := by
  cases ht with
  | books same funds cover members =>
    have hcover : ∀ x, midnight now ≤ x → Bounded (ofMember env w' P fun m => earningOn m x) (totalOn p' x) := by
      intro x hx
      exact (hm.bounded (fun m h => h.earning x) (hb.cover x hx)).mono (fun _ => Nat.le_refl _) (cover x hx)
    refine ⟨?_, ?_, hcover, ?_⟩
    · rw [same]
      refine hm.all (fun m h => h.sound now _) hb.sound fun y hy => ?_
      rcases members y hy with h | h
      · exact h.sound hp.history
      · exact h.1
    · refine hm.all (fun m h => by rw [h.share, h.sfo]; decide) hb.small fun y hy => ?_
      rcases members y hy with h | h
      · have h1 := (hcover (midnight now) (Nat.le_refl _)).one y.1
        rw [ofMember_eq (hm.listed y hy).2, h.stake] at h1
        have h2 : totalOn p' (midnight now) ≤ p'.totalShare := by unfold totalOn; omega
        omega
      · exact Nat.lt_of_le_of_lt h.2 (hb.small _ _ (hm.listed y hy).1)
    · rw [same]
      exact (hm.bounded (fun m h => h.owed _) hb.funds).mono (fun _ => Nat.le_refl _) (funds hV)
  | @distribute r op funds =>
    have hearn : ∀ x, midnight now ≤ x → Bounded (ofMember env w' P fun m => earningOn m x) (totalOn p x) := by
      intro x hx
      exact (hm.bounded (fun m h => h.earning x) (hb.cover x hx)).mono (fun _ => Nat.le_refl _) (by simp [gain])
    have howed : Bounded (ofMember env w' P fun m => owed m p.cumulative)
        (10 ^ 16 * (balance w' V : Int) - 10 ^ 16 * (p.tokensAvailable : Int)) :=
      (hm.bounded (fun m h => h.owed _) hb.funds).mono (fun _ => Nat.le_refl _) (by simp only [gain, List.map_nil, List.sum_nil]; omega)
    have hsound := hm.all (fun m h => h.sound now p.cumulative) hb.sound (by simp)
    have hsmall := hm.all (Q := fun m => m.share + m.stakeFromOthers < 2 ^ 64)
      (fun m h => by rw [h.share, h.sfo]; decide) hb.small (by simp)
    by_cases hn : NewDay p now
    · obtain ⟨T, h1, h2, h3, h4, rfl⟩ := distribute_new hp hn op
      by_cases hroom : p.cumulative.length < env.caps.index
      · have hidx := hrec hroom
        have hq : 10 ^ 16 * r / T * T ≤ 10 ^ 16 * r := Nat.div_mul_le_self _ _
        refine ⟨?_, hsmall, ?_, ?_⟩
        · intro k m hk
          have := hsound k m hk
          simp only [if_pos hroom]
          have hle : lastIndex 0 p.cumulative ≤ p.index + 10 ^ 16 * r / T := by
            rw [hidx]; exact Nat.le_add_right _ _
          exact ⟨this.ok, this.backed, Nat.le_trans this.index (indexBefore_append hle hp.history _),
            fun e he => Nat.le_trans (this.ahead e he) (indexBefore_append hle hp.history _)⟩
        · intro x hx
          exact (hearn x hx).mono (fun _ => Nat.le_refl _)
            (Int.le_of_eq (totalOn_after (p := p) h1 hx).symm)
        · simp only [if_pos hroom]
          rw [hidx]
          intro S hS
          have e1 : sumOver (ofMember env w' P fun m => owed m (p.cumulative ++ [(midnight now, lastIndex 0 p.cumulative + 10 ^ 16 * r / T)])) S
              = sumOver (fun k => ofMember env w' P (fun m => owed m p.cumulative) k +
                (10 ^ 16 * r / T) * ofMember env w' P (fun m => earningOn m (midnight now)) k) S := by
            refine congrArg (fun f => sumOver f S) (funext fun k => ?_)
            rcases ofMember_cases (env := env) (w := w') (P := P) (k := k) (fun m => owed m p.cumulative) with ⟨m, k1, k2⟩ | ⟨k1, k2⟩
            · rw [ofMember_eq k1, ofMember_eq k1, ofMember_eq k1]
              exact owed_append hp.history (Nat.le_trans (hsound k m k1).index (indexBefore_le_last hp.history _)) _ _
            · rw [ofMember_zero k1, ofMember_zero k1, ofMember_zero k1]; simp
          rw [e1, sumOver_add_mul]
          have h5 := hearn (midnight now) (Nat.le_refl _) S hS
          have h6 := howed S hS
          rw [h1] at h5
          have h7 : (10 ^ 16 * r / T) * sumOver (ofMember env w' P fun m => earningOn m (midnight now)) S ≤ 10 ^ 16 * r :=
            Nat.le_trans (Nat.mul_le_mul_left _ (by omega)) hq
          generalize (10 ^ 16 * r / T) * sumOver (ofMember env w' P fun m => earningOn m (midnight now)) S = z at h7 ⊢
          omega
      · simp only [if_neg hroom]
        refine ⟨hsound, hsmall, ?_, ?_⟩
        · intro x hx
          exact (hearn x hx).mono (fun _ => Nat.le_refl _)
            (Int.le_of_eq (totalOn_after (p := p) h1 hx).symm)
        · refine howed.mono (fun _ => Nat.le_refl _) ?_
          simp only; omega
    · obtain ⟨T, h1, rfl⟩ := distribute_again hp hn op
      exact ⟨hsound, hsmall, fun x hx => (hearn x hx).mono (fun _ => Nat.le_refl _)
        (Int.le_of_eq (totalOn_after (p := p) h1 hx).symm), howed⟩

/-- What holds of the pool address `P` and vault address `V` throughout an orderly history. -/
structure Solvent (env : Env) (now : Nat) (w : World) (P V : Key) : Prop where
  unused : (∀ p, ¬ PoolAt env w P p) → ∀ k m, Member env w P k m → Fresh m
  vaults : Vaulted env w P
  books : ∀ p, PoolAt env w P p → env.findVault P p.rewardMint = some (V, p.bump) → Books env now w P V p

theorem sumOver_zero (S : List Key) : sumOver (fun _ : Key => 0) S = 0 := by
  induction S with
  | nil => rfl
  | cons k t ih => rw [sumOver_cons, ih]

theorem books_init {now : Nat} {w : World} {P V : Key} {b : Nat} {A d f T : Key}
    (h : ∀ k m, Member env w P k m → Fresh m) : Books env now w P V (Pool.init b A d f T) := by
  have zero : ∀ g : Mining → Nat, (∀ m, Fresh m → g m = 0) → ∀ B : Int, 0 ≤ B → Bounded (ofMember env w P g) B := by
    intro g hg B hB S _
    have : sumOver (ofMember env w P g) S ≤ sumOver (fun _ => 0) S := sumOver_le fun k => by
      rcases ofMember_cases (env := env) (w := w) (P := P) (k := k) g with ⟨m, k1, k2⟩ | ⟨k1, k2⟩
      · rw [k2, hg m (h k m k1)]; exact Nat.le_refl _
      · rw [k2]; exact Nat.le_refl _
    have h0 : sumOver (fun _ : Key => 0) S = 0 := sumOver_zero S
    omega
  refine ⟨fun k m hm => (h k m hm).sound _ _, fun k m hm => ?_, fun x _ => zero _ (fun m hm => hm.earning x) _ ?_,
    zero _ (fun m hm => hm.owed _) _ ?_⟩
  · rw [(h k m hm).share, (h k m hm).sfo]; decide
  · simp [totalOn, Pool.init, Pool.zero, dueBy]
  · simp only [Pool.init, Pool.zero]; omega

theorem Step.solvent {now : Nat} {w w' : World} {accs : List AccountInfo} {i : Ix} {ret : Option Nat}
    (hi : env.PdaInjective) (hw : Wf env now w) {P V : Key} (hP0 : P ≠ 0)
    (hrec : ∀ p, PoolAt env w P p → p.cumulative.length < env.caps.index → p.index = lastIndex 0 p.cumulative)
    (hfit : AllFit env w') (ho : OrderlyIx env P V now w accs i) (hs : Solvent env now w P V)
    (h : Step env now w w' accs i ret) : Solvent env now w' P V := by
  refine ⟨?_, h.vaulted hi hs.vaults, ?_⟩
  · intro hn
    have hn0 : ∀ p, ¬ PoolAt env w P p := fun p hp => by
      obtain ⟨p', hp', -⟩ := h.pool hp
      exact hn p' hp'
    exact (h.noPool hi hP0 ho hn0).all (fun _ h => h) (hs.unused hn0) (by simp)
  · intro p' hp' hV'
    rcases h.newPool hp' with ⟨p, hp⟩ | ⟨f, d, Q, T, K, Y, A, rest, bump, -, -, -, rfl, hn0, -⟩
    · have hsame := h.samePool hp hp'
      have hV : env.findVault P p.rewardMint = some (V, p.bump) := by
        rw [← hsame.rewardMint, ← hsame.bump]; exact hV'
      have hb := hs.books p hp hV
      obtain ⟨q, L, hq, hm, ht⟩ := h.turn hi hw hs.vaults hV hb.sound ho hp
      obtain rfl := PoolAt.unique hp' hq
      exact ht.keeps hV (poolAt_good hw hp).ok (hrec p hp) (hfit.pools P p' hp').total hm hb
    · exact books_init ((h.noPool hi hP0 ho hn0).all (fun _ h => h) (hs.unused hn0) (by simp))

theorem Solvent.tick {now : Nat} {w : World} {P V : Key} (hw : Wf env now w) (hs : Solvent env now w P V) (d : Nat) :
    Solvent env (now + d) w P V := by
  refine ⟨hs.unused, hs.vaults, fun p hp hV => ?_⟩
  have hb := hs.books p hp hV
  have hm : midnight now ≤ midnight (now + d) := by unfold midnight; omega
  refine ⟨fun k m hk => ?_, hb.small, fun x hx => hb.cover x (Nat.le_trans hm hx), hb.funds⟩
  have := hb.sound k m hk
  exact ⟨this.ok, this.backed, Nat.le_trans this.index (indexBefore_mono (poolAt_good hw hp).ok.history (by omega)), this.ahead⟩

/-- Changes that leave the program's accounts alone. -/
theorem Solvent.outside {now : Nat} {w w' : World} {P V : Key} (hs : Solvent env now w P V)
    (hpool : ∀ p, PoolAt env w' P p ↔ PoolAt env w P p) (hmem : ∀ k m, Member env w' P k m → Member env w P k m)
    (hb : balance w V ≤ balance w' V)
    (htok : ∀ k T b, env.vaultAddr P T b = some k → (w' k).owner = env.tokenProgram → (w k).owner = env.tokenProgram) :
    Solvent env now w' P V := by
  refine ⟨fun hn k m hm => hs.unused (fun p hp => hn p ((hpool p).mpr hp)) k m (hmem k m hm), ?_, fun p hp hV => ?_⟩
  · intro T b K hK ho
    obtain ⟨p, h1, h2⟩ := hs.vaults T b K hK (htok K T b hK ho)
    exact ⟨p, (hpool p).mpr h1, h2⟩
  · have hbk := hs.books p ((hpool p).mp hp) hV
    have hle : ∀ g k, ofMember env w' P g k ≤ ofMember env w P g k := by
      intro g k
      rcases ofMember_cases (env := env) (w := w') (P := P) (k := k) g with ⟨m, k1, k2⟩ | ⟨k1, k2⟩
      · rw [k2, ofMember_eq (hmem k m k1)]; exact Nat.le_refl _
      · rw [k2]; exact Nat.zero_le _
    exact ⟨fun k m hm => hbk.sound k m (hmem k m hm), fun k m hm => hbk.small k m (hmem k m hm),
      fun x hx => (hbk.cover x hx).mono (hle _) (Int.le_refl _), hbk.funds.mono (hle _) (by omega)⟩

theorem apply_solvent (hi : env.PdaInjective) {s : Chain} (hr : Reachable env s) {P V : Key} (hP0 : P ≠ 0) {e : Event}
    (hv : e.Valid env s) (hc : CleanEvent env s e) (ho : Orderly env P V s e) (hw : Wf env s.now s.world)
    (hfit : AllFit env (s.apply env e).world) (hs : Solvent env s.now s.world P V) :
    Solvent env (s.apply env e).now (s.apply env e).world P V := by
  cases e with
  | ix accs i =>
    cases hx : exec env s.now s.world accs i with
    | error e => rw [apply_ix_error hx]; exact hs
    | ok r =>
      obtain ⟨w', ret⟩ := r
      rw [apply_ix_ok hx] at hfit ⊢
      exact (step_of_exec hw hv hc hx).solvent hi hw hP0 (fun p hp => index_recorded hr hp) hfit ho.2 hs
  | tick d => exact hs.tick hw d
  | gc j =>
    obtain ⟨h1, h2⟩ := ho
    have e0 : (s.apply env (.gc j)).world j = _ := world_set_same _ _ _
    have e1 : ∀ k, k ≠ j → (s.apply env (.gc j)).world k = s.world k := fun k hk => world_set_ne _ _ hk
    refine hs.outside (fun p => poolAt_congr (e1 P (Ne.symm h1))) (fun k m hm => ?_)
      (Nat.le_of_eq (balance_congr (by rw [e1 V (Ne.symm h2)])).symm) fun k T b hk ho => ?_
    · by_cases hk : k = j
      · subst hk; have := hm.1.2; rw [e0] at this; cases this
      · exact ⟨(miningAt_congr (e1 k hk)).mp hm.1, hm.2⟩
    · by_cases hk : k = j
      · subst hk; rw [e0] at ho; exact absurd ho (Ne.symm env.token_ne_system)
      · rw [← e1 k hk]; exact ho
  | ext w' =>
    refine hs.outside (fun p => ⟨fun hp => ?_, fun hp => ?_⟩) (fun k m hm => ?_) ho fun k T b hk ho' => ?_
    · by_cases ho : (s.world P).owner = env.programId
      · obtain ⟨e1, -, e3, e4⟩ := hv.program_owned P ho
        exact ⟨ho, e3 ▸ hp.2⟩
      · have h1 := (hv.new_zero P ho hp.1).1
        have h5 : (w' P).content = _ := hp.2
        rw [h1] at h5; cases h5
    · obtain ⟨e1, -, e3, e4⟩ := hv.program_owned P hp.1
      exact ⟨e1.trans hp.1, e3.trans hp.2⟩
    · by_cases ho : (s.world k).owner = env.programId
      · obtain ⟨e1, -, e3, e4⟩ := hv.program_owned k ho
        exact ⟨⟨ho, e3 ▸ hm.1.2⟩, hm.2⟩
      · have h1 := (hv.new_zero k ho hm.1.1).1
        have h5 : (w' k).content = _ := hm.1.2
        rw [h1] at h5; cases h5
    · have ho2 : (w' k).owner = env.tokenProgram := ho'
      rcases (hw k).pda (Or.inr ⟨P, T, b, hk⟩) with ⟨h1, -⟩ | h1 | h1
      · obtain ⟨e1, -⟩ := hv.program_owned k h1
        exact absurd ((e1.trans h1).symm.trans ho2) env.program_ne_token
      · exact h1
      · obtain ⟨e1, -⟩ := hv.pda_system k (Or.inr ⟨P, T, b, hk⟩) h1
        exact absurd (e1.symm.trans ho2) (Ne.symm env.token_ne_system)

theorem solvent_genesis {s : Chain} (hg : Genesis env s) {P V : Key} : Solvent env s.now s.world P V := by
  refine ⟨fun _ k m hm => ?_, fun T b K hK ho => ?_, fun p hp _ => ?_⟩
  · have := (hg.owned k hm.1.1).1
    rw [hm.1.2] at this; cases this
  · have := (hg.pda K (Or.inr ⟨P, T, b, hK⟩)).1
    exact absurd (this.symm.trans ho) (Ne.symm env.token_ne_system)
  · have := (hg.owned P hp.1).1
    rw [hp.2] at this; cases this

theorem Spec.Orderly.clean {P V : Key} {s : Chain} {e : Event} (h : Orderly env P V s e) : CleanEvent env s e := by
  cases e with
  | ix accs i => exact h.1
  | _ => trivial

/-- Throughout an orderly history. -/
theorem runs_solvent (hi : env.PdaInjective) {P V : Key} (hP0 : P ≠ 0) {s0 s : Chain} {es : List Event} (hg : Genesis env s0)
    (hr : RunsWith env (Orderly env P V) s0 es s) (hn : s.now < 2 ^ 64) :
    Reachable env s ∧ Wf env s.now s.world ∧ AllFit env s.world ∧ Solvent env s.now s.world P V := by
  have key : ∀ {s0 s : Chain} {es : List Event}, RunsWith env (Orderly env P V) s0 es s → s.now < 2 ^ 64 →
      Reachable env s0 → Wf env s0.now s0.world → AllFit env s0.world → Solvent env s0.now s0.world P V →
      Reachable env s ∧ Wf env s.now s.world ∧ AllFit env s.world ∧ Solvent env s.now s.world P V := by
    intro s0 s es hr
    induction hr with
    | nil => intro _ h1 h2 h3 h4; exact ⟨h1, h2, h3, h4⟩
    | @cons s s' e es hv hc hr' ih =>
      intro hn h1 h2 h3 h4
      have hnow : s.now < 2 ^ 64 := by
        refine Nat.lt_of_le_of_lt (Nat.le_trans ?_ (run_now_le hr')) hn
        cases e with
        | ix accs i =>
          cases hx : exec env s.now s.world accs i with
          | error e => rw [apply_ix_error hx]; exact Nat.le_refl _
          | ok r => obtain ⟨w', ret⟩ := r; rw [apply_ix_ok hx]; exact Nat.le_refl _
        | tick d => exact Nat.le_add_right _ _
        | _ => exact Nat.le_refl _
      have hcl := hc.clean
      have h5 := h1.step hv hcl
      have h6 := apply_fits h2 h3 hv hcl hnow
      exact ih hn h5 (reachable_wf h5) h6 (apply_solvent hi h1 hP0 hv hcl hc h2 h6 h4)
  refine key hr hn ⟨s0, [], hg, .nil _⟩ (wf_genesis hg) ⟨fun k p hp => ?_, fun k m hm => ?_⟩ (solvent_genesis hg)
  · have := (hg.owned k hp.1).1; rw [hp.2] at this; cases this
  · have := (hg.owned k hm.1).1; rw [hm.2] at this; cases this

/-! ## Bringing a mining up to date never fails -/

theorem upd_exists {cum : SMap} {date sh u i B : Nat} (hi : i ≤ indexBefore cum date)
    (hB : B < 2 ^ 64) (h : 10 ^ 16 * u + (indexBefore cum date - i) * sh ≤ 10 ^ 16 * B) :
    ∃ u', Upd cum date sh u i u' ∧ 10 ^ 16 * u' ≤ 10 ^ 16 * u + (indexBefore cum date - i) * sh := by
  refine ⟨_, ⟨hi, ?_, ?_, ?_, rfl⟩, ?_⟩ <;>
    generalize (indexBefore cum date - i) * sh = z at * <;> (try unfold PRECISION) <;> (try unfold U128) <;>
    (try unfold U64) <;> omega

theorem earned_before {cum : SMap} (hc : History cum) {t sh i : Nat} (hi : i ≤ indexBefore cum t)
    {D : List (Nat × Nat)} (hD : ∀ e ∈ D, t ≤ e.1) :
    earned (effOf sh D) i 0 (cum.filter fun x => decide (x.1 < t)) = (indexBefore cum t - i) * sh := by
  rw [earned_congr (eff' := fun _ => sh)]
  · rw [earned_const (hc.monoFrom.filter _)]
    show (max (indexBefore cum t) i - max 0 i) * sh = _
    rw [Nat.max_eq_left hi, Nat.zero_max]
  · intro x hx
    have hx2 := (List.mem_filter.mp hx).2
    simp only [decide_eq_true_eq] at hx2
    unfold effOf
    rw [dueBy_eq_zero (fun e he => Nat.lt_of_lt_of_le hx2 (hD e he))]; rfl

theorem runOk_exists {cum : SMap} (hc : History cum) {b t : Nat} (hbt : b ≤ t) {D : List (Nat × Nat)} (hD : Sorted D)
    {sh u i B : Nat} (hi : i ≤ indexBefore cum t) (hahead : ∀ e ∈ D, i ≤ indexBefore cum e.1) (hsh : total D ≤ sh)
    (hB : B < 2 ^ 64) (hal : ∀ e ∈ D, b < e.1 → t ≤ e.1)
    (h : 10 ^ 16 * u + earned (effOf sh D) i 0 (cum.filter fun x => decide (x.1 < t)) ≤ 10 ^ 16 * B) :
    ∃ sh' u', RunOk cum b t D sh u i sh' u' ∧ sh ≤ sh' + total D := by
  induction D generalizing sh u i with
  | nil =>
    rw [earned_before hc hi (by simp)] at h
    obtain ⟨u', h1, -⟩ := upd_exists hi hB h
    exact ⟨sh, u', ⟨h1, rfl⟩, by simp⟩
  | cons a rest ih =>
    obtain ⟨e, v⟩ := a
    by_cases he : e > b
    · have h1 : ∀ x ∈ (e, v) :: rest, t ≤ x.1 := by
        intro x hx
        refine hal x hx ?_
        rcases List.mem_cons.mp hx with rfl | hx
        · exact he
        · exact Nat.lt_trans he ((sorted_cons.mp hD).1 x hx)
      rw [earned_before hc hi h1] at h
      obtain ⟨u', h2, -⟩ := upd_exists hi hB h
      refine ⟨sh, u', ?_, Nat.le_add_right _ _⟩
      rw [RunOk, if_pos he]
      exact ⟨h2, rfl⟩
    · have hv : v ≤ sh := by rw [total_cons] at hsh; omega
      have he2 : e ≤ t := by omega
      rw [earned_step hc hD he2 (hahead (e, v) (by simp))] at h
      obtain ⟨u1, h1, h2⟩ := upd_exists (date := e) (u := u) (sh := sh) (hahead (e, v) (by simp)) hB (by omega)
      rw [total_cons] at hsh
      obtain ⟨sh', u', h3, h4⟩ := ih (sorted_cons.mp hD).2 (sh := sh - v) (u := u1) (i := indexBefore cum e)
        (indexBefore_mono hc he2)
        (fun x hx => indexBefore_mono hc (Nat.le_of_lt ((sorted_cons.mp hD).1 x hx))) (by simp only at hsh; omega)
        (fun x hx => hal x (by simp [hx])) (by omega)
      refine ⟨sh', u', ?_, by rw [total_cons]; simp only; omega⟩
      rw [RunOk, if_neg he]
      exact ⟨u1, h1, hv, h3⟩

/-- Bringing up to date a mining with sound data that is owed no more than `B < 2^64` tokens succeeds. -/
theorem refresh_succeeds {cum : SMap} (hc : History cum) {now B : Nat} {m : Mining} (hs : Sound now cum m)
    (hsmall : m.share + m.stakeFromOthers < 2 ^ 64) (hB : B < 2 ^ 64) (ho : owed m cum ≤ 10 ^ 16 * B) :
    ∃ m', m.refreshRewards now cum = .ok m' := by
  have hent : entitlement m cum now ≤ pending m cum := by rw [pending_split hc m hs.index]; exact Nat.le_add_right _ _
  obtain ⟨sh', u', h1, h2⟩ := runOk_exists hc (bod_le now) hs.ok.sorted (sh := m.share + m.stakeFromOthers) (u := m.unclaimed)
    (i := m.index) hs.index hs.ahead (Nat.le_trans hs.backed (Nat.le_add_right _ _)) hB
    (fun e he h => by
      rw [bod_eq_midnight] at h
      have h1 := next_day (hs.ok.aligned e he) h
      have h2 := now_lt_midnight now
      omega)
    (by
      rw [effOf_mining]
      unfold owed at ho
      show 10 ^ 16 * m.unclaimed + entitlement m cum now ≤ _
      omega)
  have hb := hs.backed
  exact ⟨_, (refresh_iff hc hs.ok.sorted).mpr ⟨by unfold U64; omega, sh', u', h1, by omega, rfl⟩⟩

end Verif
