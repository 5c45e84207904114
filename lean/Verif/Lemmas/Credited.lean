import Verif.Lemmas.Outsider
/-!
Credited rewards stay credited until they are paid.
-/

namespace Verif

open Spec

variable {env : Env}

/-- What an instruction leaves of the rewards credited to the mining at `k`: the mining is still there, and what it lost was
paid; or nothing was credited to it, and it was closed. -/
theorem Step.credited {now : Nat} {w w' : World} {accs : List AccountInfo} {i : Ix} {ret : Option Nat}
    (h : Step env now w w' accs i ret) {k : Key} {m : Mining} (hm : MiningAt env w k m) (ht : m.accountType = 2) :
    (∃ m', MiningAt env w' k m' ∧ SameMining m m' ∧ m.unclaimed ≤ claimedOut accs k i ret + m'.unclaimed ∧
      (w' k).lamports = (w k).lamports) ∨ (i = .closeMining ∧ miningArg accs i = some k ∧ m.unclaimed = 0) := by
  have tok : ∀ j, (w j).owner = env.tokenProgram → k ≠ j := by
    rintro j hj rfl; exact env.program_ne_token (hm.1.symm.trans hj)
  have sys : ∀ j, (w j).owner = env.systemProgram → k ≠ j := by
    rintro j hj rfl; exact env.program_ne_system (hm.1.symm.trans hj)
  have idle : w' k = w k → ∃ m', MiningAt env w' k m' ∧ SameMining m m' ∧
      m.unclaimed ≤ claimedOut accs k i ret + m'.unclaimed ∧ (w' k).lamports = (w k).lamports :=
    fun e => ⟨m, (miningAt_congr e).mpr hm, .refl m, Nat.le_add_left _ _, by rw [e]⟩
  have more : ∀ {n a : Nat}, m.unclaimed ≤ n → m.unclaimed ≤ a + n := fun h => Nat.le_trans h (Nat.le_add_left _ _)
  cases h with
  | @stake _ P1 M A D q q' m1 m1' d d' accs_eq op chk del quiet same sfo ok' sameDel eff shell =>
    left
    rcases eff.minings hm with ⟨rfl, rfl, h1⟩ | ⟨h1, h0, rfl, y', rfl, h2⟩ | ⟨n1, n2, h1⟩
    · exact ⟨_, h1, same, more (CreditedAs.grows chk.good.ok.history chk.miningOk
        (op.credit chk.good.ok chk.miningOk (fun x hx => (del x hx).ok))), (shell _).2.1⟩
    · exact ⟨_, h2, sameDel.1, more (op.grows chk.good.ok chk.miningOk (del _ rfl).ok), (shell _).2.1⟩
    · exact idle (eff.frame k (by rintro rfl; exact PoolAt.not_mining eff.pool hm) n1 n2)
  | @redelegate a nd P1 M A O Old New rest q q' m1 m1' od od' dn dn' accs_eq signed op chk newDel oldOk oldAt ne quiet same sfo
      ok' sameNew sameOld neP eff shell =>
    left
    have hop := op
    rw [changeDelegate_ok] at hop
    by_cases hk : k = M.key
    · subst hk
      obtain rfl := MiningAt.unique hm eff.mining
      exact ⟨_, eff.mining', same, more (refresh_grows chk.good.ok.history chk.miningOk hop.1), (shell _).2.1⟩
    · obtain ⟨-, hod, hdn⟩ := redelegate_credit op
      by_cases hk2 : k = Old.key
      · subst hk2
        obtain ⟨rfl, x', rfl, h4⟩ := eff.old.at hk hm
        obtain ⟨y, r, r', e1, e2, e3⟩ := hod _ rfl
        cases e1
        rw [delegateSub_ok, e2] at e3
        exact ⟨_, h4, sameOld.1, more (refresh_grows' chk.good.ok.history (oldOk _ rfl) _ e3.2.2.1).1, (shell _).2.1⟩
      · by_cases hk3 : k = New.key
        · subst hk3
          obtain ⟨rfl, x', rfl, h4⟩ := eff.new.at hk hm
          obtain ⟨y, r, r', e1, e2, e3⟩ := hdn _ rfl
          cases e1
          rw [delegateAdd_ok, e2] at e3
          exact ⟨_, h4, sameNew.1, more (refresh_grows' chk.good.ok.history (newDel _ rfl).ok _ e3.2.2.1).1, (shell _).2.1⟩
        · exact idle (eff.frame k (by rintro rfl; exact PoolAt.not_mining eff.pool hm) hk hk2 hk3)
  | @decrease o n A P1 M rest q m1 m1' accs_eq chk pool op mining mining' same ok' sfo frame shell =>
    left
    by_cases hk : k = M.key
    · subst hk
      obtain rfl := MiningAt.unique hm mining
      refine ⟨_, mining', same, more ?_, (shell _).2.1⟩
      rcases decreaseRewards_ok.mp op with ⟨-, rfl⟩ | ⟨-, -, rfl⟩ <;> exact Nat.le_refl _
    · exact idle (frame k hk)
  | @claim P1 T V M O A U K rest q m1 m2 n accs_eq signedO signedA eff =>
    left
    obtain ⟨t, htok, -⟩ := eff.userTok
    have a2 : miningArg accs .claim = some M.key := by rw [accs_eq]; rfl
    by_cases hk : k = M.key
    · subst hk
      obtain rfl := MiningAt.unique hm eff.mining
      obtain ⟨s, -⟩ := refresh_same eff.good.ok.history eff.miningOk eff.refreshed
      have hcl : claimedOut accs M.key .claim (some n) = n := by simp [claimedOut, a2]
      refine ⟨_, eff.mining', ⟨s.1, s.2, s.3, s.4, s.5⟩, ?_, eff.lamports⟩
      rw [hcl, eff.amount]
      exact refresh_grows eff.good.ok.history eff.miningOk eff.refreshed
    · exact idle (eff.frame k hk (tok _ eff.vaultTok) (tok _ htok.1))
  | distribute _ _ _ _ pool _ _ _ _ _ frame =>
    exact Or.inl (idle (frame k (by rintro rfl; exact PoolAt.not_mining pool hm)))
  | @fill r e P1 T V F S K rest q w1 accs_eq signed auth good pool vault nonzero future later endBound bound pool' w1_frame
      transfer frame neS neV shell =>
    left
    obtain ⟨t, t', ht1, -⟩ := transfer.srcTok
    obtain ⟨u, u', hu, -⟩ := transfer.dstTok
    refine idle (frame k (by rintro rfl; exact PoolAt.not_mining pool hm) (tok _ ?_) (tok _ ?_))
    · rw [← w1_frame _ neS]; exact ht1.1
    · rw [← w1_frame _ neV]; exact hu.1
  | @close M O G A P1 rest q m1 m2 accs_eq signedO signedA good pool auth mining init miningOk owner refreshed sfo paid target
      closed credited frame ne neG =>
    by_cases hk : k = M.key
    · subst hk
      obtain rfl := MiningAt.unique hm mining
      have := refresh_grows good.ok.history miningOk refreshed
      exact Or.inr ⟨rfl, by rw [accs_eq]; rfl, by omega⟩
    · exact Or.inl (idle (frame k hk (sys _ target)))
  | @initPool f d P1 T V Y A R K S rest bump accs_eq signedY signedA owned len fresh notPda vault pool' vaultBefore vault'
      payer payer' frame =>
    left
    refine idle (frame k ?_ (sys _ vaultBefore.2.2) (sys _ payer.2.1))
    rintro rfl
    rcases fresh with h1 | ⟨m', h1, h2⟩
    · rw [hm.2] at h1; cases h1
    · rw [hm.2] at h1; cases h1; exact absurd (ht.symm.trans h2.type) (by decide)
  | initMining _ _ _ _ before _ payer _ frame =>
    exact Or.inl (idle (frame k (sys _ before.2.2) (sys _ payer.2.1)))

/-- The same for an event. -/
theorem apply_credited {s : Chain} (hw : Wf env s.now s.world) {e : Event} (hv : e.Valid env s) (hc : CleanEvent env s e)
    {k : Key} {m : Mining} (hm : MiningAt env s.world k m) (ht : m.accountType = 2) (hl : 0 < (s.world k).lamports) :
    (∃ m', MiningAt env (s.apply env e).world k m' ∧ SameMining m m' ∧ m.unclaimed ≤ claimedBy env k s e + m'.unclaimed ∧
      0 < ((s.apply env e).world k).lamports) ∨ m.unclaimed = 0 := by
  cases e with
  | ix accs i =>
    cases hx : exec env s.now s.world accs i with
    | error er =>
      rw [apply_ix_error hx]
      exact Or.inl ⟨m, hm, .refl m, Nat.le_add_left _ _, hl⟩
    | ok r =>
      obtain ⟨w', ret⟩ := r
      rw [apply_ix_ok hx]
      rcases (step_of_exec hw hv hc hx).credited hm ht with ⟨m', h1, h2, h3, h4⟩ | ⟨-, -, h1⟩
      · exact Or.inl ⟨m', h1, h2, by simpa [claimedBy, hx] using h3, by show 0 < (w' k).lamports; rw [h4]; exact hl⟩
      · exact Or.inr h1
  | tick d => exact Or.inl ⟨m, hm, .refl m, Nat.le_add_left _ _, hl⟩
  | gc j =>
    have hne : k ≠ j := by rintro rfl; exact absurd (show (s.world k).lamports = 0 from hv) (by omega)
    have e1 : (s.apply env (.gc j)).world k = s.world k := world_set_ne _ _ hne
    exact Or.inl ⟨m, (miningAt_congr e1).mpr hm, .refl m, Nat.le_add_left _ _, by rw [e1]; exact hl⟩
  | ext w' =>
    obtain ⟨e1, -, e3, e4⟩ := hv.program_owned k hm.1
    exact Or.inl ⟨m, ⟨e1.trans hm.1, e3.trans hm.2⟩, .refl m, Nat.le_add_left _ _, Nat.lt_of_lt_of_le hl e4⟩

theorem runs_credited {k : Key} {s s' : Chain} {es : List Event} (hr : RunsWith env (CleanEvent env) s es s') :
    ∀ {m : Mining}, Wf env s.now s.world → MiningAt env s.world k m → m.accountType = 2 → 0 < (s.world k).lamports →
    m.unclaimed ≤ totalIn env (claimedBy env k) s es ∨
      ∃ m', MiningAt env s'.world k m' ∧ SameMining m m' ∧ m.unclaimed ≤ totalIn env (claimedBy env k) s es + m'.unclaimed := by
  induction hr with
  | nil s => exact fun _ hm _ _ => Or.inr ⟨_, hm, .refl _, Nat.le_add_left _ _⟩
  | cons hv hc _ ih =>
    intro m hw hm ht hl
    rcases apply_credited hw hv hc hm ht hl with ⟨m1, h1, h2, h3, h4⟩ | h1
    · rcases ih (wf_apply hw hv hc) h1 (h2.accountType.trans ht) h4 with g | ⟨m2, g1, g2, g3⟩
      · left; rw [totalIn]; omega
      · right; refine ⟨m2, g1, h2.trans g2, ?_⟩; rw [totalIn]; omega
    · left; omega

end Verif
