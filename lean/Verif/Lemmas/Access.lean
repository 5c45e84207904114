import Verif.Lemmas.History
import Verif.Spec.Access
/-!
Who can change a pool or a mining, and through which argument of an instruction.
-/

namespace Verif

open Spec

variable {env : Env}

theorem StakeAccs.pool {accs : List AccountInfo} {P M A D : AccountInfo} {i : Ix} (h : StakeAccs accs P M A D i)
    (hi : ∃ caps now p m d p' m' d', StakeOp caps now p m d p' m' d' i) :
    poolArg accs i = some P.key ∧ miningArg accs i = some M.key ∧ (D.key ≠ M.key → delegateArg accs i = some D.key) := by
  obtain ⟨_, _, _, _, _, _, _, _, hi⟩ := hi
  cases i <;> first
    | exact hi.elim
    | (obtain ⟨rest, rfl⟩ := h; exact ⟨rfl, rfl, fun _ => rfl⟩)
    | (obtain ⟨rfl, rest, rfl⟩ := h; exact ⟨rfl, rfl, fun h => absurd rfl h⟩)

/-- A pool changes only as the pool an instruction is executed for. -/
theorem Step.poolChanged {now : Nat} {w w' : World} {accs : List AccountInfo} {i : Ix} {ret : Option Nat}
    (h : Step env now w w' accs i ret) {k : Key} {p : Pool} (hp : PoolAt env w k p) (hne : w' k ≠ w k) :
    poolArg accs i = some k := by
  have tok : ∀ j, (w j).owner = env.tokenProgram → k ≠ j := by
    rintro j hj rfl; exact env.program_ne_token (hp.1.symm.trans hj)
  have sys : ∀ j, (w j).owner = env.systemProgram → k ≠ j := by
    rintro j hj rfl; exact env.program_ne_system (hp.1.symm.trans hj)
  cases h with
  | @stake _ P M A D q q' m m' d d' accs_eq op chk del quiet same sfo ok' sameDel eff shell =>
    by_cases hk : k = P.key
    · rw [hk]; exact (accs_eq.pool ⟨_, _, _, _, _, _, _, _, op⟩).1
    · refine absurd (eff.frame k hk ?_ ?_) hne
      · rintro rfl; exact PoolAt.not_mining hp eff.mining
      · rintro rfl
        rcases eff.delegate with ⟨h1, -⟩ | ⟨-, -, h1, -⟩
        · rw [h1] at hp; exact PoolAt.not_mining hp eff.mining
        · exact h1 p hp
  | @redelegate a nd P M A O Old New rest q q' m m' od od' dn dn' accs_eq signed op chk newDel oldOk oldAt ne quiet same sfo
      ok' sameNew sameOld neP eff shell =>
    by_cases hk : k = P.key
    · rw [hk, accs_eq]; rfl
    · refine absurd (eff.frame k hk ?_ ?_ ?_) hne
      · rintro rfl; exact PoolAt.not_mining hp eff.mining
      · rintro rfl
        rcases eff.old with ⟨h1, -⟩ | ⟨-, h1, -⟩
        · rw [h1] at hp; exact PoolAt.not_mining hp eff.mining
        · exact h1 p hp
      · rintro rfl
        rcases eff.new with ⟨h1, -⟩ | ⟨-, h1, -⟩
        · rw [h1] at hp; exact PoolAt.not_mining hp eff.mining
        · exact h1 p hp
  | decrease _ _ _ _ hm _ _ _ _ frame =>
    exact absurd (frame k (by rintro rfl; exact PoolAt.not_mining hp hm)) hne
  | claim _ _ _ eff =>
    obtain ⟨t, ht, -⟩ := eff.userTok
    exact absurd (eff.frame k (by rintro rfl; exact PoolAt.not_mining hp eff.mining) (tok _ eff.vaultTok) (tok _ ht.1)) hne
  | @distribute P B rest q q' r accs_eq signed auth good pool pool' amount op same ok' frame shell =>
    by_cases hk : k = P.key
    · rw [hk, accs_eq]; rfl
    · exact absurd (frame k hk) hne
  | @fill r e P T V F S K rest q w1 accs_eq signed auth good pool vault nonzero future later endBound bound pool' w1_frame
      transfer frame neS neV shell =>
    by_cases hk : k = P.key
    · rw [hk, accs_eq]; rfl
    · obtain ⟨t, t', ht, -⟩ := transfer.srcTok
      obtain ⟨u, u', hu, -⟩ := transfer.dstTok
      refine absurd (frame k hk (tok _ ?_) (tok _ ?_)) hne
      · rw [← w1_frame _ neS]; exact ht.1
      · rw [← w1_frame _ neV]; exact hu.1
  | close _ _ _ _ _ _ hm _ _ _ _ _ _ target _ _ frame =>
    exact absurd (frame k (by rintro rfl; exact PoolAt.not_mining hp hm) (sys _ target)) hne
  | @initPool f d P T V Y A R K S rest bump accs_eq signedY signedA owned len fresh notPda vault pool' vaultBefore vault'
      payer payer' frame =>
    by_cases hk : k = P.key
    · rw [hk, accs_eq]; rfl
    · exact absurd (frame k hk (sys _ vaultBefore.2.2) (sys _ payer.2.1)) hne
  | initMining _ _ _ _ before _ payer _ frame =>
    exact absurd (frame k (sys _ before.2.2) (sys _ payer.2.1)) hne

/-- Through which argument a mining can be changed, and who signed. -/
inductive MiningChange (env : Env) (w : World) (accs : List AccountInfo) (k : Key) (m : Mining) (P : Key) (p : Pool) :
    Ix → Prop
  | acting {i : Ix} (arg : miningArg accs i = some k) (own : m.rewardPool = P)
      (owner : i = .claim ∨ (∃ a d, i = .changeDelegate a d) → Signed accs m.owner) (notClose : i ≠ .closeMining) :
      MiningChange env w accs k m P p i
  | delegate {i : Ix} {o M : Key} {m0 : Mining} (arg : delegateArg accs i = some k)
      (addr : env.miningAddr o P m.bump = some k) (actor : miningArg accs i = some M) (mining : MiningAt env w M m0)
      (own : m0.rewardPool = P) (owner : (∃ a d, i = .changeDelegate a d) → Signed accs m0.owner)
      (notClaim : i ≠ .claim ∧ i ≠ .closeMining) : MiningChange env w accs k m P p i
  | old {a : Nat} {d M : Key} {m0 : Mining} (arg : oldDelegateArg accs (.changeDelegate a d) = some k)
      (actor : miningArg accs (.changeDelegate a d) = some M) (mining : MiningAt env w M m0)
      (own : m0.rewardPool = P) (owner : Signed accs m0.owner) : MiningChange env w accs k m P p (.changeDelegate a d)
  | close (arg : miningArg accs .closeMining = some k) (owner : Signed accs m.owner) :
      MiningChange env w accs k m P p .closeMining

theorem Step.miningChanged {now : Nat} {w w' : World} {accs : List AccountInfo} {i : Ix} {ret : Option Nat}
    (h : Step env now w w' accs i ret) {k : Key} {m : Mining} (hm : MiningAt env w k m) (hne : w' k ≠ w k) :
    (∃ P p, poolArg accs i = some P ∧ PoolAt env w P p ∧ Signed accs p.depositAuthority ∧
      MiningChange env w accs k m P p i) ∨ (∃ f d, i = .initializePool f d ∧ BlankMining m) := by
  have tok : ∀ j, (w j).owner = env.tokenProgram → k ≠ j := by
    rintro j hj rfl; exact env.program_ne_token (hm.1.symm.trans hj)
  have sys : ∀ j, (w j).owner = env.systemProgram → k ≠ j := by
    rintro j hj rfl; exact env.program_ne_system (hm.1.symm.trans hj)
  cases h with
  | @stake _ P M A D q q' m1 m1' d d' accs_eq op chk del quiet same sfo ok' sameDel eff shell =>
    obtain ⟨a1, a2, a3⟩ := accs_eq.pool ⟨_, _, _, _, _, _, _, _, op⟩
    have n1 : i ≠ .claim := by rintro rfl; exact op
    have n2 : i ≠ .closeMining := by rintro rfl; exact op
    have n3 : ¬ ∃ a d, i = .changeDelegate a d := by rintro ⟨a, d, rfl⟩; exact op
    refine Or.inl ⟨P.key, q, a1, eff.pool, ⟨A, accs_eq.signed, chk.auth.symm, chk.signed⟩, ?_⟩
    by_cases hk : k = M.key
    · subst hk
      obtain rfl := MiningAt.unique hm eff.mining
      exact .acting a2 chk.inPool (fun h => h.elim (fun h => absurd h n1) (fun h => absurd h n3)) n2
    by_cases hk2 : k = D.key
    · subst hk2
      rcases eff.delegate with ⟨h1, -⟩ | ⟨-, -, -, x, x', rfl, rfl, h2⟩
      · exact absurd h1 hk
      · obtain ⟨rfl, -⟩ := h2 m hm
        obtain ⟨o, ho⟩ := (del m rfl).addr
        exact .delegate (a3 hk) ho a2 eff.mining chk.inPool (fun h => absurd h n3) ⟨n1, n2⟩
    · exact absurd (eff.frame k (by rintro rfl; exact PoolAt.not_mining eff.pool hm) hk hk2) hne
  | @redelegate a nd P M A O Old New rest q q' m1 m1' od od' dn dn' accs_eq signed op chk newDel oldOk oldAt ne quiet same sfo
      ok' sameNew sameOld neP eff shell =>
    subst accs_eq
    have so : Signed (P :: M :: A :: O :: Old :: New :: rest) m1.owner := ⟨O, by simp, chk.owner'.symm, signed⟩
    refine Or.inl ⟨P.key, q, rfl, eff.pool, ⟨A, by simp, chk.auth.symm, chk.signed⟩, ?_⟩
    by_cases hk : k = M.key
    · subst hk
      obtain rfl := MiningAt.unique hm eff.mining
      exact .acting rfl chk.inPool (fun _ => so) (by intro h; cases h)
    by_cases hk2 : k = Old.key
    · subst hk2
      exact .old rfl rfl eff.mining chk.inPool so
    by_cases hk3 : k = New.key
    · subst hk3
      rcases eff.new with ⟨h1, _⟩ | ⟨_, _, x, x', rfl, rfl, h3⟩
      · exact absurd h1 hk
      · obtain ⟨rfl, h4⟩ := h3 m hm
        obtain ⟨o, ho⟩ := (newDel m rfl).addr
        exact .delegate rfl ho rfl eff.mining chk.inPool (fun _ => so) ⟨Ix.noConfusion, Ix.noConfusion⟩
    · exact absurd (eff.frame k (by rintro rfl; exact PoolAt.not_mining eff.pool hm) hk hk2 hk3) hne
  | @decrease o n A P M rest p m1 m1' accs_eq chk pool op mining mining' same ok' sfo frame shell =>
    subst accs_eq
    by_cases hk : k = M.key
    · subst hk
      obtain rfl := MiningAt.unique hm mining
      refine Or.inl ⟨P.key, p, rfl, pool, ⟨A, by simp, chk.auth.symm, chk.signed⟩, .acting rfl chk.inPool ?_ (by intro h; cases h)⟩
      rintro (h | ⟨_, _, h⟩) <;> cases h
    · exact absurd (frame k hk) hne
  | @claim P T V M O A U K rest p m1 m2 n accs_eq signedO signedA eff =>
    subst accs_eq
    obtain ⟨t, ht, -⟩ := eff.userTok
    by_cases hk : k = M.key
    · subst hk
      obtain rfl := MiningAt.unique hm eff.mining
      refine Or.inl ⟨P.key, p, rfl, eff.pool, ⟨A, by simp, eff.auth.symm, signedA⟩, .acting rfl eff.inPool ?_ (by intro h; cases h)⟩
      intro _
      exact ⟨O, by simp, eff.owner.symm, signedO⟩
    · exact absurd (eff.frame k hk (tok _ eff.vaultTok) (tok _ ht.1)) hne
  | distribute _ _ _ _ pool _ _ _ _ _ frame =>
    exact absurd (frame k (by rintro rfl; exact PoolAt.not_mining pool hm)) hne
  | @fill r e P T V F S K rest q w1 accs_eq signed auth good pool vault nonzero future later endBound bound pool' w1_frame
      transfer frame neS neV shell =>
    obtain ⟨t, t', ht, -⟩ := transfer.srcTok
    obtain ⟨u, u', hu, -⟩ := transfer.dstTok
    refine absurd (frame k (by rintro rfl; exact PoolAt.not_mining pool hm) (tok _ ?_) (tok _ ?_)) hne
    · rw [← w1_frame _ neS]; exact ht.1
    · rw [← w1_frame _ neV]; exact hu.1
  | @close M O G A P rest p m1 m2 accs_eq signedO signedA good pool auth mining init miningOk owner refreshed sfo paid target
      closed credited frame ne neG =>
    subst accs_eq
    by_cases hk : k = M.key
    · subst hk
      obtain rfl := MiningAt.unique hm mining
      exact Or.inl ⟨P.key, p, rfl, pool, ⟨A, by simp, auth.symm, signedA⟩, .close rfl ⟨O, by simp, owner.symm, signedO⟩⟩
    · exact absurd (frame k hk (sys _ target)) hne
  | @initPool f d P T V Y A R K S rest bump accs_eq signedY signedA owned len fresh notPda vault pool' vaultBefore vault'
      payer payer' frame =>
    by_cases hk : k = P.key
    · refine Or.inr ⟨f, d, rfl, ?_⟩
      subst hk
      rcases fresh with h1 | ⟨m', h1, h2⟩
      · rw [hm.2] at h1; cases h1
      · rw [hm.2] at h1; cases h1; exact h2
    · exact absurd (frame k hk (sys _ vaultBefore.2.2) (sys _ payer.2.1)) hne
  | initMining _ _ _ _ before _ payer _ frame =>
    exact absurd (frame k (sys _ before.2.2) (sys _ payer.2.1)) hne

/-- What one event does to an initialized mining with lamports: it keeps its identity, or is closed. -/
theorem apply_mining {s : Chain} (hw : Wf env s.now s.world) {e : Event} (hv : e.Valid env s) (hc : CleanEvent env s e)
    {k : Key} {m : Mining} (hm : MiningAt env s.world k m) (hi : m.accountType = 2) (hl : 0 < (s.world k).lamports) :
    (∃ m', MiningAt env (s.apply env e).world k m' ∧ SameMining m m' ∧ 0 < ((s.apply env e).world k).lamports) ∨
    (∃ accs w' ret, e = .ix accs .closeMining ∧ exec env s.now s.world accs .closeMining = .ok (w', ret) ∧
      miningArg accs .closeMining = some k) := by
  cases e with
  | ix accs i =>
    cases hx : exec env s.now s.world accs i with
    | error e => rw [apply_ix_error hx]; exact Or.inl ⟨m, hm, .refl m, hl⟩
    | ok r =>
      obtain ⟨w', ret⟩ := r
      rw [apply_ix_ok hx]
      rcases (step_of_exec hw hv hc hx).mining hm with ⟨m', h1, h2, h3, -⟩ | ⟨rfl, h2, -⟩ | ⟨f, d, -, h2⟩
      · exact Or.inl ⟨m', h1, h2, show 0 < (w' k).lamports by rw [h3]; exact hl⟩
      · exact Or.inr ⟨accs, w', ret, rfl, hx, h2⟩
      · rw [h2.type] at hi; cases hi
  | tick d => exact Or.inl ⟨m, hm, .refl m, hl⟩
  | gc j =>
    have hne : k ≠ j := by rintro rfl; exact absurd (show (s.world k).lamports = 0 from hv) (by omega)
    have e1 : (s.apply env (.gc j)).world k = s.world k := world_set_ne _ _ hne
    exact Or.inl ⟨m, (miningAt_congr e1).mpr hm, .refl m, by rw [e1]; exact hl⟩
  | ext w' =>
    obtain ⟨e1, -, e3, e4⟩ := hv.program_owned k hm.1
    exact Or.inl ⟨m, ⟨e1.trans hm.1, e3.trans hm.2⟩, .refl m, Nat.lt_of_lt_of_le hl e4⟩

/-- What one event does backwards: where a mining comes from. -/
theorem apply_mining_back {s : Chain} (hw : Wf env s.now s.world) {e : Event} (hv : e.Valid env s)
    (hc : CleanEvent env s e) {k : Key} {m' : Mining} (hm : MiningAt env (s.apply env e).world k m') :
    (∃ m, MiningAt env s.world k m ∧ SameMining m m') ∨ BlankMining m' ∨
    ∃ o P bump, env.findMining o P = some (k, bump) ∧ m' = Mining.init P o bump := by
  cases e with
  | ix accs i =>
    cases hx : exec env s.now s.world accs i with
    | error e => rw [apply_ix_error hx] at hm; exact Or.inl ⟨m', hm, .refl m'⟩
    | ok r =>
      obtain ⟨w', ret⟩ := r
      rw [apply_ix_ok hx] at hm
      have hstep := step_of_exec hw hv hc hx
      rcases hstep.newMining hm with ⟨m, h1⟩ | ⟨-, h2⟩ | ⟨o, P, M, Y, rest, bump, -, -, -, h3, h4, -⟩
      · rcases hstep.mining h1 with ⟨m2, g1, g2, -⟩ | ⟨-, -, g⟩ | ⟨f, d, rfl, g⟩
        · obtain rfl := MiningAt.unique hm g1
          exact Or.inl ⟨m, h1, g2⟩
        · have h5 := hm.2; simp only [g] at h5; cases h5
        · by_cases e : w' k = s.world k
          · exact Or.inl ⟨m', (miningAt_congr e).mp hm, .refl m'⟩
          · cases hstep with
            | stake _ op => exact op.elim
            | @initPool f d P T V Y A R K S rest bump accs_eq signedY signedA owned len fresh notPda vault pool' vaultBefore
                vault' payer payer' frame =>
              exfalso
              have hk : k = P.key := by
                apply Classical.byContradiction
                intro hk
                refine e (frame k hk ?_ ?_)
                · rintro rfl; exact env.program_ne_system (h1.1.symm.trans vaultBefore.2.2)
                · rintro rfl; exact env.program_ne_system (h1.1.symm.trans payer.2.1)
              subst hk
              have h5 := hm.2; simp only [pool'] at h5; cases h5
      · exact Or.inr (Or.inl h2)
      · exact Or.inr (Or.inr ⟨o, P.key, bump, h3, h4⟩)
  | tick d => exact Or.inl ⟨m', hm, .refl m'⟩
  | gc j =>
    by_cases hk : k = j
    · subst hk
      have := hm.2
      rw [show (s.apply env (.gc k)).world k = _ from world_set_same _ _ _] at this
      cases this
    · have e1 : (s.apply env (.gc j)).world k = s.world k := world_set_ne _ _ hk
      exact Or.inl ⟨m', (miningAt_congr e1).mp hm, .refl m'⟩
  | ext w' =>
    by_cases ho : (s.world k).owner = env.programId
    · obtain ⟨e1, -, e3, e4⟩ := hv.program_owned k ho
      exact Or.inl ⟨m', ⟨ho, e3 ▸ hm.2⟩, .refl m'⟩
    · have h1 := (hv.new_zero k ho hm.1).1
      have h5 : (w' k).content = _ := hm.2
      rw [h1] at h5; cases h5

/-- Every initialized mining of a reachable state lies at the address that the program derives for its owner and pool. -/
theorem reachable_mining {s : Chain} (h : Reachable env s) {k : Key} {m : Mining} (hm : MiningAt env s.world k m) :
    BlankMining m ∨ (m.accountType = 2 ∧ env.findMining m.owner m.rewardPool = some (k, m.bump)) := by
  revert k m
  refine reachable_induction (Q := fun s => ∀ {k : Key} {m : Mining}, MiningAt env s.world k m →
    BlankMining m ∨ (m.accountType = 2 ∧ env.findMining m.owner m.rewardPool = some (k, m.bump))) ?_ ?_ h
  · intro s hg k m hm
    have := (hg.owned k hm.1).1
    rw [hm.2] at this; cases this
  · intro s e hw hv hc ih k m' hm
    rcases apply_mining_back hw hv hc hm with ⟨m, h1, h2⟩ | h1 | ⟨o, P, bump, h1, rfl⟩
    · rcases ih h1 with h3 | ⟨h3, h4⟩
      · exact Or.inl ⟨h2.5.trans h3.1, h2.1.trans h3.2, h2.2.trans h3.3, h2.3.trans h3.4⟩
      · refine Or.inr ⟨h2.5.trans h3, ?_⟩
        rw [h2.1, h2.2, h2.4]; exact h4
    · exact Or.inl h1
    · exact Or.inr ⟨rfl, h1⟩

end Verif
