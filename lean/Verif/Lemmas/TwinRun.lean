import Verif.Lemmas.TwinStep
import Verif.Lemmas.Access
/-!
Histories that differ in the rewards put into the pools.
-/

namespace Verif

open Spec

variable {env : Env}

theorem findMining_unique {o P k k' : Key} {b b' : Nat} (h : env.findMining o P = some (k, b))
    (h' : env.findMining o P = some (k', b')) : b = b' := by
  rw [h] at h'; cases h'; rfl

/-- Where an initialized mining comes from. -/
theorem Step.miningBack {now : Nat} {w w' : World} {accs : List AccountInfo} {i : Ix} {r : Option Nat}
    (h : Step env now w w' accs i r) {k : Key} {m' : Mining} (hm : MiningAt env w' k m') (ht : m'.accountType = 2) :
    (∃ m, MiningAt env w k m ∧ SameMining m m') ∨
    ∃ o P M Y rest bump, i = .initializeMining o ∧ accs = P :: M :: Y :: rest ∧ k = M.key ∧
      env.findMining o P.key = some (k, bump) ∧ m' = Mining.init P.key o bump ∧ ∀ x, ¬ MiningAt env w k x := by
  rcases h.newMining hm with ⟨m, h1⟩ | ⟨-, h2⟩ | ⟨o, P, M, Y, rest, bump, h1, h2, h3, h4, h5, -, -, h6⟩
  · left
    rcases h.mining h1 with ⟨m2, g1, g2, -⟩ | ⟨-, -, g⟩ | ⟨f, d, rfl, g⟩
    · obtain rfl := MiningAt.unique hm g1
      exact ⟨m, h1, g2⟩
    · have h5 := hm.2; simp only [g] at h5; cases h5
    · by_cases e : w' k = w k
      · exact ⟨m', (miningAt_congr e).mp hm, .refl m'⟩
      · cases h with
        | stake _ op => exact op.elim
        | @initPool f d P T V Y A R K S rest bump accs_eq signedY signedA owned len fresh notPda vault pool' vaultBefore
            vault' payer payer' frame =>
          exfalso
          have hk : k = P.key := by
            apply Classical.byContradiction
            intro hk
            refine e (frame k hk ?_ ?_)
            · rintro rfl; exact env.program_ne_system (h1.1.symm.trans vaultBefore.2.2)
            · rintro rfl; exact env.program_ne_system (h1.1.symm.trans payer.2.1)
          subst hk
          have h5 := hm.2; simp only [pool'] at h5; cases h5
  · rw [h2.type] at ht; cases ht
  · exact Or.inr ⟨o, P, M, Y, rest, bump, h1, h2, h3, h4, h5, fun x hx => env.program_ne_system (hx.1.symm.trans h6)⟩

/-- What an instruction does to an initialized mining. -/
theorem Step.miningOn {now : Nat} {w w' : World} {accs : List AccountInfo} {i : Ix} {r : Option Nat}
    (h : Step env now w w' accs i r) {k : Key} {m : Mining} (hm : MiningAt env w k m) (ht : m.accountType = 2) :
    (∃ m', MiningAt env w' k m' ∧ SameMining m m') ∨
    (i = .closeMining ∧ accs[0]?.map (·.key) = some k ∧ ∀ x, ¬ MiningAt env w' k x) := by
  rcases h.mining hm with ⟨m2, g1, g2, -⟩ | ⟨g1, g2, g⟩ | ⟨f, d, rfl, g⟩
  · exact Or.inl ⟨m2, g1, g2⟩
  · refine Or.inr ⟨g1, g2, fun x hx => ?_⟩
    have h5 := hx.2; simp only [g] at h5; cases h5
  · rw [g.type] at ht; cases ht

/-- CloseMining removes the mining. -/
theorem Step.closed {now : Nat} {w w' : World} {accs : List AccountInfo} {r : Option Nat}
    (h : Step env now w w' accs .closeMining r) {k : Key} (hk : accs[0]?.map (·.key) = some k) :
    ∀ x, ¬ MiningAt env w' k x := by
  intro x hx
  cases h with
  | stake _ op => exact op.elim
  | @close M O G A P rest p m1 m2 accs_eq signedO signedA good pool auth mining init miningOk owner refreshed sfo paid target
      closed =>
    rw [accs_eq] at hk; cases hk
    have h5 := hx.2; simp only [closed] at h5; cases h5

/-- InitializeMining creates the mining. -/
theorem Step.created {now : Nat} {w w' : World} {P M Y : AccountInfo} {rest : List AccountInfo} {o : Key} {bump : Nat}
    {r : Option Nat} (h : Step env now w w' (P :: M :: Y :: rest) (.initializeMining o) r)
    (hf : env.findMining o P.key = some (M.key, bump)) : MiningAt env w' M.key (Mining.init P.key o bump) := by
  cases h with
  | stake _ op => exact op.elim
  | @initMining _ P2 M2 Y2 S rest2 bump2 accs_eq signedY owned addr before mining' =>
    cases accs_eq
    rw [findMining_unique addr hf] at mining'
    exact ⟨by rw [mining'], by rw [mining']⟩

/-- InitializePool creates the pool. -/
theorem Step.founded {now : Nat} {v v' w w' : World} {accs : List AccountInfo} {f d : Key} {r r' : Option Nat}
    (h : Step env now v v' accs (.initializePool f d) r) (h' : Step env now w w' accs (.initializePool f d) r') {k : Key}
    (hk : accs[0]?.map (·.key) = some k) : ∃ p, PoolAt env v' k p ∧ PoolAt env w' k p ∧ (∀ q, ¬ PoolAt env v k q) ∧
      (∀ q, ¬ PoolAt env w k q) ∧ p.cumulative = [] ∧ p.tokensAvailable = 0 ∧ p.distributionEndsAt = 0 := by
  cases h with
  | stake _ op => exact op.elim
  | @initPool _ _ P T V Y A R K S rest bump accs_eq signedY signedA owned len fresh notPda vault pool' vaultBefore
        vault' payer payer' frame =>
    cases h' with
    | stake _ op => exact op.elim
    | @initPool _ _ P2 T2 V2 Y2 A2 R2 K2 S2 rest2 bump2 accs_eq2 signedY2 signedA2 owned2 len2 fresh2 notPda2 vault2 pool2' =>
      rw [accs_eq] at accs_eq2; cases accs_eq2
      rw [accs_eq] at hk; cases hk
      rw [vault] at vault2; cases vault2
      refine ⟨_, ⟨by rw [pool']; exact owned, by rw [pool']⟩, ⟨by rw [pool2']; exact owned2, by rw [pool2']⟩, ?_, ?_, rfl, rfl, rfl⟩
      · intro q hq
        rcases fresh with h1 | ⟨m, h1, -⟩ <;> rw [hq.2] at h1 <;> cases h1
      · intro q hq
        rcases fresh2 with h1 | ⟨m, h1, -⟩ <;> rw [hq.2] at h1 <;> cases h1

theorem IxPair.eq {i i' : Ix} (h : IxPair i i') (hi : ∀ r t, i ≠ .fillVault r t) : i' = i := by
  rcases h with rfl | ⟨r, t, r', t', rfl, -⟩
  · rfl
  · exact absurd rfl (hi r t)

theorem IxPair.symm {i i' : Ix} (h : IxPair i i') : IxPair i' i := by
  rcases h with rfl | ⟨r, t, r', t', h1, h2⟩
  · exact Or.inl rfl
  · exact Or.inr ⟨r', t', r, t, h2, h1⟩

section
variable {now : Nat} {v v' w w' : World} {accs : List AccountInfo} {i i' : Ix} {r r' : Option Nat}

theorem Tied.poolOf (ht : Tied env v w) {k : Key} {q : Pool} (hq : PoolAt env w k q) :
    ∃ p, PoolAt env v k p ∧ SameStakes p q := by
  obtain ⟨p, hp⟩ := ht.poolsBack k q hq
  obtain ⟨q', h1, h2⟩ := ht.pools k p hp
  rw [PoolAt.unique hq h1]
  exact ⟨p, hp, h2⟩

theorem Tied.miningOf (ht : Tied env v w) {k : Key} {n : Mining} (hn : MiningAt env w k n) (hty : n.accountType = 2) :
    ∃ m, MiningAt env v k m ∧ m.accountType = 2 ∧ SameStake m n := by
  obtain ⟨m, hm, h0⟩ := ht.miningsBack k n hn hty
  obtain ⟨n', h1, h2⟩ := ht.minings k m hm h0
  rw [MiningAt.unique hn h1]
  exact ⟨m, hm, h0, h2⟩

theorem Spec.SameStake.type {m n : Mining} (h : SameStake m n) : n.accountType = m.accountType := by rw [h]

theorem Spec.SameStake.pool {m n : Mining} (h : SameStake m n) : n.rewardPool = m.rewardPool := by rw [h]

theorem first_eq {accs : List AccountInfo} {P T V Y A : AccountInfo} {rest : List AccountInfo}
    (h : accs = P :: T :: V :: Y :: A :: rest) : accs[0]?.map (·.key) = some P.key := by rw [h]; rfl

/-- One instruction. -/
theorem Tied.step (ht : Tied env v w) (hv : Wf env now v) (hw : Wf env now w) (hii : IxPair i i')
    (h1 : Step env now v v' accs i r) (h2 : Step env now w w' accs i' r') : Tied env v' w' := by
  constructor
  · intro k p' hp'
    rcases h1.newPool hp' with ⟨p, hp⟩ | ⟨f, d, P, T, V, Y, A, rest, bump, rfl, e2, rfl, -⟩
    · obtain ⟨q, hq, hpq⟩ := ht.pools k p hp
      obtain ⟨q', hq', -⟩ := h2.pool hq
      exact ⟨q', hq', ht.pool hv hw hii h1 h2 hp hq hpq hp' hq'⟩
    · obtain rfl := hii.eq (by intro _ _ h; cases h)
      obtain ⟨p, a1, a2, -⟩ := h1.founded h2 (first_eq e2)
      rw [PoolAt.unique hp' a1]
      exact ⟨p, a2, rfl⟩
  · intro k q' hq'
    rcases h2.newPool hq' with ⟨q, hq⟩ | ⟨f, d, P, T, V, Y, A, rest, bump, rfl, e2, rfl, -⟩
    · obtain ⟨p, hp, -⟩ := ht.poolOf hq
      obtain ⟨p', hp', -⟩ := h1.pool hp
      exact ⟨p', hp'⟩
    · obtain rfl := hii.symm.eq (by intro _ _ h; cases h)
      obtain ⟨p, a1, a2, -⟩ := h1.founded h2 (first_eq e2)
      exact ⟨p, a1⟩
  · intro k m' hm' hty
    rcases h1.miningBack hm' hty with ⟨m, hm, hs⟩ | ⟨o, P, M, Y, rest, bump, rfl, rfl, rfl, hf, rfl, -⟩
    · have h0 : m.accountType = 2 := hs.accountType.symm.trans hty
      obtain ⟨n, hn, hmn⟩ := ht.minings k m hm h0
      rcases h2.miningOn hn (hmn.type.trans h0) with ⟨n', hn', -⟩ | ⟨rfl, e2, -⟩
      · exact ⟨n', hn', (ht.mining hii h1 h2 hm h0 hn hmn hm' hn').1⟩
      · obtain rfl := hii.symm.eq (by intro _ _ h; cases h)
        exact absurd hm' (h1.closed e2 _)
    · obtain rfl := hii.eq (by intro _ _ h; cases h)
      exact ⟨_, h2.created hf, rfl⟩
  · intro k n' hn' hty
    rcases h2.miningBack hn' hty with ⟨n, hn, hs⟩ | ⟨o, P, M, Y, rest, bump, rfl, rfl, rfl, hf, rfl, -⟩
    · have h0 : n.accountType = 2 := hs.accountType.symm.trans hty
      obtain ⟨m, hm, h0', hmn⟩ := ht.miningOf hn h0
      rcases h1.miningOn hm h0' with ⟨m', hm', hs'⟩ | ⟨rfl, e2, -⟩
      · exact ⟨m', hm', hs'.accountType.trans h0'⟩
      · obtain rfl := hii.eq (by intro _ _ h; cases h)
        exact absurd hn' (h2.closed e2 _)
    · obtain rfl := hii.symm.eq (by intro _ _ h; cases h)
      exact ⟨_, h1.created hf, rfl⟩

end

/-- Nothing happens to pools and minings, apart from the removal of the accounts `X`. -/
structure Idle (env : Env) (X : Key → Prop) (v v' : World) : Prop where
  pool : ∀ k p, PoolAt env v' k p ↔ PoolAt env v k p ∧ ¬ X k
  mining : ∀ k m, MiningAt env v' k m ↔ MiningAt env v k m ∧ ¬ X k

theorem Idle.refl (v : World) : Idle env (fun _ => False) v v :=
  ⟨fun _ _ => ⟨fun h => ⟨h, id⟩, (·.1)⟩, fun _ _ => ⟨fun h => ⟨h, id⟩, (·.1)⟩⟩

theorem idle_gc (s : Chain) (j : Key) : Idle env (· = j) s.world (s.apply env (.gc j)).world := by
  have e0 : (s.apply env (.gc j)).world j = ⟨env.systemProgram, 0, 0, .zero⟩ := world_set_same _ _ _
  constructor
  · intro k p
    by_cases hk : k = j
    · subst hk
      refine ⟨fun h => ?_, fun h => absurd rfl h.2⟩
      have := h.2; rw [e0] at this; cases this
    · have e1 : (s.apply env (.gc j)).world k = s.world k := world_set_ne _ _ hk
      rw [poolAt_congr e1]; exact ⟨fun h => ⟨h, hk⟩, (·.1)⟩
  · intro k p
    by_cases hk : k = j
    · subst hk
      refine ⟨fun h => ?_, fun h => absurd rfl h.2⟩
      have := h.2; rw [e0] at this; cases this
    · have e1 : (s.apply env (.gc j)).world k = s.world k := world_set_ne _ _ hk
      rw [miningAt_congr e1]; exact ⟨fun h => ⟨h, hk⟩, (·.1)⟩

theorem idle_ext {s : Chain} {w : World} (hv : (Event.ext w).Valid env s) : Idle env (fun _ => False) s.world w := by
  constructor
  · intro k p
    constructor
    · intro h
      refine ⟨?_, id⟩
      by_cases ho : (s.world k).owner = env.programId
      · obtain ⟨e1, -, e3, -⟩ := hv.program_owned k ho
        exact ⟨ho, e3 ▸ h.2⟩
      · have := (hv.new_zero k ho h.1).1
        rw [h.2] at this; cases this
    · rintro ⟨h, -⟩
      obtain ⟨e1, -, e3, -⟩ := hv.program_owned k h.1
      exact ⟨e1.trans h.1, e3.trans h.2⟩
  · intro k p
    constructor
    · intro h
      refine ⟨?_, id⟩
      by_cases ho : (s.world k).owner = env.programId
      · obtain ⟨e1, -, e3, -⟩ := hv.program_owned k ho
        exact ⟨ho, e3 ▸ h.2⟩
      · have := (hv.new_zero k ho h.1).1
        rw [h.2] at this; cases this
    · rintro ⟨h, -⟩
      obtain ⟨e1, -, e3, -⟩ := hv.program_owned k h.1
      exact ⟨e1.trans h.1, e3.trans h.2⟩

theorem Tied.idle {v v' w w' : World} {X : Key → Prop} (ht : Tied env v w) (h1 : Idle env X v v') (h2 : Idle env X w w') :
    Tied env v' w' := by
  constructor
  · intro k p hp
    obtain ⟨a, b⟩ := (h1.pool k p).mp hp
    obtain ⟨q, c, d⟩ := ht.pools k p a
    exact ⟨q, (h2.pool k q).mpr ⟨c, b⟩, d⟩
  · intro k q hq
    obtain ⟨a, b⟩ := (h2.pool k q).mp hq
    obtain ⟨p, c⟩ := ht.poolsBack k q a
    exact ⟨p, (h1.pool k p).mpr ⟨c, b⟩⟩
  · intro k m hm hty
    obtain ⟨a, b⟩ := (h1.mining k m).mp hm
    obtain ⟨n, c, d⟩ := ht.minings k m a hty
    exact ⟨n, (h2.mining k n).mpr ⟨c, b⟩, d⟩
  · intro k n hn hty
    obtain ⟨a, b⟩ := (h2.mining k n).mp hn
    obtain ⟨m, c, d⟩ := ht.miningsBack k n a hty
    exact ⟨m, (h1.mining k m).mpr ⟨c, b⟩, d⟩

/-- What two paired events do: nothing, or they are instructions that both succeed. -/
inductive Both (env : Env) (s t : Chain) (e e' : Event) : Prop
  | idle (X : Key → Prop) (left : Idle env X s.world (s.apply env e).world)
      (right : Idle env X t.world (t.apply env e').world) (paid : ∀ k, claimedBy env k s e = 0)
      (paid' : ∀ k, claimedBy env k t e' = 0) (removed : ∀ k, X k → e = .gc k) (removed' : ∀ k, X k → e' = .gc k)
  | ix {accs : List AccountInfo} {i i' : Ix} {r r' : Option Nat} (eq : e = .ix accs i) (eq' : e' = .ix accs i')
      (pair : IxPair i i') (left : Step env s.now s.world (s.apply env e).world accs i r)
      (right : Step env s.now t.world (t.apply env e').world accs i' r')
      (paid : ∀ k, claimedBy env k s e = claimedOut accs k i r) (paid' : ∀ k, claimedBy env k t e' = claimedOut accs k i' r')

theorem both_of {s t : Chain} {e e' : Event} (hnow : s.now = t.now) (hs : Wf env s.now s.world) (ht : Wf env t.now t.world)
    (hv : e.Valid env s) (hv' : e'.Valid env t) (hc : CleanEvent env s e) (hc' : CleanEvent env t e')
    (hee : OtherFill e e') (hgo : goesThrough env s e = goesThrough env t e') :
    Both env s t e e' ∧ (s.apply env e).now = (t.apply env e').now := by
  have ixs : ∀ {accs : List AccountInfo} {i i' : Ix}, IxPair i i' → (Event.ix accs i).Valid env s →
      (Event.ix accs i').Valid env t → CleanEvent env s (.ix accs i) → CleanEvent env t (.ix accs i') →
      goesThrough env s (.ix accs i) = goesThrough env t (.ix accs i') → Both env s t (.ix accs i) (.ix accs i') ∧
        (s.apply env (.ix accs i)).now = (t.apply env (.ix accs i')).now := by
    intro accs i i' hii hv hv' hc hc' hgo
    simp only [goesThrough] at hgo
    cases hx : exec env s.now s.world accs i with
    | error er =>
      cases hy : exec env t.now t.world accs i' with
      | ok r => simp [succeeded, hx, hy] at hgo
      | error er' =>
        refine ⟨.idle (fun _ => False) ?_ ?_ ?_ ?_ (fun _ h => h.elim) (fun _ h => h.elim), ?_⟩
        · rw [apply_ix_error hx]; exact .refl _
        · rw [apply_ix_error hy]; exact .refl _
        · intro k; simp only [claimedBy, hx]
        · intro k; simp only [claimedBy, hy]
        · rw [apply_ix_error hx, apply_ix_error hy]; exact hnow
    | ok r =>
      cases hy : exec env t.now t.world accs i' with
      | error er' => simp [succeeded, hx, hy] at hgo
      | ok r' =>
        obtain ⟨w1, ret⟩ := r
        obtain ⟨w2, ret'⟩ := r'
        refine ⟨.ix rfl rfl hii (r := ret) (r' := ret') ?_ ?_ ?_ ?_, ?_⟩
        · rw [apply_ix_ok hx]; exact step_of_exec hs hv hc hx
        · rw [apply_ix_ok hy, hnow]; exact step_of_exec ht hv' hc' hy
        · intro k; simp only [claimedBy, hx]
        · intro k; simp only [claimedBy, hy]
        · rw [apply_ix_ok hx, apply_ix_ok hy]; exact hnow
  rcases hee with (rfl | ⟨w, w', rfl, rfl⟩) | ⟨accs, r, x, r', x', rfl, rfl⟩
  · cases e with
    | ix accs i => exact ixs (Or.inl rfl) hv hv' hc hc' hgo
    | tick d =>
      refine ⟨.idle (fun _ => False) (.refl _) (.refl _) (fun _ => rfl) (fun _ => rfl) (fun _ h => h.elim)
        (fun _ h => h.elim), ?_⟩
      simp only [Chain.apply, hnow]
    | gc k =>
      refine ⟨.idle (· = k) (idle_gc s k) (idle_gc t k) (fun _ => rfl) (fun _ => rfl) ?_ ?_, hnow⟩
      · rintro _ rfl; rfl
      · rintro _ rfl; rfl
    | ext w =>
      exact ⟨.idle (fun _ => False) (idle_ext hv) (idle_ext hv') (fun _ => rfl) (fun _ => rfl) (fun _ h => h.elim)
        (fun _ h => h.elim), hnow⟩
  · exact ⟨.idle (fun _ => False) (idle_ext hv) (idle_ext hv') (fun _ => rfl) (fun _ => rfl) (fun _ h => h.elim)
        (fun _ h => h.elim), hnow⟩
  · exact ixs (Or.inr ⟨r, x, r', x', rfl, rfl⟩) hv hv' hc hc' hgo

theorem Tied.both {s t : Chain} {e e' : Event} (h : Tied env s.world t.world) (hnow : s.now = t.now)
    (hs : Wf env s.now s.world) (ht : Wf env t.now t.world) (hb : Both env s t e e') :
    Tied env (s.apply env e).world (t.apply env e').world := by
  cases hb with
  | idle X left right => exact h.idle left right
  | ix eq eq' pair left right => exact h.step hs (by rw [hnow]; exact ht) pair left right

/-- The whole of two histories. -/
theorem runs_tied {es es' : List Event} {s t s' t' : Chain} (h1 : RunsWith env (CleanEvent env) s es s')
    (h2 : RunsWith env (CleanEvent env) t es' t') (hal : Alike env OtherFill s t es es') (hnow : s.now = t.now)
    (hs : Wf env s.now s.world) (ht : Wf env t.now t.world) (h : Tied env s.world t.world) : Tied env s'.world t'.world := by
  induction es generalizing s t es' with
  | nil =>
    cases es' with
    | nil => cases h1; cases h2; exact h
    | cons => exact hal.elim
  | cons e es ih =>
    cases es' with
    | nil => exact hal.elim
    | cons e' es' =>
      cases h1 with | cons hv1 hc1 h1 =>
      cases h2 with | cons hv2 hc2 h2 =>
      obtain ⟨hee, hgo, hal⟩ := hal
      obtain ⟨hb, hn⟩ := both_of hnow hs ht hv1 hv2 hc1 hc2 hee hgo
      exact ih h1 h2 hal hn (wf_apply hs hv1 hc1) (wf_apply ht hv2 hc2) (h.both hnow hs ht hb)

theorem tied_genesis {s t : Chain} (hs : Genesis env s) (ht : Genesis env t) : Tied env s.world t.world := by
  have np : ∀ {s : Chain}, Genesis env s → ∀ k p, ¬ PoolAt env s.world k p := by
    intro s hg k p hp
    have := (hg.owned k hp.1).1
    rw [hp.2] at this; cases this
  have nm : ∀ {s : Chain}, Genesis env s → ∀ k p, ¬ MiningAt env s.world k p := by
    intro s hg k p hp
    have := (hg.owned k hp.1).1
    rw [hp.2] at this; cases this
  exact ⟨fun k p h => absurd h (np hs k p), fun k p h => absurd h (np ht k p), fun k p h => absurd h (nm hs k p),
    fun k p h => absurd h (nm ht k p)⟩

end Verif
