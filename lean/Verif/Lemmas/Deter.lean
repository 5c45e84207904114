import Verif.Lemmas.Weaker
import Verif.Lemmas.AsideRun
import Verif.Lemmas.TwinStep
import Verif.Lemmas.Life
import Verif.Spec.Deter
/-!
A penalized staker next to the same staker without the penalties.
-/

namespace Verif

open Spec

variable {env : Env}

/-- What does not restake, penalize or close a mining leaves its own stake as it is from today on. -/
theorem Step.own {now : Nat} {w w' : World} {accs : List AccountInfo} {i : Ix} {ret : Option Nat}
    (h : Step env now w w' accs i ret) {k : Key} {m : Mining} (hm : MiningAt env w k m) (ht : m.accountType = 2)
    (hi : miningArg accs i = some k → i ≠ .closeMining ∧ (∀ o n, i ≠ .decreaseRewards o n) ∧ restakes i = false) :
    ∃ m', MiningAt env w' k m' ∧ SameOwn now m' m := by
  have tok : ∀ j, (w j).owner = env.tokenProgram → k ≠ j := by
    rintro j hj rfl; exact env.program_ne_token (hm.1.symm.trans hj)
  have sys : ∀ j, (w j).owner = env.systemProgram → k ≠ j := by
    rintro j hj rfl; exact env.program_ne_system (hm.1.symm.trans hj)
  have idle : w' k = w k → ∃ m', MiningAt env w' k m' ∧ SameOwn now m' m := fun h =>
    ⟨m, (miningAt_congr h).mpr hm, fun _ _ => rfl, rfl⟩
  cases h with
  | @stake _ P1 M A D q q' m1 m1' d d' accs_eq op chk del quiet same sfo ok' sameDel eff shell =>
    obtain ⟨r1, -⟩ := op.facts
    obtain ⟨-, a2, -⟩ := accs_eq.args r1
    rcases eff.minings hm with ⟨rfl, rfl, h1⟩ | ⟨h1, h0, rfl, y', rfl, h2⟩ | ⟨n1, n2, h1⟩
    · have := (hi a2).2.2
      rw [r1] at this; cases this
    · exact ⟨y', h2, op.own chk.good.ok chk.miningOk (fun x hx => (del x hx).ok) _ _ rfl rfl⟩
    · exact ⟨m, h1, fun _ _ => rfl, rfl⟩
  | @redelegate a nd P1 M A O Old New rest q q' m1 m1' od od' dn dn' accs_eq signed op chk newDel oldOk oldAt ne quiet same sfo
      ok' sameNew sameOld neP eff shell =>
    rw [changeDelegate_ok] at op
    obtain ⟨r, q1, o1, o2⟩ := op
    by_cases hk : k = M.key
    · subst hk
      obtain rfl := MiningAt.unique hm eff.mining
      exact ⟨m1', eff.mining', refresh_own chk.good.ok.history chk.miningOk r⟩
    · by_cases hk2 : k = Old.key
      · subst hk2
        obtain ⟨rfl, x', rfl, h4⟩ := eff.old.at hk hm
        exact ⟨x', h4, sub_own chk.good.ok.history oldOk o1 _ _ rfl rfl⟩
      · by_cases hk3 : k = New.key
        · subst hk3
          obtain ⟨rfl, x', rfl, h4⟩ := eff.new.at hk hm
          have hq := (withSub_same chk.good.ok oldOk o1).1.ok
          exact ⟨x', h4, add_own hq.history (fun x hx => (newDel x hx).ok) o2 _ _ rfl rfl⟩
        · exact idle (eff.frame k (by rintro rfl; exact PoolAt.not_mining eff.pool hm) hk hk2 hk3)
  | @decrease o n A P1 M rest q m1 m1' accs_eq chk pool op mining mining' same ok' sfo frame shell =>
    by_cases hk : k = M.key
    · exact absurd rfl ((hi (by rw [accs_eq, hk]; rfl)).2.1 o n)
    · exact idle (frame k hk)
  | @claim P1 T V M O A U K rest q m1 m2 n accs_eq signedO signedA eff =>
    obtain ⟨t, htok, -⟩ := eff.userTok
    by_cases hk : k = M.key
    · subst hk
      obtain rfl := MiningAt.unique hm eff.mining
      have h := refresh_own eff.good.ok.history eff.miningOk eff.refreshed
      exact ⟨_, eff.mining', h.equal, h.dates⟩
    · exact idle (eff.frame k hk (tok _ eff.vaultTok) (tok _ htok.1))
  | distribute _ _ _ _ pool _ _ _ _ _ frame =>
    exact idle (frame k (by rintro rfl; exact PoolAt.not_mining pool hm))
  | @fill r e P1 T V F S K rest q w1 accs_eq signed auth good pool vault nonzero future later endBound bound pool' w1_frame
      transfer frame neS neV shell =>
    obtain ⟨t, t', ht1, -⟩ := transfer.srcTok
    obtain ⟨u, u', hu, -⟩ := transfer.dstTok
    refine idle (frame k (by rintro rfl; exact PoolAt.not_mining pool hm) (tok _ ?_) (tok _ ?_))
    · rw [← w1_frame _ neS]; exact ht1.1
    · rw [← w1_frame _ neV]; exact hu.1
  | @close M O G A P1 rest q m1 m2 accs_eq signedO signedA good pool auth mining init miningOk owner refreshed sfo paid target
      closed credited frame ne neG =>
    by_cases hk : k = M.key
    · exact absurd rfl (hi (by rw [accs_eq, hk]; rfl)).1
    · exact idle (frame k hk (sys _ target))
  | @initPool f d P1 T V Y A R K S rest bump accs_eq signedY signedA owned len fresh notPda vault pool' vaultBefore vault'
      payer payer' frame =>
    refine idle (frame k ?_ (sys _ vaultBefore.2.2) (sys _ payer.2.1))
    rintro rfl
    rcases fresh with h1 | ⟨m', h1, h2⟩
    · rw [hm.2] at h1; cases h1
    · rw [hm.2] at h1; cases h1; exact absurd (ht.symm.trans h2.type) (by decide)
  | initMining _ _ _ _ before _ payer _ frame =>
    exact idle (frame k (sys _ before.2.2) (sys _ payer.2.1))

/-- An instruction that goes through for both. -/
theorem weaker_step {now : Nat} {v v' w w' : World} {accs : List AccountInfo} {i : Ix} {r r' : Option Nat} {k : Key}
    (hb : Beside env k v w) (hb' : Beside env k v' w') (h1 : Step env now v v' accs i r) (h2 : Step env now w w' accs i r')
    {m n m' n' : Mining} (hm : MiningAt env v k m) (hn : MiningAt env w k n) (ht : m.accountType = 2) (hs : Weaker now m n)
    (hm' : MiningAt env v' k m') (hn' : MiningAt env w' k n')
    (hi : miningArg accs i = some k → i ≠ .closeMining ∧ ∀ o n, i ≠ .decreaseRewards o n) : Weaker now m' n' := by
  have ht' : n.accountType = 2 := by rw [← hs.kin.holder.kind]; exact ht
  have hk : Kin m' n' := by
    obtain ⟨x, y, a1, a2, a3⟩ := hb'.mining
    rw [MiningAt.unique hm' a1, MiningAt.unique hn' a2]; exact a3
  by_cases hr : restakes i = true ∧ miningArg accs i = some k
  · cases h1 with
    | @stake _ P M A D p0 p1 m1 m1' d d' accs_eq op chk del quiet same sfo ok' sameDel eff =>
      cases h2 with
      | @stake _ P2 M2 A2 D2 q0 q1 n1 n1' e e' accs_eq2 op2 chk2 del2 quiet2 same2 sfo2 ok2' sameDel2 eff2 =>
        obtain ⟨rfl, rfl, rfl, rfl⟩ := accs_eq.unique accs_eq2
        obtain ⟨-, a2, -⟩ := accs_eq.args hr.1
        obtain rfl : M.key = k := Option.some.inj (a2.symm.trans hr.2)
        obtain rfl := MiningAt.unique hm eff.mining
        obtain rfl := MiningAt.unique hn eff2.mining
        obtain rfl := MiningAt.unique hm' eff.mining'
        obtain rfl := MiningAt.unique hn' eff2.mining'
        obtain rfl := PoolAt.unique (beside_pool hb eff.pool) eff2.pool
        exact StakeOp.weaker chk.good.ok chk.miningOk chk2.miningOk (fun x hx => (del x hx).ok) (eff.bothSome eff2) hs op op2
      | _ => cases hr.1
    | _ => cases hr.1
  · have hi' : miningArg accs i = some k → i ≠ .closeMining ∧ (∀ o n, i ≠ .decreaseRewards o n) ∧ restakes i = false := by
      intro h
      refine ⟨(hi h).1, (hi h).2, ?_⟩
      cases e : restakes i with
      | false => rfl
      | true => exact absurd ⟨e, h⟩ hr
    obtain ⟨x, a1, a2⟩ := h1.own hm ht hi'
    obtain ⟨y, b1, b2⟩ := h2.own hn ht' hi'
    obtain rfl := MiningAt.unique hm' a1
    obtain rfl := MiningAt.unique hn' b1
    exact hs.own a2 b2 hk

theorem Spec.CarefulEvent.unclosed {P k : Key} {s : Chain} {e : Event} (h : CarefulEvent env P k s e) : Unclosed env k s e := by
  refine ⟨h.1, ?_⟩
  cases e with
  | ix accs i => exact fun hs hk => ((h.2 hs).own hk).1
  | _ => trivial

theorem Spec.CarefulOrPenalty.unclosed {P k : Key} {s : Chain} {e : Event} (h : CarefulOrPenalty env P k s e) :
    Unclosed env k s e := by
  rcases h with h | ⟨h1, h2⟩
  · exact Spec.CarefulEvent.unclosed h
  · refine ⟨h1, ?_⟩
    cases e with
    | ix accs i =>
      intro _ _
      rintro rfl
      exact h2
    | _ => trivial

/-- The mining at `k` weighs at most as much in the first world as in the second. -/
def WeakerAt (env : Env) (k : Key) (now : Nat) (v w : World) : Prop :=
  ∀ m n, MiningAt env v k m → MiningAt env w k n → Weaker now m n

theorem midnight_le_add (n d : Nat) : midnight n ≤ midnight (n + d) := by unfold midnight; omega

/-- An event that happens to both. -/
theorem weaker_event {P k : Key} {s t : Chain} {e e' : Event} (hnow : s.now = t.now) (hb : Beside env k s.world t.world)
    (hb' : Beside env k (s.apply env e).world (t.apply env e').world)
    (hws : Wf env s.now s.world) (hwt : Wf env t.now t.world) (he : SameButTokens env k e e')
    (ha : goesThrough env s e = goesThrough env t e') (hv : e.Valid env s) (hv' : e'.Valid env t)
    (hc : CarefulOrPenalty env P k s e) (hc' : CarefulEvent env P k t e') {m : Mining} (hm : Proper env s.world k m)
    (hs : WeakerAt env k s.now s.world t.world) :
    WeakerAt env k (s.apply env e).now (s.apply env e).world (t.apply env e').world := by
  obtain ⟨m0, n, m1, m2, m3⟩ := hb.mining
  obtain rfl := MiningAt.unique hm.1 m1
  have hext : ∀ (x y : World) (_ : (Event.ext x).Valid env s) (_ : (Event.ext y).Valid env t),
      WeakerAt env k s.now x y := by
    intro x y hx hy a b ha hb
    obtain ⟨a1, -, a3, -⟩ := hx.program_owned k m1.1
    obtain ⟨b1, -, b3, -⟩ := hy.program_owned k m2.1
    rw [MiningAt.unique ha ⟨a1.trans m1.1, a3.trans m1.2⟩, MiningAt.unique hb ⟨b1.trans m2.1, b3.trans m2.2⟩]
    exact hs _ _ m1 m2
  rcases he with rfl | ⟨w, w', rfl, rfl, hx, hl⟩
  · cases e with
    | ix accs i =>
      have ha' : succeeded env s accs i = succeeded env t accs i := ha
      cases hs1 : exec env s.now s.world accs i with
      | error er =>
        cases h2 : exec env t.now t.world accs i with
        | ok r => simp [succeeded, hs1, h2] at ha'
        | error er' => rw [apply_ix_error hs1, apply_ix_error h2]; exact hs
      | ok r =>
        cases h2 : exec env t.now t.world accs i with
        | error er' => simp [succeeded, hs1, h2] at ha'
        | ok r' =>
          obtain ⟨v1, r⟩ := r
          obtain ⟨w1, r'⟩ := r'
          rw [apply_ix_ok hs1, apply_ix_ok h2] at hb' ⊢
          have hsucc : succeeded env t accs i = true := by simp [succeeded, h2]
          have g1 := step_of_exec hws hv (Spec.CarefulOrPenalty.unclosed hc).1 hs1
          have g2 := step_of_exec hwt hv' hc'.1 h2
          rw [← hnow] at g2
          intro a b ha hb1
          exact weaker_step hb hb' g1 g2 m1 m2 hm.2 (hs _ _ m1 m2) ha hb1
            (fun h => ⟨((hc'.2 hsucc).own h).1, ((hc'.2 hsucc).own h).2.1⟩)
    | tick d => exact fun a b h1 h2 => (hs a b h1 h2).later (midnight_le_add _ _)
    | gc j =>
      have hj : k ≠ j := by rintro rfl; exact absurd (show (s.world k).lamports = 0 from hv) (by have := hb.alive; omega)
      have e1 : (s.apply env (.gc j)).world k = s.world k := world_set_ne _ _ hj
      have e2 : (t.apply env (.gc j)).world k = t.world k := world_set_ne _ _ hj
      exact fun a b h1 h2 => hs a b ((miningAt_congr e1).mp h1) ((miningAt_congr e2).mp h2)
    | ext w => exact hext _ _ hv hv'
  · exact hext _ _ hv hv'

/-- A claim or a penalty makes a mining at most weaker. -/
theorem affair_weaker {k : Key} {s : Chain} {e : Event} (hws : Wf env s.now s.world) (ha : AffairOf k e) (hv : e.Valid env s)
    (hc : CleanEvent env s e) {m m' : Mining} (hm : Proper env s.world k m)
    (hm' : MiningAt env (s.apply env e).world k m') (hk : Kin m' m) :
    Weaker s.now m' m ∧ (¬ PenaltyOn k e → Weaker s.now m m') := by
  cases e with
  | ix accs i =>
    cases h1 : exec env s.now s.world accs i with
    | error er =>
      rw [apply_ix_error h1] at hm'
      obtain rfl := MiningAt.unique hm.1 hm'
      exact ⟨.refl _ _, fun _ => .refl _ _⟩
    | ok r =>
      obtain ⟨v1, r⟩ := r
      rw [apply_ix_ok h1] at hm'
      have st := step_of_exec hws hv hc h1
      cases i with
      | claim =>
        obtain ⟨x, a1, a2⟩ := st.own hm.1 hm.2 (fun _ => ⟨by simp, by simp, rfl⟩)
        obtain rfl := MiningAt.unique hm' a1
        exact ⟨⟨hk, fun x hx => Nat.le_of_eq (a2.equal x hx), a2.dates⟩,
          fun _ => ⟨hk.symm, fun x hx => Nat.le_of_eq (a2.equal x hx).symm, a2.dates.symm⟩⟩
      | decreaseRewards o n =>
        have hkk : miningArg accs (.decreaseRewards o n) = some k := ha
        refine ⟨?_, fun h => absurd hkk h⟩
        cases st with
        | stake _ op => exact op.elim
        | @decrease _ _ A P1 M rest q m1 m1' accs_eq chk pool op mining mining' same ok' sfo frame shell =>
          obtain rfl : M.key = k := by rw [accs_eq] at hkk; exact Option.some.inj hkk
          obtain rfl := MiningAt.unique hm.1 mining
          obtain rfl := MiningAt.unique hm' mining'
          exact decrease_weaker op
      | _ => exact ha.elim
  | _ => exact ha.elim

/-- A claim or a penalty distributes nothing. -/
theorem affair_earned {P k j : Key} {s : Chain} {e : Event} (ha : AffairOf k e) : earnedBy env P j s e = 0 := by
  have : ∀ m, incomeBy env P m s e = 0 := by
    intro m
    cases e with
    | ix accs i =>
      cases i with
      | claim => simp only [incomeBy, incomeFrom, distributedFrom]; split <;> simp
      | decreaseRewards o n => simp only [incomeBy, incomeFrom, distributedFrom]; split <;> simp
      | _ => exact ha.elim
    | _ => exact ha.elim
  unfold earnedBy
  split
  · exact this _
  · rfl

/-- The weaker mining earns at most as much. -/
theorem weaker_earned {P k : Key} {s t : Chain} {e e' : Event} (hnow : s.now = t.now) (hb : Beside env k s.world t.world)
    (he : SameButTokens env k e e') (ha : goesThrough env s e = goesThrough env t e') {p : Pool}
    (hp : PoolAt env s.world P p) (hs : WeakerAt env k s.now s.world t.world) :
    earnedBy env P k s e ≤ earnedBy env P k t e' := by
  obtain ⟨m, n, m1, m2, m3⟩ := hb.mining
  have hw := (hs _ _ m1 m2).earning (Nat.le_refl _)
  simp only [earnedBy, m1.2, m2.2]
  rcases he with rfl | ⟨w, w', rfl, rfl, -, -⟩
  · cases e with
    | ix accs i =>
      have ha' : succeeded env s accs i = succeeded env t accs i := ha
      simp only [incomeBy, hp.2, (beside_pool hb hp).2, ← ha', ← hnow]
      split
      · exact Nat.mul_le_mul_left _ hw
      · exact Nat.le_refl _
    | _ => exact Nat.le_refl _
  · exact Nat.le_refl _

/-- The mining at `k` stays, as it is not closed. -/
theorem unclosed_stays {k : Key} {s : Chain} {e : Event} (hw : Wf env s.now s.world) (hv : e.Valid env s)
    (hc : Unclosed env k s e) {m : Mining} (hm : Proper env s.world k m) (hl : 0 < (s.world k).lamports) :
    ∃ m', Proper env (s.apply env e).world k m' ∧ SameMining m m' ∧ 0 < ((s.apply env e).world k).lamports := by
  rcases apply_mining hw hv hc.1 hm.1 hm.2 hl with ⟨m', h1, h2, h3⟩ | ⟨accs, w', ret, rfl, h2, h3⟩
  · exact ⟨m', ⟨h1, h2.accountType.trans hm.2⟩, h2, h3⟩
  · exact absurd rfl (hc.2 (by simp [succeeded, h2]) h3)

theorem weaker_runs {P k : Key} (hpda : env.IsPda k) {s t s' t' : Chain} {es es' : List Event}
    (h : UpToAffairs env k s t es es') : RunsWith env (CarefulOrPenalty env P k) s es s' →
    RunsWith env (CarefulEvent env P k) t es' t' → Wf env s.now s.world → Wf env t.now t.world → s.now = t.now →
    Beside env k s.world t.world → ∀ {m}, Proper env s.world k m → ∀ {p}, PoolAt env s.world P p → 0 < (s.world P).lamports →
    WeakerAt env k s.now s.world t.world →
    s'.now = t'.now ∧ Beside env k s'.world t'.world ∧ WeakerAt env k s'.now s'.world t'.world ∧
      totalIn env (earnedBy env P k) s es ≤ totalIn env (earnedBy env P k) t es' := by
  induction h with
  | done =>
    intro r1 r2 _ _ hnow hn m _ p _ _ hs
    cases r1; cases r2
    exact ⟨hnow, hn, hs, Nat.le_refl _⟩
  | @both s t e e' es es' same alike rest ih =>
    intro r1 r2 hws hwt hnow hn m hm p hp hpl hs
    cases r1 with
    | cons v1 c1 r1 =>
    cases r2 with
    | cons v2 c2 r2 =>
      have u1 := Spec.CarefulOrPenalty.unclosed c1
      obtain ⟨g1, g2, -⟩ := beside_event hnow hn hws hwt hpda same alike v1 v2 u1 (Spec.CarefulEvent.unclosed c2)
      obtain ⟨m', a1, -, -⟩ := unclosed_stays hws v1 u1 hm hn.alive
      obtain ⟨p', b1, b2, -⟩ := apply_pool hws v1 u1.1 hp hpl
      have w1 := weaker_event hnow hn g2 hws hwt same alike v1 v2 c1 c2 hm hs
      obtain ⟨k1, k2, k3, k4⟩ := ih r1 r2 (wf_apply hws v1 u1.1) (wf_apply hwt v2 c2.1) g1 g2 a1 b1 b2 w1
      refine ⟨k1, k2, k3, ?_⟩
      have := weaker_earned (P := P) hnow hn same alike hp hs
      simp only [totalIn]; omega
  | @first s t e es es' affair rest ih =>
    intro r1 r2 hws hwt hnow hn m hm p hp hpl hs
    cases r1 with
    | cons v1 c1 r1 =>
      have u1 := Spec.CarefulOrPenalty.unclosed c1
      obtain ⟨g1, g2, -⟩ := beside_affair hn hws affair v1 u1.1
      obtain ⟨m', a1, -, -⟩ := unclosed_stays hws v1 u1 hm hn.alive
      obtain ⟨p', b1, b2, -⟩ := apply_pool hws v1 u1.1 hp hpl
      have w1 : WeakerAt env k (s.apply env e).now (s.apply env e).world t.world := by
        intro x y hx hy
        obtain ⟨n1, n2, z1, z2, z3⟩ := hn.mining
        obtain ⟨n3, n4, z4, z5, z6⟩ := g2.mining
        obtain rfl := MiningAt.unique hm.1 z1
        obtain rfl := MiningAt.unique hx z4
        obtain rfl := MiningAt.unique hy z2
        obtain rfl := MiningAt.unique hy z5
        rw [g1]
        exact (affair_weaker hws affair v1 u1.1 hm hx (z6.trans z3.symm)).1.trans (hs _ _ hm.1 hy)
      obtain ⟨k1, k2, k3, k4⟩ := ih r1 r2 (wf_apply hws v1 u1.1) hwt (g1.trans hnow) g2 a1 b1 b2 w1
      refine ⟨k1, k2, k3, ?_⟩
      have := affair_earned (env := env) (P := P) (j := k) (s := s) affair
      simp only [totalIn]; omega
  | @second s t e es es' affair rest ih =>
    intro r1 r2 hws hwt hnow hn m hm p hp hpl hs
    cases r2 with
    | cons v2 c2 r2 =>
      have u2 := Spec.CarefulEvent.unclosed c2
      obtain ⟨g1, g2, -⟩ := beside_affair hn.symm hwt affair v2 c2.1
      have w1 : WeakerAt env k s.now s.world (t.apply env e).world := by
        intro x y hx hy
        obtain ⟨n1, n2, z1, z2, z3⟩ := hn.mining
        obtain ⟨n3, n4, z4, z5, z6⟩ := g2.mining
        obtain rfl := MiningAt.unique hm.1 z1
        obtain rfl := MiningAt.unique hm.1 hx
        obtain rfl := MiningAt.unique hx z5
        obtain rfl := MiningAt.unique hy z4
        have hty : Proper env t.world k n2 := ⟨z2, by rw [← z3.holder.kind]; exact hm.2⟩
        by_cases hpen : PenaltyOn k e
        · cases e with
          | ix accs i =>
            cases i with
            | decreaseRewards o n =>
              cases hx2 : exec env t.now t.world accs (.decreaseRewards o n) with
              | error er =>
                rw [apply_ix_error hx2] at hy
                exact hs _ _ hx hy
              | ok r =>
                exact absurd rfl (((c2.2 (by simp [succeeded, hx2])).own hpen).2.1 o n)
            | _ => exact hpen.elim
          | _ => exact hpen.elim
        · refine (hs _ _ hx z2).trans ?_
          rw [hnow]
          exact (affair_weaker hwt affair v2 c2.1 hty hy (z6.trans z3)).2 hpen
      obtain ⟨k1, k2, k3, k4⟩ := ih r1 r2 hws (wf_apply hwt v2 c2.1) (hnow.trans g1.symm) g2.symm hm hp hpl w1
      refine ⟨k1, k2, k3, ?_⟩
      have := affair_earned (env := env) (P := P) (j := k) (s := t) affair
      simp only [totalIn]; omega

/-- The account of a mining that is penalized now and then: what it is paid and owed is at most what it earned. -/
theorem runs_penalized {P k : Key} {s s' : Chain} {es : List Event} (hr : RunsWith env (CarefulOrPenalty env P k) s es s') :
    Reachable env s → ∀ {m}, Proper env s.world k m → m.rewardPool = P → 0 < (s.world k).lamports →
    ∀ {p}, PoolAt env s.world P p → 0 < (s.world P).lamports → m.index ≤ p.index → ∀ {p'}, PoolAt env s'.world P p' →
    p'.cumulative.length < env.caps.index →
    ∃ m', MiningAt env s'.world k m' ∧ m'.index ≤ p'.index ∧
      10 ^ 16 * totalIn env (claimedBy env k) s es + owed m' p'.cumulative ≤
        owed m p.cumulative + totalIn env (earnedBy env P k) s es := by
  induction hr with
  | nil s =>
    intro _ m hm _ _ p hp _ hi p' hp' _
    obtain rfl := PoolAt.unique hp hp'
    exact ⟨m, hm.1, hi, by simp [totalIn]⟩
  | @cons s s' e es hv hc hr' ih =>
    intro hre m hm hpool hml p hp hpl hi p' hp' hroom
    have hw := reachable_wf hre
    have u1 := Spec.CarefulOrPenalty.unclosed hc
    have hre' := hre.step hv u1.1
    obtain ⟨p1, h1, h2, h3⟩ := apply_pool hw hv u1.1 hp hpl
    have hlen : p1.cumulative.length ≤ p'.cumulative.length := by
      obtain ⟨q, k1, -, k2⟩ := runs_pool (reachable_wf hre') (hr'.weaken fun _ _ h => (Spec.CarefulOrPenalty.unclosed h).1) h1 h2
        (fun _ q => p1.cumulative <+: q.cumulative) (List.prefix_refl _) (by
          rintro s e q q' hw' hv hq i1 hev
          cases hev with
          | same => exact i1
          | ix ok change =>
            rcases (change.history (poolAt_good hw' hq).ok).1 with h1 | ⟨-, h1⟩
            · rw [h1]; exact i1
            · rw [h1]; exact i1.trans (List.prefix_append _ _))
      rw [PoolAt.unique hp' k1]
      exact k2.length_le
    rcases hc with hc | ⟨hc, hpen⟩
    · obtain ⟨m1, g1, g2, g3, g4, g5, g6⟩ := event_life hre hv hc hm hpool hml hp hi h3 (Nat.lt_of_le_of_lt hlen hroom)
      obtain ⟨m', r1, r2, r3⟩ := ih hre' g1 g2 g3 h1 h2 g4 hp' hroom
      exact ⟨m', r1, r2, by simp only [totalIn]; omega⟩
    · obtain ⟨m1, a1, a2, a3⟩ := unclosed_stays hw hv u1 hm hml
      have key : m1.index ≤ p1.index ∧ owed m1 p1.cumulative ≤ owed m p.cumulative ∧ claimedBy env k s e = 0 := by
        cases e with
        | ix accs i =>
          cases i with
          | decreaseRewards o n =>
            have hkk : miningArg accs (.decreaseRewards o n) = some k := hpen
            cases hx : exec env s.now s.world accs (.decreaseRewards o n) with
            | error er =>
              rw [apply_ix_error hx] at a1 h1
              obtain rfl := MiningAt.unique hm.1 a1.1
              obtain rfl := PoolAt.unique hp h1
              exact ⟨hi, Nat.le_refl _, by simp only [claimedBy, hx]⟩
            | ok r =>
              obtain ⟨v1, r⟩ := r
              have hcl : claimedBy env k s (.ix accs (.decreaseRewards o n)) = 0 := by
                simp only [claimedBy, hx]; rfl
              rw [apply_ix_ok hx] at a1 h1
              have st := step_of_exec (i := .decreaseRewards o n) hw hv hc hx
              cases st with
              | stake _ op => exact op.elim
              | @decrease _ _ A P1 M rest q n1 n2 accs_eq chk pool op mining mining' same ok' sfo frame shell =>
                obtain rfl : M.key = k := by rw [accs_eq] at hkk; exact Option.some.inj hkk
                obtain rfl := MiningAt.unique hm.1 mining
                obtain rfl := MiningAt.unique a1.1 mining'
                have hpp : PoolAt env v1 P p := (poolAt_congr (frame P (by
                  rintro rfl; exact PoolAt.not_mining hp hm.1))).mpr hp
                obtain rfl := PoolAt.unique hpp h1
                obtain ⟨d1, -, d3, d4, -⟩ := decrease_earning op
                exact ⟨by rw [d3]; exact hi, owed_le _ (Nat.le_of_eq d4) d3.symm (fun x _ => d1 x.1), hcl⟩
          | _ => exact hpen.elim
        | _ => exact hpen.elim
      obtain ⟨m', r1, r2, r3⟩ := ih hre' a1 (a2.rewardPool.trans hpool) a3 h1 h2 key.1 hp' hroom
      exact ⟨m', r1, r2, by simp only [totalIn]; omega⟩

end Verif
