import Verif.Spec.Divide
import Verif.Lemmas.Incentive
import Verif.Lemmas.Local
import Verif.Lemmas.Split
/-!
Two histories that differ in how an amount is divided among minings.
-/

namespace Verif

open Spec

variable {env : Env}

/-! ### Rewards as a function of the stake -/

theorem earned_plus (f g : Nat → Nat) (i p : Nat) (l : List (Nat × Nat)) :
    earned (fun x => f x + g x) i p l = earned f i p l + earned g i p l := by
  induction l generalizing p with
  | nil => rfl
  | cons a l ih => simp only [earned, ih, Nat.mul_add]; omega

theorem earned_nothing (i p : Nat) (l : List (Nat × Nat)) : earned (fun _ => 0) i p l = 0 := by
  induction l generalizing p with
  | nil => rfl
  | cons a l ih => simp only [earned, ih, Nat.mul_zero]

theorem earned_sum (W : Key → Nat → Nat) (ks : List Key) (i p : Nat) (l : List (Nat × Nat)) :
    sumOver (fun k => earned (W k) i p l) ks = earned (fun x => sumOver (fun k => W k x) ks) i p l := by
  induction ks with
  | nil => simp only [sumOver, List.map_nil, List.sum_nil, earned_nothing]
  | cons k ks ih =>
    simp only [sumOver_cons, ih]
    rw [earned_plus]

/-- What somebody with stake `f` earns from the distributions that are not visible at `now`, where `ext` has come after `cum`. -/
def earnedFrom (cum ext : List (Nat × Nat)) (now : Nat) (f : Nat → Nat) : Nat :=
  earned f (indexBefore cum now) (indexBefore cum now) ((cum.filter fun e => decide (now ≤ e.1)) ++ ext)

theorem earnedFrom_congr {cum ext : List (Nat × Nat)} {now : Nat} (hx : ∀ e ∈ ext, midnight now ≤ e.1) {f g : Nat → Nat}
    (h : ∀ x, midnight now ≤ x → f x = g x) : earnedFrom cum ext now f = earnedFrom cum ext now g := by
  refine earned_congr fun e he => h _ ?_
  rcases List.mem_append.mp he with he | he
  · have h1 := (List.mem_filter.mp he).2
    have h2 := midnight_le now
    simp at h1; omega
  · exact hx e he

/-- What a mining is owed that is up to date. -/
theorem owed_uptodate {cum ext : List (Nat × Nat)} {now : Nat} (hc : History (cum ++ ext)) {m : Mining}
    (hi : m.index = indexBefore cum now) :
    owed m (cum ++ ext) = 10 ^ 16 * m.unclaimed + earnedFrom cum ext now (earningOn m) := by
  have hc0 : History cum := ⟨(List.pairwise_append.mp hc.sorted).1, (List.pairwise_append.mp hc.mono).1,
    fun e he => hc.aligned e (by simp [he])⟩
  unfold owed pending earnedFrom
  have e : cum ++ ext = (cum.filter fun e => decide (e.1 < now)) ++ ((cum.filter fun e => decide (now ≤ e.1)) ++ ext) := by
    rw [← List.append_assoc, ← filter_split hc0.sorted now]
  rw [e, earned_append, hi, earned_consumed (Nat.zero_le _)]
  · rw [Nat.zero_add]; rfl
  · intro e he
    exact (hc0.monoFrom.filter _).mem_le_last e he

/-- What is owed after more distributions. -/
theorem owed_extended {cum ext : List (Nat × Nat)} (hc : History (cum ++ ext)) {m : Mining} (hi : m.index ≤ lastIndex 0 cum) :
    owed m (cum ++ ext) = owed m cum + earned (earningOn m) 0 (lastIndex 0 cum) ext := by
  unfold owed pending
  rw [earned_append, earned_index_congr (j := 0) ((MonoFrom.append.mp hc.monoFrom).2) hi (Nat.zero_le _)]
  omega

/-- The mining has been credited what was due and has then got the stake `f`; or nothing has happened. -/
def Staked (now : Nat) (cum : SMap) (m m' : Mining) (f : Nat → Nat) : Prop :=
  (m' = m ∧ ∀ x, midnight now ≤ x → f x = 0) ∨
  (CreditedAs now cum m m' ∧ m'.stakeFromOthers = m.stakeFromOthers ∧
    ∀ x, midnight now ≤ x → weightOn m' x = weightOn m x + f x)

theorem creditedAs_trans {now : Nat} {cum : SMap} (hc : History cum) {m m1 m2 : Mining} (hm : MiningOk m) (hm1 : MiningOk m1)
    (h1 : CreditedAs now cum m m1) (h2 : CreditedAs now cum m1 m2) : CreditedAs now cum m m2 := by
  obtain ⟨r1, a1, a2, a3⟩ := h1
  obtain ⟨r2, b1, b2, b3⟩ := h2
  obtain ⟨-, -, k, -⟩ := refresh_owed hc hm a1
  obtain ⟨c1, c2⟩ := refresh_again hc hm1 (a3.trans k) b1
  exact ⟨r1, a1, by rw [b2, c1, a2], by rw [b3, c2, a3]⟩

theorem Staked.trans {now : Nat} {cum : SMap} (hc : History cum) {m m1 m2 : Mining} (hm : MiningOk m) (hm1 : MiningOk m1)
    {f g : Nat → Nat} (h1 : Staked now cum m m1 f) (h2 : Staked now cum m1 m2 g) :
    Staked now cum m m2 fun x => f x + g x := by
  rcases h1 with ⟨rfl, h1⟩ | ⟨a1, a2, a3⟩
  · rcases h2 with ⟨rfl, h2⟩ | ⟨b1, b2, b3⟩
    · exact Or.inl ⟨rfl, fun x hx => by dsimp only; rw [h1 x hx, h2 x hx]⟩
    · exact Or.inr ⟨b1, b2, fun x hx => by dsimp only; rw [b3 x hx, h1 x hx]; omega⟩
  · rcases h2 with ⟨rfl, h2⟩ | ⟨b1, b2, b3⟩
    · exact Or.inr ⟨a1, a2, fun x hx => by dsimp only; rw [a3 x hx, h2 x hx]; omega⟩
    · exact Or.inr ⟨creditedAs_trans hc hm hm1 a1 b1, b2.trans a2, fun x hx => by
        dsimp only; rw [b3 x hx, a3 x hx]; omega⟩

/-- What a mining is owed that has got the stake `f`. -/
theorem staked_owed {cum ext : List (Nat × Nat)} {now : Nat} (hc : History (cum ++ ext)) (hx : ∀ e ∈ ext, midnight now ≤ e.1)
    {m m' : Mining} (hm : MiningOk m) (hb : Backed m) (hi : m.index ≤ lastIndex 0 cum) {f : Nat → Nat}
    (h : Staked now cum m m' f) :
    owed m' (cum ++ ext) ≤ owed m (cum ++ ext) + earnedFrom cum ext now f ∧
    owed m (cum ++ ext) + earnedFrom cum ext now f ≤
      owed m' (cum ++ ext) + 10 ^ 16 * (expiredCount m (midnight now) + 1) := by
  have hc0 : History cum := ⟨(List.pairwise_append.mp hc.sorted).1, (List.pairwise_append.mp hc.mono).1,
    fun e he => hc.aligned e (by simp [he])⟩
  rcases h with ⟨rfl, h⟩ | ⟨⟨r, h1, h2, h3⟩, h4, h5⟩
  · have : earnedFrom cum ext now f = 0 := by
      rw [earnedFrom_congr hx h]; exact earned_nothing _ _ _
    omega
  · obtain ⟨g1, g2, g3, -, g5, g6⟩ := refresh_owed hc0 hm h1
    rw [bod_eq_midnight] at g2 g6
    have e1 := owed_uptodate hc (m := m') (now := now) (h3.trans g3)
    have e2 := owed_uptodate hc (m := r) (now := now) g3
    have e3 : earnedFrom cum ext now (earningOn m') = earnedFrom cum ext now (earningOn r) + earnedFrom cum ext now f := by
      unfold earnedFrom
      rw [← earned_plus]
      refine earnedFrom_congr hx fun x hxx => ?_
      rw [g6 x hxx]
      have h6 := h5 x hxx
      have h7 := dueBy_le_total m.diffs x
      unfold Backed at hb
      simp only [weightOn, earningOn] at *
      omega
    have e4 := owed_extended hc (m := r) (by rw [g3]; exact indexBefore_le_last hc0 now)
    have e5 := owed_extended hc hi
    have e6 : earned (earningOn r) 0 (lastIndex 0 cum) ext = earned (earningOn m) 0 (lastIndex 0 cum) ext :=
      earned_congr fun e he => g6 _ (hx e he)
    rw [h2] at e1
    omega

/-- Two ways of giving stake to a mining. -/
theorem staked_two {cum ext : List (Nat × Nat)} {now : Nat} (hc : History (cum ++ ext)) (hx : ∀ e ∈ ext, midnight now ≤ e.1)
    {m m1 m2 : Mining} (hm : MiningOk m) (hb : Backed m) {f g : Nat → Nat} (h1 : Staked now cum m m1 f)
    (h2 : Staked now cum m m2 g) :
    owed m1 (cum ++ ext) + earnedFrom cum ext now g ≤
      owed m2 (cum ++ ext) + earnedFrom cum ext now f + 10 ^ 16 * (expiredCount m (midnight now) + 1) := by
  have hc0 : History cum := ⟨(List.pairwise_append.mp hc.sorted).1, (List.pairwise_append.mp hc.mono).1,
    fun e he => hc.aligned e (by simp [he])⟩
  by_cases hi : m.index ≤ lastIndex 0 cum
  · have k1 := staked_owed hc hx hm hb hi h1
    have k2 := staked_owed hc hx hm hb hi h2
    omega
  · have key : ∀ {m' : Mining} {f : Nat → Nat}, Staked now cum m m' f → m' = m ∧ ∀ x, midnight now ≤ x → f x = 0 := by
      intro m' f h
      rcases h with h | ⟨⟨r, h, -⟩, -⟩
      · exact h
      · obtain ⟨-, -, -, k, -⟩ := refresh_owed hc0 hm h
        exact absurd (Nat.le_trans k (indexBefore_le_last hc0 now)) hi
    obtain ⟨rfl, k1⟩ := key h1
    obtain ⟨rfl, k2⟩ := key h2
    rw [earnedFrom_congr hx k1, earnedFrom_congr hx k2]
    omega

/-! ### The deposits -/

/-- The weight of a stake, as a natural number. -/
def weightNat (a k e x : Nat) : Nat := if x < e then a * k else a

theorem weightNat_eq (a k e x : Nat) : stakeWeight a k e x = weightNat a k e x := by
  unfold stakeWeight weightNat
  split <;> simp

theorem weightNat_add (a b k e x : Nat) : weightNat (a + b) k e x = weightNat a k e x + weightNat b k e x := by
  unfold weightNat
  split
  · rw [Nat.add_mul]
  · rfl

/-- A pool into which `a` has been deposited. -/
def Pool.plus (caps : Caps) (p : Pool) (a k e : Nat) : Pool :=
  { p with totalShare := p.totalShare + a * k, diffs := addAt caps.pool p.diffs e (a * k - a) }

theorem Pool.plus_plus (caps : Caps) (p : Pool) (a b : Nat) {k : Nat} (hk : 1 ≤ k) (e : Nat) :
    (p.plus caps a k e).plus caps b k e = p.plus caps (a + b) k e := by
  unfold Pool.plus
  simp only [addAt_twice]
  have h1 : a * 1 ≤ a * k := Nat.mul_le_mul_left _ hk
  have h2 : b * 1 ≤ b * k := Nat.mul_le_mul_left _ hk
  have h3 : a * k - a + (b * k - b) = (a + b) * k - (a + b) := by rw [Nat.add_mul]; omega
  rw [h3, Nat.add_mul, Nat.add_assoc]

/-- What deposits of `A` in total have done. -/
structure Divided (env : Env) (P : Key) (ks : List Key) (k n : Nat) (s t : Chain) (p p' : Pool) (A : Nat) : Prop where
  now : t.now = s.now
  pool : PoolAt env t.world P p'
  shell : ∀ j, (t.world j).owner = (s.world j).owner ∧ (t.world j).lamports = (s.world j).lamports ∧
    (t.world j).len = (s.world j).len
  others : ∀ j, j ≠ P → j ∉ ks → t.world j = s.world j
  minings : ∃ W : Key → Nat → Nat, (∀ j ∈ ks, ∀ m, Member env s.world P j m → ∃ m', Member env t.world P j m' ∧
      Staked s.now p.cumulative m m' (W j)) ∧
    ∀ x, sumOver (fun j => W j x) ks = weightNat A k (midnight s.now + 86400 * n) x

/-- One deposit. -/
theorem divided_one {P : Key} {l : LockupPeriod} {ks : List Key} {k n : Nat} {s : Chain} {e : Event} {p : Pool}
    (hw : Wf env s.now s.world) (hks : ks.Nodup) (ht : terms l = some (k, n)) (hp : PoolAt env s.world P p)
    (hv : e.Valid env s) (hd : DepositInto env P l ks s e) :
    Divided env P ks k n s (s.apply env e) p (p.plus env.caps (amountOf e) k (midnight s.now + 86400 * n)) (amountOf e) ∧
      CleanEvent env s e := by
  cases e with
  | ix accs i =>
    cases i with
    | depositMining a l' o d =>
      obtain ⟨rfl, h1, h2, M, hM, h3, h4, h5⟩ := hd
      refine ⟨?_, trivial⟩
      unfold succeeded at h1
      split at h1
      · rename_i r hx
        obtain ⟨w', ret⟩ := r
        rw [apply_ix_ok hx]
        have step := step_of_exec hw hv (by exact trivial) hx
        obtain ⟨P1, M1, A1, D1, rest, k1, n1, e1, t1, -, c1⟩ := C17_deposit hw hv hx
        rw [ht] at t1; cases t1
        subst e1
        obtain rfl : P1.key = P := Option.some.inj h2
        obtain rfl : M1.key = M := Option.some.inj h3
        have hD : D1.key = M1.key := Option.some.inj h4
        cases step with
        | @stake i P' M' A' D' p0 p' m0 m' d0 d' accs_eq op chk del quiet same sfo ok' sameDel eff shell =>
          obtain ⟨rest', e⟩ := accs_eq
          cases e
          obtain rfl := PoolAt.unique hp eff.pool
          obtain ⟨m1, f1, f2, -, f3, f4, -⟩ := c1.minings _ _ eff.mining
          obtain rfl := MiningAt.unique f1 eff.mining'
          have hcr := (deposit_credit chk.good.ok chk.miningOk op).1
          obtain ⟨m1', e, g1, g2, -, -, -, -, -, -, g3, g4⟩ := deposit_ok (refresh_sorted chk.good.ok chk.miningOk) op
          rcases eff.delegate with ⟨-, rfl, rfl⟩ | ⟨hne, -⟩
          · rw [withDelegate_none] at g4
            obtain ⟨k1, -, -⟩ := terms_facts ht
            obtain ⟨k', n', y1, y2, y3, y4, y5, y6⟩ := terms_end.mp g2
            rw [ht] at y1; cases y1
            refine ⟨rfl, ?_, fun j => ⟨(shell j).1, (shell j).2.1, (shell j).2.2.1⟩, ?_, ?_⟩
            · have := eff.pool'
              rw [g4.1, y6, k1] at this
              exact this
            · intro j j1 j2
              have j3 : j ≠ M1.key := fun h => j2 (h ▸ hM)
              exact c1.others j j1 j3 (by rw [hD]; exact j3)
            · refine ⟨fun j x => if j = M1.key then weightNat a k (midnight s.now + 86400 * n) x else 0, ?_, ?_⟩
              · intro j hj m hm
                by_cases hjm : j = M1.key
                · subst hjm
                  obtain rfl := MiningAt.unique hm.1 eff.mining
                  refine ⟨_, ⟨f1, f2.2.1.trans hm.2⟩, Or.inr ⟨hcr, sfo, fun x hx => ?_⟩⟩
                  rw [f4 rfl (h5 _ k n hm.1 ht) x hx, weightNat_eq]
                  simp
                · have hjP : j ≠ P1.key := by
                    rintro rfl
                    exact PoolAt.not_mining hp hm.1
                  have ej := c1.others j hjP hjm (by rw [hD]; exact hjm)
                  exact ⟨m, ⟨(miningAt_congr ej).mpr hm.1, hm.2⟩, Or.inl ⟨rfl, fun x _ => by simp [hjm]⟩⟩
              · intro x
                have := sumOver_one (f := fun j => if j = M1.key then weightNat a k (midnight s.now + 86400 * n) x else 0)
                  (g := fun _ => 0) hks hM (fun j hj => by simp [hj])
                rw [sumOver_zero] at this
                simpa [amountOf] using this
          · exact absurd hD hne
      · cases h1
    | _ => exact hd.elim
  | _ => exact hd.elim

theorem staked_congr {now : Nat} {cum : SMap} {m m' : Mining} {f g : Nat → Nat} (h : Staked now cum m m' f)
    (hfg : ∀ x, f x = g x) : Staked now cum m m' g := by
  have : f = g := funext hfg
  rw [← this]; exact h

theorem sumOver_plus (f g : Key → Nat) (ks : List Key) : sumOver (fun k => f k + g k) ks = sumOver f ks + sumOver g ks := by
  have := sumOver_add_mul f g 1 ks
  simpa using this

theorem Divided.trans {P : Key} {ks : List Key} {k n : Nat} {s t u : Chain} {p p' p'' : Pool} {A B : Nat}
    (hw : Wf env s.now s.world) (hw' : Wf env t.now t.world) (hp : PoolAt env s.world P p)
    (hb : p'.cumulative = p.cumulative) (h1 : Divided env P ks k n s t p p' A) (h2 : Divided env P ks k n t u p' p'' B) :
    Divided env P ks k n s u p p'' (A + B) := by
  have hc := (poolAt_good hw hp).ok.history
  refine ⟨h2.now.trans h1.now, h2.pool, fun j => ?_, fun j a b => (h2.others j a b).trans (h1.others j a b), ?_⟩
  · obtain ⟨a1, a2, a3⟩ := h1.shell j
    obtain ⟨b1, b2, b3⟩ := h2.shell j
    exact ⟨b1.trans a1, b2.trans a2, b3.trans a3⟩
  · obtain ⟨W, a1, a2⟩ := h1.minings
    obtain ⟨V, b1, b2⟩ := h2.minings
    refine ⟨fun j x => W j x + V j x, ?_, ?_⟩
    · intro j hj m hm
      obtain ⟨m1, c1, c2⟩ := a1 j hj m hm
      obtain ⟨m2, d1, d2⟩ := b1 j hj m1 c1
      rw [h1.now, hb] at d2
      exact ⟨m2, d1, c2.trans hc (miningAt_ok hw hm.1).1 (miningAt_ok hw' c1.1).1 d2⟩
    · intro x
      rw [sumOver_plus, a2, b2, h1.now, weightNat_add]

/-- All deposits. -/
theorem divided {P : Key} {l : LockupPeriod} {ks : List Key} {k n : Nat} {s t : Chain} {x : List Event}
    (hks : ks.Nodup) (ht : terms l = some (k, n)) (hr : RunsWith env (DepositInto env P l ks) s x t) :
    ∀ {p : Pool}, Wf env s.now s.world → PoolAt env s.world P p → x ≠ [] →
    Divided env P ks k n s t p (p.plus env.caps (x.map amountOf).sum k (midnight s.now + 86400 * n)) (x.map amountOf).sum ∧
      RunsWith env (CleanEvent env) s x t := by
  induction hr with
  | nil s => intro p _ _ h; exact absurd rfl h
  | @cons s t e es hv hd hr ih =>
    intro p hw hp _
    obtain ⟨h1, hc⟩ := divided_one hw hks ht hp hv hd
    have hw' := wf_apply hw hv hc
    cases es with
    | nil =>
      cases hr
      exact ⟨by simpa using h1, .cons hv hc (.nil _)⟩
    | cons e' es =>
      obtain ⟨h2, h3⟩ := ih hw' h1.pool (by simp)
      refine ⟨?_, .cons hv hc h3⟩
      rw [h1.now, Pool.plus_plus _ _ _ _ (terms_facts ht).2.1] at h2
      have := h1.trans (p' := p.plus env.caps (amountOf e) k (midnight s.now + 86400 * n)) hw hw' hp (by rfl) h2
      simpa using this

/-! ### The same events afterwards -/

/-- Two states that agree except for the accounts `ks`. -/
def Off (ks : List Key) (s t : Chain) : Prop := s.now = t.now ∧ ∀ k, k ∉ ks → s.world k = t.world k

theorem off_apply {ks : List Key} {s t : Chain} {e e' : Event} (h : Off ks s t) (ha : Avoids ks e) (hee : SameBut ks e e') :
    Off ks (s.apply env e) (t.apply env e') := by
  rcases hee with rfl | ⟨w, w', rfl, rfl, hw⟩
  · cases e with
    | ix accs i =>
      have hl : ∀ k, Listed accs k → s.world k = t.world k := by
        rintro k ⟨a, ha', rfl⟩
        exact h.2 _ (ha a ha')
      have := exec_local (env := env) (t := s.now) hl i
      cases hx : exec env s.now s.world accs i with
      | error er =>
        rw [hx] at this
        cases hy : exec env s.now t.world accs i with
        | error er' =>
          rw [apply_ix_error hx, apply_ix_error (by rw [← h.1]; exact hy)]
          exact h
        | ok r => rw [hy] at this; cases this
      | ok r =>
        obtain ⟨v, ret⟩ := r
        rw [hx] at this
        cases hy : exec env s.now t.world accs i with
        | error er' => rw [hy] at this; cases this
        | ok r =>
          obtain ⟨v', ret'⟩ := r
          rw [hy] at this
          cases this with
          | succeeds h1 h2 =>
            rw [apply_ix_ok hx, apply_ix_ok (by rw [← h.1]; exact hy)]
            refine ⟨h.1, fun k hk => ?_⟩
            by_cases hlk : Listed accs k
            · exact h1 k hlk
            · show v k = v' k
              rw [(h2 k hlk).1, (h2 k hlk).2]
              exact h.2 k hk
    | tick d => exact ⟨by simp only [Chain.apply, h.1], h.2⟩
    | gc j =>
      refine ⟨h.1, fun k hk => ?_⟩
      simp only [Chain.apply]
      by_cases hkj : k = j
      · subst hkj; simp only [World.set, if_true]
      · simp only [World.set, if_neg hkj]; exact h.2 k hk
    | ext w => exact ⟨h.1, fun _ _ => rfl⟩
  · exact ⟨h.1, hw⟩

theorem off_runs {ks : List Key} {C : Chain → Event → Prop} {es es' : List Event} {s t s' t' : Chain} (h : Off ks s t)
    (hee : AllSameBut ks es es') (ha : ∀ e ∈ es, Avoids ks e) (h1 : RunsWith env C s es s')
    (h2 : RunsWith env C t es' t') : Off ks s' t' := by
  induction es generalizing s t es' with
  | nil =>
    cases es' with
    | nil => cases h1; cases h2; exact h
    | cons e' es' => exact hee.elim
  | cons e es ih =>
    cases es' with
    | nil => exact hee.elim
    | cons e' es' =>
      cases h1 with | cons _ _ h1 =>
      cases h2 with | cons _ _ h2 =>
      exact ih (off_apply h (ha e (by simp)) hee.1) hee.2 (fun x hx => ha x (by simp [hx])) h1 h2

theorem avoids_spares {ks : List Key} {e : Event} (h : Avoids ks e) {k : Key} (hk : k ∈ ks) : Spares k e := by
  cases e with
  | ix accs i => exact fun a ha hak => absurd (hak ▸ hk) (h a ha)
  | _ => trivial

/-- The history of a pool only gets longer. -/
theorem runs_longer {P : Key} {s s' : Chain} {es : List Event} (hr : RunsWith env (CleanEvent env) s es s') :
    ∀ {p : Pool}, Wf env s.now s.world → PoolAt env s.world P p → 0 < (s.world P).lamports →
    ∃ p' ext, PoolAt env s'.world P p' ∧ p'.cumulative = p.cumulative ++ ext ∧ History p'.cumulative ∧
      ∀ e ∈ ext, midnight s.now ≤ e.1 := by
  induction hr with
  | nil s => intro p hw hp _; exact ⟨p, [], hp, by simp, (poolAt_good hw hp).ok.history, by simp⟩
  | @cons s s' e es hv hc hr ih =>
    intro p hw hp hl
    obtain ⟨p1, a1, a2, a3⟩ := apply_pool hw hv hc hp hl
    obtain ⟨p', ext, b1, b2, b3, b4⟩ := ih (wf_apply hw hv hc) a1 a2
    have hnow : s.now ≤ (s.apply env e).now := run_now_le (C := fun _ _ => True) (.cons hv trivial (.nil _))
    have hmid : midnight s.now ≤ midnight (s.apply env e).now := by simp only [midnight]; omega
    have key : p1.cumulative = p.cumulative ∨ p1.cumulative = p.cumulative ++ [(midnight s.now, p1.index)] := by
      cases a3 with
      | same => exact Or.inl rfl
      | ix ok change =>
        rcases (change.history (poolAt_good hw hp).ok).1 with h | ⟨-, h⟩
        · exact Or.inl h
        · exact Or.inr h
    rcases key with h | h
    · exact ⟨p', ext, b1, by rw [b2, h], b3, fun x hx => Nat.le_trans hmid (b4 x hx)⟩
    · refine ⟨p', (midnight s.now, p1.index) :: ext, b1, by rw [b2, h]; simp, b3, fun x hx => ?_⟩
      rcases List.mem_cons.mp hx with rfl | hx
      · exact Nat.le_refl _
      · exact Nat.le_trans hmid (b4 x hx)

theorem runs_spared {k : Key} {s s' : Chain} {es : List Event} (hr : RunsWith env (fun _ e => Spares k e) s es s') :
    ∀ {m : Mining}, MiningAt env s.world k m → 0 < (s.world k).lamports → MiningAt env s'.world k m := by
  induction hr with
  | nil s => intro m hm _; exact hm
  | cons hv hc _ ih =>
    intro m hm hl
    obtain ⟨h1, h2⟩ := spared_apply hv hc hm hl
    exact ih h1 h2

theorem account_same {a b : Account} (h1 : a.owner = b.owner) (h2 : a.lamports = b.lamports) (h3 : a.len = b.len)
    (h4 : a.content = b.content) : a = b := by
  cases a; cases b; simp_all

theorem runs_each {C : Event → Prop} {s s' : Chain} {es : List Event} (h : RunsWith env (fun _ e => C e) s es s') :
    ∀ e ∈ es, C e := by
  induction h with
  | nil => intro e he; cases he
  | cons _ hc _ ih =>
    intro e he
    rcases List.mem_cons.mp he with rfl | he
    · exact hc
    · exact ih e he

/-- The minings `ks` have together got the stake of a deposit of `A` for the terms `k`, `n`. -/
def Shared (env : Env) (P : Key) (ks : List Key) (k n : Nat) (s t : Chain) (p : Pool) (A : Nat) : Prop :=
  ∃ W : Key → Nat → Nat, (∀ j ∈ ks, ∀ m, Member env s.world P j m → ∃ m', Member env t.world P j m' ∧
      Staked s.now p.cumulative m m' (W j)) ∧
    ∀ x, sumOver (fun j => W j x) ks = weightNat A k (midnight s.now + 86400 * n) x

theorem divided_le {P : Key} {ks : List Key} {k n A : Nat} {s t1 t2 s1 s2 : Chain} {p : Pool}
    {cumE ext : List (Nat × Nat)} (hc : History cumE) (he : cumE = p.cumulative ++ ext)
    (hx : ∀ e ∈ ext, midnight s.now ≤ e.1) (hw : Wf env s.now s.world)
    (hm : ∀ j ∈ ks, ∃ m, Member env s.world P j m ∧ Backed m)
    (h1 : Shared env P ks k n s t1 p A) (h2 : Shared env P ks k n s t2 p A)
    (k1 : ∀ j ∈ ks, ∀ m, MiningAt env t1.world j m → MiningAt env s1.world j m)
    (k2 : ∀ j ∈ ks, ∀ m, MiningAt env t2.world j m → MiningAt env s2.world j m) :
    owedTotal env s1.world P cumE ks ≤ owedTotal env s2.world P cumE ks +
      10 ^ 16 * sumOver (ofMember env s.world P fun m => expiredCount m (midnight s.now) + 1) ks := by
  subst he
  obtain ⟨W, a1, a2⟩ := h1
  obtain ⟨V, b1, b2⟩ := h2
  have hE : sumOver (fun j => earnedFrom p.cumulative ext s.now (W j)) ks =
      sumOver (fun j => earnedFrom p.cumulative ext s.now (V j)) ks := by
    unfold earnedFrom
    rw [earned_sum, earned_sum]
    exact earned_congr fun e _ => (a2 _).trans (b2 _).symm
  have key : ∀ ls : List Key, (∀ j ∈ ls, j ∈ ks) →
      sumOver (ofMember env s1.world P fun m => owed m (p.cumulative ++ ext)) ls +
        sumOver (fun j => earnedFrom p.cumulative ext s.now (V j)) ls ≤
      sumOver (ofMember env s2.world P fun m => owed m (p.cumulative ++ ext)) ls +
        sumOver (fun j => earnedFrom p.cumulative ext s.now (W j)) ls +
        10 ^ 16 * sumOver (ofMember env s.world P fun m => expiredCount m (midnight s.now) + 1) ls := by
    intro ls
    induction ls with
    | nil => intro _; simp [sumOver]
    | cons j ls ih =>
      intro hj
      have ih := ih fun x hx => hj x (by simp [hx])
      have hj := hj j (by simp)
      obtain ⟨m, c1, c2⟩ := hm j hj
      obtain ⟨m1, d1, d2⟩ := a1 j hj m c1
      obtain ⟨m2, f1, f2⟩ := b1 j hj m c1
      have g := staked_two hc hx (miningAt_ok hw c1.1).1 c2 d2 f2
      have o1 : Member env s1.world P j m1 := ⟨k1 j hj _ d1.1, d1.2⟩
      have o2 : Member env s2.world P j m2 := ⟨k2 j hj _ f1.1, f1.2⟩
      simp only [sumOver_cons, ofMember_eq o1, ofMember_eq o2, ofMember_eq c1]
      omega
  have := key ks fun _ h => h
  unfold owedTotal
  omega

end Verif
