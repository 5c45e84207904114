import Verif.Spec.Ratio
import Verif.Lemmas.TwinGain
import Verif.Lemmas.ScaleRun
import Verif.Lemmas.Memory
import Verif.Props.Solvency
/-!
Two histories whose budgets are in a fixed proportion.
-/

namespace Verif

open Spec

variable {env : Env}

/-! ## Numbers -/

theorem gap_int (x y : Nat) : (gap x y : Int) = ((x : Int) - y).natAbs := by
  unfold gap; omega

theorem quotient_le {n δ E M : Int} (hn : 1 ≤ n) (hM : 0 ≤ M) (h : n * δ ≤ E + M * (n - 1)) : δ ≤ max E 0 + M := by
  apply Classical.byContradiction
  intro hc
  have h1 : max E 0 + M + 1 ≤ δ := by omega
  have h2 := Int.mul_le_mul_of_nonneg_left h1 (show (0 : Int) ≤ n by omega)
  have h3 := Int.mul_le_mul_of_nonneg_left (show (0 : Int) ≤ max E 0 by omega) (show (0 : Int) ≤ n - 1 by omega)
  have h4 := Int.mul_comm n M
  simp only [Int.mul_add, Int.mul_sub, Int.sub_mul, Int.mul_one, Int.mul_zero, Int.one_mul] at *
  omega

theorem split_gap {n δ ρ E M : Int} (hn : 1 ≤ n) (hM : 0 ≤ M) (hE : E = n * δ + ρ) (h1 : ρ ≤ M * (n - 1)) (h2 : -ρ ≤ M * (n - 1)) :
    δ.natAbs + (E - δ).natAbs ≤ E.natAbs + 2 * M := by
  have k1 := quotient_le (δ := δ) (E := E) hn hM (by omega)
  have k2 := quotient_le (δ := -δ) (E := -E) hn hM (by rw [Int.mul_neg]; omega)
  omega

/-- A day's distribution from two budgets. -/
theorem daily_gap {a b A B ends now : Nat} :
    gap (b * dailyAmount A ends now) (a * dailyAmount B ends now) +
        gap (b * (A - dailyAmount A ends now)) (a * (B - dailyAmount B ends now)) ≤
      gap (b * A) (a * B) + 2 * max a b := by
  unfold dailyAmount
  split
  · simp only [Nat.sub_self, Nat.mul_zero]
    simp only [gap]; omega
  · generalize hd : (ends - now) / 86400 = n
    have hn : 0 < n := by omega
    have hA := Nat.div_add_mod A n
    have hB := Nat.div_add_mod B n
    have rA := Nat.mod_lt A hn
    have rB := Nat.mod_lt B hn
    have lA := Nat.div_le_self A n
    have lB := Nat.div_le_self B n
    generalize A / n = u at *
    generalize B / n = v at *
    generalize A % n = r at *
    generalize B % n = z at *
    have m1 : b * r ≤ max a b * (n - 1) := Nat.mul_le_mul (by omega) (by omega)
    have m2 : a * z ≤ max a b * (n - 1) := Nat.mul_le_mul (by omega) (by omega)
    have eA : ((b * A : Nat) : Int) = n * (b * u : Nat) + (b * r : Nat) := by
      rw [← hA, Nat.mul_add, Nat.mul_left_comm]; simp
    have eB : ((a * B : Nat) : Int) = n * (a * v : Nat) + (a * z : Nat) := by
      rw [← hB, Nat.mul_add, Nat.mul_left_comm]; simp
    have c1 : ((max a b * (n - 1) : Nat) : Int) = (max a b : Nat) * ((n : Int) - 1) := by
      rw [Int.natCast_mul, Int.natCast_sub hn]; rfl
    have key := split_gap (n := n) (δ := (b * u : Nat) - (a * v : Nat)) (ρ := (b * r : Nat) - (a * z : Nat))
      (E := (b * A : Nat) - (a * B : Nat)) (M := (max a b : Nat)) (by omega) (by omega)
      (by rw [eA, eB, Int.mul_sub]; omega) (by rw [← c1]; omega) (by rw [← c1]; omega)
    have s1 : b * (A - u) = b * A - b * u := Nat.mul_sub _ _ _
    have s2 : a * (B - v) = a * B - a * v := Nat.mul_sub _ _ _
    have s3 : b * u ≤ b * A := Nat.mul_le_mul_left _ lA
    have s4 : a * v ≤ a * B := Nat.mul_le_mul_left _ lB
    have g1 := gap_int (b * u) (a * v)
    have g2 := gap_int (b * A - b * u) (a * B - a * v)
    have g3 := gap_int (b * A) (a * B)
    rw [s1, s2]
    omega

/-- A mining's part of a day's distribution from two budgets. -/
theorem part_gap {a b D D' T x : Nat} (hT : 0 < T) (hx : x ≤ T) :
    b * (10 ^ 16 * D / T * x) ≤ a * (10 ^ 16 * D' / T * x) + 10 ^ 16 * gap (b * D) (a * D') + a * x := by
  have h1 := Nat.div_mul_le_self (10 ^ 16 * D) T
  have h2 := Nat.lt_div_mul_add (a := 10 ^ 16 * D') hT
  generalize 10 ^ 16 * D / T = u at *
  generalize 10 ^ 16 * D' / T = v at *
  have h3 : b * u * T ≤ 10 ^ 16 * (b * D) := by
    have := Nat.mul_le_mul_left b h1
    rwa [← Nat.mul_assoc, Nat.mul_left_comm] at this
  have h4 : 10 ^ 16 * (a * D') ≤ a * v * T + a * T := by
    have := Nat.mul_le_mul_left a (Nat.le_of_lt h2)
    rwa [Nat.mul_left_comm, Nat.mul_add, ← Nat.mul_assoc a v] at this
  have h5 : b * D ≤ a * D' + gap (b * D) (a * D') := by unfold gap; omega
  generalize gap (b * D) (a * D') = g at *
  rw [← Nat.mul_assoc b, ← Nat.mul_assoc a]
  by_cases hc : b * u ≤ a * v + a
  · have := Nat.mul_le_mul_right x hc
    rw [Nat.add_mul] at this
    omega
  · have h6 := Nat.mul_le_mul_left (b * u - (a * v + a)) hx
    rw [Nat.sub_mul, Nat.sub_mul, Nat.add_mul, Nat.add_mul] at h6
    have h7 := Nat.mul_le_mul_right T (Nat.le_of_lt (Nat.lt_of_not_le hc))
    rw [Nat.add_mul] at h7
    omega

/-! ## The pools -/

theorem Spec.SameCalendar.length {p q : Pool} (h : SameCalendar p q) : p.cumulative.length = q.cumulative.length := by
  have := congrArg List.length h.1
  simpa using this

theorem Spec.SameCalendar.newDay {p q : Pool} (h : SameCalendar p q) {now : Nat} : NewDay p now ↔ NewDay q now := by
  have key : ∀ {p q : Pool}, p.cumulative.map (·.1) = q.cumulative.map (·.1) → NewDay p now → NewDay q now := by
    intro p q h hn e he
    have : e.1 ∈ q.cumulative.map (·.1) := List.mem_map.mpr ⟨e, he, rfl⟩
    rw [← h] at this
    obtain ⟨y, hy, hy'⟩ := List.mem_map.mp this
    rw [← hy']; exact hn y hy
  exact ⟨key h.1, key h.1.symm⟩

/-- The same instruction, or FillVault with amounts in proportion. -/
def RatioIx (a b : Nat) (i i' : Ix) : Prop :=
  (i = i' ∧ ∀ r x, i ≠ .fillVault r x) ∨ ∃ f f' x, i = .fillVault f x ∧ i' = .fillVault f' x ∧ b * f = a * f'

theorem distributedFrom_other {accs : List AccountInfo} {now : Nat} {P : Key} {p : Pool} {i : Ix} (h : i ≠ .distributeRewards) :
    distributedFrom accs now P p i = 0 := by
  cases i <;> first | rfl | exact absurd rfl h

theorem distributedFrom_elsewhere {accs : List AccountInfo} {now : Nat} {P : Key} {p : Pool} {i : Ix}
    (h : i.isBudget = true → accs[0]?.map (·.key) ≠ some P) : distributedFrom accs now P p i = 0 := by
  by_cases hi : i = .distributeRewards
  · subst hi
    have := h rfl
    simp only [distributedFrom]
    rw [if_neg]
    rintro ⟨h1, -⟩
    rw [FirstIs, List.head?_eq_getElem?] at h1
    exact this h1
  · exact distributedFrom_other hi

/-- What changes in the pool at `P` in two histories with proportional budgets. -/
theorem ratio_change {a b : Nat} {now : Nat} {v w : World} {accs : List AccountInfo} {i i' : Ix} {r r' : Option Nat} {v' w' : World}
    {P : Key} (hws : Wf env now v) (hwt : Wf env now w) (hii : RatioIx a b i i')
    (h1 : Step env now v v' accs i r) (h2 : Step env now w w' accs i' r') {p p' q q' : Pool}
    (hp : PoolAt env v P p) (hq : PoolAt env w P q) (hp' : PoolAt env v' P p') (hq' : PoolAt env w' P q') (hd : SameCalendar p q) :
    SameCalendar p' q' ∧ p.cumulative.length ≤ p'.cumulative.length ∧ (p.cumulative.length < env.caps.index →
      gap (b * distributedFrom accs now P p i) (a * distributedFrom accs now P q i') +
        gap (b * p'.tokensAvailable) (a * q'.tokensAvailable) + 2 * max a b * p.cumulative.length ≤
      gap (b * p.tokensAvailable) (a * q.tokensAvailable) + 2 * max a b * p'.cumulative.length) := by
  obtain ⟨p2, a1, a2, -⟩ := h1.pool hp
  obtain rfl := PoolAt.unique hp' a1
  obtain ⟨q2, b1, b2, -⟩ := h2.pool hq
  obtain rfl := PoolAt.unique hq' b1
  have okp := (poolAt_good hws hp).ok
  have okq := (poolAt_good hwt hq).ok
  have quiet : p'.cumulative = p.cumulative → q'.cumulative = q.cumulative → p'.distributionEndsAt = q'.distributionEndsAt →
      gap (b * distributedFrom accs now P p i) (a * distributedFrom accs now P q i') +
        gap (b * p'.tokensAvailable) (a * q'.tokensAvailable) ≤ gap (b * p.tokensAvailable) (a * q.tokensAvailable) →
      SameCalendar p' q' ∧ p.cumulative.length ≤ p'.cumulative.length ∧ (p.cumulative.length < env.caps.index →
      gap (b * distributedFrom accs now P p i) (a * distributedFrom accs now P q i') +
        gap (b * p'.tokensAvailable) (a * q'.tokensAvailable) + 2 * max a b * p.cumulative.length ≤
      gap (b * p.tokensAvailable) (a * q.tokensAvailable) + 2 * max a b * p'.cumulative.length) := by
    intro e1 e2 e3 e4
    refine ⟨⟨by rw [e1, e2]; exact hd.1, e3⟩, by rw [e1]; exact Nat.le_refl _, fun _ => ?_⟩
    rw [e1]
    omega
  have z : ∀ {x y : Nat}, x = 0 → y = 0 → gap (b * x) (a * y) = 0 := by rintro _ _ rfl rfl; simp [gap]
  have noDist : ∀ {j : Ix} {x : Pool}, j.isStake = true → distributedFrom accs now P x j = 0 := by
    intro j x hj
    exact distributedFrom_other (by rintro rfl; cases hj)
  cases a2 with
  | same other =>
    have other' : i'.isBudget = true → accs[0]?.map (·.key) ≠ some P := by
      rcases hii with ⟨rfl, -⟩ | ⟨f, f', x, rfl, rfl, -⟩
      · exact other
      · exact fun _ => other rfl
    have z1 := z (distributedFrom_elsewhere (now := now) (p := p) other) (distributedFrom_elsewhere (now := now) (p := q) other')
    cases b2 with
    | same => exact quiet rfl rfl hd.2 (by rw [z1]; omega)
    | stake hi q2 =>
      exact quiet rfl q2.cumulative (by rw [q2.ends]; exact hd.2) (by rw [z1, q2.avail]; omega)
    | distribute acc => exact absurd acc (other' rfl)
    | fill acc => exact absurd acc (other' rfl)
  | stake hi q1 =>
    obtain rfl : i = i' := by
      rcases hii with ⟨rfl, -⟩ | ⟨f, f', x, rfl, rfl, -⟩
      · rfl
      · cases hi
    have z1 := z (noDist (x := p) hi) (noDist (x := q) hi)
    cases b2 with
    | same => exact quiet q1.cumulative rfl (by rw [q1.ends]; exact hd.2) (by rw [z1, q1.avail]; omega)
    | stake hi q2 =>
      exact quiet q1.cumulative q2.cumulative (by rw [q1.ends, q2.ends]; exact hd.2) (by rw [z1, q1.avail, q2.avail]; omega)
    | distribute acc => cases hi
    | fill acc => cases hi
  | fill acc =>
    rcases hii with ⟨rfl, h⟩ | ⟨f, f', x, h, rfl, hr⟩
    · exact absurd rfl (h _ _)
    · cases h
      cases b2 with
      | same other => exact absurd acc (other rfl)
      | stake hi => cases hi
      | fill =>
        refine quiet rfl rfl rfl ?_
        rw [z (distributedFrom_other (by nofun)) (distributedFrom_other (by nofun))]
        simp only [Nat.mul_add, hr, gap]
        omega
  | distribute acc _ am1 op1 =>
    obtain rfl : i' = .distributeRewards := by
      rcases hii with ⟨h, -⟩ | ⟨f, f', x, h, -, -⟩
      · exact h.symm
      · cases h
    have first : FirstIs accs P := by rw [FirstIs, List.head?_eq_getElem?]; exact acc
    cases b2 with
    | same other => exact absurd acc (other rfl)
    | stake hi => cases hi
    | distribute _ _ am2 op2 =>
      have e1 := rewardsToDistribute_ok am1
      have e2 := rewardsToDistribute_ok am2
      have hlen := hd.length
      by_cases hn : NewDay p now
      · have hn' := hd.newDay.mp hn
        obtain ⟨T, t1, t2, t3, t4, rfl⟩ := distribute_new okp hn op1
        obtain ⟨T', t1', t2', t3', t4', rfl⟩ := distribute_new okq hn' op2
        by_cases hroom : p.cumulative.length < env.caps.index
        · have hroom' : q.cumulative.length < env.caps.index := by rw [← hlen]; exact hroom
          simp only [if_pos hroom, if_pos hroom']
          refine ⟨⟨by simp [hd.1], hd.2⟩, by simp, fun _ => ?_⟩
          simp only [distributedFrom, if_pos (And.intro first hn), if_pos (And.intro first hn'), List.length_append,
            List.length_singleton, Nat.mul_add]
          have := daily_gap (a := a) (b := b) (A := p.tokensAvailable) (B := q.tokensAvailable) (ends := p.distributionEndsAt)
            (now := now)
          rw [e1, e2, ← hd.2]
          omega
        · have hroom' : ¬ q.cumulative.length < env.caps.index := by rw [← hlen]; exact hroom
          simp only [if_neg hroom, if_neg hroom']
          exact ⟨hd, Nat.le_refl _, fun h => absurd h hroom⟩
      · have hn' : ¬ NewDay q now := fun h => hn (hd.newDay.mpr h)
        obtain ⟨T, -, rfl⟩ := distribute_again okp hn op1
        obtain ⟨T', -, rfl⟩ := distribute_again okq hn' op2
        refine quiet rfl rfl hd.2 (Nat.le_of_eq ?_)
        rw [z, Nat.zero_add]
        · simp only [distributedFrom]; rw [if_neg (fun h => hn h.2)]
        · simp only [distributedFrom]; rw [if_neg (fun h => hn' h.2)]

theorem ratioFill_cases {a b : Nat} {e e' : Event} (h : RatioFill a b e e') :
    (∃ accs i i', e = .ix accs i ∧ e' = .ix accs i' ∧ RatioIx a b i i') ∨ (∃ d, e = .tick d ∧ e' = .tick d) ∨
      (∃ k, e = .gc k ∧ e' = .gc k) ∨ ∃ w w', e = .ext w ∧ e' = .ext w' := by
  unfold RatioFill at h
  split at h
  · obtain ⟨r', rfl, hr⟩ := h
    exact Or.inl ⟨_, _, _, rfl, rfl, Or.inr ⟨_, _, _, rfl, rfl, hr⟩⟩
  · obtain ⟨w, rfl⟩ := h
    exact Or.inr (Or.inr (Or.inr ⟨_, _, rfl, rfl⟩))
  · rename_i hne _
    subst h
    cases e' with
    | ix accs i => exact Or.inl ⟨_, _, _, rfl, rfl, Or.inl ⟨rfl, fun r x h => hne accs r x (by rw [h])⟩⟩
    | tick d => exact Or.inr (Or.inl ⟨_, rfl, rfl⟩)
    | gc k => exact Or.inr (Or.inr (Or.inl ⟨_, rfl, rfl⟩))
    | ext w => exact Or.inr (Or.inr (Or.inr ⟨_, _, rfl, rfl⟩))

theorem ratioFill_other {a b : Nat} {e e' : Event} (h : RatioFill a b e e') : OtherFill e e' := by
  rcases ratioFill_cases h with ⟨accs, i, i', rfl, rfl, hr⟩ | ⟨d, rfl, rfl⟩ | ⟨k, rfl, rfl⟩ | ⟨w, w', rfl, rfl⟩
  · rcases hr with ⟨rfl, -⟩ | ⟨f, f', x, rfl, rfl, -⟩
    · exact Or.inl (Or.inl rfl)
    · exact Or.inr ⟨_, _, _, _, _, rfl, rfl⟩
  · exact Or.inl (Or.inl rfl)
  · exact Or.inl (Or.inl rfl)
  · exact Or.inl (Or.inr ⟨_, _, rfl, rfl⟩)

theorem distributedBy_idle {u : Chain} {f : Event} {P : Key} (hf : ∀ accs i, f ≠ .ix accs i) : distributedBy env P u f = 0 := by
  cases f <;> first | rfl | exact absurd rfl (hf _ _)

theorem distributedBy_error {s : Chain} {P : Key} {accs : List AccountInfo} {i : Ix} {er : Err}
    (h : exec env s.now s.world accs i = .error er) : distributedBy env P s (.ix accs i) = 0 := by
  have : succeeded env s accs i = false := by simp [succeeded, h]
  simp only [distributedBy, this]
  split <;> simp

theorem distributedBy_ok {s : Chain} {P : Key} {accs : List AccountInfo} {i : Ix} {r : World × Option Nat} {p : Pool}
    (h : exec env s.now s.world accs i = .ok r) (hp : PoolAt env s.world P p) :
    distributedBy env P s (.ix accs i) = distributedFrom accs s.now P p i := by
  have : succeeded env s accs i = true := by simp [succeeded, h]
  simp only [distributedBy, this, hp.2, if_true]

/-- One event. -/
theorem ratio_event {a b : Nat} {P : Key} {s t : Chain} {e e' : Event} {p q p1 q1 : Pool} (hnow : s.now = t.now)
    (hs : Wf env s.now s.world) (ht : Wf env t.now t.world) (hv1 : e.Valid env s) (hv2 : e'.Valid env t)
    (hc1 : CleanEvent env s e) (hc2 : CleanEvent env t e') (hee : RatioFill a b e e')
    (hgo : goesThrough env s e = goesThrough env t e') (hp : PoolAt env s.world P p) (hq : PoolAt env t.world P q)
    (hpl : 0 < (s.world P).lamports) (hql : 0 < (t.world P).lamports) (hd : SameCalendar p q)
    (hp1 : PoolAt env (s.apply env e).world P p1) (hq1 : PoolAt env (t.apply env e').world P q1) :
    (s.apply env e).now = (t.apply env e').now ∧ SameCalendar p1 q1 ∧ p.cumulative.length ≤ p1.cumulative.length ∧
      (p.cumulative.length < env.caps.index →
      gap (b * distributedBy env P s e) (a * distributedBy env P t e') +
        gap (b * p1.tokensAvailable) (a * q1.tokensAvailable) + 2 * max a b * p.cumulative.length ≤
      gap (b * p.tokensAvailable) (a * q.tokensAvailable) + 2 * max a b * p1.cumulative.length) := by
  have idle : (∀ accs i, e ≠ .ix accs i) → (∀ accs i, e' ≠ .ix accs i) → SameCalendar p1 q1 ∧
      p.cumulative.length ≤ p1.cumulative.length ∧ (p.cumulative.length < env.caps.index →
      gap (b * distributedBy env P s e) (a * distributedBy env P t e') +
        gap (b * p1.tokensAvailable) (a * q1.tokensAvailable) + 2 * max a b * p.cumulative.length ≤
      gap (b * p.tokensAvailable) (a * q.tokensAvailable) + 2 * max a b * p1.cumulative.length) := by
    intro i1 i2
    obtain rfl := pool_waits hv1 hp hpl i1 hp1
    obtain rfl := pool_waits hv2 hq hql i2 hq1
    refine ⟨hd, Nat.le_refl _, fun _ => ?_⟩
    rw [distributedBy_idle i1, distributedBy_idle i2, Nat.mul_zero, Nat.mul_zero]
    simp [gap]
  rcases ratioFill_cases hee with ⟨accs, i, i', rfl, rfl, hii⟩ | ⟨d, rfl, rfl⟩ | ⟨k, rfl, rfl⟩ | ⟨w, w', rfl, rfl⟩
  · have hal : succeeded env s accs i = succeeded env t accs i' := hgo
    cases hx : exec env s.now s.world accs i with
    | error er =>
      cases hy : exec env t.now t.world accs i' with
      | ok r => simp [succeeded, hx, hy] at hal
      | error er' =>
        rw [apply_ix_error hx] at hp1 ⊢
        rw [apply_ix_error hy] at hq1 ⊢
        obtain rfl := PoolAt.unique hp hp1
        obtain rfl := PoolAt.unique hq hq1
        refine ⟨hnow, hd, Nat.le_refl _, fun _ => ?_⟩
        rw [distributedBy_error hx, distributedBy_error hy, Nat.mul_zero, Nat.mul_zero]
        simp [gap]
    | ok r =>
      cases hy : exec env t.now t.world accs i' with
      | error er' => simp [succeeded, hx, hy] at hal
      | ok r' =>
        rw [distributedBy_ok hx hp, distributedBy_ok hy hq]
        obtain ⟨v', ret⟩ := r
        obtain ⟨w', ret'⟩ := r'
        rw [apply_ix_ok hx] at hp1 ⊢
        rw [apply_ix_ok hy] at hq1 ⊢
        have st1 := step_of_exec hs hv1 hc1 hx
        have st2 := step_of_exec ht hv2 hc2 hy
        rw [← hnow] at st2 ⊢
        exact ⟨rfl, ratio_change hs (by rw [hnow]; exact ht) hii st1 st2 hp hq hp1 hq1 hd⟩
  · exact ⟨by simp only [Chain.apply, hnow], idle (by nofun) (by nofun)⟩
  · exact ⟨hnow, idle (by nofun) (by nofun)⟩
  · exact ⟨hnow, idle (by nofun) (by nofun)⟩

/-- The sum of the differences of what is distributed. -/
def gapIn (env : Env) (a b : Nat) (P : Key) : Chain → Chain → List Event → List Event → Nat
  | s, t, e :: es, e' :: es' => gap (b * distributedBy env P s e) (a * distributedBy env P t e') +
      gapIn env a b P (s.apply env e) (t.apply env e') es es'
  | _, _, _, _ => 0

theorem gap_totalIn {a b : Nat} {P : Key} {es es' : List Event} {s t : Chain} (hal : Alike env (RatioFill a b) s t es es') :
    gap (b * totalIn env (distributedBy env P) s es) (a * totalIn env (distributedBy env P) t es') ≤ gapIn env a b P s t es es' := by
  induction es generalizing s t es' with
  | nil =>
    cases es' with
    | cons => exact hal.elim
    | nil => simp [totalIn, gap]
  | cons e es ih =>
    cases es' with
    | nil => exact hal.elim
    | cons e' es' =>
      have := ih hal.2.2
      simp only [totalIn, gapIn, Nat.mul_add]
      simp only [gap] at *
      omega

/-- Whole histories of the pools. -/
theorem ratio_runs {a b : Nat} {P : Key} {es es' : List Event} {s t s' t' : Chain}
    (h1 : RunsWith env (CleanEvent env) s es s') (h2 : RunsWith env (CleanEvent env) t es' t')
    (hal : Alike env (RatioFill a b) s t es es') (hnow : s.now = t.now) (hs : Wf env s.now s.world) (ht : Wf env t.now t.world)
    {p q p' q' : Pool} (hp : PoolAt env s.world P p) (hq : PoolAt env t.world P q) (hpl : 0 < (s.world P).lamports)
    (hql : 0 < (t.world P).lamports) (hd : SameCalendar p q) (hp' : PoolAt env s'.world P p') (hq' : PoolAt env t'.world P q')
    (hroom : p'.cumulative.length < env.caps.index) :
    SameCalendar p' q' ∧ gapIn env a b P s t es es' + gap (b * p'.tokensAvailable) (a * q'.tokensAvailable) +
        2 * max a b * p.cumulative.length ≤
      gap (b * p.tokensAvailable) (a * q.tokensAvailable) + 2 * max a b * p'.cumulative.length := by
  induction es generalizing s t es' p q with
  | nil =>
    cases es' with
    | cons => exact hal.elim
    | nil =>
      cases h1; cases h2
      rw [PoolAt.unique hp' hp, PoolAt.unique hq' hq]
      exact ⟨hd, by simp [gapIn]⟩
  | cons e es ih =>
    cases es' with
    | nil => exact hal.elim
    | cons e' es' =>
      have l1 := length_le_end h1 hs hp hpl hp'
      cases h1 with | cons hv1 hc1 h1 =>
      cases h2 with | cons hv2 hc2 h2 =>
      obtain ⟨hee, hgo, hal⟩ := hal
      obtain ⟨p1, b1, b2, -⟩ := apply_pool hs hv1 hc1 hp hpl
      obtain ⟨q1, c1, c2, -⟩ := apply_pool ht hv2 hc2 hq hql
      obtain ⟨x1, x2, x3, x4⟩ := ratio_event hnow hs ht hv1 hv2 hc1 hc2 hee hgo hp hq hpl hql hd b1 c1
      obtain ⟨y1, y2⟩ := ih h1 h2 hal x1 (wf_apply hs hv1 hc1) (wf_apply ht hv2 hc2) b1 c1 b2 c2 x2
      have x5 := x4 (by omega)
      refine ⟨y1, ?_⟩
      simp only [gapIn]
      omega

/-! ## The rewards of a mining -/

theorem earned_form {P k : Key} {s : Chain} {e : Event} {m : Mining} {p : Pool} (hm : MiningAt env s.world k m)
    (hp : PoolAt env s.world P p) : earnedBy env P k s e =
      10 ^ 16 * distributedBy env P s e / (totalOn p (midnight s.now)).toNat * earningOn m (midnight s.now) := by
  cases e with
  | ix accs i =>
    simp only [earnedBy, hm.2, incomeBy, hp.2, incomeFrom, distributedBy]
    split <;> simp
  | _ => simp [earnedBy, hm.2, incomeBy, distributedBy]

theorem stakeIn_form {P k : Key} {s : Chain} {e : Event} {m : Mining} (hm : MiningAt env s.world k m) :
    stakeIn env P k s e = if 0 < distributedBy env P s e then earningOn m (midnight s.now) else 0 := by
  simp only [stakeIn, hm.2, takesPart]

/-- One event. -/
theorem earned_gap {a b : Nat} {P k : Key} {s t : Chain} {e e' : Event} {m n : Mining} {p q : Pool} (hnow : s.now = t.now)
    (hm : MiningAt env s.world k m) (hn : MiningAt env t.world k n) (hp : PoolAt env s.world P p) (hq : PoolAt env t.world P q)
    (hmn : SameStake m n) (hpq : SameStakes p q)
    (hle : (earningOn m (midnight s.now) : Int) ≤ totalOn p (midnight s.now)) :
    b * earnedBy env P k s e ≤ a * earnedBy env P k t e' +
        10 ^ 16 * gap (b * distributedBy env P s e) (a * distributedBy env P t e') + a * stakeIn env P k s e ∧
      a * earnedBy env P k t e' ≤ b * earnedBy env P k s e +
        10 ^ 16 * gap (b * distributedBy env P s e) (a * distributedBy env P t e') + b * stakeIn env P k t e' := by
  have e1 : earningOn n (midnight t.now) = earningOn m (midnight s.now) := by rw [← hnow, hmn]; rfl
  have e2 : totalOn q (midnight t.now) = totalOn p (midnight s.now) := by rw [← hnow, hpq]; rfl
  rw [earned_form hm hp, earned_form hn hq, stakeIn_form hm, stakeIn_form hn, e1, e2]
  have hx : earningOn m (midnight s.now) ≤ (totalOn p (midnight s.now)).toNat := by omega
  generalize (totalOn p (midnight s.now)).toNat = T at *
  generalize earningOn m (midnight s.now) = x at *
  generalize distributedBy env P s e = D at *
  generalize distributedBy env P t e' = D' at *
  have hsym : gap (a * D') (b * D) = gap (b * D) (a * D') := by unfold gap; omega
  rcases Nat.eq_zero_or_pos T with rfl | hT
  · simp
  · have k1 := part_gap (a := a) (b := b) (D := D) (D' := D') hT hx
    have k2 := part_gap (a := b) (b := a) (D := D') (D' := D) hT hx
    rw [hsym] at k2
    constructor
    · rcases Nat.eq_zero_or_pos D with rfl | h0
      · simp
      · rw [if_pos h0]; exact k1
    · rcases Nat.eq_zero_or_pos D' with rfl | h0
      · simp
      · rw [if_pos h0]; exact k2

/-- Whole histories of a mining. -/
theorem ratio_earned (hi : env.PdaInjective) {a b : Nat} {P V k : Key} {es0 es es' : List Event} {s0 s t s' t' : Chain}
    (hg : Genesis env s0) (r0 : RunsWith env (Orderly env P V) s0 es0 s)
    (h1 : RunsWith env (fun s e => Orderly env P V s e ∧ CarefulEvent env P k s e) s es s')
    (h2 : RunsWith env (CarefulEvent env P k) t es' t')
    (hal : Alike env (RatioFill a b) s t es es') (hnow : s.now = t.now) (ht : Reachable env t) (hn64 : s'.now < 2 ^ 64)
    (h : Tied env s.world t.world) {m : Mining} (hm : Proper env s.world k m) (hpool : m.rewardPool = P)
    (hml : 0 < (s.world k).lamports) {p p' : Pool} (hp : PoolAt env s.world P p) (hpl : 0 < (s.world P).lamports)
    (hV : env.findVault P p.rewardMint = some (V, p.bump))
    (hidx : m.index ≤ p.index) (hp' : PoolAt env s'.world P p') (hroom : p'.cumulative.length < env.caps.index) :
    b * totalIn env (earnedBy env P k) s es ≤ a * totalIn env (earnedBy env P k) t es' + 10 ^ 16 * gapIn env a b P s t es es' +
        a * totalIn env (stakeIn env P k) s es ∧
      a * totalIn env (earnedBy env P k) t es' ≤ b * totalIn env (earnedBy env P k) s es + 10 ^ 16 * gapIn env a b P s t es es' +
        b * totalIn env (stakeIn env P k) t es' ∧ ∃ m', Proper env s'.world k m' := by
  induction es generalizing s t es0 es' m p with
  | nil =>
    cases es' with
    | nil => cases h1; exact ⟨by simp [totalIn], by simp [totalIn], m, hm⟩
    | cons => exact hal.elim
  | cons e es ih =>
    cases es' with
    | nil => exact hal.elim
    | cons e' es' =>
      have hnn : s.now < 2 ^ 64 := Nat.lt_of_le_of_lt (run_now_le h1) hn64
      cases h1 with | cons hv1 hc1 h1 =>
      cases h2 with | cons hv2 hc2 h2 =>
      obtain ⟨hee, hgo, hal⟩ := hal
      have hs : Reachable env s := ⟨s0, _, hg, r0.weaken fun _ _ h => h.clean⟩
      have hs' := hs.step hv1 hc1.2.1
      obtain ⟨hb, hn⟩ := both_of hnow (reachable_wf hs) (reachable_wf ht) hv1 hv2 hc1.2.1 hc2.1 (ratioFill_other hee) hgo
      obtain ⟨p1, b1, b2, b3⟩ := apply_pool (reachable_wf hs) hv1 hc1.2.1 hp hpl
      have hlen := length_le_end (h1.weaken fun _ _ h => h.2.1) (reachable_wf hs') b1 b2 hp'
      obtain ⟨m1, g1, g2, g3, g4, -⟩ := event_life hs hv1 hc1.2 hm hpool hml hp hidx b3 (Nat.lt_of_le_of_lt hlen hroom)
      have hsp := b3.same_pool
      obtain ⟨i1, i2, i3⟩ := ih (r0.append (.cons hv1 hc1.1 (.nil _))) h1 h2 hal hn (ht.step hv2 hc2.1)
        (h.both hnow (reachable_wf hs) (reachable_wf ht) hb) g1 g2 g3 b1 b2
        (by rw [hsp.rewardMint, hsp.bump]; exact hV) g4
      obtain ⟨n, hn1, hmn⟩ := h.minings k m hm.1 hm.2
      obtain ⟨q, hq1, hpq⟩ := h.pools P p hp
      have hle : (earningOn m (midnight s.now) : Int) ≤ totalOn p (midnight s.now) := by
        have := C10_total_stake_partial hi hg r0 hnn hp hV (ks := [k]) (by simp) (Nat.le_refl _)
        simpa [earningTotal, sumOver, ofMember_eq (⟨hm.1, hpool⟩ : Member env s.world P k m)] using this
      obtain ⟨j1, j2⟩ := earned_gap (a := a) (b := b) (e := e) (e' := e') hnow hm.1 hn1 hp hq1 hmn hpq hle
      simp only [totalIn, gapIn, Nat.mul_add]
      exact ⟨by omega, by omega, i3⟩

theorem alike_mono {R S : Event → Event → Prop} (hRS : ∀ e e', R e e' → S e e') {es es' : List Event} {s t : Chain}
    (h : Alike env R s t es es') : Alike env S s t es es' := by
  induction es generalizing s t es' with
  | nil =>
    cases es' with
    | nil => trivial
    | cons => exact h.elim
  | cons e es ih =>
    cases es' with
    | nil => exact h.elim
    | cons e' es' => exact ⟨hRS _ _ h.1, h.2.1, ih h.2.2⟩

theorem ratio_combine {K a b X1 X2 O1 O2 e1 e2 R G S g g' M l l' : Nat} (h1 : X1 ≤ O1 + e1) (h2 : O2 + e2 ≤ X2 + K * R)
    (h3 : b * e1 ≤ a * e2 + K * G + a * S) (h4 : G + g' + M * l ≤ g + M * l') :
    b * X1 + a * O2 ≤ a * X2 + b * O1 + K * (g + M * (l' - l) + a * R) + a * S := by
  have k1 := Nat.mul_le_mul_left b h1
  have k2 := Nat.mul_le_mul_left a h2
  have h5 : G ≤ g + M * (l' - l) := by rw [Nat.mul_sub]; omega
  have k3 := Nat.mul_le_mul_left K h5
  have k4 := Nat.mul_left_comm a K R
  simp only [Nat.mul_add] at *
  omega

end Verif
