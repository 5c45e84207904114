import Verif.Spec.Superpose
import Verif.Lemmas.Ratio
/-!
A history and two others among which its budget is divided.
-/

namespace Verif

open Spec

variable {env : Env}

/-! ## Numbers -/

/-- A day's distribution from a budget and from its two parts. -/
theorem daily_shared {A B C ends now : Nat} :
    gap (dailyAmount A ends now) (dailyAmount B ends now + dailyAmount C ends now) +
        gap (A - dailyAmount A ends now) (B - dailyAmount B ends now + (C - dailyAmount C ends now)) ≤
      gap A (B + C) + 4 := by
  unfold dailyAmount
  split
  · simp only [Nat.sub_self]
    simp only [gap]; omega
  · generalize hd : (ends - now) / 86400 = n
    have hn : 0 < n := by omega
    have hA := Nat.div_add_mod A n
    have hB := Nat.div_add_mod B n
    have hC := Nat.div_add_mod C n
    have rA := Nat.mod_lt A hn
    have rB := Nat.mod_lt B hn
    have rC := Nat.mod_lt C hn
    have lA := Nat.div_le_self A n
    have lB := Nat.div_le_self B n
    have lC := Nat.div_le_self C n
    generalize A / n = a at *
    generalize B / n = b at *
    generalize C / n = c at *
    generalize A % n = x at *
    generalize B % n = y at *
    generalize C % n = z at *
    have eA : (A : Int) = n * a + x := by rw [← hA]; simp
    have eB : (B : Int) = n * b + y := by rw [← hB]; simp
    have eC : (C : Int) = n * c + z := by rw [← hC]; simp
    have key := split_gap (n := n) (δ := (a : Int) - (b + c)) (ρ := (x : Int) - (y + z)) (E := (A : Int) - (B + C)) (M := 2)
      (by omega) (by omega) (by rw [eA, eB, eC, Int.mul_sub, Int.mul_add]; omega) (by omega) (by omega)
    simp only [gap]
    omega

/-- A mining's part of a day's distribution from a budget and from its two parts. -/
theorem part_shared {D E F T x : Nat} (hT : 0 < T) (hx : x ≤ T) :
    10 ^ 16 * D / T * x ≤ 10 ^ 16 * E / T * x + 10 ^ 16 * F / T * x + 10 ^ 16 * gap D (E + F) + 2 * x ∧
      10 ^ 16 * E / T * x + 10 ^ 16 * F / T * x ≤ 10 ^ 16 * D / T * x + 10 ^ 16 * gap D (E + F) + x := by
  have h1 := Nat.div_mul_le_self (10 ^ 16 * D) T
  have h2 := Nat.lt_div_mul_add (a := 10 ^ 16 * D) hT
  have h3 := Nat.div_mul_le_self (10 ^ 16 * E) T
  have h4 := Nat.lt_div_mul_add (a := 10 ^ 16 * E) hT
  have h5 := Nat.div_mul_le_self (10 ^ 16 * F) T
  have h6 := Nat.lt_div_mul_add (a := 10 ^ 16 * F) hT
  generalize 10 ^ 16 * D / T = u at *
  generalize 10 ^ 16 * E / T = v at *
  generalize 10 ^ 16 * F / T = w at *
  have g1 : D ≤ E + F + gap D (E + F) := by unfold gap; omega
  have g2 : E + F ≤ D + gap D (E + F) := by unfold gap; omega
  generalize gap D (E + F) = g at *
  constructor
  · by_cases hc : u ≤ v + w + 2
    · have := Nat.mul_le_mul_right x hc
      simp only [Nat.add_mul] at this
      omega
    · have h6 := Nat.mul_le_mul_left (u - (v + w + 2)) hx
      have h7 := Nat.mul_le_mul_right T (Nat.le_of_lt (Nat.lt_of_not_le hc))
      simp only [Nat.sub_mul, Nat.add_mul] at h6 h7
      omega
  · by_cases hc : v + w ≤ u + 1
    · have := Nat.mul_le_mul_right x hc
      simp only [Nat.add_mul] at this
      omega
    · have h6 := Nat.mul_le_mul_left (v + w - (u + 1)) hx
      have h7 := Nat.mul_le_mul_right T (Nat.le_of_lt (Nat.lt_of_not_le hc))
      simp only [Nat.sub_mul, Nat.add_mul] at h6 h7
      omega

/-! ## The pools -/

/-- How the distribution days, the end and the budget of a pool develop, and what is distributed. -/
def budgetNext (P : Key) (now : Nat) (go : Bool) (days : List Nat) (ends avail : Nat) : Event → (List Nat × Nat × Nat) × Nat
  | .ix accs (.fillVault r x) =>
    if go = true ∧ FirstIs accs P then ((days, bod x, avail + r), 0) else ((days, ends, avail), 0)
  | .ix accs .distributeRewards =>
    if go = true ∧ FirstIs accs P ∧ ∀ d ∈ days, d ≠ midnight now then
      ((days ++ [midnight now], ends, avail - dailyAmount avail ends now), dailyAmount avail ends now)
    else ((days, ends, avail), 0)
  | _ => ((days, ends, avail), 0)

theorem newDay_days {p : Pool} {now : Nat} : (∀ d ∈ p.cumulative.map (·.1), d ≠ midnight now) ↔ NewDay p now := by
  simp [NewDay]

theorem budget_event {s : Chain} {P : Key} {p p' : Pool} {e : Event} (hw : Wf env s.now s.world) (hp : PoolAt env s.world P p)
    (h : PoolEvent env s P p e p') (hroom : p.cumulative.length < env.caps.index) :
    ((p'.cumulative.map (·.1), p'.distributionEndsAt, p'.tokensAvailable), distributedBy env P s e) =
      budgetNext P s.now (goesThrough env s e) (p.cumulative.map (·.1)) p.distributionEndsAt p.tokensAvailable e := by
  have okp := (poolAt_good hw hp).ok
  cases h with
  | same none =>
    cases e with
    | ix accs i =>
      obtain ⟨er, hx⟩ := none _ _ rfl
      have hgo : goesThrough env s (.ix accs i) = false := by simp [goesThrough, succeeded, hx]
      rw [distributedBy_error hx, hgo]
      cases i <;> simp [budgetNext]
    | _ => rfl
  | ix ok change =>
    rename_i accs i w' ret
    have hgo : goesThrough env s (.ix accs i) = true := by simp [goesThrough, succeeded, ok]
    rw [distributedBy_ok ok hp, hgo]
    cases change with
    | same other =>
      rw [distributedFrom_elsewhere other]
      cases i with
      | fillVault r x => simp only [budgetNext]; rw [if_neg (fun h => other rfl (firstIs_iff.mp h.2))]
      | distributeRewards => simp only [budgetNext]; rw [if_neg (fun h => other rfl (firstIs_iff.mp h.2.1))]
      | _ => rfl
    | stake hi quiet =>
      rw [distributedFrom_other (by rintro rfl; cases hi), quiet.cumulative, quiet.ends, quiet.avail]
      cases i <;> first | rfl | cases hi
    | distribute acc _ am op =>
      have e1 := rewardsToDistribute_ok am
      have first := firstIs_iff.mpr acc
      by_cases hn : NewDay p s.now
      · obtain ⟨T, t1, t2, t3, t4, rfl⟩ := distribute_new okp hn op
        simp only [if_pos hroom, budgetNext, distributedFrom]
        rw [if_pos ⟨first, hn⟩, if_pos ⟨trivial, first, newDay_days.mpr hn⟩, e1]
        simp
      · obtain ⟨T, -, rfl⟩ := distribute_again okp hn op
        simp only [budgetNext, distributedFrom]
        rw [if_neg (fun h => hn h.2), if_neg (fun h => hn (newDay_days.mp h.2.2))]
    | fill acc =>
      simp only [budgetNext]
      rw [if_pos ⟨trivial, firstIs_iff.mpr acc⟩]
      rfl

/-- Shared events, case by case. -/
theorem sharedFill_other {e e' e'' : Event} (h : SharedFill e e' e'') : OtherFill e e' ∧ OtherFill e e'' := by
  unfold SharedFill at h
  split at h
  · obtain ⟨r', r'', rfl, rfl, -⟩ := h
    exact ⟨Or.inr ⟨_, _, _, _, _, rfl, rfl⟩, Or.inr ⟨_, _, _, _, _, rfl, rfl⟩⟩
  · obtain ⟨⟨w, rfl⟩, w', rfl⟩ := h
    exact ⟨Or.inl (Or.inr ⟨_, _, rfl, rfl⟩), Or.inl (Or.inr ⟨_, _, rfl, rfl⟩)⟩
  · obtain ⟨rfl, rfl⟩ := h
    exact ⟨Or.inl (Or.inl rfl), Or.inl (Or.inl rfl)⟩

theorem budget_shared {P : Key} {now : Nat} {go : Bool} {days : List Nat} {ends A B C : Nat} {e e' e'' : Event}
    (h : SharedFill e e' e'') {dA dB dC : List Nat} {eA eB eC A' B' C' x y z : Nat}
    (h1 : ((dA, eA, A'), x) = budgetNext P now go days ends A e) (h2 : ((dB, eB, B'), y) = budgetNext P now go days ends B e')
    (h3 : ((dC, eC, C'), z) = budgetNext P now go days ends C e'') :
    dB = dA ∧ dC = dA ∧ eB = eA ∧ eC = eA ∧ days.length ≤ dA.length ∧
      gap x (y + z) + gap A' (B' + C') + 4 * days.length ≤ gap A (B + C) + 4 * dA.length := by
  have still : ∀ f : Event, (∀ a, budgetNext P now go days ends a f = ((days, ends, a), 0)) →
      e = f → e' = f → e'' = f → dB = dA ∧ dC = dA ∧ eB = eA ∧ eC = eA ∧ days.length ≤ dA.length ∧
      gap x (y + z) + gap A' (B' + C') + 4 * days.length ≤ gap A (B + C) + 4 * dA.length := by
    rintro f hf rfl rfl rfl
    rw [hf] at h1 h2 h3
    cases h1; cases h2; cases h3
    simp [gap]
  unfold SharedFill at h
  split at h
  · obtain ⟨r', r'', rfl, rfl, rfl⟩ := h
    simp only [budgetNext] at h1 h2 h3
    split at h1
    · rename_i hc
      rw [if_pos hc] at h2 h3
      cases h1; cases h2; cases h3
      refine ⟨rfl, rfl, rfl, rfl, Nat.le_refl _, ?_⟩
      simp only [gap]
      omega
    · rename_i hc
      rw [if_neg hc] at h2 h3
      cases h1; cases h2; cases h3
      simp [gap]
  · obtain ⟨⟨w, rfl⟩, w', rfl⟩ := h
    cases h1; cases h2; cases h3
    simp [gap]
  · rename_i hne hext
    obtain ⟨rfl, rfl⟩ := h
    cases e'' with
    | ix accs i =>
      cases i with
      | distributeRewards =>
        simp only [budgetNext] at h1 h2 h3
        split at h1
        · rename_i hc
          rw [if_pos hc] at h2 h3
          cases h1; cases h2; cases h3
          have := daily_shared (A := A) (B := B) (C := C) (ends := ends) (now := now)
          refine ⟨rfl, rfl, rfl, rfl, by simp, ?_⟩
          simp only [List.length_append, List.length_singleton]
          omega
        · rename_i hc
          rw [if_neg hc] at h2 h3
          cases h1; cases h2; cases h3
          simp [gap]
      | fillVault r t => exact absurd rfl (hne accs r t)
      | _ => exact still _ (fun _ => rfl) rfl rfl rfl
    | _ => exact still _ (fun _ => rfl) rfl rfl rfl

/-- The sum of the differences of what is distributed. -/
def gapThree (env : Env) (P : Key) : Chain → Chain → Chain → List Event → List Event → List Event → Nat
  | s, t, u, e :: es, e' :: es', e'' :: es'' =>
    gap (distributedBy env P s e) (distributedBy env P t e' + distributedBy env P u e'') +
      gapThree env P (s.apply env e) (t.apply env e') (u.apply env e'') es es' es''
  | _, _, _, _, _, _ => 0

theorem gap_totals {P : Key} {es es' es'' : List Event} {s t u : Chain} (hal : AlikeThree env s t u es es' es'') :
    gap (totalIn env (distributedBy env P) s es)
        (totalIn env (distributedBy env P) t es' + totalIn env (distributedBy env P) u es'') ≤ gapThree env P s t u es es' es'' := by
  induction es generalizing s t u es' es'' with
  | nil =>
    cases es' with
    | cons => exact hal.elim
    | nil =>
      cases es'' with
      | cons => exact hal.elim
      | nil => simp [totalIn, gap]
  | cons e es ih =>
    cases es' with
    | nil => exact hal.elim
    | cons e' es' =>
      cases es'' with
      | nil => exact hal.elim
      | cons e'' es'' =>
        have := ih hal.2.2.2
        simp only [totalIn, gapThree]
        simp only [gap] at *
        omega

/-- Whole histories of the pools. -/
theorem shared_runs {P : Key} {es es' es'' : List Event} {s t u s' t' u' : Chain}
    (h1 : RunsWith env (CleanEvent env) s es s') (h2 : RunsWith env (CleanEvent env) t es' t')
    (h3 : RunsWith env (CleanEvent env) u es'' u') (hal : AlikeThree env s t u es es' es'') (hst : s.now = t.now)
    (hsu : s.now = u.now) (hs : Wf env s.now s.world) (ht : Wf env t.now t.world) (hu : Wf env u.now u.world)
    {p q o p' q' o' : Pool} (hp : PoolAt env s.world P p) (hq : PoolAt env t.world P q) (ho : PoolAt env u.world P o)
    (hpl : 0 < (s.world P).lamports) (hql : 0 < (t.world P).lamports) (hol : 0 < (u.world P).lamports)
    (hd : SameCalendar p q) (hd' : SameCalendar p o) (hp' : PoolAt env s'.world P p') (hq' : PoolAt env t'.world P q')
    (ho' : PoolAt env u'.world P o') (hroom : p'.cumulative.length < env.caps.index) :
    SameCalendar p' q' ∧ SameCalendar p' o' ∧
      gapThree env P s t u es es' es'' + gap p'.tokensAvailable (q'.tokensAvailable + o'.tokensAvailable) + 4 * p.cumulative.length ≤
      gap p.tokensAvailable (q.tokensAvailable + o.tokensAvailable) + 4 * p'.cumulative.length := by
  induction es generalizing s t u es' es'' p q o with
  | nil =>
    cases es' with
    | cons => exact hal.elim
    | nil =>
      cases es'' with
      | cons => exact hal.elim
      | nil =>
        cases h1; cases h2; cases h3
        rw [PoolAt.unique hp' hp, PoolAt.unique hq' hq, PoolAt.unique ho' ho]
        exact ⟨hd, hd', by simp [gapThree]⟩
  | cons e es ih =>
    cases es' with
    | nil => exact hal.elim
    | cons e' es' =>
      cases es'' with
      | nil => exact hal.elim
      | cons e'' es'' =>
        have l1 := length_le_end h1 hs hp hpl hp'
        have r1 : p.cumulative.length < env.caps.index := by omega
        cases h1 with | cons hv1 hc1 h1 =>
        cases h2 with | cons hv2 hc2 h2 =>
        cases h3 with | cons hv3 hc3 h3 =>
        obtain ⟨hee, hgo, hgo', hal⟩ := hal
        obtain ⟨p1, a1, a2, a3⟩ := apply_pool hs hv1 hc1 hp hpl
        obtain ⟨q1, b1, b2, b3⟩ := apply_pool ht hv2 hc2 hq hql
        obtain ⟨o1, c1, c2, c3⟩ := apply_pool hu hv3 hc3 ho hol
        have k1 := budget_event hs hp a3 r1
        have k2 := budget_event ht hq b3 (by rw [← hd.length]; exact r1)
        have k3 := budget_event hu ho c3 (by rw [← hd'.length]; exact r1)
        rw [← hst, ← hgo, ← hd.1, ← hd.2] at k2
        rw [← hsu, ← hgo', ← hd'.1, ← hd'.2] at k3
        obtain ⟨f1, f2, f3, f4, f5, f6⟩ := budget_shared hee k1 k2 k3
        simp only [List.length_map] at f5 f6
        obtain ⟨hst', -⟩ := (both_of hst hs ht hv1 hv2 hc1 hc2 (sharedFill_other hee).1 hgo).symm
        obtain ⟨hsu', -⟩ := (both_of hsu hs hu hv1 hv3 hc1 hc3 (sharedFill_other hee).2 hgo').symm
        obtain ⟨y1, y2, y3⟩ := ih h1 h2 h3 hal hst' hsu' (wf_apply hs hv1 hc1) (wf_apply ht hv2 hc2) (wf_apply hu hv3 hc3) a1 b1 c1
          a2 b2 c2 ⟨f1.symm, f3.symm⟩ ⟨f2.symm, f4.symm⟩
        refine ⟨y1, y2, ?_⟩
        simp only [gapThree]
        omega

/-! ## The rewards of a mining -/

/-- One event. -/
theorem earned_shared {P k : Key} {s t u : Chain} {e e' e'' : Event} {m n o : Mining} {p q r : Pool} (hst : s.now = t.now)
    (hsu : s.now = u.now) (hm : MiningAt env s.world k m) (hn : MiningAt env t.world k n) (ho : MiningAt env u.world k o)
    (hp : PoolAt env s.world P p) (hq : PoolAt env t.world P q) (hr : PoolAt env u.world P r)
    (hmn : SameStake m n) (hmo : SameStake m o) (hpq : SameStakes p q) (hpr : SameStakes p r)
    (hle : (earningOn m (midnight s.now) : Int) ≤ totalOn p (midnight s.now)) :
    earnedBy env P k s e ≤ earnedBy env P k t e' + earnedBy env P k u e'' +
        10 ^ 16 * gap (distributedBy env P s e) (distributedBy env P t e' + distributedBy env P u e'') +
        2 * stakeIn env P k s e ∧
      earnedBy env P k t e' + earnedBy env P k u e'' ≤ earnedBy env P k s e +
        10 ^ 16 * gap (distributedBy env P s e) (distributedBy env P t e' + distributedBy env P u e'') +
        stakeIn env P k s e := by
  have e1 : earningOn n (midnight t.now) = earningOn m (midnight s.now) := by rw [← hst, hmn]; rfl
  have e2 : totalOn q (midnight t.now) = totalOn p (midnight s.now) := by rw [← hst, hpq]; rfl
  have e3 : earningOn o (midnight u.now) = earningOn m (midnight s.now) := by rw [← hsu, hmo]; rfl
  have e4 : totalOn r (midnight u.now) = totalOn p (midnight s.now) := by rw [← hsu, hpr]; rfl
  rw [earned_form hm hp, earned_form hn hq, earned_form ho hr, stakeIn_form hm, e1, e2, e3, e4]
  have hx : earningOn m (midnight s.now) ≤ (totalOn p (midnight s.now)).toNat := by omega
  generalize (totalOn p (midnight s.now)).toNat = T at *
  generalize earningOn m (midnight s.now) = x at *
  generalize distributedBy env P s e = D at *
  generalize distributedBy env P t e' = E at *
  generalize distributedBy env P u e'' = F at *
  rcases Nat.eq_zero_or_pos T with rfl | hT
  · simp
  · rcases Nat.eq_zero_or_pos D with rfl | h0
    · refine ⟨by simp, ?_⟩
      have part : ∀ y, 10 ^ 16 * y / T * x ≤ 10 ^ 16 * y := fun y =>
        Nat.le_trans (Nat.mul_le_mul_left _ hx) (Nat.div_mul_le_self _ _)
      have p1 := part E
      have p2 := part F
      have g : gap 0 (E + F) = E + F := by simp [gap]
      rw [g]
      simp only [Nat.lt_irrefl, if_false, Nat.mul_zero, Nat.zero_div, Nat.zero_mul]
      omega
    · rw [if_pos h0]
      exact part_shared hT hx

/-- Whole histories of a mining. -/
theorem shared_earned (hi : env.PdaInjective) {P V k : Key} {es0 es es' es'' : List Event} {s0 s t u s' t' u' : Chain}
    (hg : Genesis env s0) (r0 : RunsWith env (Orderly env P V) s0 es0 s)
    (h1 : RunsWith env (fun s e => Orderly env P V s e ∧ CarefulEvent env P k s e) s es s')
    (h2 : RunsWith env (CarefulEvent env P k) t es' t') (h3 : RunsWith env (CarefulEvent env P k) u es'' u')
    (hal : AlikeThree env s t u es es' es'') (hst : s.now = t.now) (hsu : s.now = u.now) (ht : Reachable env t)
    (hu : Reachable env u) (hn64 : s'.now < 2 ^ 64) (h : Tied env s.world t.world) (h' : Tied env s.world u.world) {m : Mining}
    (hm : Proper env s.world k m) (hpool : m.rewardPool = P) (hml : 0 < (s.world k).lamports) {p p' : Pool}
    (hp : PoolAt env s.world P p) (hpl : 0 < (s.world P).lamports) (hV : env.findVault P p.rewardMint = some (V, p.bump))
    (hidx : m.index ≤ p.index) (hp' : PoolAt env s'.world P p') (hroom : p'.cumulative.length < env.caps.index) :
    totalIn env (earnedBy env P k) s es ≤ totalIn env (earnedBy env P k) t es' + totalIn env (earnedBy env P k) u es'' +
        10 ^ 16 * gapThree env P s t u es es' es'' + 2 * totalIn env (stakeIn env P k) s es ∧
      totalIn env (earnedBy env P k) t es' + totalIn env (earnedBy env P k) u es'' ≤ totalIn env (earnedBy env P k) s es +
        10 ^ 16 * gapThree env P s t u es es' es'' + totalIn env (stakeIn env P k) s es := by
  induction es generalizing s t u es0 es' es'' m p with
  | nil =>
    cases es' with
    | cons => exact hal.elim
    | nil =>
      cases es'' with
      | cons => exact hal.elim
      | nil => exact ⟨by simp [totalIn], by simp [totalIn]⟩
  | cons e es ih =>
    cases es' with
    | nil => exact hal.elim
    | cons e' es' =>
      cases es'' with
      | nil => exact hal.elim
      | cons e'' es'' =>
        have hnn : s.now < 2 ^ 64 := Nat.lt_of_le_of_lt (run_now_le h1) hn64
        cases h1 with | cons hv1 hc1 h1 =>
        cases h2 with | cons hv2 hc2 h2 =>
        cases h3 with | cons hv3 hc3 h3 =>
        obtain ⟨hee, hgo, hgo', hal⟩ := hal
        have hs : Reachable env s := ⟨s0, _, hg, r0.weaken fun _ _ h => h.clean⟩
        have hs' := hs.step hv1 hc1.2.1
        obtain ⟨hb, hn⟩ := both_of hst (reachable_wf hs) (reachable_wf ht) hv1 hv2 hc1.2.1 hc2.1 (sharedFill_other hee).1 hgo
        obtain ⟨hb', hn'⟩ := both_of hsu (reachable_wf hs) (reachable_wf hu) hv1 hv3 hc1.2.1 hc3.1 (sharedFill_other hee).2 hgo'
        obtain ⟨p1, b1, b2, b3⟩ := apply_pool (reachable_wf hs) hv1 hc1.2.1 hp hpl
        have hlen := length_le_end (h1.weaken fun _ _ h => h.2.1) (reachable_wf hs') b1 b2 hp'
        obtain ⟨m1, g1, g2, g3, g4, -⟩ := event_life hs hv1 hc1.2 hm hpool hml hp hidx b3 (Nat.lt_of_le_of_lt hlen hroom)
        have hsp := b3.same_pool
        obtain ⟨i1, i2⟩ := ih (r0.append (.cons hv1 hc1.1 (.nil _))) h1 h2 h3 hal hn hn' (ht.step hv2 hc2.1) (hu.step hv3 hc3.1)
          (h.both hst (reachable_wf hs) (reachable_wf ht) hb) (h'.both hsu (reachable_wf hs) (reachable_wf hu) hb') g1 g2 g3 b1 b2
          (by rw [hsp.rewardMint, hsp.bump]; exact hV) g4
        obtain ⟨n, hn1, hmn⟩ := h.minings k m hm.1 hm.2
        obtain ⟨q, hq1, hpq⟩ := h.pools P p hp
        obtain ⟨o, ho1, hmo⟩ := h'.minings k m hm.1 hm.2
        obtain ⟨r, hr1, hpr⟩ := h'.pools P p hp
        have hle : (earningOn m (midnight s.now) : Int) ≤ totalOn p (midnight s.now) := by
          have := C10_total_stake_partial hi hg r0 hnn hp hV (ks := [k]) (by simp) (Nat.le_refl _)
          simpa [earningTotal, sumOver, ofMember_eq (⟨hm.1, hpool⟩ : Member env s.world P k m)] using this
        obtain ⟨j1, j2⟩ := earned_shared (e := e) (e' := e') (e'' := e'') hst hsu hm.1 hn1 ho1 hp hq1 hr1 hmn hmo hpq hpr hle
        simp only [totalIn, gapThree, Nat.mul_add]
        exact ⟨by omega, by omega⟩

end Verif
