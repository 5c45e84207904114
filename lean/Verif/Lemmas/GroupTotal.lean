import Verif.Lemmas.GroupRun
import Verif.Lemmas.Ledger
import Verif.Lemmas.Life
import Verif.Lemmas.Divide
/-!
What a group of stakers has together, in histories that differ in what the group does among themselves.
-/

namespace Verif

open Spec

variable {env : Env}

theorem sumOver_append (f : Key → Nat) (a b : List Key) : sumOver f (a ++ b) = sumOver f a + sumOver f b := by
  unfold sumOver; rw [List.map_append, List.sum_append]

theorem sumOver_mul (c : Nat) (f : Key → Nat) (ks : List Key) : sumOver (fun k => c * f k) ks = c * sumOver f ks := by
  induction ks with
  | nil => rfl
  | cons k t ih => rw [sumOver_cons, sumOver_cons, ih, Nat.mul_add]

/-- The other keys of a list. -/
theorem others_of {K : List Key} (hK : K.Nodup) (l : List Key) :
    ∃ r : List Key, (K ++ r).Nodup ∧ (∀ j ∈ r, j ∉ K) ∧ ∀ j ∈ l, j ∈ K ++ r := by
  induction l with
  | nil => exact ⟨[], by simpa using hK, nofun, nofun⟩
  | cons a l ih =>
    obtain ⟨r, h1, h2, h3⟩ := ih
    by_cases ha : a ∈ K ++ r
    · refine ⟨r, h1, h2, fun j hj => ?_⟩
      rcases List.mem_cons.mp hj with rfl | hj
      · exact ha
      · exact h3 j hj
    · rw [List.mem_append, not_or] at ha
      refine ⟨a :: r, ?_, fun j hj => ?_, fun j hj => ?_⟩
      · rw [List.nodup_append] at h1 ⊢
        refine ⟨h1.1, List.nodup_cons.mpr ⟨ha.2, h1.2.1⟩, fun x hx y hy => ?_⟩
        rcases List.mem_cons.mp hy with rfl | hy
        · rintro rfl; exact ha.1 hx
        · exact h1.2.2 x hx y hy
      · rcases List.mem_cons.mp hj with rfl | hj
        · exact ha.1
        · exact h2 j hj
      · rcases List.mem_cons.mp hj with rfl | hj
        · simp
        · have := h3 j hj
          simp only [List.mem_append, List.mem_cons] at this ⊢
          rcases this with h | h
          · exact Or.inl h
          · exact Or.inr (Or.inr h)

/-- The group as a whole earns with the same stake in both worlds. -/
theorem around_earning {K : List Key} {I : Key → Mining} {now : Nat} {v w : World} (hn : Around env K I v w) (hK : K.Nodup)
    {P : Key} {L L' : Ledger} (hb : Booked env now v P L) (hb' : Booked env now w P L') {p : Pool} (hp : PoolAt env v P p)
    {x : Nat} (hx : midnight now ≤ x) : earningTotal env v P x K = earningTotal env w P x K := by
  obtain ⟨r, h1, h2, h3⟩ := others_of hK ((L ++ L').map (·.mining) ++ (L ++ L').map (·.delegate))
  have in3 : ∀ y, y ∈ L ++ L' → y.mining ∈ K ++ r ∧ y.delegate ∈ K ++ r := fun y hy =>
    ⟨h3 _ (List.mem_append.mpr (Or.inl (List.mem_map_of_mem hy))),
      h3 _ (List.mem_append.mpr (Or.inr (List.mem_map_of_mem hy)))⟩
  have e1 := hb.earning hp hx h1 fun y hy _ => in3 y (List.mem_append.mpr (Or.inl hy))
  have e2 := hb'.earning (around_pool hn hp) hx h1 fun y hy _ => in3 y (List.mem_append.mpr (Or.inr hy))
  unfold earningTotal at *
  rw [sumOver_append] at e1 e2
  have e3 : sumOver (ofMember env v P fun m => earningOn m x) r = sumOver (ofMember env w P fun m => earningOn m x) r := by
    refine sumOver_congr fun j hj => ?_
    rcases hn.others j (h2 j hj) with h | h
    · unfold ofMember; rw [h]
    · have a : (v j).owner ≠ env.programId := fun hh => env.program_ne_token (hh.symm.trans h.1)
      have b : (w j).owner ≠ env.programId := fun hh => env.program_ne_token (hh.symm.trans h.2)
      unfold ofMember; rw [if_neg a, if_neg b]
  omega

/-- What one unit of stake earns by an event. -/
def perUnit (env : Env) (P : Key) (s : Chain) : Event → Nat
  | .ix accs i =>
    match (s.world P).content with
    | .pool p => if succeeded env s accs i = true then 10 ^ 16 * distributedFrom accs s.now P p i / (totalOn p (midnight s.now)).toNat else 0
    | _ => 0
  | _ => 0

theorem incomeBy_perUnit (P : Key) (m : Mining) (s : Chain) (e : Event) :
    incomeBy env P m s e = perUnit env P s e * earningOn m (midnight s.now) := by
  cases e with
  | ix accs i =>
    unfold incomeBy perUnit incomeFrom
    dsimp only
    cases (s.world P).content with
    | pool p =>
      dsimp only
      split
      · rfl
      · rw [Nat.zero_mul]
    | _ => exact (Nat.zero_mul _).symm
  | _ => unfold incomeBy perUnit; rw [Nat.zero_mul]

/-- What a group of minings of the pool earns by an event. -/
theorem earned_total {P : Key} {K : List Key} {s : Chain} (hm : ∀ k ∈ K, ∃ m, Member env s.world P k m) (e : Event) :
    sumOver (fun k => earnedBy env P k s e) K = perUnit env P s e * earningTotal env s.world P (midnight s.now) K := by
  unfold earningTotal
  rw [← sumOver_mul]
  refine sumOver_congr fun k hk => ?_
  obtain ⟨m, h⟩ := hm k hk
  rw [ofMember_eq h]
  unfold earnedBy
  rw [h.1.2]
  exact incomeBy_perUnit P m s e

theorem perUnit_none {P : Key} {s : Chain} {accs : List AccountInfo} {i : Ix} (h : i ≠ .distributeRewards) :
    perUnit env P s (.ix accs i) = 0 := by
  unfold perUnit
  dsimp only
  split
  · split
    · have : ∀ p, distributedFrom accs s.now P p i = 0 := fun p => by cases i <;> first | rfl | exact absurd rfl h
      rw [this, Nat.mul_zero, Nat.zero_div]
    · rfl
  · rfl

theorem perUnit_among {P : Key} {K : List Key} {s : Chain} {e : Event} (h : AmongThem K e) : perUnit env P s e = 0 := by
  cases e with
  | ix accs i => exact perUnit_none (by rintro rfl; exact h)
  | _ => rfl

theorem perUnit_same {P : Key} {K : List Key} {I : Key → Mining} {s t : Chain} (hnow : s.now = t.now)
    (hn : Around env K I s.world t.world) {p : Pool} (hp : PoolAt env s.world P p) {e e' : Event}
    (he : SameOutside env K e e' ∨ InPlaceOf K e e') (ha : goesThrough env s e = goesThrough env t e') :
    perUnit env P s e = perUnit env P t e' := by
  rcases he with (rfl | ⟨w, w', rfl, rfl, -⟩) | ⟨accs, accs', i, i', rfl, rfl, h, -⟩
  · cases e with
    | ix accs i =>
      unfold perUnit
      rw [hp.2, (around_pool hn hp).2]
      have ha : succeeded env s accs i = succeeded env t accs i := ha
      dsimp only
      rw [ha, hnow]
    | _ => rfl
  · rfl
  · rw [perUnit_none (by rintro rfl; exact h), perUnit_none (by rintro rfl; cases i <;> exact h)]

theorem totalIn_sum {f : Key → Chain → Event → Nat} {K : List Key} (s : Chain) (e : Event) (es : List Event) :
    sumOver (fun k => totalIn env (f k) s (e :: es)) K =
      sumOver (fun k => f k s e) K + sumOver (fun k => totalIn env (f k) (s.apply env e) es) K := by
  simp only [totalIn]
  exact sumOver_plus _ _ _

/-- Two worlds around the same group, with the stakes of one pool on record in both. -/
structure Together (env : Env) (P : Key) (K : List Key) (I : Key → Mining) (s t : Chain) (L L' : Ledger) : Prop where
  now : s.now = t.now
  around : Around env K I s.world t.world
  wf : Wf env s.now s.world
  wf' : Wf env t.now t.world
  booked : Booked env s.now s.world P L
  booked' : Booked env t.now t.world P L'
  pool : ∃ p, PoolAt env s.world P p ∧ 0 < (s.world P).lamports
  pool' : ∃ p, PoolAt env t.world P p ∧ 0 < (t.world P).lamports

namespace Together

variable {P : Key} {K : List Key} {I : Key → Mining} {s t : Chain} {L L' : Ledger}

theorem earning (h : Together env P K I s t L L') (hK : K.Nodup) {x : Nat} (hx : midnight s.now ≤ x) :
    earningTotal env s.world P x K = earningTotal env t.world P x K := by
  obtain ⟨p, hp, -⟩ := h.pool
  exact around_earning h.around hK h.booked (h.now ▸ h.booked') hp hx

theorem members (h : Together env P K I s t L L') (hI : ∀ k ∈ K, (I k).rewardPool = P) :
    (∀ k ∈ K, ∃ m, Member env s.world P k m) ∧ ∀ k ∈ K, ∃ m, Member env t.world P k m := by
  constructor
  · intro k hk
    obtain ⟨m, h1, h2⟩ := h.around.first k hk
    exact ⟨m, h1, h2.rewardPool.trans (hI k hk)⟩
  · intro k hk
    obtain ⟨m, h1, h2⟩ := h.around.second k hk
    exact ⟨m, h1, h2.rewardPool.trans (hI k hk)⟩

end Together

/-- Throughout two histories with the stakes on record. -/
theorem together_runs {P : Key} {K : List Key} {I : Key → Mining} (hi : env.PdaInjective) (hP0 : P ≠ 0) (hK : K.Nodup)
    (hI : ∀ k ∈ K, (I k).rewardPool = P) (hpda : ∀ k ∈ K, env.IsPda k) {s t s' t' : Chain} {es es' : List Event}
    (h : UpToGroup env K s t es es') : ∀ {L L' M M' : Ledger}, LedgerRuns env P s L es s' M → LedgerRuns env P t L' es' t' M' →
    RunsWith env (NoneClosed env K) s es s' → RunsWith env (NoneClosed env K) t es' t' → Together env P K I s t L L' →
    Together env P K I s' t' M M' ∧
      sumOver (fun k => totalIn env (earnedBy env P k) s es) K = sumOver (fun k => totalIn env (earnedBy env P k) t es') K := by
  induction h with
  | done =>
    intro L L' M M' l1 l2 _ _ hn
    cases l1; cases l2
    exact ⟨hn, rfl⟩
  | @both s t e e' es es' same alike rest ih =>
    intro L L' M M' l1 l2 r1 r2 hn
    cases r1 with
    | cons v1 c1 r1 =>
    cases r2 with
    | cons v2 c2 r2 =>
    cases l1 with
    | cons _ b1 l1 =>
    cases l2 with
    | cons _ b2 l2 =>
      obtain ⟨g1, g2, -⟩ := around_event hn.now hn.around hn.wf hn.wf' hpda same alike v1 v2 c1 c2
      obtain ⟨p, hp, hpl⟩ := hn.pool
      obtain ⟨q, hq, hql⟩ := hn.pool'
      obtain ⟨p', hp', hpl', -⟩ := apply_pool hn.wf v1 c1.1 hp hpl
      obtain ⟨q', hq', hql', -⟩ := apply_pool hn.wf' v2 c2.1 hq hql
      obtain ⟨k1, k2⟩ := ih l1 l2 r1 r2 ⟨g1, g2, wf_apply hn.wf v1 c1.1, wf_apply hn.wf' v2 c2.1,
        apply_booked hi hP0 v1 b1 hn.wf hn.booked, apply_booked hi hP0 v2 b2 hn.wf' hn.booked', ⟨p', hp', hpl'⟩,
        ⟨q', hq', hql'⟩⟩
      refine ⟨k1, ?_⟩
      obtain ⟨m1, m2⟩ := hn.members hI
      rw [totalIn_sum, totalIn_sum, k2, earned_total m1, earned_total m2, perUnit_same hn.now hn.around hp same alike,
        hn.earning hK (Nat.le_refl _), hn.now]
  | @first s t e es es' among rest ih =>
    intro L L' M M' l1 l2 r1 r2 hn
    cases r1 with
    | cons v1 c1 r1 =>
    cases l1 with
    | cons _ b1 l1 =>
      obtain ⟨g1, g2, -⟩ := around_among hn.around hn.wf among v1 c1.1
      obtain ⟨p, hp, hpl⟩ := hn.pool
      obtain ⟨p', hp', hpl', -⟩ := apply_pool hn.wf v1 c1.1 hp hpl
      obtain ⟨k1, k2⟩ := ih l1 l2 r1 r2 ⟨g1.trans hn.now, g2, wf_apply hn.wf v1 c1.1, hn.wf',
        apply_booked hi hP0 v1 b1 hn.wf hn.booked, hn.booked', ⟨p', hp', hpl'⟩, hn.pool'⟩
      refine ⟨k1, ?_⟩
      obtain ⟨m1, -⟩ := hn.members hI
      rw [totalIn_sum, k2, earned_total m1, perUnit_among among, Nat.zero_mul, Nat.zero_add]
  | @second s t e es es' among rest ih =>
    intro L L' M M' l1 l2 r1 r2 hn
    cases r2 with
    | cons v2 c2 r2 =>
    cases l2 with
    | cons _ b2 l2 =>
      obtain ⟨g1, g2, -⟩ := around_among hn.around.symm hn.wf' among v2 c2.1
      obtain ⟨q, hq, hql⟩ := hn.pool'
      obtain ⟨q', hq', hql', -⟩ := apply_pool hn.wf' v2 c2.1 hq hql
      obtain ⟨k1, k2⟩ := ih l1 l2 r1 r2 ⟨hn.now.trans g1.symm, g2.symm, hn.wf, wf_apply hn.wf' v2 c2.1,
        hn.booked, apply_booked hi hP0 v2 b2 hn.wf' hn.booked', hn.pool, ⟨q', hq', hql'⟩⟩
      refine ⟨k1, ?_⟩
      obtain ⟨-, m2⟩ := hn.members hI
      rw [totalIn_sum, k2, earned_total m2, perUnit_among among, Nat.zero_mul, Nat.zero_add]

/-- The account of a group: the sum of the members' accounts. -/
theorem group_life {P : Key} {K : List Key} {s s' : Chain} {es : List Event} {p p' : Pool} (hre : Reachable env s)
    (hm : ∀ k ∈ K, 0 < (s.world k).lamports ∧ ∃ m, Proper env s.world k m ∧ m.rewardPool = P ∧ m.index ≤ p.index)
    (hr : ∀ k ∈ K, RunsWith env (CarefulEvent env P k) s es s')
    (hmem : ∀ k ∈ K, ∃ m, Member env s'.world P k m) (hp : PoolAt env s.world P p) (hpl : 0 < (s.world P).lamports)
    (hp' : PoolAt env s'.world P p') (hroom : p'.cumulative.length < env.caps.index) :
    10 ^ 16 * sumOver (fun k => totalIn env (claimedBy env k) s es) K + owedTotal env s'.world P p'.cumulative K ≤
        owedTotal env s.world P p.cumulative K + sumOver (fun k => totalIn env (earnedBy env P k) s es) K ∧
      owedTotal env s.world P p.cumulative K + sumOver (fun k => totalIn env (earnedBy env P k) s es) K ≤
        10 ^ 16 * sumOver (fun k => totalIn env (claimedBy env k) s es) K + owedTotal env s'.world P p'.cumulative K +
          10 ^ 16 * sumOver (fun k => totalIn env (roundedBy env k) s es) K := by
  unfold owedTotal
  induction K with
  | nil => simp [sumOver]
  | cons k K ih =>
    obtain ⟨i1, i2⟩ := ih (fun j hj => hm j (List.mem_cons_of_mem _ hj)) (fun j hj => hr j (List.mem_cons_of_mem _ hj))
      fun j hj => hmem j (List.mem_cons_of_mem _ hj)
    obtain ⟨hml, m, h1, h2, h3⟩ := hm k (List.mem_cons_self ..)
    obtain ⟨m', a1, -, a3, a4⟩ := runs_life (hr k (List.mem_cons_self ..)) hre h1 h2 hml hp hpl h3 hp' hroom
    obtain ⟨m'', b1⟩ := hmem k (List.mem_cons_self ..)
    obtain rfl : m'' = m' := MiningAt.unique b1.1 a1
    have o1 := ofMember_eq b1 fun m => owed m p'.cumulative
    have o2 := ofMember_eq (⟨h1.1, h2⟩ : Member env s.world P k m) fun m => owed m p.cumulative
    simp only [sumOver_cons]
    rw [o1, o2]
    omega

end Verif
