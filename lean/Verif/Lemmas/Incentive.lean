import Verif.Spec.Incentive
import Verif.Lemmas.Income
import Verif.Lemmas.Ledger
import Verif.Lemmas.Credit
import Verif.Lemmas.Extend
import Verif.Props.Stake
/-!
Two histories with the same events in which the totals of a pool differ by a given amount.
-/

namespace Verif

open Spec

variable {env : Env}

/-- Two pools have the same budget and have distributed on the same days. -/
structure SameSchedule (p q : Pool) : Prop where
  avail : p.tokensAvailable = q.tokensAvailable
  ends : p.distributionEndsAt = q.distributionEndsAt
  dates : p.cumulative.map (·.1) = q.cumulative.map (·.1)

theorem SameSchedule.newDay {p q : Pool} (h : SameSchedule p q) {now : Nat} : NewDay p now ↔ NewDay q now := by
  have key : ∀ p : Pool, NewDay p now ↔ midnight now ∉ p.cumulative.map (·.1) := by
    intro p
    simp only [NewDay, List.mem_map, not_exists, not_and, ne_eq]
  rw [key, key, h.dates]

theorem SameSchedule.budget {p q p' q' : Pool} (h : SameSchedule p q) (hp : SameBudget p p') (hq : SameBudget q q') :
    SameSchedule p' q' := by
  obtain ⟨a1, a2, -, a4⟩ := hp
  obtain ⟨b1, b2, -, b4⟩ := hq
  exact ⟨by rw [a1, b1, h.avail], by rw [a2, b2, h.ends], by rw [a4, b4, h.dates]⟩

theorem SameSchedule.distributed {p q : Pool} (h : SameSchedule p q) (accs : List AccountInfo) (now : Nat) (P : Key)
    (i : Ix) : distributedFrom accs now P p i = distributedFrom accs now P q i := by
  cases i <;> try rfl
  simp only [distributedFrom, h.newDay, h.avail, h.ends]

/-- The totals of two pools differ by `δ` from today on. -/
def Apart (now : Nat) (δ : Nat → Int) (p q : Pool) : Prop := ∀ x, midnight now ≤ x → totalOn q x = totalOn p x + δ x

theorem Apart.change {now : Nat} {δ c : Nat → Int} {p q p' q' : Pool} (h : Apart now δ p q)
    (hp : ∀ x, midnight now ≤ x → totalOn p' x = totalOn p x + c x)
    (hq : ∀ x, midnight now ≤ x → totalOn q' x = totalOn q x + c x) : Apart now δ p' q' := by
  intro x hx
  rw [hp x hx, hq x hx, h x hx]; omega

/-- One instruction, successful in both worlds. -/
theorem lockstep_ix {now : Nat} {v w v' w' : World} {accs : List AccountInfo} {i : Ix} {r r' : Option Nat}
    (hv : Wf env now v) (hw : Wf env now w) (hs : RealSigners accs) (hcv : NotPoolAsMining env v accs i)
    (hcw : NotPoolAsMining env w accs i) (h1 : exec env now v accs i = .ok (v', r))
    (h2 : exec env now w accs i = .ok (w', r')) {P : Key} {p q : Pool} (hp : PoolAt env v P p) (hq : PoolAt env w P q)
    (hr1 : RoomInPool env P ⟨now, v⟩ (.ix accs i)) (hr2 : RoomInPool env P ⟨now, w⟩ (.ix accs i))
    (hsch : SameSchedule p q) {δ : Nat → Int} (hδ : Apart now δ p q) {p' q' : Pool} (hp' : PoolAt env v' P p')
    (hq' : PoolAt env w' P q') : SameSchedule p' q' ∧ Apart now δ p' q' := by
  have key : ∀ {Q M D : Key} {pi1 pi2 : Pool → Prop} {mi1 mi2 : Mining → Prop} {tot own : Nat → Int} {del : Int},
      StakesChange env now v v' Q M D pi1 mi1 tot own del → StakesChange env now w w' Q M D pi2 mi2 tot own del →
      (P = Q → pi1 p ∧ pi2 q) → SameSchedule p' q' ∧ Apart now δ p' q' := by
    intro Q M D pi1 pi2 mi1 mi2 tot own del c1 c2 hroom
    obtain ⟨p2, a1, a2, -, a3, a4⟩ := c1.pools P p hp
    obtain ⟨q2, b1, b2, -, b3, b4⟩ := c2.pools P q hq
    obtain rfl := PoolAt.unique hp' a1
    obtain rfl := PoolAt.unique hq' b1
    refine ⟨hsch.budget a2 b2, ?_⟩
    by_cases hP : P = Q
    · exact hδ.change (a4 hP (hroom hP).1) (b4 hP (hroom hP).2)
    · rw [a3 hP, b3 hP]; exact hδ
  have quiet : i.isStake = false → i.isBudget = false → SameSchedule p' q' ∧ Apart now δ p' q' := by
    intro hi hb
    obtain ⟨p2, a1, a2, -⟩ := (step_of_exec hv hs hcv h1).pool hp
    obtain ⟨q2, b1, b2, -⟩ := (step_of_exec hw hs hcw h2).pool hq
    obtain rfl := PoolAt.unique hp' a1
    obtain rfl := PoolAt.unique hq' b1
    cases a2 with
    | same =>
      cases b2 with
      | same => exact ⟨hsch, hδ⟩
      | stake hi' => rw [hi] at hi'; cases hi'
      | distribute => cases hb
      | fill => cases hb
    | stake hi' => rw [hi] at hi'; cases hi'
    | distribute => cases hb
    | fill => cases hb
  cases i with
  | depositMining a l o d =>
    obtain ⟨Q, M, A, D, rest, k, n, e1, t1, -, c1⟩ := C17_deposit hv hs h1
    obtain ⟨Q', M', A', D', rest', k', n', e2, t2, -, c2⟩ := C17_deposit hw hs h2
    rw [e1] at e2; cases e2
    rw [t1] at t2; cases t2
    refine key c1 c2 fun hP => ?_
    have hf : FirstIs accs P := by rw [e1, hP]; rfl
    exact ⟨hr1 hf p k n hp t1, hr2 hf q k n hq t1⟩
  | extendStake ol l ts b a o d =>
    obtain ⟨Q, M, A, D, rest, k, n, k1, n1, e1, t1, u1, -, c1, -⟩ := C22_extend_partial hv hs h1
    obtain ⟨Q', M', A', D', rest', k', n', k1', n1', e2, t2, u2, -, c2, -⟩ := C22_extend_partial hw hs h2
    rw [e1] at e2; cases e2
    rw [t1] at t2; cases t2
    rw [u1] at u2; cases u2
    refine key c1 c2 fun hP => ?_
    have hf : FirstIs accs P := by rw [e1, hP]; rfl
    exact ⟨hr1 hf p k1 n1 hp u1, hr2 hf q k1 n1 hq u1⟩
  | withdrawMining a o d =>
    obtain ⟨Q, M, A, D, rest, e1, -, c1, -⟩ := C20_withdraw hv hs h1
    obtain ⟨Q', M', A', D', rest', e2, -, c2, -⟩ := C20_withdraw hw hs h2
    rw [e1] at e2; cases e2
    exact key c1 c2 fun _ => ⟨trivial, trivial⟩
  | slash o n mu ex =>
    obtain ⟨A, Q, M, rest, e1, -, c1, -⟩ := C21_slash hv hs h1
    obtain ⟨A', Q', M', rest', e2, -, c2, -⟩ := C21_slash hw hs h2
    rw [e1] at e2; cases e2
    exact key c1 c2 fun _ => ⟨trivial, trivial⟩
  | changeDelegate a nd =>
    obtain ⟨Q, M, A, O, Old, New, rest, e1, -, -, -, c1, -⟩ := C23_change_delegate hv hs hcv h1
    obtain ⟨Q', M', A', O', Old', New', rest', e2, -, -, -, c2, -⟩ := C23_change_delegate hw hs hcw h2
    rw [e1] at e2; cases e2
    obtain ⟨p2, a1, a2, -, a3, a4⟩ := c1 P p hp
    obtain ⟨q2, b1, b2, -, b3, b4⟩ := c2 P q hq
    obtain rfl := PoolAt.unique hp' a1
    obtain rfl := PoolAt.unique hq' b1
    refine ⟨hsch.budget a2 b2, ?_⟩
    by_cases hP : P = Q.key
    · refine hδ.change (c := fun _ => - (if Old.key = M.key then 0 else (a : Int)) +
        (if New.key = M.key then 0 else (a : Int))) (fun x _ => ?_) fun x _ => ?_
      · rw [a4 hP x]; omega
      · rw [b4 hP x]; omega
    · rw [a3 hP, b3 hP]; exact hδ
  | fillVault r e =>
    obtain ⟨p2, a1, a2, -⟩ := (step_of_exec hv hs hcv h1).pool hp
    obtain ⟨q2, b1, b2, -⟩ := (step_of_exec hw hs hcw h2).pool hq
    obtain rfl := PoolAt.unique hp' a1
    obtain rfl := PoolAt.unique hq' b1
    cases a2 with
    | same other =>
      cases b2 with
      | same => exact ⟨hsch, hδ⟩
      | stake hi' => cases hi'
      | fill acc => exact absurd acc (other rfl)
    | stake hi' => cases hi'
    | fill acc =>
      cases b2 with
      | same other => exact absurd acc (other rfl)
      | stake hi' => cases hi'
      | fill => exact ⟨⟨by simp only [hsch.avail], rfl, hsch.dates⟩, hδ⟩
  | distributeRewards =>
    obtain ⟨p2, a1, a2, -⟩ := (step_of_exec hv hs hcv h1).pool hp
    obtain ⟨q2, b1, b2, -⟩ := (step_of_exec hw hs hcw h2).pool hq
    obtain rfl := PoolAt.unique hp' a1
    obtain rfl := PoolAt.unique hq' b1
    have okp := (poolAt_good hv hp).ok
    have okq := (poolAt_good hw hq).ok
    cases a2 with
    | same other =>
      cases b2 with
      | same => exact ⟨hsch, hδ⟩
      | stake hi' => cases hi'
      | distribute acc => exact absurd acc (other rfl)
    | stake hi' => cases hi'
    | @distribute _ r1 acc _ am1 op1 =>
      cases b2 with
      | same other => exact absurd acc (other rfl)
      | stake hi' => cases hi'
      | @distribute _ r2 _ _ am2 op2 =>
        have e1 := rewardsToDistribute_ok am1
        have e2 := rewardsToDistribute_ok am2
        have er : r1 = r2 := by rw [e1, e2, hsch.avail, hsch.ends]
        by_cases hn : NewDay p now
        · obtain ⟨T, t1, -, -, -, rfl⟩ := distribute_new okp hn op1
          obtain ⟨U, u1, -, -, -, rfl⟩ := distribute_new okq (hsch.newDay.mp hn) op2
          refine ⟨⟨by simp only [hsch.avail, er], hsch.ends, ?_⟩, ?_⟩
          · have hlen : p.cumulative.length = q.cumulative.length := by
              have := congrArg List.length hsch.dates
              simpa using this
            simp only [hlen]
            split
            · simp only [List.map_append, hsch.dates, List.map_cons, List.map_nil]
            · exact hsch.dates
          · intro x hx
            have k1 := totalOn_after t1 hx
            have k2 := totalOn_after u1 hx
            have k3 := hδ x hx
            simp only [totalOn] at k1 k2 k3 ⊢
            omega
        · obtain ⟨T, t1, rfl⟩ := distribute_again okp hn op1
          obtain ⟨U, u1, rfl⟩ := distribute_again okq (fun h => hn (hsch.newDay.mpr h)) op2
          refine ⟨⟨hsch.avail, hsch.ends, hsch.dates⟩, ?_⟩
          intro x hx
          have k1 := totalOn_after t1 hx
          have k2 := totalOn_after u1 hx
          have k3 := hδ x hx
          simp only [totalOn] at k1 k2 k3 ⊢
          omega
  | _ => exact quiet rfl rfl

/-- What both histories satisfy. -/
def Roomy (env : Env) (P : Key) (s : Chain) (e : Event) : Prop := CleanEvent env s e ∧ RoomInPool env P s e

/-- One event, the same in both histories. -/
theorem lockstep_same {s t : Chain} {e : Event} (hnow : s.now = t.now) (hs : Wf env s.now s.world) (ht : Wf env t.now t.world)
    (hvs : e.Valid env s) (hvt : e.Valid env t) {P : Key} (hcs : Roomy env P s e) (hct : Roomy env P t e)
    (hal : ∀ accs i, e = .ix accs i → succeeded env s accs i = succeeded env t accs i) {p q : Pool}
    (hp : PoolAt env s.world P p) (hq : PoolAt env t.world P q) (hpl : 0 < (s.world P).lamports)
    (hql : 0 < (t.world P).lamports) (hsch : SameSchedule p q) {δ : Nat → Int} (hδ : Apart s.now δ p q) :
    ∃ p' q', PoolAt env (s.apply env e).world P p' ∧ PoolAt env (t.apply env e).world P q' ∧
      0 < ((s.apply env e).world P).lamports ∧ 0 < ((t.apply env e).world P).lamports ∧
      (s.apply env e).now = (t.apply env e).now ∧ SameSchedule p' q' ∧ Apart (s.apply env e).now δ p' q' := by
  obtain ⟨p', a1, a2, a3⟩ := apply_pool hs hvs hcs.1 hp hpl
  obtain ⟨q', b1, b2, b3⟩ := apply_pool ht hvt hct.1 hq hql
  refine ⟨p', q', a1, b1, a2, b2, ?_⟩
  cases e with
  | ix accs i =>
    have hal := hal accs i rfl
    cases hx : exec env s.now s.world accs i with
    | error er =>
      cases hy : exec env t.now t.world accs i with
      | ok r => simp [succeeded, hx, hy] at hal
      | error er' =>
        rw [apply_ix_error hx] at a1 ⊢
        rw [apply_ix_error hy] at b1 ⊢
        obtain rfl := PoolAt.unique hp a1
        obtain rfl := PoolAt.unique hq b1
        exact ⟨hnow, hsch, hδ⟩
    | ok r =>
      cases hy : exec env t.now t.world accs i with
      | error er' => simp [succeeded, hx, hy] at hal
      | ok r' =>
        obtain ⟨v', ret⟩ := r
        obtain ⟨w', ret'⟩ := r'
        rw [apply_ix_ok hx] at a1 ⊢
        rw [apply_ix_ok hy] at b1 ⊢
        refine ⟨hnow, ?_⟩
        obtain ⟨now, v⟩ := s
        obtain ⟨now', w⟩ := t
        cases hnow
        exact lockstep_ix hs ht hvs hcs.1 hct.1 hx hy hp hq hcs.2 hct.2 hsch hδ a1 b1
  | tick d =>
    obtain rfl := PoolAt.unique hp a1
    obtain rfl := PoolAt.unique hq b1
    refine ⟨by simp only [Chain.apply, hnow], hsch, fun x hx => hδ x (Nat.le_trans ?_ hx)⟩
    simp only [Chain.apply, midnight]
    omega
  | gc k =>
    cases a3 with | same =>
    cases b3 with | same => exact ⟨hnow, hsch, hδ⟩
  | ext w =>
    cases a3 with | same =>
    cases b3 with | same => exact ⟨hnow, hsch, hδ⟩

/-- What other programs do does not matter. -/
theorem lockstep_ext {s t : Chain} {w w' : World} (hnow : s.now = t.now) (hs : Wf env s.now s.world)
    (ht : Wf env t.now t.world) (hvs : (Event.ext w).Valid env s) (hvt : (Event.ext w').Valid env t) {P : Key} {p q : Pool}
    (hp : PoolAt env s.world P p) (hq : PoolAt env t.world P q) (hpl : 0 < (s.world P).lamports)
    (hql : 0 < (t.world P).lamports) (hsch : SameSchedule p q) {δ : Nat → Int} (hδ : Apart s.now δ p q) :
    ∃ p' q', PoolAt env (s.apply env (.ext w)).world P p' ∧ PoolAt env (t.apply env (.ext w')).world P q' ∧
      0 < ((s.apply env (.ext w)).world P).lamports ∧ 0 < ((t.apply env (.ext w')).world P).lamports ∧
      (s.apply env (.ext w)).now = (t.apply env (.ext w')).now ∧ SameSchedule p' q' ∧
      Apart (s.apply env (.ext w)).now δ p' q' := by
  obtain ⟨p', a1, a2, a3⟩ := apply_pool hs hvs trivial hp hpl
  obtain ⟨q', b1, b2, b3⟩ := apply_pool ht hvt trivial hq hql
  refine ⟨p', q', a1, b1, a2, b2, ?_⟩
  cases a3 with | same =>
  cases b3 with | same => exact ⟨hnow, hsch, hδ⟩

/-- One event. -/
theorem lockstep {s t : Chain} {e e' : Event} (hnow : s.now = t.now) (hs : Wf env s.now s.world)
    (ht : Wf env t.now t.world) (hvs : e.Valid env s) (hvt : e'.Valid env t) {P : Key} (hcs : Roomy env P s e)
    (hct : Roomy env P t e') (hee : SameEvent e e') (hal : goesThrough env s e = goesThrough env t e') {p q : Pool}
    (hp : PoolAt env s.world P p) (hq : PoolAt env t.world P q) (hpl : 0 < (s.world P).lamports)
    (hql : 0 < (t.world P).lamports) (hsch : SameSchedule p q) {δ : Nat → Int} (hδ : Apart s.now δ p q) :
    ∃ p' q', PoolAt env (s.apply env e).world P p' ∧ PoolAt env (t.apply env e').world P q' ∧
      0 < ((s.apply env e).world P).lamports ∧ 0 < ((t.apply env e').world P).lamports ∧
      (s.apply env e).now = (t.apply env e').now ∧ SameSchedule p' q' ∧ Apart (s.apply env e).now δ p' q' := by
  rcases hee with rfl | ⟨w, w', rfl, rfl⟩
  · exact lockstep_same hnow hs ht hvs hvt hcs hct (fun accs i h => by subst h; exact hal) hp hq hpl hql hsch hδ
  · exact lockstep_ext hnow hs ht hvs hvt hp hq hpl hql hsch hδ

theorem sameEvent_symm {e e' : Event} (h : SameEvent e e') : SameEvent e' e := by
  rcases h with rfl | ⟨w, w', rfl, rfl⟩
  · exact Or.inl rfl
  · exact Or.inr ⟨w', w, rfl, rfl⟩

theorem Spec.Alike.symm {es es' : List Event} {s t : Chain} (h : Alike env SameEvent s t es es') :
    Alike env SameEvent t s es' es := by
  induction es generalizing s t es' with
  | nil =>
    cases es' with
    | nil => trivial
    | cons => exact h.elim
  | cons e es ih =>
    cases es' with
    | nil => exact h.elim
    | cons e' es' => exact ⟨sameEvent_symm h.1, h.2.1.symm, ih h.2.2⟩

/-- Comparison of a quantity over two histories with the same events. -/
theorem runs_lockstep {P : Key} {δ : Nat → Int} {F G : Chain → Event → Nat} {J : Chain → List Event → Prop}
    (hF : ∀ s w, F s (.ext w) = 0) (hJ : ∀ s e es, J s (e :: es) → J (s.apply env e) es)
    (hFG : ∀ s t e es p q, J s (e :: es) → s.now = t.now → Wf env s.now s.world → Wf env t.now t.world →
      e.Valid env s → e.Valid env t → Roomy env P s e → Roomy env P t e → PoolAt env s.world P p →
      PoolAt env t.world P q → SameSchedule p q → Apart s.now δ p q →
      (∀ accs i, e = .ix accs i → succeeded env s accs i = succeeded env t accs i) → F s e ≤ G t e)
    {es es' : List Event} {s t s' t' : Chain} {p q : Pool} (hr1 : RunsWith env (Roomy env P) s es s')
    (hr2 : RunsWith env (Roomy env P) t es' t') (hal : Alike env SameEvent s t es es') (h0 : J s es) (hnow : s.now = t.now)
    (hs : Wf env s.now s.world) (ht : Wf env t.now t.world) (hp : PoolAt env s.world P p) (hq : PoolAt env t.world P q)
    (hpl : 0 < (s.world P).lamports) (hql : 0 < (t.world P).lamports) (hsch : SameSchedule p q)
    (hδ : Apart s.now δ p q) : totalIn env F s es ≤ totalIn env G t es' := by
  induction es generalizing s t p q es' with
  | nil => exact Nat.zero_le _
  | cons e es ih =>
    cases es' with
    | nil => exact hal.elim
    | cons e' es' =>
    cases hr1 with | cons hv1 hc1 hr1 =>
    cases hr2 with | cons hv2 hc2 hr2 =>
    obtain ⟨hee, hgo, hal⟩ := hal
    obtain ⟨p', q', a1, b1, a2, b2, hn, hs', hd'⟩ := lockstep hnow hs ht hv1 hv2 hc1 hc2 hee hgo hp hq hpl hql hsch hδ
    have k1 : F s e ≤ G t e' := by
      rcases hee with rfl | ⟨w, w', rfl, rfl⟩
      · exact hFG s t e es p q h0 hnow hs ht hv1 hv2 hc1 hc2 hp hq hsch hδ (fun accs i h => by subst h; exact hgo)
      · rw [hF]; exact Nat.zero_le _
    have k2 := ih hr1 hr2 hal (hJ s e es h0) hn (wf_apply hs hv1 hc1.1) (wf_apply ht hv2 hc2.1) a1 b1 a2 b2 hs' hd'
    simp only [totalIn]
    omega

/-- Where something is distributed, there is stake. -/
theorem distributed_pos {now : Nat} {w w' : World} {accs : List AccountInfo} {i : Ix} {r : Option Nat}
    (hw : Wf env now w) (hs : RealSigners accs) (hc : NotPoolAsMining env w accs i)
    (h : exec env now w accs i = .ok (w', r)) {P : Key} {p : Pool} (hp : PoolAt env w P p)
    (hd : 0 < distributedFrom accs now P p i) : 0 < totalOn p (midnight now) := by
  obtain ⟨p', -, a2, -⟩ := (step_of_exec hw hs hc h).pool hp
  cases i <;> try (simp [distributedFrom] at hd; done)
  simp only [distributedFrom] at hd
  split at hd
  · rename_i hn
    cases a2 with
    | same other => exact absurd (firstIs_iff.mp hn.1) (other rfl)
    | stake hi => cases hi
    | distribute acc _ am op =>
      obtain ⟨T, t1, t2, -⟩ := distribute_new (poolAt_good hw hp).ok hn.2 op
      omega
  · omega

/-- A larger part of a total that grew by the same amount. -/
theorem part_le {R T d a b : Nat} (hT : 0 < T) (ha : a ≤ T) (hb : a = 0 ∨ b = a + d) :
    R / T * a ≤ R / (T + d) * b + b := by
  rcases hb with rfl | rfl
  · simp
  refine Classical.byContradiction fun h => ?_
  have h : (R / (T + d) + 1) * (a + d) < R / T * a := by rw [Nat.add_mul, Nat.one_mul]; omega
  have ha0 : 0 < a := by
    rcases Nat.eq_zero_or_pos a with rfl | h0
    · omega
    · exact h0
  have h1 : R / T * T < (R / (T + d) + 1) * (T + d) := by
    have k1 := Nat.div_mul_le_self R T
    have k2 := Nat.lt_div_mul_add (a := R) (b := T + d) (by omega)
    rw [Nat.add_mul, Nat.one_mul]; omega
  have h2 := Nat.mul_lt_mul_of_pos_right h1 ha0
  have h3 := Nat.mul_lt_mul_of_pos_right h hT
  have e1 : R / T * T * a = R / T * a * T := by rw [Nat.mul_right_comm]
  rw [e1] at h2
  have h4 := Nat.lt_trans h3 h2
  rw [Nat.mul_assoc, Nat.mul_assoc] at h4
  have h5 := Nat.lt_of_mul_lt_mul_left h4
  rw [Nat.add_mul, Nat.add_mul, Nat.mul_comm a T] at h5
  have h6 : d * a ≤ d * T := Nat.mul_le_mul_left _ ha
  omega

theorem earning_apart {m n : Mining} {x : Nat} {d : Nat} (hw : weightOn n x = weightOn m x + d)
    (hf : n.stakeFromOthers = m.stakeFromOthers) : earningOn m x = 0 ∨ earningOn n x = earningOn m x + d := by
  simp only [earningOn, weightOn] at *
  omega

/-- How two alternative deposits compare. -/
theorem two_deposits {s : Chain} {accs rest : List AccountInfo} {P M A D : AccountInfo} {a a' : Nat} {l l' : LockupPeriod}
    {o d : Key} {w1 w2 : World} {r1 r2 : Option Nat} (hw : Wf env s.now s.world) (hs : RealSigners accs)
    (hacc : accs = P :: M :: A :: D :: rest) (h1 : exec env s.now s.world accs (.depositMining a l o d) = .ok (w1, r1))
    (h2 : exec env s.now s.world accs (.depositMining a' l' o d) = .ok (w2, r2)) (hle : AtLeast a l a' l')
    (hp1 : RoomInPool env P.key s (.ix accs (.depositMining a l o d)))
    (hp2 : RoomInPool env P.key s (.ix accs (.depositMining a' l' o d))) {p : Pool} (hp : PoolAt env s.world P.key p) :
    ∃ (δ c : Nat → Int) (p1 p2 : Pool) (m m1 m2 : Mining), PoolAt env w1 P.key p1 ∧ PoolAt env w2 P.key p2 ∧
      SameBudget p p1 ∧ SameBudget p p2 ∧ SameConfig p p1 ∧ (∀ x, 0 ≤ δ x ∧ δ x ≤ c x) ∧ Apart s.now c p1 p2 ∧
      (D.key = M.key ∨ a = a' → c = δ) ∧
      Member env s.world P.key M.key m ∧ Member env w1 P.key M.key m1 ∧ MiningAt env w2 M.key m2 ∧
      (RoomInMining env M.key s l → RoomInMining env M.key s l' → ∀ x, midnight s.now ≤ x →
        weightOn m2 x = weightOn m1 x + δ x) ∧
      m2.stakeFromOthers = m1.stakeFromOthers ∧ m2.unclaimed = m1.unclaimed ∧ m1.index = indexBefore p.cumulative s.now ∧
      m2.index = indexBefore p.cumulative s.now ∧
      (∀ k, k ≠ P.key → k ≠ M.key → k ≠ D.key → w1 k = s.world k ∧ w2 k = s.world k) ∧
      (∀ k, (w1 k).lamports = (s.world k).lamports ∧ (w2 k).lamports = (s.world k).lamports) := by
  obtain ⟨ha, k, n, k', n', t1, t2, hk, hn⟩ := hle
  obtain ⟨P1, M1, A1, D1, rest1, k1, n1, e1, u1, ⟨m, q, hm, -, -, hmp, -⟩, c1⟩ := C17_deposit hw hs h1
  obtain ⟨P2, M2, A2, D2, rest2, k2, n2, e2, u2, -, c2⟩ := C17_deposit hw hs h2
  rw [hacc] at e1 e2
  cases e1; cases e2
  rw [t1] at u1; cases u1
  rw [t2] at u2; cases u2
  have hf : FirstIs accs P.key := by rw [hacc]; rfl
  obtain ⟨p1, a1, a2, a3, -, a4⟩ := c1.pools _ _ hp
  obtain ⟨p2, b1, b2, -, -, b4⟩ := c2.pools _ _ hp
  obtain ⟨m1, f1, f2, -, f3, f4, -⟩ := c1.minings _ _ hm
  obtain ⟨m2, g1, g2, -, g3, g4, -⟩ := c2.minings _ _ hm
  have a4 := a4 rfl (hp1 hf p k n hp t1)
  have b4 := b4 rfl (hp2 hf p k' n' hp t2)
  have key : ∀ {a : Nat} {l : LockupPeriod} {w' : World} {ret : Option Nat} {x : Mining},
      exec env s.now s.world accs (.depositMining a l o d) = .ok (w', ret) → MiningAt env w' M.key x →
      CreditedAs s.now p.cumulative m x ∧ ∀ k, (w' k).lamports = (s.world k).lamports := by
    intro a l w' ret x h hx
    cases step_of_exec hw hs (by exact trivial) h with
    | @stake i P' M' A' D' p0 p' m0 m' d0 d' accs_eq op chk del quiet same sfo ok' sameDel eff shell =>
      obtain ⟨rest', e⟩ := accs_eq
      rw [hacc] at e; cases e
      obtain rfl := PoolAt.unique hp eff.pool
      obtain rfl := MiningAt.unique hm eff.mining
      obtain rfl := MiningAt.unique hx eff.mining'
      exact ⟨(deposit_credit chk.good.ok chk.miningOk op).1, fun k => (shell k).2.1⟩
  obtain ⟨⟨y, y1, y2, y3⟩, l1⟩ := key h1 f1
  obtain ⟨⟨z, z1, z2, z3⟩, l2⟩ := key h2 g1
  rw [y1] at z1; cases z1
  have hidx : y.index = indexBefore p.cumulative s.now := by
    obtain ⟨c, rfl, -⟩ := refresh_ok (poolAt_good hw hp).ok.history (miningAt_ok hw hm).1.sorted y1
    rfl
  obtain ⟨-, hk1, -⟩ := terms_facts t1
  obtain ⟨-, hk2, -⟩ := terms_facts t2
  have hδ : ∀ x, 0 ≤ stakeWeight a' k' (midnight s.now + 86400 * n') x - stakeWeight a k (midnight s.now + 86400 * n) x := by
    intro x
    have q1 : a * k ≤ a' * k' := Nat.mul_le_mul ha hk
    have q2 : a' * 1 ≤ a' * k' := Nat.mul_le_mul_left _ hk2
    have q3 : (a : Int) * k = ((a * k : Nat) : Int) := by simp
    have q4 : (a' : Int) * k' = ((a' * k' : Nat) : Int) := by simp
    unfold stakeWeight
    rw [q3, q4]
    split <;> split <;> omega
  refine ⟨fun x => stakeWeight a' k' (midnight s.now + 86400 * n') x - stakeWeight a k (midnight s.now + 86400 * n) x,
    fun x => stakeWeight a' k' (midnight s.now + 86400 * n') x - stakeWeight a k (midnight s.now + 86400 * n) x +
      if D.key = M.key then 0 else ((a' : Int) - a), p1, p2, m, m1, m2, a1, b1, a2, b2, a3, fun x => ⟨hδ x, ?_⟩, ?_, ?_,
    ⟨hm, hmp⟩, ⟨f1, f2.2.1.trans hmp⟩, g1, ?_, ?_, by rw [z2, y2], y3.trans hidx, z3.trans hidx, ?_,
    fun k => ⟨l1 k, l2 k⟩⟩
  · show _ ≤ _
    dsimp only
    split <;> omega
  · intro x hx
    rw [a4 x hx, b4 x hx]
    dsimp only
    by_cases hD : D.key = M.key
    · simp only [if_pos hD]; omega
    · simp only [if_neg hD]; omega
  · intro h
    funext x
    rcases h with h | h
    · simp only [if_pos h]; omega
    · subst h; split <;> omega
  · intro hr1 hr2 x hx
    rw [f4 rfl (hr1 m k n hm t1) x hx, g4 rfl (hr2 m k' n' hm t2) x hx]
    dsimp only
    omega
  · simp only [ne_eq, not_true_eq_false, and_false, if_false] at f3 g3
    omega
  · intro k k1 k2 k3
    exact ⟨c1.others k k1 k2 k3, c2.others k k1 k2 k3⟩

/-- A mining that is left alone stays as it is. -/
theorem spared_apply {s : Chain} {e : Event} {k : Key} {m : Mining} (hv : e.Valid env s) (hk : Spares k e)
    (hm : MiningAt env s.world k m) (hml : 0 < (s.world k).lamports) :
    MiningAt env (s.apply env e).world k m ∧ 0 < ((s.apply env e).world k).lamports := by
  cases e with
  | ix accs i =>
    cases hx : exec env s.now s.world accs i with
    | error e => rw [apply_ix_error hx]; exact ⟨hm, hml⟩
    | ok r =>
      obtain ⟨w', ret⟩ := r
      rw [apply_ix_ok hx]
      have e1 := spared hx hk
      refine ⟨(miningAt_congr e1).mpr hm, ?_⟩
      show 0 < (w' k).lamports
      rw [e1]; exact hml
  | tick d => exact ⟨hm, hml⟩
  | gc j =>
    have hne : k ≠ j := by rintro rfl; exact absurd (show (s.world k).lamports = 0 from hv) (by omega)
    have e1 : (s.apply env (.gc j)).world k = s.world k := world_set_ne _ _ hne
    exact ⟨(miningAt_congr e1).mpr hm, by rw [e1]; exact hml⟩
  | ext w' =>
    obtain ⟨e1, -, e3, e4⟩ := hv.program_owned k hm.1
    exact ⟨⟨e1.trans hm.1, e3.trans hm.2⟩, Nat.lt_of_lt_of_le hml e4⟩

/-- Income compared where the totals grew by as much as the stake. -/
theorem income_le {s t : Chain} {e : Event} (hnow : s.now = t.now) (hs : Wf env s.now s.world) (hv : e.Valid env s)
    (hc : CleanEvent env s e) (hal : ∀ accs i, e = .ix accs i → succeeded env s accs i = succeeded env t accs i) {P : Key}
    {p q : Pool} (hp : PoolAt env s.world P p) (hq : PoolAt env t.world P q) (hsch : SameSchedule p q) {δ : Nat → Int}
    (hδ : Apart s.now δ p q) {m n : Mining} (hpos : 0 ≤ δ (midnight s.now))
    (hw : weightOn n (midnight s.now) = weightOn m (midnight s.now) + δ (midnight s.now))
    (hf : n.stakeFromOthers = m.stakeFromOthers) (hle : (earningOn m (midnight s.now) : Int) ≤ totalOn p (midnight s.now)) :
    incomeBy env P m s e ≤ incomeBy env P n t e + takesPart env P n t e := by
  cases e <;> try exact Nat.zero_le _
  rename_i accs i
  have hal := hal accs i rfl
  simp only [incomeBy, takesPart, distributedBy, hp.2, hq.2, ← hal, ← hnow]
  by_cases hx : succeeded env s accs i = true
  · simp only [if_pos hx, incomeFrom]
    rw [← hsch.distributed accs s.now P i]
    by_cases h0 : 0 < distributedFrom accs s.now P p i
    · rw [if_pos h0]
      have hT : 0 < totalOn p (midnight s.now) := by
        unfold succeeded at hx
        split at hx
        · rename_i r hr
          exact distributed_pos hs hv hc (w' := r.1) (r := r.2) hr hp h0
        · cases hx
      have h3 := hδ _ (Nat.le_refl _)
      have h4 : (totalOn q (midnight s.now)).toNat =
          (totalOn p (midnight s.now)).toNat + (δ (midnight s.now)).toNat := by omega
      rw [h4]
      refine part_le (by omega) (by omega) ?_
      exact earning_apart (by omega) hf
    · have h0 : distributedFrom accs s.now P p i = 0 := by omega
      rw [h0]; simp
  · simp [hx]

/-- Income compared where only the totals differ. -/
theorem income_ge {s t : Chain} {e : Event} (hnow : s.now = t.now) (ht : Wf env t.now t.world) (hv : e.Valid env t)
    (hc : CleanEvent env t e) (hal : ∀ accs i, e = .ix accs i → succeeded env s accs i = succeeded env t accs i) {P : Key}
    {p q : Pool} (hp : PoolAt env s.world P p) (hq : PoolAt env t.world P q) (hsch : SameSchedule p q) {δ : Nat → Int}
    (hδ : Apart s.now δ p q) {m : Mining} (hneg : δ (midnight s.now) ≤ 0) :
    incomeBy env P m s e ≤ incomeBy env P m t e := by
  cases e <;> try exact Nat.zero_le _
  rename_i accs i
  have hal := hal accs i rfl
  simp only [incomeBy, hp.2, hq.2, hal, hnow]
  by_cases hx : succeeded env t accs i = true
  · simp only [if_pos hx, incomeFrom]
    rw [hsch.distributed accs t.now P i]
    refine Nat.mul_le_mul_right _ ?_
    by_cases h0 : 0 < distributedFrom accs t.now P q i
    · have hT : 0 < totalOn q (midnight t.now) := by
        unfold succeeded at hx
        split at hx
        · rename_i r hr
          exact distributed_pos ht hv hc (w' := r.1) (r := r.2) hr hq h0
        · cases hx
      have h3 := hδ _ (Nat.le_refl _)
      rw [hnow] at h3 hneg
      exact Nat.div_le_div_left (by omega) (by omega)
    · have h0 : distributedFrom accs t.now P q i = 0 := by omega
      rw [h0]; simp
  · simp [hx]

theorem totalIn_add (f g : Chain → Event → Nat) (s : Chain) (es : List Event) :
    totalIn env (fun t e => f t e + g t e) s es = totalIn env f s es + totalIn env g s es := by
  induction es generalizing s with
  | nil => rfl
  | cons e es ih => simp only [totalIn, ih]; omega

end Verif
