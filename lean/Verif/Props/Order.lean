import Verif.Lemmas.Order
import Verif.Lemmas.DemoExec
/-!
C74: the order in which different stakers are served within the same second does not matter.
-/

namespace Verif

open Spec Demo

section
variable {env : Env}

/-- C74: two instructions for stakers of the same pool that have no mining account in common may be executed in either order: they
pay out the same amounts and lead to states that nobody can tell apart from then on.  (The pool's table of expirations must have
room for two more dates, see `C74_false_last_slot`; for a delegate in common see `C74_false_shared_delegate`.) -/
theorem C74_order {now : Nat} {w w1 w12 w2 w21 : World} {P : Key} {a b : List AccountInfo} {i j : Ix} {r1 r2 s1 s2 : Option Nat}
    (hw : Wf env now w) (ha : RealSigners a) (hb : RealSigners b) (hind : Independent env w P a i b j)
    (hroom : ∀ p, PoolAt env w P p → p.diffs.length + 2 ≤ env.caps.pool)
    (h1 : exec env now w a i = .ok (w1, r1)) (h12 : exec env now w1 b j = .ok (w12, r2))
    (h2 : exec env now w b j = .ok (w2, s2)) (h21 : exec env now w2 a i = .ok (w21, s1)) :
    s1 = r1 ∧ s2 = r2 ∧ SameOutcome env now P w12 w21 := by
  obtain ⟨⟨ki, kj⟩, ⟨pi, pj⟩, hm, hdis⟩ := hind
  have clean : ∀ (x : World) (c : List AccountInfo) (k : Ix), (∀ q, Touches c k q → ∃ m, MiningAt env x q m) →
      forStaker k = true → NotPoolAsMining env x c k := by
    intro x c k hk hf
    cases k <;> first
      | exact trivial
      | (cases hf; done)
      | (intro y hy q hq
         obtain ⟨m, hm⟩ := hk y.key (by simp [Touches, miningArg, delegateArg, oldDelegateArg, hy])
         exact PoolAt.not_mining hq hm)
  have mi : ∀ k, Touches a i k → ∃ m, MiningAt env w k m := fun k hk => hm k (Or.inl hk)
  have mj : ∀ k, Touches b j k → ∃ m, MiningAt env w k m := fun k hk => hm k (Or.inr hk)
  have ci := clean w a i mi ki
  have cj := clean w b j mj kj
  have wf1 := wf_process hw ha ci (exec_ok.mp h1).1
  have wf2 := wf_process hw hb cj (exec_ok.mp h2).1
  have t1 := step_of_exec hw ha ci h1
  have t2 := step_of_exec hw hb cj h2
  have own : ∀ k m, MiningAt env w k m → (w k).owner ≠ env.tokenProgram := fun k m h e =>
    env.program_ne_token (h.1.symm.trans e)
  obtain ⟨p, p1, hp, hp1, -, q1, l1, f1, o1, x1⟩ := t1.staker ki pi mi
  obtain ⟨p', p2, hp', hp2, -, q2, l2, f2, o2, x2⟩ := t2.staker kj pj mj
  obtain rfl := PoolAt.unique hp hp'
  -- the minings of one instruction are not changed by the other
  have e1 : ∀ k, Touches b j k → w1 k = w k := fun k hk => by
    obtain ⟨m, hm⟩ := mj k hk
    exact f1 k (x2 k hk).1 (fun h => hdis k h hk) (own k m hm)
  have e2 : ∀ k, Touches a i k → w2 k = w k := fun k hk => by
    obtain ⟨m, hm⟩ := mi k hk
    exact f2 k (x1 k hk).1 (hdis k hk) (own k m hm)
  have mj1 : ∀ k, Touches b j k → ∃ m, MiningAt env w1 k m := fun k hk => by
    obtain ⟨m, hm⟩ := mj k hk; exact ⟨m, (miningAt_congr (e1 k hk)).mpr hm⟩
  have mi2 : ∀ k, Touches a i k → ∃ m, MiningAt env w2 k m := fun k hk => by
    obtain ⟨m, hm⟩ := mi k hk; exact ⟨m, (miningAt_congr (e2 k hk)).mpr hm⟩
  have t12 := step_of_exec wf1 hb (clean w1 b j mj1 kj) h12
  have t21 := step_of_exec wf2 ha (clean w2 a i mi2 ki) h21
  obtain ⟨p1', p12, hp1', hp12, -, q12, -, f12, o12, x12⟩ := t12.staker kj pj mj1
  obtain rfl := PoolAt.unique hp1 hp1'
  obtain ⟨p2', p21, hp2', hp21, -, q21, -, f21, o21, x21⟩ := t21.staker ki pi mi2
  obtain rfl := PoolAt.unique hp2 hp2'
  obtain ⟨rfl, ai, bi, ti⟩ := t1.twice hw wf2 t21 ki pi hp hp2 q2.cumulative mi e2
  obtain ⟨rfl, aj, bj, tj⟩ := t2.twice hw wf1 t12 kj pj hp hp1 q1.cumulative mj e1
  have room := hroom p hp
  refine ⟨rfl, rfl, ?_, ?_, p12, p21, hp12, hp21, ?_, ?_, ?_⟩
  · intro k hk ht
    rw [o12, o1] at ht
    by_cases c : Touches a i k
    · rw [ai k c, f12 k hk (hdis k c) (by rw [o1]; exact ht)]
    · by_cases d : Touches b j k
      · rw [aj k d, f21 k hk c (by rw [o2]; exact ht)]
      · rw [f12 k hk d (by rw [o1]; exact ht), f1 k hk c ht, f21 k hk c (by rw [o2]; exact ht), f2 k hk d ht]
  · intro k
    have := bi k
    have := bj k
    omega
  · have a1 := q1.same.trans q12.same
    have a2 := q2.same.trans q21.same
    exact ⟨a2.1.trans a1.1.symm, a2.2.trans a1.2.symm, a2.3.trans a1.3.symm, a2.4.trans a1.4.symm, a2.5.trans a1.5.symm,
      a2.6.trans a1.6.symm⟩
  · have a1 := q1.trans q12
    have a2 := q2.trans q21
    exact ⟨a2.avail.trans a1.avail.symm, a2.ends.trans a1.ends.symm, a2.index.trans a1.index.symm,
      a2.cumulative.trans a1.cumulative.symm⟩
  · intro x hx
    have a1 := ti (by omega) (by omega) p1 p21 hp1 hp21 x hx
    have a2 := tj (by omega) (by omega) p2 p12 hp2 hp12 x hx
    omega

end

/-! ### Concrete cases -/

namespace Demo

/-- The mining accounts passed to an instruction. -/
def touchedBy (accs : List AccountInfo) (i : Ix) : List Key :=
  (miningArg accs i).toList ++ (delegateArg accs i).toList ++ (oldDelegateArg accs i).toList

theorem touches_iff {accs : List AccountInfo} {i : Ix} {k : Key} : Touches accs i k ↔ k ∈ touchedBy accs i := by
  simp only [Touches, touchedBy, List.mem_append, Option.mem_toList, or_assoc]

/-- Deciding `Independent` for the pool at 100. -/
def independentB (w : World) (a : List AccountInfo) (i : Ix) (b : List AccountInfo) (j : Ix) : Bool :=
  forStaker i && forStaker j && decide (poolArg a i = some 100) && decide (poolArg b j = some 100) &&
    (touchedBy a i).all (fun k => hasMining w k fun _ => true) && (touchedBy b j).all (fun k => hasMining w k fun _ => true) &&
    (touchedBy a i).all fun k => decide (k ∉ touchedBy b j)

theorem independentB_sound {w : World} {a b : List AccountInfo} {i j : Ix} (h : independentB w a i b j = true) :
    Independent Demo.env w 100 a i b j := by
  simp only [independentB, Bool.and_eq_true, List.all_eq_true, decide_eq_true_eq] at h
  obtain ⟨⟨⟨⟨⟨⟨h1, h2⟩, h3⟩, h4⟩, h5⟩, h6⟩, h7⟩ := h
  refine ⟨⟨h1, h2⟩, ⟨h3, h4⟩, ?_, ?_⟩
  · rintro k (hk | hk)
    · obtain ⟨m, hm, -⟩ := hasMining_sound (h5 k (touches_iff.mp hk)); exact ⟨m, hm⟩
    · obtain ⟨m, hm, -⟩ := hasMining_sound (h6 k (touches_iff.mp hk)); exact ⟨m, hm⟩
  · intro k hk hk'
    exact h7 k (touches_iff.mp hk) (touches_iff.mp hk')

/-- Both orders of two instructions succeed; `f` holds for the worlds they lead to. -/
def ordersB (s : Chain) (a : List AccountInfo) (i : Ix) (b : List AccountInfo) (j : Ix) (f : World → World → Bool) : Bool :=
  okEvent s (.ix a i) && okEvent (s.apply Demo.env (.ix a i)) (.ix b j) && okEvent s (.ix b j) &&
    okEvent (s.apply Demo.env (.ix b j)) (.ix a i) &&
    f ((s.apply Demo.env (.ix a i)).apply Demo.env (.ix b j)).world ((s.apply Demo.env (.ix b j)).apply Demo.env (.ix a i)).world

/-- Both orders of two instructions succeed and lead to `w12` and `w21`. -/
def BothOrders (s : Chain) (a : List AccountInfo) (i : Ix) (b : List AccountInfo) (j : Ix) (w12 w21 : World) : Prop :=
  ∃ w1 w2 r1 r2 s1 s2, RealSigners a ∧ RealSigners b ∧
    exec Demo.env s.now s.world a i = .ok (w1, r1) ∧ exec Demo.env s.now w1 b j = .ok (w12, r2) ∧
    exec Demo.env s.now s.world b j = .ok (w2, s2) ∧ exec Demo.env s.now w2 a i = .ok (w21, s1)

theorem apply_now (s : Chain) (a : List AccountInfo) (i : Ix) : (s.apply Demo.env (.ix a i)).now = s.now := by
  unfold Chain.apply; dsimp only; split <;> rfl

theorem ordersB_sound {s : Chain} {a b : List AccountInfo} {i j : Ix} {f : World → World → Bool}
    (h : ordersB s a i b j f = true) : ∃ w12 w21, BothOrders s a i b j w12 w21 ∧ f w12 w21 = true := by
  simp only [ordersB, Bool.and_eq_true] at h
  obtain ⟨⟨⟨⟨h1, h2⟩, h3⟩, h4⟩, h5⟩ := h
  obtain ⟨r1, e1⟩ := exec_of_ok h1
  obtain ⟨r2, e2⟩ := exec_of_ok h2
  obtain ⟨s2, e3⟩ := exec_of_ok h3
  obtain ⟨s1, e4⟩ := exec_of_ok h4
  rw [apply_now] at e2 e4
  exact ⟨_, _, ⟨_, _, r1, r2, s1, s2, (okEvent_sound h1).1, (okEvent_sound h3).1, e1, e2, e3, e4⟩, h5⟩

/-- Two more stakers join; a day later, another distribution is made. -/
def crowd : List Event :=
  story ++ [initMining 100 122, initMining 100 123, deposit 100 122 300 .flex 123, .tick DAY, distribute 100, .tick 10]
def afterCrowd : Chain := (run s0 crowd).getD s0
theorem afterCrowd_reachable : Reachable Demo.env afterCrowd := after_reachable (es := crowd) (by decide +kernel)

end Demo

open Demo

/-- The hypotheses of `C74_order` are met by two claims that both pay something, … -/
example : ∃ w12 w21, BothOrders afterCrowd [R 100, R 101, W (vaultOf 100 101), W (mine 121 100), S 121, S 110, W 131, R 2] .claim
      [R 100, R 101, W (vaultOf 100 101), W (mine 120 100), S 120, S 110, W 130, R 2] .claim w12 w21 ∧
    0 < balance w12 130 ∧ 0 < balance w12 131 := by
  obtain ⟨w12, w21, h, hf⟩ := ordersB_sound (s := afterCrowd)
    (f := fun w _ => decide (0 < balance w 130) && decide (0 < balance w 131))
    (a := [R 100, R 101, W (vaultOf 100 101), W (mine 121 100), S 121, S 110, W 131, R 2]) (i := .claim)
    (b := [R 100, R 101, W (vaultOf 100 101), W (mine 120 100), S 120, S 110, W 130, R 2]) (j := .claim) (by decide +kernel)
  exact ⟨w12, w21, h, by simpa using hf⟩

example : Independent Demo.env afterCrowd.world 100
    [R 100, R 101, W (vaultOf 100 101), W (mine 121 100), S 121, S 110, W 131, R 2] .claim
    [R 100, R 101, W (vaultOf 100 101), W (mine 120 100), S 120, S 110, W 130, R 2] .claim :=
  independentB_sound (by decide +kernel)

/-- … and by a deposit and a withdrawal with different delegates; the table has room. -/
example : Independent Demo.env afterCrowd.world 100
      [W 100, W (mine 120 100), S 110, W (mine 121 100)] (.depositMining 70 .sixMonths 120 121)
      [W 100, W (mine 122 100), S 110, W (mine 123 100)] (.withdrawMining 200 122 123) ∧
    (∃ w12 w21, BothOrders afterCrowd [W 100, W (mine 120 100), S 110, W (mine 121 100)] (.depositMining 70 .sixMonths 120 121)
      [W 100, W (mine 122 100), S 110, W (mine 123 100)] (.withdrawMining 200 122 123) w12 w21) ∧
    ∀ p, PoolAt Demo.env afterCrowd.world 100 p → p.diffs.length + 2 ≤ Demo.env.caps.pool := by
  refine ⟨independentB_sound (by decide +kernel), ?_, ?_⟩
  · obtain ⟨w12, w21, h, -⟩ := ordersB_sound (s := afterCrowd) (f := fun _ _ => true)
      (a := [W 100, W (mine 120 100), S 110, W (mine 121 100)]) (i := .depositMining 70 .sixMonths 120 121)
      (b := [W 100, W (mine 122 100), S 110, W (mine 123 100)]) (j := .withdrawMining 200 122 123) (by decide +kernel)
    exact ⟨w12, w21, h⟩
  · intro p hp
    obtain ⟨q, hq, h⟩ := hasPool_sound (w := afterCrowd.world) (k := 100)
      (f := fun q => decide (q.diffs.length + 2 ≤ Demo.env.caps.pool)) (by decide +kernel)
    obtain rfl := PoolAt.unique hp hq
    simpa using h

/-- A delegate in common breaks C74: a deposit credits its delegate for the past with the new stake included, the next one does not. -/
theorem C74_false_shared_delegate : ∃ s a i b j w12 w21, Reachable Demo.env s ∧ forStaker i = true ∧ forStaker j = true ∧
    poolArg a i = some 100 ∧ poolArg b j = some 100 ∧ miningArg a i ≠ miningArg b j ∧ BothOrders s a i b j w12 w21 ∧
    ∃ k x y, MiningAt Demo.env w12 k x ∧ MiningAt Demo.env w21 k y ∧ x.unclaimed ≠ y.unclaimed := by
  obtain ⟨w12, w21, h, hf⟩ := ordersB_sound (s := afterCrowd)
    (f := fun v w => hasMining v (mine 123 100) fun x => hasMining w (mine 123 100) fun y => decide (x.unclaimed ≠ y.unclaimed))
    (a := [W 100, W (mine 120 100), S 110, W (mine 123 100)]) (i := .depositMining 70000 .sixMonths 120 123)
    (b := [W 100, W (mine 122 100), S 110, W (mine 123 100)]) (j := .depositMining 200 .flex 122 123) (by decide +kernel)
  obtain ⟨x, hx, hf⟩ := hasMining_sound hf
  obtain ⟨y, hy, hf⟩ := hasMining_sound hf
  exact ⟨_, _, _, _, _, w12, w21, afterCrowd_reachable, rfl, rfl, rfl, rfl, by decide +kernel, h, _, x, y, hx, hy, by simpa using hf⟩

namespace Demo

/-- On each of `n` days the staker `o` locks tokens twice. -/
def twiceDaily (o : Key) : Nat → List Event
  | 0 => []
  | n + 1 => deposit 100 o 10 .flex o :: deposit 100 o 10 .oneYear o :: .tick DAY :: twiceDaily o n

/-- Eight stakers fill the pool's table of expirations except for one place. -/
def nearlyFull : List Event := initPool 100 :: ([120, 121, 122, 123, 124, 125, 126, 127].map (initMining 100) ++
  [120, 121, 122, 123, 124, 125, 126].flatMap (twiceDaily · 23) ++ twiceDaily 127 21)

/-- Two stakers want the last place. -/
def contestA : List AccountInfo := [W 100, W (mine 126 100), S 110, W (mine 126 100)]
def contestB : List AccountInfo := [W 100, W (mine 127 100), S 110, W (mine 127 100)]

def contestB' (s : Chain) : Bool :=
  independentB s.world contestA (.depositMining 1000 .threeMonths 126 126) contestB (.depositMining 1000 .sixMonths 127 127) &&
    ordersB s contestA (.depositMining 1000 .threeMonths 126 126) contestB (.depositMining 1000 .sixMonths 127 127) fun v w =>
      hasPool v 100 fun p => hasPool w 100 fun q =>
        decide (totalOn q (midnight s.now + 200 * 86400) ≠ totalOn p (midnight s.now + 200 * 86400))

theorem contested : (match run s0 nearlyFull with | some s => contestB' s | none => false) = true := by decide +kernel

end Demo

/-- The last place in the pool's table of expirations breaks C74: who comes first gets it, and the other stake never expires. -/
theorem C74_false_last_slot : ∃ s a i b j w12 w21, Reachable Demo.env s ∧ Independent Demo.env s.world 100 a i b j ∧
    BothOrders s a i b j w12 w21 ∧ ¬ SameOutcome Demo.env s.now 100 w12 w21 := by
  have h := contested
  split at h
  · rename_i s hs
    simp only [contestB', Bool.and_eq_true] at h
    obtain ⟨h1, h2⟩ := h
    obtain ⟨w12, w21, h2, hf⟩ := ordersB_sound h2
    obtain ⟨p, hp, hf⟩ := hasPool_sound hf
    obtain ⟨q, hq, hf⟩ := hasPool_sound hf
    refine ⟨s, _, _, _, _, w12, w21, reachable hs, independentB_sound h1, h2, fun h => ?_⟩
    obtain ⟨p', q', hp', hq', -, -, ht⟩ := h.pool
    obtain rfl := PoolAt.unique hp hp'
    obtain rfl := PoolAt.unique hq hq'
    simp only [decide_eq_true_eq] at hf
    exact hf (ht _ (by omega))
  · cases h

end Verif
