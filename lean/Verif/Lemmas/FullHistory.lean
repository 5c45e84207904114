import Verif.Lemmas.Distribution
import Verif.Lemmas.DemoExec
/-!
A reachable state whose index history is full (1095 entries): after a small deposit the pool is distributed every day for
three years.
-/

namespace Verif

open Spec

/-- DistributeRewards runs through when the methods do. -/
theorem exec_distribute {env : Env} {now : Nat} {w : World} {P B : AccountInfo} {p p' : Pool} {r : Nat}
    (ho : PoolAt env w P.key p) (hlen : POOL_LEN ≤ (w P.key).len) (hs : B.isSigner = true)
    (ha : B.key = p.distributeAuthority) (hr : p.rewardsToDistribute now = .ok r)
    (hd : p.distribute env.caps now r = .ok p') (hw : P.isWritable = true) (hB : B.key ≠ P.key) :
    exec env now w [P, B] .distributeRewards = .ok (putPool w P.key p', none) := by
  rw [exec_ok]
  refine ⟨?_, ?_⟩
  · simp only [process, processDistributeRewards, res_bind_ok, res_pure_ok]
    refine ⟨_, ⟨(P, [B]), nextWithOwner_ok.mpr ⟨rfl, ho.1⟩, (B, []), nextSigner_ok.mpr ⟨rfl, hs⟩, p, ?_, r, hr, (),
      assertKey_ok.mpr ha, p', hd, rfl⟩, rfl⟩
    rw [loadPool_ok]
    exact ⟨hlen, by rw [ho.2]; rfl⟩
  · intro a hmem hnw
    simp only [List.mem_cons, List.not_mem_nil, or_false] at hmem
    rcases hmem with rfl | rfl
    · rw [hw] at hnw; cases hnw
    · exact putPool_ne _ _ hB

namespace Demo

def longBase : List Event :=
  [initPool 100, initMining 100 120, deposit 100 120 1000 .flex 120, fill 100 1000 (day0 + 2200 * DAY), .tick (6 * DAY),
   distribute 100]

def sB : Chain := (run s0 longBase).getD s0

theorem sB_reachable : Reachable env sB := after_reachable (by decide +kernel)

/-- The pool at that point, with history `c`. -/
def pB (c : SMap) : Pool :=
  { Pool.init 255 110 111 112 101 with
    totalShare := 1000, tokensAvailable := 1000, distributionEndsAt := day0 + 2200 * DAY, cumulative := c }

theorem sB_pool : PoolAt env sB.world 100 (pB [(day0 + 6 * DAY, 0)]) := by
  have h : hasPool sB.world 100 (fun p => decide (p = pB [(day0 + 6 * DAY, 0)])) = true := by decide +kernel
  obtain ⟨m, h1, h2⟩ := hasPool_sound h
  rw [decide_eq_true_eq] at h2
  rw [← h2]; exact h1

theorem sB_now : sB.now = day0 + 100 + 6 * DAY := by decide +kernel

theorem amount_zero {t : Nat} (h : t + 1001 * 86400 ≤ day0 + 2200 * 86400) (c : SMap) :
    (pB c).rewardsToDistribute t = .ok 0 := by
  rw [rewardsToDistribute_eq _ (by unfold pB U64; simp only; omega)]
  unfold pB dailyAmount
  simp only
  have hd : DAY = 86400 := rfl
  rw [hd]
  rw [if_neg (by omega)]
  congr 1
  exact Nat.div_eq_of_lt (by omega)

/-- The same pool with other values of index and budget. -/
def pF (i a : Nat) (c : SMap) : Pool := { pB c with index := i, tokensAvailable := a }

theorem distribute_long {t i a r : Nat} {c : SMap} (hc : ∀ e ∈ c, e.1 < bod t) (hr : r ≤ a) (hr' : r ≤ 1000)
    (hi : i ≤ 10 ^ 20) :
    (pF i a c).distribute env.caps t r = .ok (pF (i + 10 ^ 16 * r / 1000) (a - r)
      (if c.length < 1095 then c ++ [(bod t, i + 10 ^ 16 * r / 1000)] else c)) := by
  rw [distribute_ok (p := pF i a c) (show Sorted [] from List.Pairwise.nil)]
  have e1 : (pF i a c).diffs = [] := rfl
  have e2 : (pF i a c).totalShare = 1000 := rfl
  have e3 : (pF i a c).index = i := rfl
  have e4 : (pF i a c).tokensAvailable = a := rfl
  have e5 : (pF i a c).cumulative = c := rfl
  have d1 : ∀ x, dueBy [] x = 0 := fun x => rfl
  have d2 : ∀ x, after [] x = [] := fun x => rfl
  simp only [e1, e2, e3, e4, e5, d1, d2, Nat.sub_zero]
  have hP : PRECISION = 10 ^ 16 := rfl
  have hU : U128 = 340282366920938463463374607431768211456 := rfl
  rw [hP, hU]
  refine ⟨by decide, by decide, Or.inr ⟨?_, by omega, by decide, by omega, hr, ?_⟩⟩
  · rw [SMap.contains_iff]
    rintro ⟨e, he, h1⟩
    have := hc e he
    omega
  · rw [insert_last hc]
    rfl

theorem distribute_zero {t : Nat} {c : SMap} (hc : ∀ e ∈ c, e.1 < bod t) (hl : c.length < 1095) :
    (pB c).distribute env.caps t 0 = .ok (pB (c ++ [(bod t, 0)])) := by
  have h := distribute_long (i := 0) (a := 1000) (r := 0) hc (by omega) (by omega) (by omega)
  rw [if_pos hl] at h
  exact h

/-- A state of the long run with `n` recorded distributions. -/
structure Long (n : Nat) (s : Chain) (c : SMap) : Prop where
  reach : Reachable env s
  now : s.now = day0 + 100 + (5 + n) * 86400
  pool : PoolAt env s.world 100 (pB c)
  len : c.length = n
  size : (s.world 100).len = POOL_LEN ∧ (s.world 100).lamports = 10

theorem long_start : ∃ c, Long 1 sB c :=
  ⟨_, sB_reachable, sB_now, sB_pool, rfl, by decide +kernel, by decide +kernel⟩

theorem dist_valid (s : Chain) : (distribute 100).Valid env s := by
  intro a ha
  simp only [List.mem_cons, List.not_mem_nil, or_false] at ha
  rcases ha with rfl | rfl <;> decide

theorem long_next {n : Nat} {s : Chain} {c : SMap} (h : Long n s c) (hn : n < 1095) :
    ∃ c', Long (n + 1) ((s.apply env (.tick 86400)).apply env (distribute 100)) c' := by
  have h1 : Reachable env (s.apply env (.tick 86400)) := h.reach.step trivial trivial
  have hnow : (s.apply env (.tick 86400)).now = day0 + 100 + (5 + (n + 1)) * 86400 := by
    show s.now + 86400 = _
    rw [h.now]; omega
  generalize hs1 : s.apply env (.tick 86400) = s1 at *
  have hw1 : s1.world = s.world := by rw [← hs1]; rfl
  have hpool : PoolAt env s1.world 100 (pB c) := by rw [hw1]; exact h.pool
  have hold : ∀ e ∈ c, e.1 < bod s1.now := by
    intro e he
    have := (poolAt_good (reachable_wf h.reach) h.pool).ok.past e he
    rw [hnow, bod_eq_midnight]
    rw [h.now] at this
    unfold midnight at *
    omega
  have hx := exec_distribute (env := env) (now := s1.now) (P := W 100) (B := S 111) hpool
    (by rw [hw1]; exact Nat.le_of_eq h.size.1.symm) rfl rfl
    (amount_zero (by rw [hnow]; omega) c) (distribute_zero hold (by rw [h.len]; exact hn)) rfl (by decide)
  have happ := apply_ix_ok hx
  refine ⟨c ++ [(bod s1.now, 0)], h1.step (dist_valid _) trivial, ?_, ?_, ?_, ?_, ?_⟩
  · show (s1.apply env (.ix _ _)).now = _
    rw [happ]; exact hnow
  · show PoolAt env (s1.apply env (.ix _ _)).world _ _
    rw [happ]
    exact putPool_at hpool.1 _
  · simp [h.len]
  · show ((s1.apply env (.ix _ _)).world 100).len = _
    rw [happ]; simp only [putPool, W, world_set_same, storePool]; rw [hw1]; exact h.size.1
  · show ((s1.apply env (.ix _ _)).world 100).lamports = _
    rw [happ]; simp only [putPool, W, world_set_same, storePool]; rw [hw1]; exact h.size.2

/-- A reachable state with a full history. -/
theorem long_full : ∃ s c, Long 1095 s c := by
  have key : ∀ n, n ≤ 1094 → ∃ s c, Long (n + 1) s c := by
    intro n
    induction n with
    | zero => intro _; obtain ⟨c, h⟩ := long_start; exact ⟨_, c, h⟩
    | succ n ih =>
      intro hn
      obtain ⟨s, c, h⟩ := ih (by omega)
      exact ⟨_, long_next h (by omega)⟩
  exact key 1094 (Nat.le_refl _)

theorem amount_two {t : Nat} (h : t + 500 * 86400 ≤ day0 + 2200 * 86400) (h' : day0 + 2200 * 86400 < t + 501 * 86400)
    (i a : Nat) (ha : a ≤ 1000) (c : SMap) : (pF i a c).rewardsToDistribute t = .ok (a / 500) := by
  rw [rewardsToDistribute_eq _ (by unfold pF pB U64; simp only; omega)]
  unfold pF pB dailyAmount
  simp only
  have hd : DAY = 86400 := rfl
  rw [hd]
  rw [if_neg (by omega), show (day0 + 2200 * 86400 - t) / 86400 = 500 by omega]

/-- With a full history a distribution leaves no record, and can be repeated on the same day. -/
theorem long_again {s : Chain} {c : SMap} (h : Long 1095 s c) : ∃ w1 w2,
    PoolAt env (s.apply env (.tick (599 * 86400))).world 100 (pF 0 1000 c) ∧
    exec env (s.apply env (.tick (599 * 86400))).now (s.apply env (.tick (599 * 86400))).world [W 100, S 111]
      .distributeRewards = .ok (w1, none) ∧
    PoolAt env w1 100 (pF 20000000000000 998 c) ∧
    exec env (s.apply env (.tick (599 * 86400))).now w1 [W 100, S 111] .distributeRewards = .ok (w2, none) ∧
    PoolAt env w2 100 (pF 30000000000000 997 c) := by
  have hnow : (s.apply env (.tick (599 * 86400))).now = day0 + 100 + 1699 * 86400 := by
    show s.now + 599 * 86400 = _
    rw [h.now]
  generalize hs1 : s.apply env (.tick (599 * 86400)) = s1 at *
  have hw1 : s1.world = s.world := by rw [← hs1]; rfl
  have hpool : PoolAt env s1.world 100 (pF 0 1000 c) := by rw [hw1]; exact h.pool
  have hold : ∀ e ∈ c, e.1 < bod s1.now := by
    intro e he
    have := (poolAt_good (reachable_wf h.reach) h.pool).ok.past e he
    rw [hnow, bod_eq_midnight]
    rw [h.now] at this
    unfold midnight at *
    omega
  have hfull : ¬ c.length < 1095 := by rw [h.len]; omega
  have d1 := distribute_long (i := 0) (a := 1000) (r := 2) hold (by omega) (by omega) (by omega)
  have d2 := distribute_long (i := 20000000000000) (a := 998) (r := 1) hold (by omega) (by omega) (by omega)
  rw [if_neg hfull] at d1 d2
  have x1 := exec_distribute (env := env) (now := s1.now) (P := W 100) (B := S 111) hpool
    (by rw [hw1]; exact Nat.le_of_eq h.size.1.symm) rfl rfl
    (amount_two (by rw [hnow]; omega) (by rw [hnow]; omega) 0 1000 (by omega) c) d1 rfl (by decide)
  have hpool2 : PoolAt env (putPool s1.world (W 100).key (pF 20000000000000 998 c)) 100 (pF 20000000000000 998 c) :=
    putPool_at hpool.1 _
  have x2 := exec_distribute (env := env) (now := s1.now) (P := W 100) (B := S 111) hpool2
    (by simp only [putPool, W, world_set_same, storePool]; rw [hw1]; exact Nat.le_of_eq h.size.1.symm) rfl rfl
    (amount_two (by rw [hnow]; omega) (by rw [hnow]; omega) _ _ (by omega) c) d2 rfl (by decide)
  exact ⟨_, _, hpool, x1, hpool2, x2, putPool_at hpool2.1 _⟩

theorem long_twice : ∃ s c w1 w2, Reachable env s ∧ PoolAt env s.world 100 (pF 0 1000 c) ∧
    exec env s.now s.world [W 100, S 111] .distributeRewards = .ok (w1, none) ∧
    PoolAt env w1 100 (pF 20000000000000 998 c) ∧
    exec env s.now w1 [W 100, S 111] .distributeRewards = .ok (w2, none) ∧
    PoolAt env w2 100 (pF 30000000000000 997 c) := by
  obtain ⟨s, c, h⟩ := long_full
  obtain ⟨w1, w2, h1⟩ := long_again h
  exact ⟨s.apply env (.tick (599 * 86400)), c, w1, w2, h.reach.step (e := .tick (599 * 86400)) trivial trivial, h1⟩

end Demo

end Verif
