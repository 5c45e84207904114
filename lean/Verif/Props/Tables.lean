import Verif.Lemmas.Tables
import Verif.Lemmas.Slots
import Verif.Lemmas.Early
import Verif.Props.Expirations
import Verif.Lemmas.DemoIncentive
/-!
The pool's table of expirations does not overflow while due expirations are removed from it (C128).
-/

namespace Verif

open Spec

section
variable {env : Env}

/-- C128, dates.  In every reachable state every expiration recorded in a pool is dated at a midnight no later than 365 days
from today. -/
theorem C128_dates {s : Chain} (h : Reachable env s) {P : Key} {p : Pool} (hp : PoolAt env s.world P p) :
    ∀ e ∈ p.diffs, e.1 % 86400 = 0 ∧ e.1 ≤ midnight s.now + 86400 * 365 :=
  fun e he => ⟨(poolAt_good (reachable_wf h) hp).ok.aligned e he, reachable_dates h P p hp e he⟩

/-- C128, sweeping.  After a distribution, a withdrawal or a slashing no expiration due by that day is left in the table of
the pool. -/
theorem C128_sweep {now : Nat} {w w' : World} {accs : List AccountInfo} {i : Ix} {ret : Option Nat} (hw : Wf env now w)
    (hs : RealSigners accs) (hclean : NotPoolAsMining env w accs i) (h : exec env now w accs i = .ok (w', ret)) {P : Key}
    (hi : Sweeps accs P i) : PoolSwept env P ⟨now, w'⟩ :=
  fun _ hp => (step_of_exec hw hs hclean h).sweeps hw hi hp

/-- C128, from then on.  After any history that begins with a swept table, the table of the pool has at most 365 entries and
one for every midnight passed since; if the capacity is not less than that, there is room in it for the expiry date of
whatever stake begins or is extended next. -/
theorem C128_since {P : Key} {s s' : Chain} {es : List Event} (hreach : Reachable env s) (h0 : PoolSwept env P s)
    (hr : RunsWith env (CleanEvent env) s es s') :
    (∀ p, PoolAt env s'.world P p → p.diffs.length ≤ 365 + daysPassed s.now s'.now) ∧
    (365 + daysPassed s.now s'.now ≤ env.caps.pool → ∀ e, RoomInPool env P s' e) := by
  have hw := reachable_wf hreach
  have hreach' : Reachable env s' := hreach.runs hr
  have hle := run_now_le hr
  have table : ∀ p, PoolAt env s'.world P p → Sorted p.diffs ∧ (∀ e ∈ p.diffs, e.1 % 86400 = 0) ∧
      (∀ e ∈ p.diffs, 86400 * (s.now / 86400) < e.1) ∧ ∀ e ∈ p.diffs, e.1 ≤ 86400 * (s'.now / 86400 + 365) := by
    intro p hp
    have hok := (poolAt_good (reachable_wf hreach') hp).ok
    refine ⟨hok.sorted, hok.aligned, fun e he => ?_, fun e he => ?_⟩
    · have h : midnight s.now < e.1 := runs_dates hw hr (Nat.le_refl _) h0 p hp e he
      unfold midnight at h
      omega
    · have h : e.1 ≤ midnight s'.now + 86400 * 365 := reachable_dates hreach' P p hp e he
      rw [midnight, Nat.mul_comm (s'.now / 86400)] at h
      rw [Nat.mul_add]; exact h
  refine ⟨fun p hp => ?_, fun hcap => ?_⟩
  · obtain ⟨h1, h2, h3, h4⟩ := table p hp
    have := dates_count h1 h2 h3 h4
    unfold daysPassed
    omega
  · have room : ∀ l p k n, PoolAt env s'.world P p → terms l = some (k, n) →
        HasRoom env.caps.pool p.diffs (midnight s'.now + 86400 * n) := by
      intro l p k n hp ht
      obtain ⟨h1, h2, h3, h4⟩ := table p hp
      have hn : 0 < n ∧ n ≤ 365 := by cases l <;> simp [terms] at ht <;> omega
      by_cases he : ∃ x ∈ p.diffs, x.1 = midnight s'.now + 86400 * n
      · exact Or.inl he
      · right
        have := dates_missing (c := s'.now / 86400 + n) h1 h2 h3 h4 (by omega) (by omega) fun e hm hx => by
          apply he
          refine ⟨e, hm, ?_⟩
          unfold midnight
          omega
        unfold daysPassed at hcap
        omega
    intro e
    unfold RoomInPool
    split
    · exact fun _ p k n => room _ p k n
    · exact fun _ p k n => room _ p k n
    · trivial

/-- C128, the same day.  With the capacity of 365 entries that a pool is created with: on a day on which rewards have been
distributed (or stake withdrawn or slashed), whatever happened before and whatever happens afterwards on that day, no stake
that begins or is extended meets a full table in the pool. -/
theorem C128_today {P : Key} {s s' : Chain} {es : List Event} {accs : List AccountInfo} {i : Ix} {w' : World}
    {ret : Option Nat} (hcap : 365 ≤ env.caps.pool) (hreach : Reachable env s) (hs : RealSigners accs)
    (hclean : NotPoolAsMining env s.world accs i) (h : exec env s.now s.world accs i = .ok (w', ret)) (hi : Sweeps accs P i)
    (hr : RunsWith env (CleanEvent env) ⟨s.now, w'⟩ es s') (hday : midnight s'.now = midnight s.now) :
    ∀ e, RoomInPool env P s' e := by
  have hreach' : Reachable env ⟨s.now, w'⟩ := by
    obtain ⟨g, es0, hg, hr0⟩ := hreach
    refine ⟨g, es0 ++ [.ix accs i], hg, hr0.append (.cons (e := .ix accs i) hs hclean ?_)⟩
    rw [apply_ix_ok h]
    exact .nil _
  refine (C128_since hreach' (C128_sweep (reachable_wf hreach) hs hclean h hi) hr).2 ?_
  unfold daysPassed
  unfold midnight at hday
  simp only
  omega

/-- C128, consequence.  On such a day the expiration of every stake that is deposited is recorded in the pool: the pool's
table has an entry for its date, larger than before by the weight the stake loses on that date. -/
theorem C128_recorded {P : Key} {s s' : Chain} {es : List Event} {accs accs' : List AccountInfo} {i : Ix} {w' w'' : World}
    {ret ret' : Option Nat} {a : Nat} {per : LockupPeriod} {owner delegate : Key} (hcap : 365 ≤ env.caps.pool)
    (hreach : Reachable env s) (hs : RealSigners accs) (hclean : NotPoolAsMining env s.world accs i)
    (h : exec env s.now s.world accs i = .ok (w', ret)) (hi : Sweeps accs P i)
    (hr : RunsWith env (CleanEvent env) ⟨s.now, w'⟩ es s') (hday : midnight s'.now = midnight s.now)
    (hs' : RealSigners accs') (hP : FirstIs accs' P)
    (h' : exec env s'.now s'.world accs' (.depositMining a per owner delegate) = .ok (w'', ret')) :
    ∃ k n p p', terms per = some (k, n) ∧ PoolAt env s'.world P p ∧ PoolAt env w'' P p' ∧
      recordedAt p'.diffs (midnight s'.now + 86400 * n) = recordedAt p.diffs (midnight s'.now + 86400 * n) + (a * k - a) ∧
      ∃ x ∈ p'.diffs, x.1 = midnight s'.now + 86400 * n := by
  have hroom := C128_today hcap hreach hs hclean h hi hr hday (.ix accs' (.depositMining a per owner delegate)) hP
  have hw : Wf env s'.now s'.world := wf_runs (wf_apply (e := .ix accs i) (reachable_wf hreach) hs hclean)
    (fun _ _ h => h) (by rw [apply_ix_ok h]; exact hr)
  obtain ⟨Q, M, A, D, rest, k, n, p, m, p', m', rfl, ht, hp, -, hp', -, g, -⟩ := C18_expiration_recorded_partial hw hs' h'
  obtain rfl : Q.key = P := by simpa [FirstIs] using hP
  obtain ⟨g1, g2⟩ := g (hroom p k n hp ht)
  exact ⟨k, n, p, p', ht, hp, hp', g1, g2⟩

/-- C128, consequence for extensions.  On such a day the new end of every stake that is extended is recorded in the pool,
for the whole of the extended stake. -/
theorem C128_extended {P : Key} {s s' : Chain} {es : List Event} {accs accs' : List AccountInfo} {i : Ix} {w' w'' : World}
    {ret ret' : Option Nat} {old new : LockupPeriod} {start b a : Nat} {owner delegate : Key} (hcap : 365 ≤ env.caps.pool)
    (hreach : Reachable env s) (hs : RealSigners accs) (hclean : NotPoolAsMining env s.world accs i)
    (h : exec env s.now s.world accs i = .ok (w', ret)) (hi : Sweeps accs P i)
    (hr : RunsWith env (CleanEvent env) ⟨s.now, w'⟩ es s') (hday : midnight s'.now = midnight s.now)
    (hs' : RealSigners accs') (hP : FirstIs accs' P)
    (hclean' : NotPoolAsMining env s'.world accs' (.extendStake old new start b a owner delegate))
    (h' : exec env s'.now s'.world accs' (.extendStake old new start b a owner delegate) = .ok (w'', ret')) :
    ∃ k n p p', terms new = some (k, n) ∧ PoolAt env s'.world P p ∧ PoolAt env w'' P p' ∧
      recordedAt p'.diffs (midnight s'.now + 86400 * n) =
        recordedAt p.diffs (midnight s'.now + 86400 * n) + ((b + a) * k - (b + a)) ∧
      ∃ x ∈ p'.diffs, x.1 = midnight s'.now + 86400 * n := by
  have hroom := C128_today hcap hreach hs hclean h hi hr hday (.ix accs' (.extendStake old new start b a owner delegate)) hP
  have hw : Wf env s'.now s'.world := wf_runs (wf_apply (e := .ix accs i) (reachable_wf hreach) hs hclean)
    (fun _ _ h => h) (by rw [apply_ix_ok h]; exact hr)
  cases step_of_exec hw hs' hclean' h' with
  | @stake _ P1 M A D q q' q1 q1' d d' accs_eq op chk del quiet same sfo ok' sameDel eff shell =>
    obtain ⟨a1, -⟩ := accs_eq.pool ⟨_, _, _, _, _, _, _, _, op⟩
    obtain rfl : P1.key = P := Option.some.inj (a1.symm.trans (by simpa [FirstIs, poolArg, List.head?_eq_getElem?] using hP))
    obtain ⟨k, n, g1, g2, -⟩ := extend_recorded chk.good.ok chk.miningOk op
    obtain ⟨g3, g4⟩ := g2 (hroom q k n eff.pool g1)
    exact ⟨k, n, q, q', g1, eff.pool, eff.pool', g3, g4⟩

end

/-! ### Concrete cases -/

section Examples
open Demo

/-- Six days after the story one of the two expirations is overdue. -/
def overdue : Chain := afterStory.apply Demo.env (.tick (6 * DAY))

theorem overdue_reachable : Reachable Demo.env overdue :=
  afterStory_reachable.step (e := .tick (6 * DAY)) trivial trivial

-- the table of the pool has two entries, one of them overdue …
example : hasPool overdue.world 100 (fun p => decide (p.diffs.length = 2) && p.diffs.any fun e =>
    decide (e.1 ≤ midnight overdue.now)) = true := by decide +kernel

/-- Then rewards are distributed, … -/
def sweptOne : Chain := overdue.apply Demo.env (distribute 100)

/-- … and somebody stakes on the same day. -/
def sameDay : List Event := [deposit 100 120 70 .threeMonths 121, .tick 100]

theorem sweptOne_ok : okEvent overdue (distribute 100) = true := by decide +kernel

theorem sameDay_ok : allPass okEvent sweptOne sameDay = true := by decide +kernel

example : ∃ w', Succeeds overdue [W 100, S 111] .distributeRewards w' ∧ Sweeps [W 100, S 111] 100 .distributeRewards ∧
    (∃ p, PoolAt Demo.env w' 100 p ∧ p.diffs.length = 1) ∧ 365 ≤ Demo.env.caps.pool ∧
    ∃ s', RunsWith Demo.env (CleanEvent Demo.env) ⟨overdue.now, w'⟩ sameDay s' ∧ midnight s'.now = midnight overdue.now := by
  obtain ⟨w', h⟩ := succeeds overdue_reachable sweptOne_ok
  obtain ⟨ret, hx⟩ := h.ok
  have e : sweptOne = ⟨overdue.now, w'⟩ := apply_ix_ok hx
  refine ⟨w', h, rfl, ?_, by decide, ?_⟩
  · obtain ⟨p, h1, h2⟩ := hasPool_sound (w := sweptOne.world) (k := 100) (f := fun p => decide (p.diffs.length = 1))
      (by decide +kernel)
    rw [e] at h1
    exact ⟨p, h1, by simpa using h2⟩
  · rw [← e]
    exact ⟨_, allPass_sound (fun s e h => okEvent_sound h) sameDay_ok, by decide +kernel⟩

-- the deposit of `C128_recorded` at once after the distribution, with the empty history in between
example : ∃ ret, exec Demo.env sweptOne.now sweptOne.world [W 100, W (mine 120 100), S 110, W (mine 121 100)]
      (.depositMining 70 .threeMonths 120 121) =
      .ok ((sweptOne.apply Demo.env (deposit 100 120 70 .threeMonths 121)).world, ret) ∧
    FirstIs [W 100, W (mine 120 100), S 110, W (mine 121 100)] 100 := by
  obtain ⟨ret, h⟩ := exec_of_ok (s := sweptOne) (accs := [W 100, W (mine 120 100), S 110, W (mine 121 100)])
    (i := .depositMining 70 .threeMonths 120 121) (by decide +kernel)
  exact ⟨ret, h, rfl⟩

-- … and an extension, as in `C128_extended`
example : okEvent sweptOne (.ix [W 100, W (mine 120 100), S 110, W (mine 121 100)]
    (.extendStake .oneYear .oneYear (day0 + 100) 500 5 120 121)) = true ∧
    FirstIs [W 100, W (mine 120 100), S 110, W (mine 121 100)] 100 := ⟨by decide +kernel, rfl⟩

-- the table of a pool may be swept already, and then a history of many days follows
example : PoolSwept Demo.env 100 sweptOne ∧ Reachable Demo.env sweptOne := by
  refine ⟨fun p hp => ?_, overdue_reachable.step (okEvent_sound sweptOne_ok).1 (okEvent_sound sweptOne_ok).2⟩
  obtain ⟨q, h1, h2⟩ := hasPool_sound (w := sweptOne.world) (k := 100)
    (f := fun p => p.diffs.all fun e => decide (midnight sweptOne.now < e.1)) (by decide +kernel)
  obtain rfl := PoolAt.unique hp h1
  intro e he
  simpa using List.all_eq_true.mp h2 e he

/-- Somebody stakes for a year every day. -/
def stakeDaily : Nat → List Event
  | 0 => []
  | n + 1 => .tick DAY :: deposit 100 120 1 .oneYear 120 :: stakeDaily n

/-- Every event passes a check, and the state at the end another one. -/
def allPassThen (f : Chain → Bool) : Chain → List Event → Bool
  | s, [] => f s
  | s, e :: es => okEvent s e && allPassThen f (s.apply Demo.env e) es

theorem allPassThen_sound {f : Chain → Bool} {s : Chain} {es : List Event} (h : allPassThen f s es = true) :
    RunsWith Demo.env (CleanEvent Demo.env) s es (endOf s es) ∧ f (endOf s es) = true := by
  induction es generalizing s with
  | nil => exact ⟨.nil _, h⟩
  | cons e es ih =>
    simp only [allPassThen, Bool.and_eq_true] at h
    exact ⟨.cons (okEvent_sound h.1).1 (okEvent_sound h.1).2 (ih h.2).1, (ih h.2).2⟩

/-- The table of pool 100 is full, and staking once more for a year succeeds without being recorded in it. -/
def lostB (s : Chain) : Bool :=
  okEvent s (deposit 100 120 1 .oneYear 120) &&
  hasPool s.world 100 (fun p => decide (365 ≤ p.diffs.length) &&
    p.diffs.all (fun e => decide (e.1 ≠ midnight s.now + 86400 * 365)) &&
    hasPool (s.apply Demo.env (deposit 100 120 1 .oneYear 120)).world 100 fun p' =>
      decide (p'.diffs = p.diffs ∧ p'.totalShare = p.totalShare + 6))

set_option maxRecDepth 10000 in
theorem stakeDaily_lost : allPassThen lostB afterStory (stakeDaily 363 ++ [.tick DAY]) = true := by decide +kernel

/-- C128 without sweeping is false.  With the deployed capacity: if there is no distribution, withdrawal or slashing for a year
in which somebody stakes for a year every day, the table of the pool is full, and the next such stake is added to the total
with its sixfold weight, but its expiration is not recorded. -/
theorem C128_unswept_false : ∃ (s : Chain) (p p' : Pool), Reachable Demo.env s ∧ Demo.env.caps = Caps.deployed ∧
    goesThrough Demo.env s (deposit 100 120 1 .oneYear 120) = true ∧
    ¬ RoomInPool Demo.env 100 s (deposit 100 120 1 .oneYear 120) ∧ PoolAt Demo.env s.world 100 p ∧
    PoolAt Demo.env (s.apply Demo.env (deposit 100 120 1 .oneYear 120)).world 100 p' ∧
    p'.totalShare = p.totalShare + 6 ∧ p'.diffs = p.diffs := by
  obtain ⟨hr, hl⟩ := allPassThen_sound stakeDaily_lost
  generalize endOf afterStory (stakeDaily 363 ++ [.tick DAY]) = s at hr hl
  simp only [lostB, Bool.and_eq_true] at hl
  obtain ⟨h1, h2⟩ := hl
  obtain ⟨p, hp, h3⟩ := hasPool_sound h2
  simp only [Bool.and_eq_true, decide_eq_true_eq, List.all_eq_true] at h3
  obtain ⟨⟨h4, h5⟩, h6⟩ := h3
  obtain ⟨p', hp', h7⟩ := hasPool_sound h6
  simp only [decide_eq_true_eq] at h7
  refine ⟨s, p, p', afterStory_reachable.runs hr, rfl, ?_, ?_, hp, hp', h7.2, h7.1⟩
  · obtain ⟨ret, hx⟩ := exec_of_ok h1
    simp [deposit, goesThrough, succeeded, hx]
  · intro h
    rcases h rfl p 6 365 hp rfl with ⟨x, hx, hx'⟩ | hlt
    · exact h5 x hx hx'
    · exact absurd hlt (Nat.not_lt.mpr h4)

end Examples

end Verif
