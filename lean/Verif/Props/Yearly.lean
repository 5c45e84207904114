import Verif.Lemmas.Yearly
import Verif.Lemmas.Early
import Verif.Props.Slots
/-!
Whoever begins or extends fewer than fifty stakes in 365 days has all of them recorded in their mining (C130).
-/

namespace Verif

open Spec

section
variable {env : Env}

/-- C130, dates.  From its creation on, as long as it is not closed, a mining has no expiration recorded for later than 365
days from today. -/
theorem C130_dates {s s' : Chain} {es : List Event} {k : Key} {accs0 : List AccountInfo} {o : Key} {w : World}
    {ret0 : Option Nat} (hre : Reachable env s) (hs0 : RealSigners accs0)
    (hnew : exec env s.now s.world accs0 (.initializeMining o) = .ok (w, ret0))
    (hk0 : miningArg accs0 (.initializeMining o) = some k) (hl : 0 < (w k).lamports)
    (hr : RunsWith env (KeepsOpen env k) ⟨s.now, w⟩ es s') :
    ∃ m, MiningAt env s'.world k m ∧ m.owner = o ∧ m.accountType = 2 ∧ 0 < (s'.world k).lamports ∧
      ∀ e ∈ m.diffs, e.1 ≤ midnight s'.now + 86400 * 365 := by
  have hw : Wf env s.now w := by
    have := wf_apply (e := .ix accs0 (.initializeMining o)) (reachable_wf hre) hs0 trivial
    rwa [apply_ix_ok hnew] at this
  cases step_of_exec (reachable_wf hre) hs0 (by exact trivial) hnew with
  | stake _ op => exact op.elim
  | @initMining _ P1 M Y S rest bump accs_eq signedY owned addr before mining' payer payer' frame ne neP =>
    subst accs_eq
    obtain rfl : M.key = k := Option.some.inj hk0
    have hm : MiningAt env w M.key (Mining.init P1.key o bump) := ⟨by rw [mining'], by rw [mining']⟩
    obtain ⟨m, h1, h2, h3, h4⟩ := runs_noneLate hr hw hm rfl hl rfl
    refine ⟨m, h1, h2.owner, h2.accountType, h3, fun e he => ?_⟩
    rw [late_eq, List.length_eq_zero_iff] at h4
    by_cases hb : e.1 ≤ midnight s'.now + 86400 * 365
    · exact hb
    · have : e ∈ laterThan m.diffs (midnight s'.now + 86400 * 365) := by
        simp only [laterThan, List.mem_filter, decide_eq_true_eq]
        exact ⟨he, by omega⟩
      rw [h4] at this
      cases this

/-- C130, running locks.  A mining has at most as many expirations still to come as stakes were begun or extended for it
during the last 365 days, or any longer time. -/
theorem C130_running {s s' : Chain} {es : List Event} {k : Key} {m : Mining} (hw : Wf env s.now s.world)
    (hm : MiningAt env s.world k m) (ht : m.accountType = 2) (hl : 0 < (s.world k).lamports)
    (hd : ∀ e ∈ m.diffs, e.1 ≤ midnight s.now + 86400 * 365) (hr : RunsWith env (KeepsOpen env k) s es s')
    (hyear : midnight s.now + 86400 * 365 ≤ midnight s'.now) :
    ∃ m', MiningAt env s'.world k m' ∧
      (laterThan m'.diffs (midnight s'.now)).length ≤ totalIn env (stakesBegun env k) s es := by
  obtain ⟨m', h1, -, -, h4⟩ := runs_late (cut := midnight s'.now) hr hw hm ht hl
  have h0 : laterThan m.diffs (midnight s'.now) = [] := by
    unfold laterThan
    rw [List.filter_eq_nil_iff]
    intro e he
    have := hd e he
    simp only [decide_eq_true_eq]
    omega
  rw [late_eq, late_eq, h0, List.length_nil, Nat.zero_add] at h4
  exact ⟨m', h1, h4⟩

/-- C130, room.  If these are fewer than the table has entries, the mining has room for the end of any lockup that begins
now, which is what the theorems about larger, longer or divided stakes and orderly histories ask for. -/
theorem C130_room {s s' : Chain} {es : List Event} {k : Key} {m : Mining} (hw : Wf env s.now s.world)
    (hm : MiningAt env s.world k m) (ht : m.accountType = 2) (hl : 0 < (s.world k).lamports)
    (hd : ∀ e ∈ m.diffs, e.1 ≤ midnight s.now + 86400 * 365) (hr : RunsWith env (KeepsOpen env k) s es s')
    (hyear : midnight s.now + 86400 * 365 ≤ midnight s'.now)
    (hroom : totalIn env (stakesBegun env k) s es < env.caps.mining) (per : LockupPeriod) : RoomInMining env k s' per := by
  intro m1 c n hm1 _
  obtain ⟨m2, h1, h2⟩ := C130_running hw hm ht hl hd hr hyear
  obtain rfl := MiningAt.unique hm1 h1
  exact Or.inr (by omega)

/-- C130.  A mining was created at some time and not closed.  If during the last 365 days (or any longer time) fewer stakes
were begun or extended for it than its table has entries (fifty), then the next deposit is recorded in the mining under the
date of its expiration, however many stakes there were before. -/
theorem C130_recorded {s s1 s2 : Chain} {es1 es2 : List Event} {k : Key} {accs0 : List AccountInfo} {o : Key} {w : World}
    {ret0 : Option Nat} (hre : Reachable env s) (hs0 : RealSigners accs0)
    (hnew : exec env s.now s.world accs0 (.initializeMining o) = .ok (w, ret0))
    (hk0 : miningArg accs0 (.initializeMining o) = some k) (hl : 0 < (w k).lamports)
    (hr1 : RunsWith env (KeepsOpen env k) ⟨s.now, w⟩ es1 s1) (hr2 : RunsWith env (KeepsOpen env k) s1 es2 s2)
    (hyear : midnight s1.now + 86400 * 365 ≤ midnight s2.now)
    (hroom : totalIn env (stakesBegun env k) s1 es2 < env.caps.mining) {accs : List AccountInfo} {a : Nat}
    {per : LockupPeriod} {owner delegate : Key} {w' : World} {ret : Option Nat} (hs : RealSigners accs)
    (h : exec env s2.now s2.world accs (.depositMining a per owner delegate) = .ok (w', ret))
    (hk : miningArg accs (.depositMining a per owner delegate) = some k) :
    ∃ c n m m', terms per = some (c, n) ∧ MiningAt env s2.world k m ∧ MiningAt env w' k m' ∧
      recordedAt m'.diffs (midnight s2.now + 86400 * n) = recordedAt m.diffs (midnight s2.now + 86400 * n) + (a * c - a) ∧
      ∃ x ∈ m'.diffs, x.1 = midnight s2.now + 86400 * n := by
  have hw : Wf env s.now w := by
    have := wf_apply (e := .ix accs0 (.initializeMining o)) (reachable_wf hre) hs0 trivial
    rwa [apply_ix_ok hnew] at this
  have hw1 : Wf env s1.now s1.world := wf_runs (s := ⟨s.now, w⟩) hw (fun _ _ h => h.1) hr1
  have hw2 : Wf env s2.now s2.world := wf_runs hw1 (fun _ _ h => h.1) hr2
  obtain ⟨m0, a1, -, a3, a4, a5⟩ := C130_dates hre hs0 hnew hk0 hl hr1
  obtain ⟨m, b1, b2⟩ := C130_running hw1 a1 a3 a4 a5 hr2 hyear
  obtain ⟨P, M, A, D, rest, c, n, p, q, p', q', rfl, g1, -, g2, -, g3, -, g4⟩ := C18_expiration_recorded_partial hw2 hs h
  obtain rfl : M.key = k := Option.some.inj hk
  obtain rfl := MiningAt.unique b1 g2
  obtain ⟨g5, g6⟩ := g4 (Or.inr (by omega))
  exact ⟨c, n, m, q', g1, b1, g3, g5, g6⟩

/-- The same for an extension. -/
theorem C130_extended {s s1 s2 : Chain} {es1 es2 : List Event} {k : Key} {accs0 : List AccountInfo} {o : Key} {w : World}
    {ret0 : Option Nat} (hre : Reachable env s) (hs0 : RealSigners accs0)
    (hnew : exec env s.now s.world accs0 (.initializeMining o) = .ok (w, ret0))
    (hk0 : miningArg accs0 (.initializeMining o) = some k) (hl : 0 < (w k).lamports)
    (hr1 : RunsWith env (KeepsOpen env k) ⟨s.now, w⟩ es1 s1) (hr2 : RunsWith env (KeepsOpen env k) s1 es2 s2)
    (hyear : midnight s1.now + 86400 * 365 ≤ midnight s2.now)
    (hroom : totalIn env (stakesBegun env k) s1 es2 < env.caps.mining) {accs : List AccountInfo}
    {old new : LockupPeriod} {start b a : Nat} {owner delegate : Key} {w' : World} {ret : Option Nat} (hs : RealSigners accs)
    (hc : NotPoolAsMining env s2.world accs (.extendStake old new start b a owner delegate))
    (h : exec env s2.now s2.world accs (.extendStake old new start b a owner delegate) = .ok (w', ret))
    (hk : miningArg accs (.extendStake old new start b a owner delegate) = some k) :
    ∃ c n m', terms new = some (c, n) ∧ MiningAt env w' k m' ∧
      (b + a) * c - (b + a) ≤ recordedAt m'.diffs (midnight s2.now + 86400 * n) ∧
      ∃ x ∈ m'.diffs, x.1 = midnight s2.now + 86400 * n := by
  have hw : Wf env s.now w := by
    have := wf_apply (e := .ix accs0 (.initializeMining o)) (reachable_wf hre) hs0 trivial
    rwa [apply_ix_ok hnew] at this
  have hw1 : Wf env s1.now s1.world := wf_runs (s := ⟨s.now, w⟩) hw (fun _ _ h => h.1) hr1
  have hw2 : Wf env s2.now s2.world := wf_runs hw1 (fun _ _ h => h.1) hr2
  obtain ⟨m0, a1, -, a3, a4, a5⟩ := C130_dates hre hs0 hnew hk0 hl hr1
  obtain ⟨m, b1, b2⟩ := C130_running hw1 a1 a3 a4 a5 hr2 hyear
  cases step_of_exec hw2 hs hc h with
  | @stake _ P1 M A D q q' q1 q1' d d' accs_eq op chk del quiet same sfo ok' sameDel eff shell =>
    obtain ⟨-, a2, -⟩ := accs_eq.pool ⟨_, _, _, _, _, _, _, _, op⟩
    obtain rfl : M.key = k := Option.some.inj (a2.symm.trans hk)
    obtain rfl := MiningAt.unique b1 eff.mining
    obtain ⟨c, n, g1, -, g2⟩ := extend_recorded chk.good.ok chk.miningOk op
    obtain ⟨g3, g4⟩ := g2 (by omega)
    exact ⟨c, n, q1', g1, eff.mining', g3, g4⟩

end

/-! ### Concrete cases -/

section Examples
open Demo

/-- Fifty stakes on as many days fill the table; … -/
def filledUp : Chain := endOf newcomer (daily 50)

/-- … then two more within a year, which are not recorded, … -/
def quietYear : List Event := daily 2 ++ [.tick (365 * DAY)]

/-- … and after that year there is room again. -/
def roomAgain : Chain := endOf filledUp quietYear

-- all hypotheses of `C130_recorded` and `C130_extended`: fifty stakes, then two in a year, then a deposit and an extension
example : ∃ w ret0, exec Demo.env poolOnly.now poolOnly.world [R 100, W (mine 120 100), SW 102, R 3] (.initializeMining 120) =
      .ok (w, ret0) ∧ 0 < (w (mine 120 100)).lamports ∧
    RunsWith Demo.env (KeepsOpen Demo.env (mine 120 100)) ⟨poolOnly.now, w⟩ (daily 50) filledUp ∧
    RunsWith Demo.env (KeepsOpen Demo.env (mine 120 100)) filledUp quietYear roomAgain ∧
    midnight filledUp.now + 86400 * 365 ≤ midnight roomAgain.now ∧
    totalIn Demo.env (stakesBegun Demo.env (mine 120 100)) filledUp quietYear = 2 ∧ 2 < Demo.env.caps.mining ∧
    okEvent roomAgain (deposit 100 120 10 .oneYear 120) = true ∧
    okEvent roomAgain (.ix [W 100, W (mine 120 100), S 110, W (mine 120 100)]
      (.extendStake .oneYear .oneYear day0 10 5 120 120)) = true := by
  obtain ⟨ret, h⟩ := exec_of_ok (s := poolOnly) (accs := [R 100, W (mine 120 100), SW 102, R 3])
    (i := .initializeMining 120) (by decide +kernel)
  have e : newcomer = ⟨poolOnly.now, newcomer.world⟩ := apply_ix_ok h
  refine ⟨newcomer.world, ret, h, by decide +kernel, ?_⟩
  rw [← e]
  exact ⟨allPass_sound (fun _ _ h => keepsOpenB_sound h) (by decide +kernel),
    allPass_sound (fun _ _ h => keepsOpenB_sound h) (by decide +kernel), by decide +kernel, by decide +kernel, by decide,
    by decide +kernel, by decide +kernel⟩

-- the table holds fifty entries at first
example : hasMining filledUp.world (mine 120 100) (fun m => decide (m.diffs.length = 50)) = true := by decide +kernel

end Examples

end Verif
