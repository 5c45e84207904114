import Verif.Lemmas.Slots
import Verif.Props.Expirations
import Verif.Lemmas.Early
import Verif.Lemmas.DemoIncentive
/-!
The first fifty stakes of a staker are recorded in their mining (C129).
-/

namespace Verif

open Spec

section
variable {env : Env}

/-- C129, size.  Over any history the table of a mining that is not closed grows by at most one entry for every stake begun
or extended; nothing else makes it longer. -/
theorem C129_size {s s' : Chain} {es : List Event} {k : Key} {m : Mining} (hw : Wf env s.now s.world)
    (hm : MiningAt env s.world k m) (ht : m.accountType = 2) (hl : 0 < (s.world k).lamports)
    (hr : RunsWith env (KeepsOpen env k) s es s') :
    ∃ m', MiningAt env s'.world k m' ∧ m'.owner = m.owner ∧ m'.rewardPool = m.rewardPool ∧
      m'.diffs.length ≤ m.diffs.length + totalIn env (stakesBegun env k) s es := by
  obtain ⟨m', h1, h2, h3⟩ := runs_table hr hw hm ht hl
  exact ⟨m', h1, h2.owner, h2.rewardPool, h3⟩

/-- C129, room.  Under this condition the mining has room for the end of any lockup that begins now, which is what the
theorems about larger, longer or divided stakes (C86, C92, C94, C98, C107, C119) and orderly histories (C09) ask for. -/
theorem C129_room {s s' : Chain} {es : List Event} {k : Key} {m : Mining} (hw : Wf env s.now s.world)
    (hm : MiningAt env s.world k m) (ht : m.accountType = 2) (hl : 0 < (s.world k).lamports)
    (hr : RunsWith env (KeepsOpen env k) s es s')
    (hroom : m.diffs.length + totalIn env (stakesBegun env k) s es < env.caps.mining) (per : LockupPeriod) :
    RoomInMining env k s' per := by
  intro m1 c n hm1 _
  obtain ⟨m2, h1, -, -, h2⟩ := C129_size hw hm ht hl hr
  obtain rfl := MiningAt.unique hm1 h1
  have : (laterThan m1.diffs (midnight s'.now)).length ≤ m1.diffs.length := List.length_filter_le _ _
  exact Or.inr (by omega)

/-- C129, recording.  If the entries the table had, together with the stakes begun or extended since, are fewer than its
capacity, then the next deposit is recorded in the mining under the date of its expiration. -/
theorem C129_recorded {s s' : Chain} {es : List Event} {k : Key} {m : Mining} (hw : Wf env s.now s.world)
    (hm : MiningAt env s.world k m) (ht : m.accountType = 2) (hl : 0 < (s.world k).lamports)
    (hr : RunsWith env (KeepsOpen env k) s es s')
    (hroom : m.diffs.length + totalIn env (stakesBegun env k) s es < env.caps.mining) {accs : List AccountInfo} {a : Nat}
    {per : LockupPeriod} {owner delegate : Key} {w' : World} {ret : Option Nat} (hs : RealSigners accs)
    (h : exec env s'.now s'.world accs (.depositMining a per owner delegate) = .ok (w', ret))
    (hk : miningArg accs (.depositMining a per owner delegate) = some k) :
    ∃ c n m1 m2, terms per = some (c, n) ∧ MiningAt env s'.world k m1 ∧ MiningAt env w' k m2 ∧
      recordedAt m2.diffs (midnight s'.now + 86400 * n) = recordedAt m1.diffs (midnight s'.now + 86400 * n) + (a * c - a) ∧
      ∃ x ∈ m2.diffs, x.1 = midnight s'.now + 86400 * n := by
  obtain ⟨m1, h1, -, -, h2⟩ := C129_size hw hm ht hl hr
  have hw' : Wf env s'.now s'.world := wf_runs hw (fun _ _ h => h.1) hr
  obtain ⟨P, M, A, D, rest, c, n, p, q, p', q', rfl, g1, -, g2, -, g3, -, g4⟩ := C18_expiration_recorded_partial hw' hs h
  obtain rfl : M.key = k := Option.some.inj hk
  obtain rfl := MiningAt.unique h1 g2
  have : (laterThan m1.diffs (midnight s'.now)).length ≤ m1.diffs.length := List.length_filter_le _ _
  obtain ⟨g5, g6⟩ := g4 (Or.inr (by omega))
  exact ⟨c, n, m1, q', g1, h1, g3, g5, g6⟩

/-- C129, extensions.  Under the same condition the next extension of a stake is recorded in the mining under the new date:
the entry covers the whole of the extra weight of the extended stake. -/
theorem C129_extended {s s' : Chain} {es : List Event} {k : Key} {m : Mining} (hw : Wf env s.now s.world)
    (hm : MiningAt env s.world k m) (ht : m.accountType = 2) (hl : 0 < (s.world k).lamports)
    (hr : RunsWith env (KeepsOpen env k) s es s')
    (hroom : m.diffs.length + totalIn env (stakesBegun env k) s es < env.caps.mining) {accs : List AccountInfo}
    {old new : LockupPeriod} {start b a : Nat} {owner delegate : Key} {w' : World} {ret : Option Nat} (hs : RealSigners accs)
    (hc : NotPoolAsMining env s'.world accs (.extendStake old new start b a owner delegate))
    (h : exec env s'.now s'.world accs (.extendStake old new start b a owner delegate) = .ok (w', ret))
    (hk : miningArg accs (.extendStake old new start b a owner delegate) = some k) :
    ∃ c n m2, terms new = some (c, n) ∧ MiningAt env w' k m2 ∧
      (b + a) * c - (b + a) ≤ recordedAt m2.diffs (midnight s'.now + 86400 * n) ∧
      ∃ x ∈ m2.diffs, x.1 = midnight s'.now + 86400 * n := by
  obtain ⟨m1, h1, -, -, h2⟩ := C129_size hw hm ht hl hr
  have hw' : Wf env s'.now s'.world := wf_runs hw (fun _ _ h => h.1) hr
  cases step_of_exec hw' hs hc h with
  | @stake _ P1 M A D q q' q1 q1' d d' accs_eq op chk del quiet same sfo ok' sameDel eff shell =>
    obtain ⟨-, a2, -⟩ := accs_eq.pool ⟨_, _, _, _, _, _, _, _, op⟩
    obtain rfl : M.key = k := Option.some.inj (a2.symm.trans hk)
    obtain rfl := MiningAt.unique h1 eff.mining
    obtain ⟨c, n, g1, -, g2⟩ := extend_recorded chk.good.ok chk.miningOk op
    have : (laterThan m1.diffs (midnight s'.now)).length ≤ m1.diffs.length := List.length_filter_le _ _
    obtain ⟨g3, g4⟩ := g2 (by omega)
    exact ⟨c, n, q1', g1, eff.mining', g3, g4⟩

/-- C129 from the creation of the mining on.  As long as fewer stakes were begun or extended than the table has entries
(fifty), the next deposit is recorded in the mining under the date of its expiration. -/
theorem C129_first {s s' : Chain} {es : List Event} {k : Key} {accs0 : List AccountInfo} {o : Key} {w : World}
    {ret0 : Option Nat} (hre : Reachable env s) (hs0 : RealSigners accs0)
    (hnew : exec env s.now s.world accs0 (.initializeMining o) = .ok (w, ret0))
    (hk0 : miningArg accs0 (.initializeMining o) = some k) (hl : 0 < (w k).lamports)
    (hr : RunsWith env (KeepsOpen env k) ⟨s.now, w⟩ es s')
    (hroom : totalIn env (stakesBegun env k) ⟨s.now, w⟩ es < env.caps.mining) {accs : List AccountInfo} {a : Nat}
    {per : LockupPeriod} {owner delegate : Key} {w' : World} {ret : Option Nat} (hs : RealSigners accs)
    (h : exec env s'.now s'.world accs (.depositMining a per owner delegate) = .ok (w', ret))
    (hk : miningArg accs (.depositMining a per owner delegate) = some k) :
    ∃ c n m1 m2, terms per = some (c, n) ∧ MiningAt env s'.world k m1 ∧ MiningAt env w' k m2 ∧
      recordedAt m2.diffs (midnight s'.now + 86400 * n) = recordedAt m1.diffs (midnight s'.now + 86400 * n) + (a * c - a) ∧
      ∃ x ∈ m2.diffs, x.1 = midnight s'.now + 86400 * n := by
  have hre' : Reachable env ⟨s.now, w⟩ := by
    have := hre.step (e := .ix accs0 (.initializeMining o)) hs0 trivial
    rwa [apply_ix_ok hnew] at this
  cases step_of_exec (reachable_wf hre) hs0 (by exact trivial) hnew with
  | stake _ op => exact op.elim
  | @initMining _ P1 M Y S rest bump accs_eq signedY owned addr before mining' payer payer' frame ne neP =>
    subst accs_eq
    obtain rfl : M.key = k := Option.some.inj hk0
    have hm : MiningAt env w M.key (Mining.init P1.key o bump) := ⟨by rw [mining'], by rw [mining']⟩
    exact C129_recorded (s := ⟨s.now, w⟩) (reachable_wf hre') hm rfl hl hr
      (by rw [show (Mining.init P1.key o bump).diffs.length = 0 from rfl, Nat.zero_add]; exact hroom) hs h hk

/-- The same for an extension. -/
theorem C129_first_extended {s s' : Chain} {es : List Event} {k : Key} {accs0 : List AccountInfo} {o : Key} {w : World}
    {ret0 : Option Nat} (hre : Reachable env s) (hs0 : RealSigners accs0)
    (hnew : exec env s.now s.world accs0 (.initializeMining o) = .ok (w, ret0))
    (hk0 : miningArg accs0 (.initializeMining o) = some k) (hl : 0 < (w k).lamports)
    (hr : RunsWith env (KeepsOpen env k) ⟨s.now, w⟩ es s')
    (hroom : totalIn env (stakesBegun env k) ⟨s.now, w⟩ es < env.caps.mining) {accs : List AccountInfo}
    {old new : LockupPeriod} {start b a : Nat} {owner delegate : Key} {w' : World} {ret : Option Nat} (hs : RealSigners accs)
    (hc : NotPoolAsMining env s'.world accs (.extendStake old new start b a owner delegate))
    (h : exec env s'.now s'.world accs (.extendStake old new start b a owner delegate) = .ok (w', ret))
    (hk : miningArg accs (.extendStake old new start b a owner delegate) = some k) :
    ∃ c n m2, terms new = some (c, n) ∧ MiningAt env w' k m2 ∧
      (b + a) * c - (b + a) ≤ recordedAt m2.diffs (midnight s'.now + 86400 * n) ∧
      ∃ x ∈ m2.diffs, x.1 = midnight s'.now + 86400 * n := by
  have hre' : Reachable env ⟨s.now, w⟩ := by
    have := hre.step (e := .ix accs0 (.initializeMining o)) hs0 trivial
    rwa [apply_ix_ok hnew] at this
  cases step_of_exec (reachable_wf hre) hs0 (by exact trivial) hnew with
  | stake _ op => exact op.elim
  | @initMining _ P1 M Y S rest bump accs_eq signedY owned addr before mining' payer payer' frame ne neP =>
    subst accs_eq
    obtain rfl : M.key = k := Option.some.inj hk0
    have hm : MiningAt env w M.key (Mining.init P1.key o bump) := ⟨by rw [mining'], by rw [mining']⟩
    exact C129_extended (s := ⟨s.now, w⟩) (reachable_wf hre') hm rfl hl hr
      (by rw [show (Mining.init P1.key o bump).diffs.length = 0 from rfl, Nat.zero_add]; exact hroom) hs hc h hk

end

/-! ### Concrete cases -/

section Examples
open Demo

/-- Executable version of `KeepsOpen`. -/
def keepsOpenB (k : Key) (s : Chain) (e : Event) : Bool :=
  okEvent s e && match e with
    | .ix accs .closeMining => decide (miningArg accs .closeMining ≠ some k)
    | _ => true

theorem keepsOpenB_sound {k : Key} {s : Chain} {e : Event} (h : keepsOpenB k s e = true) :
    e.Valid Demo.env s ∧ KeepsOpen Demo.env k s e := by
  simp only [keepsOpenB, Bool.and_eq_true] at h
  refine ⟨(okEvent_sound h.1).1, (okEvent_sound h.1).2, ?_⟩
  rintro accs rfl
  simpa using h.2

/-- A pool before anybody newcomer it, … -/
def poolOnly : Chain := (run s0 [initPool 100]).getD s0

/-- … and the same with a new mining. -/
def newcomer : Chain := poolOnly.apply Demo.env (initMining 100 120)

/-- Forty-nine stakes with different dates of expiration. -/
def fortyNine : Chain := endOf newcomer (daily 49)

theorem poolOnly_reachable : Reachable Demo.env poolOnly := after_reachable (es := [initPool 100]) (by decide +kernel)

-- all hypotheses of `C129_first`, with forty-nine earlier stakes and a fiftieth deposit
example : ∃ w ret0, exec Demo.env poolOnly.now poolOnly.world [R 100, W (mine 120 100), SW 102, R 3] (.initializeMining 120) =
      .ok (w, ret0) ∧ 0 < (w (mine 120 100)).lamports ∧
    ∃ s', RunsWith Demo.env (KeepsOpen Demo.env (mine 120 100)) ⟨poolOnly.now, w⟩ (daily 49) s' ∧
      totalIn Demo.env (stakesBegun Demo.env (mine 120 100)) ⟨poolOnly.now, w⟩ (daily 49) = 49 ∧
      49 < Demo.env.caps.mining ∧
      okEvent s' (deposit 100 120 10 .oneYear 120) = true := by
  obtain ⟨ret, h⟩ := exec_of_ok (s := poolOnly) (accs := [R 100, W (mine 120 100), SW 102, R 3])
    (i := .initializeMining 120) (by decide +kernel)
  have e : newcomer = ⟨poolOnly.now, newcomer.world⟩ := apply_ix_ok h
  refine ⟨newcomer.world, ret, h, by decide +kernel, fortyNine, ?_⟩
  rw [← e]
  exact ⟨allPass_sound (fun _ _ h => keepsOpenB_sound h) (by decide +kernel), by decide +kernel, by decide, by decide +kernel⟩

-- the table then holds an entry for each of the forty-nine stakes, so the bound of `C129_size` is reached
example : hasMining fortyNine.world (mine 120 100) (fun m => decide (m.diffs.length = 49)) = true := by decide +kernel

-- and an extension as in `C129_extended`: the twentieth of the stakes is extended, with the hypotheses of `C129_recorded`
example : Reachable Demo.env fortyNine ∧ NotPoolAsMining Demo.env fortyNine.world
      [W 100, W (mine 120 100), S 110, W (mine 120 100)] (.extendStake .oneYear .oneYear (day0 + 19 * DAY) 10 5 120 120) ∧
    ∃ w', Succeeds fortyNine [W 100, W (mine 120 100), S 110, W (mine 120 100)]
      (.extendStake .oneYear .oneYear (day0 + 19 * DAY) 10 5 120 120) w' := by
  have h0 : Reachable Demo.env fortyNine := by
    have h1 := poolOnly_reachable.step (okEvent_sound (s := poolOnly) (e := initMining 100 120) (by decide +kernel)).1
      (okEvent_sound (s := poolOnly) (e := initMining 100 120) (by decide +kernel)).2
    exact h1.runs (allPass_sound (fun _ _ h => okEvent_sound h) (by decide +kernel))
  have hok : okEvent fortyNine (.ix [W 100, W (mine 120 100), S 110, W (mine 120 100)]
      (.extendStake .oneYear .oneYear (day0 + 19 * DAY) 10 5 120 120)) = true := by decide +kernel
  exact ⟨h0, (okEvent_sound hok).2, succeeds h0 hok⟩

end Examples

end Verif
