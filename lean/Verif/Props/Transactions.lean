import Verif.Lemmas.Transactions
import Verif.Lemmas.DemoIncentive
import Verif.Props.Clients
import Verif.Lemmas.Live
/-!
C105: transactions.
-/

namespace Verif

open Spec

section
variable {env : Env} {C : Chain → Event → Prop}

/-- C105.  Every history of transactions (with instructions of this program given as arbitrary bytes, mixed in any way with those
of other programs) leads to the same state as the history of single events that consists of exactly the actions of the successful
transactions, all of which go through: so everything proved about histories of events holds for transactions. -/
theorem C105_transactions {s s' : Chain} {ms : List Moment} (h : TxRuns env C s ms s') :
    RunsWith env (fun s e => C s e ∧ goesThrough env s e = true) s (allEvents env s ms) s' := by
  induction h with
  | nil => exact .nil _
  | cons hv hc _ ih => exact runsWith_append (moment_events hv hc) ih

/-- C105: the states between transactions are reachable. -/
theorem C105_reachable {s0 s : Chain} {ms : List Moment} (hg : Genesis env s0) (h : TxRuns env (CleanEvent env) s0 ms s) :
    Reachable env s :=
  ⟨s0, _, hg, (C105_transactions h).weaken fun _ _ h => h.1⟩

/-- C105, atomicity: a transaction takes effect only if all its actions succeed one after the other; otherwise nothing has
happened. -/
theorem C105_atomic (s : Chain) (as : List Action) :
    (s.after env (.tx as) = s ∧ eventsOf env s (.tx as) = [] ∧ ∃ pre a post w, as = pre ++ a :: post ∧
      runActions env s.now s.world pre = some w ∧ runAction env s.now w a = none) ∨
    (s.after env (.tx as)).now = s.now ∧ eventsOf env s (.tx as) = as.filterMap Action.event ∧
      ∀ pre a post, as = pre ++ a :: post → ∃ w w', runActions env s.now s.world pre = some w ∧
        runAction env s.now w a = some w' ∧ runActions env s.now w' post = some (s.after env (.tx as)).world := by
  have split : ∀ (pre post : List Action) (w : World), runActions env s.now w (pre ++ post) =
      (runActions env s.now w pre).bind fun v => runActions env s.now v post := by
    intro pre post
    induction pre with
    | nil => exact fun w => rfl
    | cons a pre ih =>
      intro w
      simp only [List.cons_append, runActions]
      cases runAction env s.now w a with
      | none => rfl
      | some v => exact ih v
  cases hr : runActions env s.now s.world as with
  | none =>
    refine Or.inl ⟨by simp only [Chain.after, hr], if_neg (fun ⟨w, h⟩ => by rw [hr] at h; cases h), ?_⟩
    have find : ∀ (as : List Action) (w : World), runActions env s.now w as = none → ∃ pre a post v, as = pre ++ a :: post ∧
        runActions env s.now w pre = some v ∧ runAction env s.now v a = none := by
      intro as
      induction as with
      | nil => intro w h; cases h
      | cons a as ih =>
        intro w h
        cases ha : runAction env s.now w a with
        | none => exact ⟨[], a, as, w, rfl, rfl, ha⟩
        | some v =>
          simp only [runActions, ha] at h
          obtain ⟨pre, b, post, u, h1, h2, h3⟩ := ih v h
          exact ⟨a :: pre, b, post, u, by rw [h1]; rfl, by simp only [runActions, ha, h2], h3⟩
    exact find as _ hr
  | some w =>
    refine Or.inr ⟨by simp only [Chain.after, hr], if_pos ⟨w, hr⟩, ?_⟩
    rintro pre a post rfl
    rw [split] at hr
    cases h1 : runActions env s.now s.world pre with
    | none => rw [h1] at hr; cases hr
    | some v =>
      rw [h1] at hr
      simp only [Option.bind_some, runActions] at hr
      cases h2 : runAction env s.now v a with
      | none => rw [h2] at hr; cases hr
      | some u =>
        rw [h2] at hr
        refine ⟨v, u, rfl, h2, ?_⟩
        have : runActions env s.now s.world (pre ++ a :: post) = some w := by
          rw [split, h1]; simp only [Option.bind_some, runActions, h2]; exact hr
        simp only [Chain.after, this, hr]

/-- C105, the converse: every history of events is one of transactions with one instruction each, so nothing is lost by
considering transactions only.  (The arguments have to fit into the instruction data.) -/
theorem C105_single {s s' : Chain} {es : List Event} (h : RunsWith env C s es s')
    (hr : ∀ accs i, Event.ix accs i ∈ es → InRange i) : TxRuns env C s (es.map alone) s' := by
  induction h with
  | nil => exact .nil _
  | @cons s s' e es hv hc _ ih =>
    have tail := ih fun accs i hi => hr accs i (List.mem_cons_of_mem _ hi)
    have same : s.after env (alone e) = s.apply env e := by
      cases e with
      | ix accs i =>
        have hd := C46_round_trip (hr accs i List.mem_cons_self)
        simp only [alone, Chain.after, runActions, runAction, entrypoint, hd]
        cases hx : exec env s.now s.world accs i with
        | error x => rw [apply_ix_error hx]
        | ok r =>
          obtain ⟨w, ret⟩ := r
          rw [apply_ix_ok hx]
      | _ => rfl
    refine .cons ?_ ?_ (same ▸ tail)
    · cases e with
      | ix accs i =>
        have hd := C46_round_trip (hr accs i List.mem_cons_self)
        refine ⟨fun e he => ?_, fun _ _ => trivial⟩
        simp only [Action.event, hd, Option.map_some, Option.some.injEq] at he
        subst he
        exact hv
      | ext w =>
        refine ⟨fun e he => ?_, fun _ _ => trivial⟩
        cases he
        exact hv
      | tick d => trivial
      | gc k => exact hv
    · cases e with
      | ix accs i =>
        have hd := C46_round_trip (hr accs i List.mem_cons_self)
        refine fun _ => ⟨fun e he => ?_, fun _ _ => trivial⟩
        simp only [Action.event, hd, Option.map_some, Option.some.injEq] at he
        subst he
        exact hc
      | ext w =>
        refine fun _ => ⟨fun e he => ?_, fun _ _ => trivial⟩
        cases he
        exact hc
      | tick d => exact hc
      | gc k => exact hc

end

/-! ### Concrete cases -/

section Examples
open Demo

/-- Executable check of the actions of a transaction without foreign instructions. -/
def alongB (c : Chain → Event → Bool) (now : Nat) : World → List Action → Bool
  | _, [] => true
  | w, .call accs data :: as =>
    (match decodeIx data with
      | some i => c ⟨now, w⟩ (.ix accs i)
      | none => true) &&
    (match runAction Demo.env now w (.call accs data) with
      | some w' => alongB c now w' as
      | none => true)
  | _, .other _ :: _ => false
  | _, .abort :: _ => true

theorem alongB_sound {c : Chain → Event → Bool} {P : Chain → Event → Prop} (h : ∀ s e, c s e = true → P s e) {now : Nat} {w : World}
    {as : List Action} (hb : alongB c now w as = true) : Along Demo.env P now w as := by
  induction as generalizing w with
  | nil => trivial
  | cons a as ih =>
    cases a with
    | call accs data =>
      simp only [alongB, Bool.and_eq_true] at hb
      refine ⟨fun e he => ?_, fun w' hw => ?_⟩
      · cases hd : decodeIx data with
        | none => simp [Action.event, hd] at he
        | some i =>
          rw [hd] at hb
          simp only [Action.event, hd, Option.map_some, Option.some.injEq] at he
          subst he
          exact h _ _ hb.1
      · rw [hw] at hb
        exact ih hb.2
    | other w => cases hb
    | abort =>
      refine ⟨fun e he => ?_, fun w' hw => ?_⟩
      · cases he
      · cases hw

/-- The signers of an instruction can have signed. -/
def signersB : Chain → Event → Bool
  | _, .ix accs _ => accs.all fun a => !a.isSigner || decide (a.key ≠ 0)
  | _, _ => false

theorem signersB_sound (s : Chain) (e : Event) (h : signersB s e = true) : e.Valid Demo.env s := by
  cases e with
  | ix accs i =>
    intro a ha hs
    have := List.all_eq_true.mp h a ha
    simpa [hs] using this
  | _ => cases h

def momentB (s : Chain) : Moment → Bool
  | .tx as => alongB signersB s.now s.world as &&
      (match runActions Demo.env s.now s.world as with
        | some _ => alongB okEvent s.now s.world as
        | none => true)
  | .tick _ => true
  | .gc _ => false

def momentsB : Chain → List Moment → Bool
  | _, [] => true
  | s, m :: ms => momentB s m && momentsB (s.after Demo.env m) ms

theorem momentsB_sound {s : Chain} {ms : List Moment} (h : momentsB s ms = true) :
    TxRuns Demo.env (CleanEvent Demo.env) s ms (ms.foldl (fun s m => s.after Demo.env m) s) := by
  induction ms generalizing s with
  | nil => exact .nil _
  | cons m ms ih =>
    simp only [momentsB, Bool.and_eq_true] at h
    refine .cons ?_ ?_ (ih h.2)
    · cases m with
      | tx as =>
        simp only [momentB, Bool.and_eq_true] at h
        exact alongB_sound signersB_sound h.1.1
      | tick d => trivial
      | gc k => simp [momentB] at h
    · cases m with
      | tx as =>
        rintro ⟨w, hw⟩
        simp only [momentB, hw, Bool.and_eq_true] at h
        exact alongB_sound (fun s e h => (okEvent_sound h).2) h.1.2
      | tick d => trivial
      | gc k => simp [momentB] at h

/-- Calls of this program with the bytes of the given instructions. -/
def calls (es : List Event) : List Action := es.filterMap fun
  | .ix accs i => some (.call accs (encodeIx i))
  | _ => none

/-- A history with transactions of several instructions; the third and the sixth fail (another program fails, and there is nothing to
withdraw any more), although some of their instructions succeed. -/
def transactions : List Moment :=
  [.tx (calls [initPool 100, initMining 100 121, initMining 100 120]),
    .tx (calls [deposit 100 121 1000 .flex 121, deposit 100 120 500 .oneYear 121, fill 100 1000 (day0 + 10 * DAY)]),
    .tx (calls [deposit 100 120 700 .oneYear 121, withdraw 100 121 1000 121] ++ [.abort]), .tick 5,
    .tx (calls [distribute 100, claim 100 121 131]),
    .tx (calls [withdraw 100 121 600 121, withdraw 100 121 600 121]),
    .tx [.call [W 100] [255]],
    .tick DAY, .tx (calls [distribute 100]), .tx (calls [claim 100 120 130, withdraw 100 121 600 121])]

/-- `C105_transactions` and `C105_reachable` apply to it; 11 of its 16 instructions (and two ticks of the clock) have taken effect. -/
example : ∃ s, Genesis Demo.env s0 ∧ TxRuns Demo.env (CleanEvent Demo.env) s0 transactions s ∧
    (allEvents Demo.env s0 transactions).length = 13 ∧
    hasMining s.world (mine 121 100) (fun m => decide (m.share = 400 ∧ m.stakeFromOthers = 500)) = true := by
  exact ⟨_, s0_genesis, momentsB_sound (by decide +kernel), by decide +kernel, by decide +kernel⟩

end Examples

end Verif
