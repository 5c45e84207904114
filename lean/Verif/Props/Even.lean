import Verif.Lemmas.Even
import Verif.Props.Schedule
import Verif.Lemmas.DemoIncentive
/-!
C110: a budget that is distributed every day is spread evenly.
-/

namespace Verif

open Spec

section
variable {env : Env}

/-- C110.  Take a pool with a budget of `T` tokens that has to last for `n` days.  If it is not filled and there is a distribution
on every day (not in the first second of a day), then when it still has to last for `n'` days, exactly
`⌊T / n⌋ * n' + min (T mod n) n'` tokens are left: `⌊T / n⌋` tokens are distributed on each of the first days, and one token more on
each of the last `T mod n` days; nothing is left at the end. -/
theorem C110_even {s s' : Chain} {es : List Event} {P : Key} {p p' : Pool} (hw : Wf env s.now s.world)
    (hr : RunsWith env (OffMidnight env P) s es s') (hp : PoolAt env s.world P p) (hl : 0 < (s.world P).lamports)
    (hn : 0 < daysAhead p s.now) (hfill : totalIn env (filledBy env P) s es = 0) (hp' : PoolAt env s'.world P p')
    (hroom : p'.cumulative.length < env.caps.index) (hevery : EveryDay p' s.now s'.now) :
    p'.tokensAvailable = p.tokensAvailable / daysAhead p s.now * daysAhead p' s'.now +
        min (p.tokensAvailable % daysAhead p s.now) (daysAhead p' s'.now) ∧
      totalIn env (distributedBy env P) s es + p'.tokensAvailable = p.tokensAvailable := by
  have h1 := runs_even (st := s.now) hr hw hp hl hfill hp' hroom (Nat.le_refl _) hevery
    (q := p.tokensAvailable / daysAhead p s.now) (x := p.tokensAvailable % daysAhead p s.now) (fun _ => by
      have h1 := Nat.div_add_mod p.tokensAvailable (daysAhead p s.now)
      have h2 := Nat.mod_lt p.tokensAvailable hn
      show _ = _ * daysAhead p s.now + min _ (daysAhead p s.now)
      rw [Nat.mul_comm, Nat.min_eq_left (Nat.le_of_lt h2)]
      exact h1.symm)
  refine ⟨h1, ?_⟩
  obtain ⟨q, k1, k2⟩ := C11_budget_history hw (hr.weaken fun _ _ h => h.1) hp hl
  obtain rfl := PoolAt.unique hp' k1
  omega

end

section Examples
open Demo

def offMidnightB (P : Key) (s : Chain) (e : Event) : Bool :=
  okEvent s e && match e with
    | .ix accs .distributeRewards => !decide (FirstIs accs P) || decide (s.now % 86400 ≠ 0)
    | _ => true

theorem offMidnightB_sound {P : Key} (s : Chain) (e : Event) (h : offMidnightB P s e = true) :
    e.Valid Demo.env s ∧ OffMidnight Demo.env P s e := by
  simp only [offMidnightB, Bool.and_eq_true] at h
  refine ⟨(okEvent_sound h.1).1, (okEvent_sound h.1).2, ?_⟩
  cases e with
  | ix accs i =>
    cases i with
    | distributeRewards =>
      intro _ hf
      have h2 := h.2
      simp only [hf, decide_true, Bool.not_true, Bool.false_or] at h2
      exact of_decide_eq_true h2
    | _ => trivial
  | _ => trivial

def everyDayB (p : Pool) (st n : Nat) : Bool :=
  (List.range n).all fun i => p.cumulative.any fun e => e.1 == midnight st + i * 86400

theorem everyDayB_sound {p : Pool} {st n now : Nat} (h : everyDayB p st n = true) (hn : midnight now = midnight st + n * 86400) :
    EveryDay p st now := by
  intro d h1 h2 h3
  simp only [everyDayB, List.all_eq_true, List.mem_range, List.any_eq_true, beq_iff_eq] at h
  obtain ⟨e, he1, he2⟩ := h ((d - midnight st) / 86400) (by omega)
  refine ⟨e, he1, he2.trans ?_⟩
  have : midnight st = st / 86400 * 86400 := rfl
  omega

/-- Six days on which stakers come and go. -/
def sixDays : List Event :=
  [distribute 100, .tick DAY, distribute 100, claim 100 121 131, .tick DAY, distribute 100, distribute 100, .tick DAY,
    deposit 100 121 500 .oneYear 121, distribute 100, .tick DAY, distribute 100, .tick DAY, distribute 100]

/-- The hypotheses of `C110_even` are met: 7778 tokens for 7 days; after six days 1112 are left. -/
example : ∃ s', Reachable Demo.env nextDay ∧ RunsWith Demo.env (OffMidnight Demo.env 100) nextDay sixDays s' ∧
    hasPool nextDay.world 100 (fun p => decide (p.tokensAvailable = 7778 ∧ daysAhead p nextDay.now = 7)) = true ∧
    0 < (nextDay.world 100).lamports ∧ totalIn Demo.env (filledBy Demo.env 100) nextDay sixDays = 0 ∧
    ∃ p', PoolAt Demo.env s'.world 100 p' ∧ p'.cumulative.length < Demo.env.caps.index ∧ p'.tokensAvailable = 1112 ∧
      daysAhead p' s'.now = 1 ∧ EveryDay p' nextDay.now s'.now := by
  refine ⟨_, nextDay_reachable, allPass_sound offMidnightB_sound (by decide +kernel), by decide +kernel, by decide +kernel,
    by decide +kernel, ?_⟩
  have h : hasPool (endOf nextDay sixDays).world 100 (fun p => decide (p.cumulative.length < Demo.env.caps.index) &&
      decide (p.tokensAvailable = 1112) && decide (daysAhead p (endOf nextDay sixDays).now = 1) &&
      everyDayB p nextDay.now 5) = true := by decide +kernel
  have hn : midnight (endOf nextDay sixDays).now = midnight nextDay.now + 5 * 86400 := by decide +kernel
  obtain ⟨p', h1, h2⟩ := hasPool_sound h
  simp only [Bool.and_eq_true, decide_eq_true_eq] at h2
  exact ⟨p', h1, h2.1.1.1, h2.1.1.2, h2.1.2, everyDayB_sound h2.2 hn⟩

end Examples

end Verif
