import Verif.Spec.Pace
import Verif.Lemmas.Schedule
/-!
The daily amounts of a pool whose fillings pay for the days they add.
-/

namespace Verif

open Spec

variable {env : Env}

theorem PoolChange.pace {now : Nat} {w w' : World} {accs : List AccountInfo} {P : Key} {p p' : Pool} {i : Ix}
    (hp : PoolOk now p) (hat : PoolAt env w P p) (h : PoolChange env now w w' accs P p i p') {a : Nat}
    (hpay : PaysFor env a P ⟨now, w⟩ (.ix accs i))
    (hroom : p.cumulative.length < env.caps.index) (ha : a * daysToGo p now ≤ p.tokensAvailable) :
    a * daysToGo p' now ≤ p'.tokensAvailable := by
  by_cases hno : addedTo accs P i = 0
  · exact (h.rate hp hno hroom ha).1
  · cases h with
    | same other =>exact ha
    | stake hi quiet signed =>
      cases i <;> first | exact absurd rfl hno | cases hi
    | distribute => exact absurd rfl hno
    | @fill r e acc signed nonzero future later endBound bound =>
      have hb := hpay (firstIs_iff.mpr acc) p hat
      have hends := hp.ends
      rw [bod_eq_midnight] at later
      have hm : midnight now = now / 86400 * 86400 := rfl
      have hm' : midnight e = e / 86400 * 86400 := rfl
      show a * ((bod e - midnight now) / 86400 - (if NewDay p now then 1 else 2)) ≤ p.tokensAvailable + r
      unfold daysToGo at ha
      rw [bod_eq_midnight]
      refine Nat.le_trans ?_ (Nat.add_le_add ha hb)
      rw [← Nat.mul_add]
      refine Nat.mul_le_mul_left _ ?_
      split <;> omega

theorem runs_pace {s s' : Chain} {es : List Event} {P : Key} {a : Nat} (hw : Wf env s.now s.world)
    (hr : RunsWith env (fun s e => CleanEvent env s e ∧ PaysFor env a P s e) s es s')
    {p p' : Pool} (hp : PoolAt env s.world P p) (hl : 0 < (s.world P).lamports) (hp' : PoolAt env s'.world P p')
    (hroom : p'.cumulative.length < env.caps.index) (ha : a * daysToGo p s.now ≤ p.tokensAvailable) :
    a * daysToGo p' s'.now ≤ p'.tokensAvailable := by
  induction hr generalizing p with
  | nil s => obtain rfl := PoolAt.unique hp hp'; exact ha
  | @cons s s' e es hv hc hr' ih =>
    obtain ⟨p1, h1, h2, h3⟩ := apply_pool hw hv hc.1 hp hl
    have hroom0 : p.cumulative.length < env.caps.index := by
      obtain ⟨q1, k1, -, k2⟩ := runs_pool hw (RunsWith.cons hv hc.1 (hr'.weaken fun _ _ h => h.1)) hp hl
        (fun _ x => p.cumulative <+: x.cumulative) (List.prefix_refl _) (by
        rintro s e q q' hw' hv hq i1 hev
        cases hev with
        | same => exact i1
        | ix ok change =>
          rcases (change.history (poolAt_good hw' hq).ok).1 with h1 | ⟨-, h1⟩
          · rw [h1]; exact i1
          · rw [h1]; exact i1.trans (List.prefix_append _ _))
      have := k2.length_le
      rw [← PoolAt.unique hp' k1] at this
      omega
    refine ih (wf_apply hw hv hc.1) h1 h2 hp' ?_
    cases h3 with
    | same none =>
      cases e with
      | ix accs i => obtain ⟨er, hx⟩ := none accs i rfl; rw [apply_ix_error hx]; exact ha
      | tick d => exact Nat.le_trans (Nat.mul_le_mul_left _ (daysToGo_tick (poolAt_good hw hp).ok)) ha
      | gc => exact ha
      | ext => exact ha
    | @ix accs i w' ret _ ok change =>
      rw [apply_ix_ok ok]
      exact change.pace (poolAt_good hw hp).ok hp hc.2 hroom0 ha

end Verif
