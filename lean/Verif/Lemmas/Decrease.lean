import Verif.Lemmas.Preserve
import Verif.Spec.Terms
/-!
The penalty loop.
-/

namespace Verif

open Spec

theorem decreaseLoop_zero (l : List (Nat × Nat)) : Mining.decreaseLoop 0 l = l := by
  cases l with
  | nil => rfl
  | cons a l => obtain ⟨d, v⟩ := a; simp [Mining.decreaseLoop]

theorem decreaseLoop_length (n : Nat) (l : List (Nat × Nat)) : (Mining.decreaseLoop n l).length = l.length := by
  have := congrArg List.length (decreaseLoop_keys n l)
  simpa using this

theorem decreaseLoop_total (n : Nat) (l : List (Nat × Nat)) :
    total (Mining.decreaseLoop n l) + min n (total l) = total l := by
  induction l generalizing n with
  | nil => simp [Mining.decreaseLoop]
  | cons a l ih =>
    obtain ⟨d, v⟩ := a
    unfold Mining.decreaseLoop
    split
    · simp only [total_cons]; omega
    · have := ih (n - v)
      simp only [total_cons]; omega

theorem decreaseLoop_le (n : Nat) (l : List (Nat × Nat)) (i : Nat) (e e' : Nat × Nat)
    (h : l[i]? = some e) (h' : (Mining.decreaseLoop n l)[i]? = some e') : e'.1 = e.1 ∧ e'.2 ≤ e.2 := by
  induction l generalizing n i with
  | nil => simp at h
  | cons a l ih =>
    obtain ⟨d, v⟩ := a
    unfold Mining.decreaseLoop at h'
    split at h'
    · cases i with
      | zero => simp at h h'; subst h h'; simp
      | succ i => simp at h h'; rw [h] at h'; cases h'; simp
    · cases i with
      | zero => simp at h h'; subst h h'; simp
      | succ i => simp at h h'; exact ih _ _ h h'

/-- In the order of the loop: an entry is touched only if all entries before it have become 0. -/
theorem decreaseLoop_order (n : Nat) (l : List (Nat × Nat)) (i j : Nat) (hij : i < j) (e e' f : Nat × Nat)
    (h : l[j]? = some e) (h' : (Mining.decreaseLoop n l)[j]? = some e') (hne : e' ≠ e)
    (hf : (Mining.decreaseLoop n l)[i]? = some f) : f.2 = 0 := by
  induction l generalizing n i j with
  | nil => simp at h
  | cons a l ih =>
    obtain ⟨d, v⟩ := a
    unfold Mining.decreaseLoop at h' hf
    cases j with
    | zero => omega
    | succ j =>
      split at h'
      · simp at h h'; rw [h] at h'; cases h'; exact absurd rfl hne
      · rename_i hv
        rw [if_neg hv] at hf
        simp at h h'
        cases i with
        | zero => simp at hf; subst hf; rfl
        | succ i => simp at hf; exact ih _ i j (by omega) h h' hf

theorem getElem?_rev {α : Type} (l : List α) (i : Nat) (h : i < l.length) : l.reverse[i]? = l[l.length - 1 - i]? := by
  rw [List.getElem?_reverse h]

theorem penalty_ok (n : Nat) (l : List (Nat × Nat)) : Penalty n l (Mining.decreaseLoop n l.reverse).reverse := by
  have hlen : (Mining.decreaseLoop n l.reverse).length = l.length := by rw [decreaseLoop_length, List.length_reverse]
  have key : ∀ i e e', l[i]? = some e → (Mining.decreaseLoop n l.reverse).reverse[i]? = some e' →
      i < l.length ∧ l.reverse[l.length - 1 - i]? = some e ∧
        (Mining.decreaseLoop n l.reverse)[l.length - 1 - i]? = some e' := by
    intro i e e' h h'
    have hi : i < l.length := by
      rcases List.getElem?_eq_some_iff.mp h with ⟨hi, _⟩; exact hi
    refine ⟨hi, ?_, ?_⟩
    · rw [getElem?_rev _ _ (by omega)]
      have : l.length - 1 - (l.length - 1 - i) = i := by omega
      rw [this]; exact h
    · rw [getElem?_rev _ _ (by omega), hlen] at h'
      exact h'
  refine ⟨decrease_keys n l, ?_, ?_, ?_⟩
  · intro i e e' h h'
    obtain ⟨_, h1, h2⟩ := key i e e' h h'
    exact (decreaseLoop_le _ _ _ _ _ h1 h2).2
  · have h1 := decreaseLoop_total n l.reverse
    have h2 : ∀ l : List (Nat × Nat), total l.reverse = total l := by intro l; simp [total, List.map_reverse, List.sum_reverse]
    rw [h2] at h1 ⊢
    exact h1
  · intro i j e e' f hij h h' hne hf
    obtain ⟨hi, h1, h2⟩ := key i e e' h h'
    have hj : j < l.length := by
      rcases List.getElem?_eq_some_iff.mp hf with ⟨hj, _⟩
      simp [hlen] at hj; exact hj
    rw [getElem?_rev _ _ (by omega), hlen] at hf
    exact decreaseLoop_order n l.reverse (l.length - 1 - j) (l.length - 1 - i) (by omega) e e' f h1 h2 hne hf

end Verif
