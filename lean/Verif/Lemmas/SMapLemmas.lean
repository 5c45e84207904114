import Verif.Spec.Stake
/-!
Lemmas about ordered maps and `dueBy`.
-/

namespace Verif

open Spec

theorem sorted_cons {a : Nat × Nat} {l : List (Nat × Nat)} :
    Sorted (a :: l) ↔ (∀ b ∈ l, a.1 < b.1) ∧ Sorted l := List.pairwise_cons

theorem sorted_nil : Sorted [] := List.Pairwise.nil

theorem Spec.Sorted.filter {l : List (Nat × Nat)} (p : Nat × Nat → Bool) (h : Sorted l) : Sorted (l.filter p) :=
  List.Pairwise.filter p h

@[simp] theorem dueBy_nil (d : Nat) : dueBy [] d = 0 := rfl

theorem dueBy_cons (a : Nat × Nat) (l : List (Nat × Nat)) (d : Nat) :
    dueBy (a :: l) d = (if a.1 ≤ d then a.2 else 0) + dueBy l d := by
  unfold dueBy
  by_cases h : a.1 ≤ d <;> simp [h]

@[simp] theorem total_nil : total [] = 0 := rfl

theorem total_cons (a : Nat × Nat) (l : List (Nat × Nat)) : total (a :: l) = a.2 + total l := by
  simp [total]

theorem total_append (l l' : List (Nat × Nat)) : total (l ++ l') = total l + total l' := by
  simp [total]

theorem dueBy_append (l l' : List (Nat × Nat)) (d : Nat) : dueBy (l ++ l') d = dueBy l d + dueBy l' d := by
  simp [dueBy, List.filter_append]

theorem dueBy_le_total (l : List (Nat × Nat)) (d : Nat) : dueBy l d ≤ total l := by
  induction l with
  | nil => simp
  | cons a l ih => rw [dueBy_cons, total_cons]; split <;> omega

theorem dueBy_mono (l : List (Nat × Nat)) {d d' : Nat} (h : d ≤ d') : dueBy l d ≤ dueBy l d' := by
  induction l with
  | nil => simp
  | cons a l ih => rw [dueBy_cons, dueBy_cons]; split <;> split <;> omega

theorem dueBy_eq_zero {l : List (Nat × Nat)} {d : Nat} (h : ∀ e ∈ l, d < e.1) : dueBy l d = 0 := by
  induction l with
  | nil => simp
  | cons a l ih =>
    have h1 := h a (by simp)
    rw [dueBy_cons, if_neg (by omega), ih (fun e he => h e (by simp [he]))]

/-- The expirations still ahead after a day's are consumed. -/
def after (l : List (Nat × Nat)) (d : Nat) : List (Nat × Nat) := l.filter fun e => decide (d < e.1)

theorem after_sorted {l : List (Nat × Nat)} (h : Sorted l) (d : Nat) : Sorted (after l d) := h.filter _

theorem dueBy_after (l : List (Nat × Nat)) {b d : Nat} (h : b ≤ d) :
    dueBy (after l b) d + dueBy l b = dueBy l d := by
  induction l with
  | nil => simp [after]
  | cons a l ih =>
    unfold after at *
    rw [dueBy_cons, dueBy_cons, List.filter_cons]
    by_cases h1 : b < a.1
    · simp only [h1, decide_true, if_true]
      rw [dueBy_cons]
      split <;> split <;> omega
    · simp only [h1, decide_false, Bool.false_eq_true, if_false]
      split <;> split <;> omega

theorem total_after (l : List (Nat × Nat)) (b : Nat) : total (after l b) + dueBy l b = total l := by
  induction l with
  | nil => simp [after]
  | cons a l ih =>
    unfold after at *
    rw [dueBy_cons, total_cons, List.filter_cons]
    by_cases h1 : b < a.1
    · simp only [h1, decide_true, if_true]
      rw [total_cons, if_neg (by omega)]; omega
    · simp only [h1, decide_false, Bool.false_eq_true, if_false]
      rw [if_pos (by omega)]; omega

theorem after_after (l : List (Nat × Nat)) {b d : Nat} (h : b ≤ d) : after (after l b) d = after l d := by
  unfold after
  rw [List.filter_filter]
  congr 1
  funext e
  by_cases h1 : d < e.1 <;> simp [h1]; omega

theorem after_self (l : List (Nat × Nat)) {b : Nat} (h : ∀ e ∈ l, b < e.1) : after l b = l := by
  unfold after
  rw [List.filter_eq_self]
  simpa using h

theorem mem_after {l : List (Nat × Nat)} {b : Nat} {e : Nat × Nat} : e ∈ after l b ↔ e ∈ l ∧ b < e.1 := by
  unfold after; simp

namespace SMap

theorem get_none {m : SMap} {k : Nat} : m.get k = none ↔ ∀ e ∈ m, e.1 ≠ k := by
  induction m with
  | nil => simp [get]
  | cons a m ih =>
    obtain ⟨k', v⟩ := a
    unfold get
    by_cases h : k = k'
    · simp [h]
    · simp [h, ih]; intro _ ; omega

theorem get_some_mem {m : SMap} {k v : Nat} (h : m.get k = some v) : (k, v) ∈ m := by
  induction m with
  | nil => simp [get] at h
  | cons a m ih =>
    obtain ⟨k', v'⟩ := a
    unfold get at h
    by_cases hk : k = k'
    · simp [hk] at h; simp [h, hk]
    · simp [hk] at h; simp [ih h]

theorem get_of_mem {m : SMap} {k v : Nat} (hs : Sorted m) (h : (k, v) ∈ m) : m.get k = some v := by
  induction m with
  | nil => simp at h
  | cons a m ih =>
    obtain ⟨k', v'⟩ := a
    rw [sorted_cons] at hs
    unfold get
    rcases List.mem_cons.mp h with h | h
    · cases h; simp
    · have := hs.1 _ h
      have h2 : ¬ k = k' := by simp at this; omega
      simp [h2, ih hs.2 h]

theorem contains_iff {m : SMap} {k : Nat} : m.contains k = true ↔ ∃ e ∈ m, e.1 = k := by
  unfold contains
  rw [Option.isSome_iff_ne_none, ne_eq, get_none]
  simp

theorem mem_put {m : SMap} {k v : Nat} {e : Nat × Nat} (h : e ∈ m.put k v) : e = (k, v) ∨ e ∈ m := by
  induction m with
  | nil => simp [put] at h; exact Or.inl h
  | cons a m ih =>
    obtain ⟨k', v'⟩ := a
    unfold put at h
    split at h
    · simpa using h
    · split at h
      · simp at h ⊢; rcases h with h | h <;> simp [h]
      · simp at h ⊢
        rcases h with h | h
        · simp [h]
        · rcases ih h with h | h <;> simp [h]

theorem put_sorted {m : SMap} (hs : Sorted m) (k v : Nat) : Sorted (m.put k v) := by
  induction m with
  | nil => simp [put, Sorted]
  | cons a m ih =>
    obtain ⟨k', v'⟩ := a
    rw [sorted_cons] at hs
    unfold put
    split
    · rename_i h
      rw [sorted_cons, sorted_cons]
      refine ⟨?_, hs⟩
      intro b hb
      rcases List.mem_cons.mp hb with hb | hb
      · subst hb; exact h
      · have := hs.1 _ hb; simp at *; omega
    · split
      · rename_i h; subst h; rw [sorted_cons]; exact hs
      · rename_i h1 h2
        rw [sorted_cons]
        refine ⟨?_, ih hs.2⟩
        intro b hb
        rcases mem_put hb with hb | hb
        · subst hb; simp; omega
        · exact hs.1 _ hb

/-- Writing `v` at `k` changes the amount due by `d` from `k` on by the difference to the old value. -/
theorem dueBy_put {m : SMap} (hs : Sorted m) (k v d : Nat) :
    dueBy (m.put k v) d + (if k ≤ d then (m.get k).getD 0 else 0) = dueBy m d + (if k ≤ d then v else 0) := by
  induction m with
  | nil => simp [put, dueBy_cons, get]
  | cons a m ih =>
    obtain ⟨k', v'⟩ := a
    rw [sorted_cons] at hs
    unfold put get
    by_cases h1 : k < k'
    · have h0 : get m k = none := by
        rw [get_none]; intro e he; have := hs.1 e he; simp at this; omega
      have h2 : ¬ k = k' := by omega
      simp only [h1, h2, if_true, if_false, h0, Option.getD_none]
      rw [dueBy_cons]
      simp; omega
    · by_cases h2 : k = k'
      · subst h2
        simp only [Nat.lt_irrefl, if_false, if_true, Option.getD_some]
        rw [dueBy_cons, dueBy_cons]
        simp; omega
      · simp only [h1, h2, if_false]
        rw [dueBy_cons, dueBy_cons]
        have := ih hs.2
        omega

theorem total_put {m : SMap} (hs : Sorted m) (k v : Nat) :
    total (m.put k v) + (m.get k).getD 0 = total m + v := by
  induction m with
  | nil => simp [put, total_cons, get]
  | cons a m ih =>
    obtain ⟨k', v'⟩ := a
    rw [sorted_cons] at hs
    unfold put get
    by_cases h1 : k < k'
    · have h0 : get m k = none := by
        rw [get_none]; intro e he; have := hs.1 e he; simp at this; omega
      have h2 : ¬ k = k' := by omega
      simp only [h1, h2, if_true, if_false, h0, Option.getD_none]
      rw [total_cons]
      simp; omega
    · by_cases h2 : k = k'
      · subst h2
        simp only [Nat.lt_irrefl, if_false, if_true, Option.getD_some]
        rw [total_cons, total_cons]
        simp; omega
      · simp only [h1, h2, if_false]
        rw [total_cons, total_cons]
        have := ih hs.2
        omega

theorem set_eq_put {m : SMap} (hs : Sorted m) {k v o : Nat} (h : m.get k = some o) : m.set k v = m.put k v := by
  induction m with
  | nil => simp [get] at h
  | cons a m ih =>
    obtain ⟨k', v'⟩ := a
    rw [sorted_cons] at hs
    unfold get at h
    unfold set put
    by_cases h2 : k = k'
    · subst h2; simp
    · simp only [h2, if_false] at h ⊢
      have : ¬ k < k' := by
        have := hs.1 _ (get_some_mem h); simp at this; omega
      simp only [this, if_false]
      rw [ih hs.2 h]

theorem get_put {m : SMap} (k v k2 : Nat) :
    (m.put k v).get k2 = if k2 = k then some v else m.get k2 := by
  induction m with
  | nil => simp [put, get]
  | cons a m ih =>
    obtain ⟨k', v'⟩ := a
    unfold put
    by_cases h1 : k < k'
    · simp only [h1, if_true]; rw [get]
    · by_cases h2 : k = k'
      · subst h2
        simp only [Nat.lt_irrefl, if_false, if_true]
        simp only [get]
        by_cases h : k2 = k <;> simp [h]
      · simp only [h1, h2, if_false]
        simp only [get]
        by_cases h : k2 = k'
        · subst h
          have : ¬ k2 = k := fun hh => h2 hh.symm
          simp [this]
        · simp only [h, if_false, ih]

end SMap

end Verif
