import Verif.Lemmas.SMapLemmas
/-!
Lemmas about the specification functions `lastIndex`, `indexBefore` and `earned`.
-/

namespace Verif

open Spec

theorem lastIndex_append (p : Nat) (l l' : List (Nat × Nat)) :
    lastIndex p (l ++ l') = lastIndex (lastIndex p l) l' := by
  induction l generalizing p with
  | nil => rfl
  | cons a l ih => simp [lastIndex, ih]

/-- Values not decreasing and all at least `p`. -/
def MonoFrom (p : Nat) (l : List (Nat × Nat)) : Prop :=
  (∀ e ∈ l, p ≤ e.2) ∧ l.Pairwise (fun a b => a.2 ≤ b.2)

theorem MonoFrom.cons {p : Nat} {a : Nat × Nat} {l : List (Nat × Nat)} :
    MonoFrom p (a :: l) ↔ p ≤ a.2 ∧ MonoFrom a.2 l := by
  unfold MonoFrom
  rw [List.pairwise_cons]
  constructor
  · rintro ⟨h1, h2, h3⟩
    exact ⟨h1 a (by simp), h2, h3⟩
  · rintro ⟨h1, h2, h3⟩
    refine ⟨?_, h2, h3⟩
    intro e he
    rcases List.mem_cons.mp he with he | he
    · subst he; exact h1
    · exact Nat.le_trans h1 (h2 e he)

theorem MonoFrom.le_last {p : Nat} {l : List (Nat × Nat)} (h : MonoFrom p l) : p ≤ lastIndex p l := by
  induction l generalizing p with
  | nil => simp [lastIndex]
  | cons a l ih =>
    rw [MonoFrom.cons] at h
    exact Nat.le_trans h.1 (ih h.2)

theorem MonoFrom.mem_le_last {p : Nat} {l : List (Nat × Nat)} (h : MonoFrom p l) :
    ∀ e ∈ l, e.2 ≤ lastIndex p l := by
  induction l generalizing p with
  | nil => simp
  | cons a l ih =>
    rw [MonoFrom.cons] at h
    intro e he
    rcases List.mem_cons.mp he with he | he
    · subst he; exact h.2.le_last
    · exact ih h.2 e he

theorem MonoFrom.append {p : Nat} {l l' : List (Nat × Nat)} :
    MonoFrom p (l ++ l') ↔ MonoFrom p l ∧ MonoFrom (lastIndex p l) l' := by
  induction l generalizing p with
  | nil => simp [lastIndex, MonoFrom]
  | cons a l ih =>
    rw [List.cons_append, MonoFrom.cons, MonoFrom.cons, ih]
    simp [lastIndex, and_assoc]

theorem MonoFrom.mono {p q : Nat} {l : List (Nat × Nat)} (h : MonoFrom p l) (hq : q ≤ p) : MonoFrom q l :=
  ⟨fun e he => Nat.le_trans hq (h.1 e he), h.2⟩

theorem MonoFrom.filter {p : Nat} {l : List (Nat × Nat)} (f : Nat × Nat → Bool) (h : MonoFrom p l) :
    MonoFrom p (l.filter f) :=
  ⟨fun e he => h.1 e (List.mem_filter.mp he).1, h.2.filter f⟩

theorem Spec.History.monoFrom {l : List (Nat × Nat)} (h : History l) : MonoFrom 0 l := ⟨fun _ _ => Nat.zero_le _, h.mono⟩

theorem earned_append (eff : Nat → Nat) (i p : Nat) (l l' : List (Nat × Nat)) :
    earned eff i p (l ++ l') = earned eff i p l + earned eff i (lastIndex p l) l' := by
  induction l generalizing p with
  | nil => simp [earned, lastIndex]
  | cons a l ih => simp [earned, lastIndex, ih, Nat.add_assoc]

theorem earned_congr {eff eff' : Nat → Nat} {i p : Nat} {l : List (Nat × Nat)}
    (h : ∀ e ∈ l, eff e.1 = eff' e.1) : earned eff i p l = earned eff' i p l := by
  induction l generalizing p with
  | nil => rfl
  | cons a l ih =>
    simp only [earned]
    rw [h a (by simp), ih (fun e he => h e (by simp [he]))]

theorem earned_le {eff eff' : Nat → Nat} {i p : Nat} {l : List (Nat × Nat)}
    (h : ∀ e ∈ l, eff e.1 ≤ eff' e.1) : earned eff i p l ≤ earned eff' i p l := by
  induction l generalizing p with
  | nil => simp [earned]
  | cons a l ih =>
    simp only [earned]
    exact Nat.add_le_add (Nat.mul_le_mul_left _ (h a (by simp))) (ih (fun e he => h e (by simp [he])))

/-- Constant stake: the sum telescopes. -/
theorem earned_const {c i p : Nat} {l : List (Nat × Nat)} (h : MonoFrom p l) :
    earned (fun _ => c) i p l = (max (lastIndex p l) i - max p i) * c := by
  induction l generalizing p with
  | nil => simp [earned, lastIndex]
  | cons a l ih =>
    rw [MonoFrom.cons] at h
    simp only [earned, lastIndex]
    rw [ih h.2, ← Nat.add_mul]
    congr 1
    have := h.2.le_last
    omega

/-- Everything up to the consumed index earns nothing. -/
theorem earned_consumed {eff : Nat → Nat} {i p : Nat} {l : List (Nat × Nat)} (hp : p ≤ i) (h : ∀ e ∈ l, e.2 ≤ i) :
    earned eff i p l = 0 := by
  induction l generalizing p with
  | nil => rfl
  | cons a l ih =>
    have h1 := h a (by simp)
    simp only [earned]
    rw [ih h1 (fun e he => h e (by simp [he]))]
    have : max a.2 i - max p i = 0 := by omega
    simp [this]

/-- Two consumed indexes that both lie below the start of the list earn the same. -/
theorem earned_index_congr {eff : Nat → Nat} {i j p : Nat} {l : List (Nat × Nat)} (h : MonoFrom p l) (hi : i ≤ p)
    (hj : j ≤ p) : earned eff i p l = earned eff j p l := by
  induction l generalizing p with
  | nil => rfl
  | cons a l ih =>
    rw [MonoFrom.cons] at h
    simp only [earned]
    rw [ih h.2 (by omega) (by omega)]
    congr 2
    omega

/-- Starting value below the consumed index is irrelevant. -/
theorem earned_prev_congr {eff : Nat → Nat} {i p q : Nat} {l : List (Nat × Nat)} (hp : p ≤ i) (hq : q ≤ i) :
    earned eff i p l = earned eff i q l := by
  cases l with
  | nil => rfl
  | cons a l =>
    simp only [earned]
    congr 2
    omega

/-! ### Splitting a history at a date -/

theorem filter_split {l : List (Nat × Nat)} (hs : Sorted l) (t : Nat) :
    l = (l.filter fun e => decide (e.1 < t)) ++ (l.filter fun e => decide (t ≤ e.1)) := by
  induction l with
  | nil => rfl
  | cons a l ih =>
    rw [sorted_cons] at hs
    rw [List.filter_cons, List.filter_cons]
    by_cases h : a.1 < t
    · have h2 : ¬ t ≤ a.1 := by omega
      simp only [h, h2, decide_true, decide_false, if_true, Bool.false_eq_true, if_false, List.cons_append]
      rw [← ih hs.2]
    · have h2 : t ≤ a.1 := by omega
      simp only [h, h2, decide_true, decide_false, if_true, Bool.false_eq_true, if_false]
      have h3 : l.filter (fun e => decide (e.1 < t)) = [] := by
        rw [List.filter_eq_nil_iff]; intro e he; have := hs.1 e he; simp; omega
      have h4 : l.filter (fun e => decide (t ≤ e.1)) = l := by
        rw [List.filter_eq_self]; intro e he; have := hs.1 e he; simp; omega
      rw [h3, h4, List.nil_append]

theorem filter_lt_split {l : List (Nat × Nat)} (hs : Sorted l) {t t' : Nat} (h : t ≤ t') :
    (l.filter fun e => decide (e.1 < t')) =
      (l.filter fun e => decide (e.1 < t)) ++ (l.filter fun e => decide (t ≤ e.1 ∧ e.1 < t')) := by
  have h0 := filter_split (hs.filter fun e => decide (e.1 < t')) t
  rw [h0, List.filter_filter, List.filter_filter]
  congr 1
  · congr 1
    funext e
    by_cases h1 : e.1 < t <;> simp [h1]; omega
  · congr 1
    funext e
    simp

theorem findMaxLt_eq {l : SMap} (hs : Sorted l) (t : Nat) : (l.findMaxLt t).getD 0 = indexBefore l t := by
  suffices h : ∀ p, (match l.findMaxLt t with | some w => w | none => p) =
      lastIndex p (l.filter fun e => decide (e.1 < t)) by
    have := h 0
    unfold indexBefore
    rw [← this]
    cases l.findMaxLt t <;> rfl
  induction l with
  | nil => intro p; simp [SMap.findMaxLt, lastIndex]
  | cons a l ih =>
    obtain ⟨k, v⟩ := a
    rw [sorted_cons] at hs
    intro p
    simp only [SMap.findMaxLt, List.filter_cons]
    by_cases h : k < t
    · simp only [h, if_true, decide_true, lastIndex]
      rw [← ih hs.2 v]
      cases SMap.findMaxLt l t <;> rfl
    · have h3 : l.filter (fun e => decide (e.1 < t)) = [] := by
        rw [List.filter_eq_nil_iff]; intro e he; have := hs.1 e he; simp at *; omega
      simp [h, h3, lastIndex]

theorem indexBefore_mono {l : List (Nat × Nat)} (h : History l) {t t' : Nat} (ht : t ≤ t') :
    indexBefore l t ≤ indexBefore l t' := by
  unfold indexBefore
  have hm := h.monoFrom.filter (fun e => decide (e.1 < t'))
  rw [filter_lt_split h.sorted ht] at hm ⊢
  rw [lastIndex_append]
  exact (MonoFrom.append.mp hm).2.le_last

theorem indexBefore_le_last {l : List (Nat × Nat)} (h : History l) (t : Nat) : indexBefore l t ≤ lastIndex 0 l := by
  have hm := h.monoFrom
  rw [filter_split h.sorted t] at hm
  conv => rhs; rw [filter_split h.sorted t, lastIndex_append]
  exact (MonoFrom.append.mp hm).2.le_last

end Verif
