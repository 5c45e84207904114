import Verif.Spec.SearchTree
import Verif.Lemmas.SMapLemmas
/-!
C43: the lookup in the history of indexes.
-/

namespace Verif

open Spec

theorem findMaxLoop_spec {a : Arena} {key n : Nat} {t : BinTree} (h : Holds a n t) (hs : Sorted t.entries)
    {fuel : Nat} (hf : t.height ≤ fuel) (res : Option Nat) :
    findMaxLoop a key fuel n res =
      some (match SMap.findMaxLt t.entries key with | some v => some v | none => res) := by
  induction h generalizing fuel res with
  | leaf =>
    unfold findMaxLoop
    simp [SENTINEL, BinTree.entries, SMap.findMaxLt]
  | @node n l r hn hl hr ihl ihr =>
    have sl : Sorted l.entries := (List.pairwise_append.mp hs).1
    have sr := sorted_cons.mp (List.pairwise_append.mp hs).2.1
    have slr := (List.pairwise_append.mp hs).2.2
    have happ : ∀ (l1 l2 : List (Nat × Nat)), (∀ e ∈ l1, e.1 < key) → SMap.findMaxLt (l1 ++ l2) key =
        (match SMap.findMaxLt l2 key with | some v => some v | none => SMap.findMaxLt l1 key) := by
      intro l1 l2 h
      induction l1 with
      | nil => simp [SMap.findMaxLt]; cases SMap.findMaxLt l2 key <;> rfl
      | cons x l1 ih =>
        obtain ⟨x1, x2⟩ := x
        have h1 : x1 < key := h (x1, x2) (by simp)
        rw [List.cons_append, SMap.findMaxLt, if_pos h1, ih (fun e he => h e (by simp [he]))]
        cases h2 : SMap.findMaxLt l2 key with
        | some v => rfl
        | none => simp [SMap.findMaxLt, h1]
    have hcut : ∀ (l1 l2 : List (Nat × Nat)), (∀ e ∈ l2, key ≤ e.1) →
        SMap.findMaxLt (l1 ++ l2) key = SMap.findMaxLt l1 key := by
      intro l1 l2 h
      induction l1 with
      | nil =>
        cases l2 with
        | nil => rfl
        | cons y l2 =>
          obtain ⟨y1, y2⟩ := y
          have := h (y1, y2) (by simp)
          simp only at this
          simp [SMap.findMaxLt]; omega
      | cons x l1 ih =>
        obtain ⟨x1, x2⟩ := x
        rw [List.cons_append, SMap.findMaxLt, SMap.findMaxLt, ih]
    simp only [BinTree.height] at hf
    cases fuel with
    | zero => omega
    | succ fuel =>
      unfold findMaxLoop
      rw [if_neg (by simpa [SENTINEL] using hn)]
      simp only [BinTree.entries]
      by_cases hk : (a n).key < key
      · rw [if_pos hk, ihr sr.2 (by omega)]
        rw [happ _ _ (fun e he => by have := slr e he _ (List.mem_cons_self ..); simp only at this; omega)]
        simp only [SMap.findMaxLt, if_pos hk]
        cases SMap.findMaxLt r.entries key <;> rfl
      · rw [if_neg hk, ihl sl (by omega)]
        rw [hcut _ _ (fun e he => by
          rcases List.mem_cons.mp he with rfl | he
          · simp only; omega
          · have := sr.1 e he; simp only at this; omega)]

theorem findMaxLt_latest {l : List (Nat × Nat)} (hs : Sorted l) (key : Nat) :
    LatestBefore l key (SMap.findMaxLt l key) := by
  induction l with
  | nil => simp [SMap.findMaxLt, LatestBefore]
  | cons x l ih =>
    obtain ⟨x1, x2⟩ := x
    rw [sorted_cons] at hs
    have ih := ih hs.2
    simp only [SMap.findMaxLt]
    by_cases hk : x1 < key
    · rw [if_pos hk]
      cases h : SMap.findMaxLt l key with
      | none =>
        rw [h] at ih
        refine ⟨x1, by simp, hk, ?_⟩
        intro e he hlt
        rcases List.mem_cons.mp he with rfl | he
        · exact Nat.le_refl _
        · have := ih e he; omega
      | some v =>
        rw [h] at ih
        obtain ⟨k, h1, h2, h3⟩ := ih
        refine ⟨k, by simp [h1], h2, ?_⟩
        intro e he hlt
        rcases List.mem_cons.mp he with rfl | he
        · have := hs.1 _ h1; simp only at this ⊢; omega
        · exact h3 e he hlt
    · rw [if_neg hk]
      intro e he
      rcases List.mem_cons.mp he with rfl | he
      · simp only; omega
      · have := hs.1 e he; simp only at this; omega

/-- C43: for every search tree of any shape stored in the arena, the loop finishes within as many rounds as the tree is
high, and returns the value of the latest entry strictly before `key`, or nothing if there is none. -/
theorem C43_lookup {a : Arena} {root key : Nat} {t : BinTree} (h : Holds a root t) (hs : Sorted t.entries) :
    ∃ r, LatestBefore t.entries key r ∧ ∀ fuel, t.height ≤ fuel → findMaxLoop a key fuel root none = some r := by
  refine ⟨SMap.findMaxLt t.entries key, findMaxLt_latest hs key, fun fuel hf => ?_⟩
  rw [findMaxLoop_spec h hs hf]
  cases SMap.findMaxLt t.entries key <;> rfl

/-- C43: the answer is unique, so it does not depend on the shape of the tree, only on its entries. -/
theorem C43_shape {a a' : Arena} {root root' key : Nat} {t t' : BinTree} (h : Holds a root t) (h' : Holds a' root' t')
    (hs : Sorted t.entries) (he : t'.entries = t.entries) {fuel fuel' : Nat} (hf : t.height ≤ fuel)
    (hf' : t'.height ≤ fuel') : findMaxLoop a' key fuel' root' none = findMaxLoop a key fuel root none := by
  rw [findMaxLoop_spec h hs hf, findMaxLoop_spec h' (he ▸ hs) hf', he]

/-- C43: what the pool and mining methods of the model use is this lookup. -/
theorem C43_model (l : SMap) (hs : Sorted l) (key : Nat) : LatestBefore l key (l.findMaxLt key) :=
  findMaxLt_latest hs key

/-- A tree of three entries with root in register 2. -/
def lookupExample : Arena := fun n =>
  if n = 1 then ⟨10, 100, 0, 0⟩ else if n = 2 then ⟨20, 200, 1, 3⟩ else if n = 3 then ⟨30, 300, 0, 0⟩ else ⟨0, 0, 0, 0⟩

example : Holds lookupExample 2 (.node (.node .leaf 10 100 .leaf) 20 200 (.node .leaf 30 300 .leaf)) :=
  .node (by decide) (.node (by decide) .leaf .leaf) (.node (by decide) .leaf .leaf)
example : findMaxLoop lookupExample 30 2 2 none = some (some 200) := by decide
example : findMaxLoop lookupExample 10 2 2 none = some none := by decide

end Verif
