import Verif.Model.Tree
import Verif.Spec.Stake
/-!
Specification: binary search trees laid out in an arena of nodes.
-/

namespace Verif.Spec

/-- A binary tree with keys and values. -/
inductive BinTree
  | leaf
  | node (l : BinTree) (key value : Nat) (r : BinTree)

/-- Entries in order. -/
def BinTree.entries : BinTree → List (Nat × Nat)
  | .leaf => []
  | .node l k v r => l.entries ++ (k, v) :: r.entries

def BinTree.height : BinTree → Nat
  | .leaf => 0
  | .node l _ _ r => max l.height r.height + 1

/-- Register `n` of the arena is the root of the tree `t`. -/
inductive Holds (a : Arena) : Nat → BinTree → Prop
  | leaf : Holds a 0 .leaf
  | node {n : Nat} {l r : BinTree} (h : n ≠ 0) (hl : Holds a (a n).left l) (hr : Holds a (a n).right r) :
      Holds a n (.node l (a n).key (a n).value r)

/-- `r` is the value of the latest entry before `key`, `none` if there is no such entry. -/
def LatestBefore (l : List (Nat × Nat)) (key : Nat) : Option Nat → Prop
  | none => ∀ e ∈ l, key ≤ e.1
  | some v => ∃ k, (k, v) ∈ l ∧ k < key ∧ ∀ e ∈ l, e.1 < key → e.1 ≤ k

end Verif.Spec
