import Verif.Model.SMap
/-!
`find_max_value_limited_by_key` on a node arena, state/mod.rs:56-81.
-/

namespace Verif

/-- A node of the arena: key, value and the two child registers (sokoban's `get_left`, `get_right`). -/
structure Node where
  key : Nat
  value : Nat
  left : Nat
  right : Nat
  deriving DecidableEq, Repr

/-- The node arena of a tree: node number to node. -/
abbrev Arena := Nat → Node

/-- sokoban's `SENTINEL`. -/
def SENTINEL : Nat := 0

/-- The body of the loop state/mod.rs:67-78, run for at most `fuel` iterations; `none` = not finished yet. -/
def findMaxLoop (a : Arena) (key : Nat) : (fuel : Nat) → (current : Nat) → (result : Option Nat) → Option (Option Nat)
  | fuel, current, result =>
    if current = SENTINEL then some result
    else
      match fuel with
      | 0 => none
      | fuel + 1 =>
        if (a current).key < key then findMaxLoop a key fuel (a current).right (some (a current).value)
        else findMaxLoop a key fuel (a current).left result

end Verif
