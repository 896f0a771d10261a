import Verif.Spec.HashMap
/-
What is needed to say how much work a history of calls of the flat hash map takes on the average.
-/
namespace CCC.HashMap
open CCC

/-- The map with the hash function `h` and plain equality of keys. -/
def hashed {κ α : Type} [DecidableEq κ] (wide : Bool) (key : α → κ) (h : κ → UInt64) : Cfg κ α :=
  { wide := wide, hash := h, eq := fun a b => decide (a = b), key := key }

variable {α κ : Type}

/-- The capacity of a map that is cleared, nothing for any other call. -/
def lost (s : St α) : Op α κ → Nat
  | .clear => s.cap
  | _ => 0

/-- The capacities the map has when it is cleared, added up over a history. -/
def cleared (c : Cfg κ α) (al : Bool) : St α → List (Op α κ) → Nat
  | _, [] => 0
  | s, o :: os => lost s o + cleared c al (specStep c al s o).1 os

end CCC.HashMap
