import Verif.Spec.PtrMap
/-
What the user's allocation function sees of the pointer based maps.
-/
namespace CCC

/-- One call of the user's allocation function: a request it granted with the block at `a`, a request it refused, or the
block at `a` given back. -/
inductive Ev where
  | got (a : Nat)
  | refused
  | freed (a : Nat)
deriving DecidableEq

/-- The request the answer belongs to. -/
def Ev.ofAns : Option Nat → Ev
  | some a => .got a
  | none => .refused

/-- The allocator's book: `held` are the blocks that are out.  A block that is out is not granted again, and only a block
that is out may come back; `none` if a call breaks this. -/
def settle : List Nat → List Ev → Option (List Nat)
  | held, [] => some held
  | held, .got a :: es => if a ∈ held then none else settle (a :: held) es
  | held, .refused :: es => settle held es
  | held, .freed a :: es => if a ∈ held then settle (held.erase a) es else none

namespace PtrMap
open MapSpec

variable {α κ : Type} (cmp : κ → κ → Cmp) (key : α → κ)

/-- The calls of the allocation function one call of the interface must make: none if the map has no allocation
function; one request if the key is new; the block of the element removed; at a clear the block of every element, in
whatever order. -/
def Calls (al : Bool) (l : List (Nat × α)) : Op α κ → List Ev → Prop
  | .insert _ x _ _ ans, es | .tryInsert _ x ans, es | .insertOrAssign _ x ans, es =>
    es = if al ∧ lookup cmp (ekey key) (key x) l = none then [Ev.ofAns ans] else []
  | .orInsert k _ _ ans, es | .insertEntry k _ _ ans, es | .orInsertW k _ ans, es | .insertEntryW k _ ans, es
  | .tryInsertW k _ ans, es | .insertOrAssignW k _ ans, es =>
    es = if al ∧ lookup cmp (ekey key) k l = none then [Ev.ofAns ans] else []
  | .remove _ x, es =>
    es = if al then (match lookup cmp (ekey key) (key x) l with | some e => [.freed e.1] | none => []) else []
  | .removeEntry k, es =>
    es = if al then (match lookup cmp (ekey key) k l with | some e => [.freed e.1] | none => []) else []
  | .clear, es => if al then ∃ d : List Nat, d.Perm (l.map Prod.fst) ∧ es = d.map .freed else es = []
  | _, es => es = []

end PtrMap
end CCC
