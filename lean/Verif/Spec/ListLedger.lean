import Verif.Spec.Ledger
import Verif.Spec.SinglyLinkedList
import Verif.Spec.DoublyLinkedList
/-
What the user's allocation function sees of the linked lists.  One allocation function serves all the lists that have one;
`alloc l` says whether list `l` does.
-/
namespace CCC

/-- The allocator's book for the blocks the lists answer for: after the calls `es` of the allocation function, the blocks
`user` are no longer the lists' but the user's. -/
def settleWith (held : List Nat) (es : List Ev) (user : List Nat) : Option (List Nat) := do
  let held ← settle held es
  some (Seq.without user held)

namespace SllSpec
open Seq

variable {α : Type} (alloc : Nat → Bool)

/-- The calls of the allocation function a call must make: a push asks for one block; every element removed, but not one
extracted, is given back, in order; nothing else, and nothing if the list has no allocation function. -/
def calls (st : St α) : Op α → List Ev
  | .pushFront l _ ans => if alloc l then [Ev.ofAns ans] else []
  | .popFront l => if alloc l then (st.seq l).head?.toList.map .freed else []
  | .erase l e => if alloc l then [.freed e] else []
  | .eraseRange l b e => if alloc l then (through b e (st.seq l)).map .freed else []
  | .clear l _ => if alloc l then (st.seq l).map .freed else []
  | _ => []

/-- The blocks that become the user's: the elements extracted from an allocating list. -/
def handed (st : St α) : Op α → List Nat
  | .extract l e => if alloc l then [e] else []
  | .extractRange l b e => if alloc l then through b e (st.seq l) else []
  | _ => []

/-- Elements are spliced only between two lists that allocate or two lists that do not. -/
def Fair : Op α → Prop
  | .splice l _ m _ | .spliceRange l _ m _ _ => alloc l = alloc m
  | _ => True

/-- The calls of the allocation function of a history. -/
def callsRun (st : St α) : List (Op α) → List Ev
  | [] => []
  | op :: ops => calls alloc st op ++ callsRun (specStep alloc st op).1 ops

/-- The allocator's book after a history. -/
def book (held : List Nat) (st : St α) : List (Op α) → Option (List Nat)
  | [] => some held
  | op :: ops => do
    let held ← settleWith held (calls alloc st op) (handed alloc st op)
    book held (specStep alloc st op).1 ops

end SllSpec

namespace DllSpec
open Seq

variable {α : Type} (alloc : Nat → Bool)

/-- The calls of the allocation function a call must make: a push, an insertion or an emplacement asks for one block; every
element removed, but not one extracted, is given back, in order; nothing else, and nothing if the list has no allocation
function. -/
def calls (st : St α) : Op α → List Ev
  | .pushFront l _ ans | .pushBack l _ ans | .insert l _ _ ans | .emplaceFront l _ _ _ ans | .emplaceBack l _ _ _ ans =>
    if alloc l then [Ev.ofAns ans] else []
  | .popFront l => if alloc l then (st.seq l).head?.toList.map .freed else []
  | .popBack l => if alloc l then (st.seq l).getLast?.toList.map .freed else []
  | .erase l e => if alloc l then [.freed e] else []
  | .eraseRange l b e => if alloc l then (if b = e then [.freed e] else (between b e (st.seq l)).map .freed) else []
  | .clear l _ => if alloc l then (st.seq l).map .freed else []
  | _ => []

/-- The blocks that become the user's: the elements extracted from an allocating list. -/
def handed (st : St α) : Op α → List Nat
  | .extract l e => if alloc l then [e] else []
  | .extractRange l b e => if alloc l then (if b = e then [e] else between b e (st.seq l)) else []
  | _ => []

/-- Elements are spliced only between two lists that allocate or two lists that do not. -/
def Fair : Op α → Prop
  | .splice l _ m _ | .spliceRange l _ m _ _ => alloc l = alloc m
  | _ => True

/-- The calls of the allocation function of a history. -/
def callsRun (st : St α) : List (Op α) → List Ev
  | [] => []
  | op :: ops => calls alloc st op ++ callsRun (specStep alloc st op).1 ops

/-- The allocator's book after a history. -/
def book (held : List Nat) (st : St α) : List (Op α) → Option (List Nat)
  | [] => some held
  | op :: ops => do
    let held ← settleWith held (calls alloc st op) (handed alloc st op)
    book held (specStep alloc st op).1 ops

end DllSpec
end CCC
