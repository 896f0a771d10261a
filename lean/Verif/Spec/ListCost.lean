import Verif.Spec.SinglyLinkedList
import Verif.Spec.DoublyLinkedList
/-
What the documentation says about the time calls of the linked lists take: `O(1)` or `O(N)`.
-/
namespace CCC

namespace SllSpec

/-- The number `N` in the `O(N)` of a call, ccc/singly_linked_list.h:76-270; 0 if the call is documented as `O(1)`.  `n`
says how many elements a list has.  Splicing walks over the list the elements come from.  Nothing is said about
`ccc_sll_validate`, which looks at every element. -/
def extent {α : Type} (n : Nat → Nat) : Op α → Nat
  | .splice _ _ m _ | .spliceRange _ _ m _ _ => n m
  | .erase l _ | .eraseRange l _ _ | .extract l _ | .extractRange l _ _ | .clear l _ | .validate l => n l
  | _ => 0

/-- The sum of `N + 1` over the calls of a history. -/
def extents {α : Type} (alloc : Nat → Bool) (st : Seq.St α) : List (Op α) → Nat
  | [] => 0
  | op :: ops => extent (fun l => (st.seq l).length) op + 1 + extents alloc (specStep alloc st op).1 ops

end SllSpec

namespace DllSpec

/-- The number `N` in the `O(N)` of a call, ccc/doubly_linked_list.h:83-338; 0 if the call is documented as `O(1)`.  `n`
says how many elements a list has.  Nothing is said about `ccc_dll_validate`, which looks at every element. -/
def extent {α : Type} (n : Nat → Nat) : Op α → Nat
  | .spliceRange _ _ m _ _ => n m
  | .eraseRange l _ _ | .extractRange l _ _ | .clear l _ | .validate l => n l
  | _ => 0

/-- The sum of `N + 1` over the calls of a history. -/
def extents {α : Type} (alloc : Nat → Bool) (st : Seq.St α) : List (Op α) → Nat
  | [] => 0
  | op :: ops => extent (fun l => (st.seq l).length) op + 1 + extents alloc (specStep alloc st op).1 ops

end DllSpec

end CCC
