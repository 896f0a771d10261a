import Verif.Model.Types
/-
What the user's allocation function sees of the flat containers, which keep all their elements in one block of memory.

Blocks are named by the number of the request that was granted: the first block granted is block 0, and so on.  A block that
was moved by the allocation function gets a new name even if it stays where it was.  The size of a block is the number of
elements it has room for.
-/
namespace CCC.Flat
open CCC

/-- One call of the user's allocation function.  Each passes a pointer: NULL (`none`) or a block. -/
inductive Ev where
  /-- memory for `size` elements requested in exchange for `old`, and granted as block `new` -/
  | got (old : Slot) (new size : Nat)
  /-- memory for `size` elements requested in exchange for `old`, and refused -/
  | refused (old : Slot) (size : Nat)
  /-- size 0: `old` is given back -/
  | freed (old : Slot)
deriving DecidableEq

/-- The blocks that are out, with their sizes, once the block `old` has come back.  A pointer handed to the allocation
function must be NULL or a block that is out. -/
def back (held : List (Nat × Nat)) : Slot → Option (List (Nat × Nat))
  | none => some held
  | some a => if a ∈ held.map Prod.fst then some (held.filter fun b => b.1 ≠ a) else none

/-- The allocator's book: `held` are the blocks that are out; `none` if a call hands over a pointer it must not. -/
def account : List (Nat × Nat) → List Ev → Option (List (Nat × Nat))
  | held, [] => some held
  | held, .got old new size :: es => do
    let held ← back held old
    if new ∈ held.map Prod.fst then none else account ((new, size) :: held) es
  | held, .refused old _ :: es => do
    let _ ← back held old
    account held es
  | held, .freed old :: es => do
    let held ← back held old
    account held es

/-- The blocks a container answers for that says it has room for `cap` elements and whose memory is `mem`. -/
def own (mem : Slot) (cap : Nat) : List (Nat × Nat) :=
  match mem with
  | none => []
  | some a => [(a, cap)]

end CCC.Flat
