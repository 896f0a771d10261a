import Verif.Model.Messages
/-
How a user iterates: `for (p = first; p != stop; p = next(p))`, collecting the visited addresses.  `next` is the
library's step; a NULL `p` that is not `stop` would be handed to the library as an element, so the loop fails.
-/
namespace CCC

/-- The loop. -/
def iterate (next : Nat → Option Slot) (stop p : Slot) : Option (List Nat) :=
  if p = stop then some []
  else match p with
    | none => none
    | some a => do
      let q ← next a
      let r ← iterate next stop q
      some (a :: r)
partial_fixpoint

/-- The loop over a range a container has answered, `for (p = begin_range(&r); p != end_range(&r); p = next(p))`. -/
def overRange (next : Nat → Option Slot) (r : Slot × Slot) : Option (List Nat) :=
  iterate next (Range.end_ (some ⟨r.1, r.2⟩)) (Range.begin_ (some ⟨r.1, r.2⟩))

/-- Follow children from an element; address 0 is "no element". -/
def descend (br : Nat → Bool → Nat) : Nat → List Bool → Nat
  | a, [] => a
  | a, d :: ds => if a = 0 then 0 else descend br (br a d) ds

/-- The WAVL rank rules for the elements `as` with children `br` and stored rank parities `parity`: there is a rank
for every element such that missing children have rank 0, children have smaller ranks by one or two, elements without
children have rank 1, and the stored bit is set exactly for even ranks. -/
def RankRules (as : List Nat) (br : Nat → Bool → Nat) (parity : Nat → Bool) : Prop :=
  ∃ rk : Nat → Nat, rk 0 = 0 ∧ ∀ a ∈ as,
    (∀ d, rk a = rk (br a d) + 1 ∨ rk a = rk (br a d) + 2) ∧
    (br a false = 0 → br a true = 0 → rk a = 1) ∧ parity a = (rk a % 2 == 0)

end CCC
