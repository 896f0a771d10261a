import Verif.Model.Types
/-
Counting.  A program in `Count` is a program in `Option` with a counter; `cnt`, `acc` and `work` are the only operations
that move it.  The counted versions of the model's functions are the functions themselves, statement for statement, with
each call of the user's comparison function written `cnt c a`, or each access to an element written `acc x`.  That the
counter is the only difference is proved for each of them.
-/
namespace CCC

/-- A computation that may fail, with a counter. -/
abbrev Count (α : Type) := StateT Nat Option α

/-- One call of the user's comparison function. -/
def cnt (c : Nat → Option Cmp) (a : Nat) : Count Cmp := do
  modify (· + 1)
  c a

/-- One access to an element. -/
def acc {α : Type} (x : Option α) : Count α := do
  modify (· + 1)
  x

/-- `x`, taking `n` units of work. -/
def work {α : Type} (n : Nat) (x : Option α) : Count α := fun k => x.map (fun r => (r, k + n))

end CCC
