import Verif.Spec.Ledger
/-
Programs that call the user's allocation function.  A program in `Led` is a program in `Option` that writes down the
calls of the allocation function as they happen; `ask` and `giveBack` are the only operations that write.  The versions
of the model's functions in `Led` are the functions themselves, statement for statement, with each call of the allocation
function written `ask ans` or `giveBack a`.  That the list of calls is the only difference is proved.
-/
namespace CCC

/-- A computation that may fail and that calls the allocation function. -/
abbrev Led (α : Type) := StateT (List Ev) Option α

/-- `alloc_(NULL, elem_sz_, aux_)`; the answer is in the user's hands. -/
def ask (ans : Option Nat) : Led (Option Nat) := fun h => some (ans, h ++ [Ev.ofAns ans])

/-- `alloc_(a, 0, aux_)`. -/
def giveBack (a : Nat) : Led Unit := fun h => some ((), h ++ [.freed a])

end CCC
