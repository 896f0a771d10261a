import Verif.Model.Types
/-
Sequences of elements, the specification of the linked lists.  An element is the address of a struct of the user.
-/
namespace CCC.Seq
open CCC

/-- The elements before `e`; all of them if `e` is not there. -/
def upto (e : Nat) (s : List Nat) : List Nat := s.takeWhile (· != e)
/-- The elements from `e` on. -/
def onward (e : Nat) (s : List Nat) : List Nat := s.dropWhile (· != e)
/-- The element after `e`. -/
def after (e : Nat) (s : List Nat) : Slot := (onward e s).tail.head?
/-- The element before `e`. -/
def previous (e : Nat) (s : List Nat) : Slot := (upto e s).getLast?
/-- The elements from `b` to `e`, including `e`. -/
def through (b e : Nat) (s : List Nat) : List Nat := upto e (onward b s) ++ [e]
/-- The elements from `b` to `e`, without `e`. -/
def between (b e : Nat) (s : List Nat) : List Nat := upto e (onward b s)
/-- The sequence without the elements `xs`. -/
def without (xs s : List Nat) : List Nat := s.filter (fun a => !xs.contains a)
/-- `xs` put after `p`. -/
def putAfter (p : Nat) (xs s : List Nat) : List Nat := upto p s ++ p :: xs ++ (onward p s).tail
/-- `xs` put before `p`; at the end if `p` is not there. -/
def putBefore (p : Nat) (xs s : List Nat) : List Nat := upto p s ++ xs ++ onward p s

/-- Neighbours in the list are related. -/
def Linked (R : Nat → Nat → Prop) : List Nat → Prop
  | a :: b :: t => R a b ∧ Linked R (b :: t)
  | _ => True

/-- The user's structs and the lists.  A list is identified by the address of its sentinel. -/
structure St (α : Type) where
  val : Nat → Option α
  seq : Nat → List Nat

/-- No structs, empty lists. -/
def St.empty {α : Type} : St α := ⟨fun _ => none, fun _ => []⟩

/-- The answer of a call.  A pointer to a struct or to a sentinel is its address. -/
inductive Out where
  | unit
  | ptr (p : Slot)
  | res (r : Res)
  | flag (b : Bool)
  | num (n : Nat)
  /-- the elements the destructor was called with, in that order -/
  | gone (es : List Nat) (r : Res)
deriving DecidableEq

/-- Replace one list. -/
def St.set {α : Type} (st : St α) (l : Nat) (s : List Nat) : St α := { st with seq := upd st.seq l s }

/-- Structs given away. -/
def St.drop {α : Type} (st : St α) (es : List Nat) : St α :=
  { st with val := fun a => if es.contains a then none else st.val a }

/-- A list that owns its elements gives them away when they are removed. -/
def St.release {α : Type} (st : St α) (alloc : Bool) (es : List Nat) : St α := if alloc then st.drop es else st

end CCC.Seq
