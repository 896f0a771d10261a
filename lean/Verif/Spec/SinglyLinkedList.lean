import Verif.Spec.Lists
/-
Specification of the singly linked list: what the calls do to sequences.

The documentation of `ccc_sll_splice` and `ccc_sll_splice_range` says that elements are put before `pos`, that of the
range calls that `end` is not part of the range.  The code, and the tests, put elements after `pos`, where the sentinel
(`ccc_sll_begin_sentinel`) stands for the front, and take `end` as the last element of the range.  This specification
follows the code; `docSplice`, and `between` for ranges, are what the documentation says.
-/
namespace CCC.SllSpec
open CCC Seq

inductive Op (α : Type) where
  /-- the user makes a struct at an address; the link holds garbage -/
  | make (e : Nat) (x : α) (n : Slot)
  /-- the user gives the memory of a struct away -/
  | drop (e : Nat)
  /-- `ans` is the answer of the allocation function of a list that has one -/
  | pushFront (l e : Nat) (ans : Slot)
  | popFront (l : Nat)
  | splice (l pos m e : Nat)
  | spliceRange (l pos m b e : Nat)
  | erase (l e : Nat)
  | eraseRange (l b e : Nat)
  | extract (l e : Nat)
  | extractRange (l b e : Nat)
  | clear (l : Nat) (destroy : Bool)
  | front (l : Nat)
  | begin (l : Nat)
  | next (l e : Nat)
  | beginElem (l : Nat)
  | beginSentinel (l : Nat)
  | endIter (l : Nat)
  | size (l : Nat)
  | isEmpty (l : Nat)
  | validate (l : Nat)

variable {α : Type} (lists : List Nat) (alloc : Nat → Bool)

/-- In no list. -/
def Loose (st : St α) (e : Nat) : Prop := e ∉ lists ∧ ∀ l ∈ lists, e ∉ st.seq l

/-- `e` is `b` or comes later. -/
def InRange (s : List Nat) (b e : Nat) : Prop := b ∈ s ∧ e ∈ onward b s

/-- What the documentation asks of the caller: lists are initialized lists, elements are in the list they are said to be
in, new ones are in no list, `pos` is not inside the range, and the allocation function returns memory not in use. -/
def okOp (st : St α) : Op α → Prop
  | .make e _ _ => Loose lists st e
  | .drop e => Loose lists st e
  | .pushFront l e ans => l ∈ lists ∧ st.val e ≠ none ∧
      (if alloc l then ∀ n, ans = some n → n ∉ lists ∧ st.val n = none else Loose lists st e)
  | .splice l pos m e => l ∈ lists ∧ m ∈ lists ∧ (pos = l ∨ pos ∈ st.seq l) ∧ e ∈ st.seq m
  | .spliceRange l pos m b e => l ∈ lists ∧ m ∈ lists ∧ (pos = l ∨ pos ∈ st.seq l) ∧ InRange (st.seq m) b e ∧
      (pos ∈ through b e (st.seq m) → pos = b ∨ pos = e)
  | .erase l e => l ∈ lists ∧ e ∈ st.seq l
  | .eraseRange l b e => l ∈ lists ∧ InRange (st.seq l) b e
  | .extract l e => l ∈ lists ∧ e ∈ st.seq l
  | .extractRange l b e => l ∈ lists ∧ InRange (st.seq l) b e
  | .next l e => l ∈ lists ∧ e ∈ st.seq l
  | .popFront l | .clear l _ | .front l | .begin l | .beginElem l | .beginSentinel l | .endIter l | .size l | .isEmpty l
  | .validate l => l ∈ lists

/-- Elements put after a position of list `l`; its sentinel is the position before the first element. -/
def putAt (l pos : Nat) (xs s : List Nat) : List Nat := if pos = l then xs ++ s else putAfter pos xs s

/-- Elements `xs` taken out of list `m` and put into list `l`; nothing changes if `pos` is one of them. -/
def St.move (st : St α) (l pos m : Nat) (xs : List Nat) : St α :=
  if pos ∈ xs then st
  else
    let st := Seq.St.set st m (without xs (st.seq m))
    st.set l (putAt l pos xs (st.seq l))

/-- What a call does and answers. -/
def specStep (st : St α) : Op α → St α × Out
  | .make e x _ => ({ st with val := upd st.val e (some x) }, .unit)
  | .drop e => ({ st with val := upd st.val e none }, .unit)
  | .pushFront l e ans =>
    if alloc l then
      match ans with
      | none => (st, .ptr none)
      | some n => ({ st with val := upd st.val n (st.val e), seq := upd st.seq l (n :: st.seq l) }, .ptr (some n))
    else (st.set l (e :: st.seq l), .ptr (some e))
  | .popFront l => match st.seq l with
    | [] => (st, .res .inputErr)
    | e :: s => ((st.set l s).release (alloc l) [e], .res .ok)
  | .splice l pos m e => (St.move st l pos m [e], .res .ok)
  | .spliceRange l pos m b e => (St.move st l pos m (through b e (st.seq m)), .res .ok)
  | .erase l e => ((st.set l (without [e] (st.seq l))).release (alloc l) [e], .ptr (after e (st.seq l)))
  | .eraseRange l b e =>
    let r := through b e (st.seq l)
    ((st.set l (without r (st.seq l))).release (alloc l) r, .ptr (after e (st.seq l)))
  | .extract l e => (st.set l (without [e] (st.seq l)), .ptr (after e (st.seq l)))
  | .extractRange l b e => (st.set l (without (through b e (st.seq l)) (st.seq l)), .ptr (after e (st.seq l)))
  | .clear l d => ((st.set l []).release (alloc l) (st.seq l), .gone (if d then st.seq l else []) .ok)
  | .front l => (st, .ptr (st.seq l).head?)
  | .begin l => (st, .ptr (st.seq l).head?)
  | .next l e => (st, .ptr (after e (st.seq l)))
  | .beginElem l => (st, .ptr (some ((st.seq l).headD l)))
  | .beginSentinel l => (st, .ptr (some l))
  | .endIter _ => (st, .ptr none)
  | .size l => (st, .num (st.seq l).length)
  | .isEmpty l => (st, .flag (st.seq l == []))
  | .validate _ => (st, .flag true)

/-- The answers of a history. -/
def specRun (st : St α) : List (Op α) → St α × List Out
  | [] => (st, [])
  | op :: ops =>
    let (st, r) := specStep alloc st op
    let (st, rs) := specRun st ops
    (st, r :: rs)

/-- Every call of a history is allowed. -/
def okRun (st : St α) : List (Op α) → Prop
  | [] => True
  | op :: ops => okOp lists alloc st op ∧ okRun (specStep alloc st op).1 ops

/-- What the documentation says about `ccc_sll_splice`: `e` is put before `pos`. -/
def docSplice (pos e : Nat) (s : List Nat) : List Nat := if pos = e then s else putBefore pos [e] (without [e] s)

end CCC.SllSpec
