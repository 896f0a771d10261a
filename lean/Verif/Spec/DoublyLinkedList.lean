import Verif.Spec.Lists
/-
Specification of the doubly linked list: what the calls do to sequences.

The specification follows the code where the documentation is wrong about an answer: `ccc_dll_erase` answers the erased
element itself, a range does not contain its end unless it is empty, and the range calls answer the end of the range.

`pop_front` and `clear` leave the back link of the new front, or of the sentinel if the list is empty, at the removed
element; only a push at the front repairs it.  `stale` keeps account of that and `safeOp` are the calls that do not use such
a link, and that do not run into the assertion of `ccc_dll_splice_range`.
-/
namespace CCC.DllSpec
open CCC Seq

inductive Op (α : Type) where
  /-- the user makes a struct at an address; the links hold garbage -/
  | make (e : Nat) (x : α) (n p : Slot)
  /-- the user gives the memory of a struct away -/
  | drop (e : Nat)
  /-- `ans` is the answer of the allocation function of a list that has one -/
  | pushFront (l e : Nat) (ans : Slot)
  | pushBack (l e : Nat) (ans : Slot)
  | insert (l pos e : Nat) (ans : Slot)
  /-- the macros; the links of the new struct are what the initializer says -/
  | emplaceFront (l : Nat) (x : α) (n p : Slot) (ans : Slot)
  | emplaceBack (l : Nat) (x : α) (n p : Slot) (ans : Slot)
  | popFront (l : Nat)
  | popBack (l : Nat)
  | splice (l pos m e : Nat)
  | spliceRange (l pos m b e : Nat)
  | erase (l e : Nat)
  | eraseRange (l b e : Nat)
  | extract (l e : Nat)
  | extractRange (l b e : Nat)
  | clear (l : Nat) (destroy : Bool)
  | front (l : Nat)
  | back (l : Nat)
  | begin (l : Nat)
  | rbegin (l : Nat)
  | next (l e : Nat)
  | rnext (l e : Nat)
  | beginElem (l : Nat)
  | endElem (l : Nat)
  | endSentinel (l : Nat)
  | endIter (l : Nat)
  | rend (l : Nat)
  | size (l : Nat)
  | isEmpty (l : Nat)
  | validate (l : Nat)

variable {α : Type} (lists : List Nat) (alloc : Nat → Bool)

/-- In no list. -/
def Loose (st : St α) (e : Nat) : Prop := e ∉ lists ∧ ∀ l ∈ lists, e ∉ st.seq l

/-- A position of a list: an element, or the sentinel, which is the position after the last element. -/
def IsPos (st : St α) (l pos : Nat) : Prop := pos = l ∨ pos ∈ st.seq l

/-- The end of a range that begins at `b`: `b`, an element after it, or the sentinel. -/
def IsRange (st : St α) (l b e : Nat) : Prop := b ∈ st.seq l ∧ (e = l ∨ e ∈ onward b (st.seq l))

/-- The allocation function returns memory that is not in use. -/
def Fresh (st : St α) (ans : Slot) : Prop := ∀ n, ans = some n → n ∉ lists ∧ st.val n = none

/-- What the documentation asks of the caller: lists are initialized lists, elements are in the list they are said to be
in, new ones are in no list, `pos` is not inside the range, and the allocation function returns memory not in use. -/
def okOp (st : St α) : Op α → Prop
  | .make e _ _ _ => Loose lists st e
  | .drop e => Loose lists st e
  | .pushFront l e ans | .pushBack l e ans =>
      l ∈ lists ∧ st.val e ≠ none ∧ (if alloc l then Fresh lists st ans else Loose lists st e)
  | .insert l pos e ans =>
      l ∈ lists ∧ IsPos st l pos ∧ st.val e ≠ none ∧ (if alloc l then Fresh lists st ans else Loose lists st e)
  | .emplaceFront l _ _ _ ans | .emplaceBack l _ _ _ ans => l ∈ lists ∧ (alloc l = true → Fresh lists st ans)
  | .splice l pos m e => l ∈ lists ∧ m ∈ lists ∧ IsPos st l pos ∧ e ∈ st.seq m
  | .spliceRange l pos m b e => l ∈ lists ∧ m ∈ lists ∧ IsPos st l pos ∧ IsRange st m b e ∧
      (pos ∈ between b e (st.seq m) → pos = b)
  | .erase l e | .extract l e | .next l e | .rnext l e => l ∈ lists ∧ e ∈ st.seq l
  | .eraseRange l b e | .extractRange l b e => l ∈ lists ∧ IsRange st l b e
  | .popFront l | .popBack l | .clear l _ | .front l | .back l | .begin l | .rbegin l | .beginElem l | .endElem l
  | .endSentinel l | .endIter l | .rend l | .size l | .isEmpty l | .validate l => l ∈ lists

/-- Elements `xs` taken out of list `m` and put before `pos` in list `l`; nothing changes if `pos` is one of them. -/
def St.move (st : St α) (l pos m : Nat) (xs : List Nat) : St α :=
  if pos ∈ xs then st
  else
    let st := Seq.St.set st m (without xs (st.seq m))
    st.set l (putBefore pos xs (st.seq l))

/-- A new element in list `l`: the struct `e` of the user, or a copy where the allocation function says. -/
def St.insert (st : St α) (l e : Nat) (ans : Slot) (put : Nat → List Nat) : St α × Out :=
  if alloc l then
    match ans with
    | none => (st, .ptr none)
    | some n => ({ st with val := upd st.val n (st.val e), seq := upd st.seq l (put n) }, .ptr (some n))
  else (Seq.St.set st l (put e), .ptr (some e))

/-- A new element with the value `x`, if there is an allocation function and it has memory. -/
def St.emplace (st : St α) (l : Nat) (x : α) (ans : Slot) (put : Nat → List Nat) : St α × Out :=
  if alloc l then
    match ans with
    | none => (st, .ptr none)
    | some n => ({ st with val := upd st.val n (some x), seq := upd st.seq l (put n) }, .ptr (some n))
  else (st, .ptr none)

/-- What `ccc_dll_erase` answers: NULL for the last element, otherwise the erased element. -/
def eraseAns (e : Nat) (s : List Nat) : Slot := if after e s = none then none else some e

/-- What a call does and answers. -/
def specStep (st : St α) : Op α → St α × Out
  | .make e x _ _ => ({ st with val := upd st.val e (some x) }, .unit)
  | .drop e => ({ st with val := upd st.val e none }, .unit)
  | .pushFront l e ans => St.insert alloc st l e ans (· :: st.seq l)
  | .pushBack l e ans => St.insert alloc st l e ans (st.seq l ++ [·])
  | .insert l pos e ans => St.insert alloc st l e ans (putBefore pos [·] (st.seq l))
  | .emplaceFront l x _ _ ans => St.emplace alloc st l x ans (· :: st.seq l)
  | .emplaceBack l x _ _ ans => St.emplace alloc st l x ans (st.seq l ++ [·])
  | .popFront l => match st.seq l with
    | [] => (st, .res .inputErr)
    | e :: s => ((st.set l s).release (alloc l) [e], .res .ok)
  | .popBack l => match (st.seq l).getLast? with
    | none => (st, .res .inputErr)
    | some e => ((st.set l (st.seq l).dropLast).release (alloc l) [e], .res .ok)
  | .splice l pos m e => (St.move st l pos m [e], .res .ok)
  | .spliceRange l pos m b e => (St.move st l pos m (between b e (st.seq m)), .res .ok)
  | .erase l e => ((st.set l (without [e] (st.seq l))).release (alloc l) [e], .ptr (eraseAns e (st.seq l)))
  | .eraseRange l b e =>
    if b = e then ((st.set l (without [e] (st.seq l))).release (alloc l) [e], .ptr (eraseAns e (st.seq l)))
    else
      let r := between b e (st.seq l)
      ((st.set l (without r (st.seq l))).release (alloc l) r, .ptr (if e = l then none else some e))
  | .extract l e => (st.set l (without [e] (st.seq l)), .ptr (after e (st.seq l)))
  | .extractRange l b e =>
    if b = e then (st.set l (without [e] (st.seq l)), .ptr (after e (st.seq l)))
    else (st.set l (without (between b e (st.seq l)) (st.seq l)), .ptr (if e = l then none else some e))
  | .clear l d => ((st.set l []).release (alloc l) (st.seq l), .gone (if d then st.seq l else []) .ok)
  | .front l | .begin l => (st, .ptr (st.seq l).head?)
  | .back l | .rbegin l => (st, .ptr (st.seq l).getLast?)
  | .next l e => (st, .ptr (after e (st.seq l)))
  | .rnext l e => (st, .ptr (previous e (st.seq l)))
  | .beginElem l => (st, .ptr (some ((st.seq l).headD l)))
  | .endElem l => (st, .ptr (some ((st.seq l).getLastD l)))
  | .endSentinel l => (st, .ptr (some l))
  | .endIter _ | .rend _ => (st, .ptr none)
  | .size l => (st, .num (st.seq l).length)
  | .isEmpty l => (st, .flag (st.seq l == []))
  | .validate _ => (st, .flag true)

/-- Whether the back link of the first position of a list is stale after a call. -/
def stale (st : St α) (z : Nat → Bool) : Op α → Nat → Bool
  | .popFront l | .clear l _ => if st.seq l = [] then z else upd z l true
  | .pushFront l _ ans => if alloc l && ans.isNone then z else upd z l false
  | .emplaceFront l _ _ _ ans => if alloc l && ans.isSome then upd z l false else z
  | _ => z

/-- The back link at this position of the list is right. -/
def Good (st : St α) (z : Nat → Bool) (l pos : Nat) : Prop := z l = true → pos ≠ (st.seq l).headD l

/-- The call uses no stale back link and does not run into an assertion. -/
def safeOp (st : St α) (z : Nat → Bool) : Op α → Prop
  | .pushBack l _ _ | .emplaceBack l _ _ _ _ | .rbegin l | .endElem l => Good st z l l
  | .popBack l => Good st z l ((st.seq l).getLastD l) ∨ st.seq l = []
  | .insert l pos _ _ => Good st z l pos
  | .erase l e | .extract l e | .rnext l e => Good st z l e
  | .eraseRange l b _ | .extractRange l b _ => Good st z l b
  | .splice l pos m e => pos = e ∨ after e (st.seq m) = some pos ∨ (Good st z l pos ∧ Good st z m e)
  | .spliceRange l pos m b e => pos = b ∨ pos = e ∨ b = e ∨ (Good st z l pos ∧ Good st z m b ∧
      (l ≠ m → (between b e (st.seq m)).length ≤ (st.seq l).length + 1))
  | _ => True

/-- The answers of a history. -/
def specRun (st : St α) : List (Op α) → St α × List Out
  | [] => (st, [])
  | op :: ops =>
    let (st, r) := specStep alloc st op
    let (st, rs) := specRun st ops
    (st, r :: rs)

/-- Which lists have a stale back link after a history. -/
def staleRun (st : St α) (z : Nat → Bool) : List (Op α) → Nat → Bool
  | [] => z
  | op :: ops => staleRun (specStep alloc st op).1 (stale alloc st z op) ops

/-- Every call of a history is allowed, and safe. -/
def okRun (st : St α) (z : Nat → Bool) : List (Op α) → Prop
  | [] => True
  | op :: ops => okOp lists alloc st op ∧ safeOp st z op ∧ okRun (specStep alloc st op).1 (stale alloc st z op) ops

end CCC.DllSpec
