import Verif.Model.SinglyLinkedList
import Verif.Model.Ledger
/-
The calls of the singly linked list that call the user's allocation function (`src/singly_linked_list.c`), with these calls
written down (`Verif/Model/Ledger.lean`).  Statement for statement the functions of `Verif/Model/SinglyLinkedList.lean`;
what does not call the allocation function is taken from there.
-/
namespace CCC.Sll
open CCC Seq SllSpec

variable {α : Type} (c : Cfg)

/-- The loop of `erase_range`, src/singly_linked_list.c:348-355; 353 and 355 give the memory back. -/
def freeLoopL (s : Sll α) (l b e k : Nat) : Led (Sll α × Nat) :=
  if b = e then do
    let _ ← liftM (s.lnk e)
    giveBack e
    pure (free s e, k)
  else if k ≤ s.sz l then do
    let n ← liftM (s.lnk b)
    let b' ← liftM n
    giveBack b
    freeLoopL (free s b) l b' e (k + 1)
  else liftM (none : Option (Sll α × Nat))
partial_fixpoint

/-- `erase_range`, src/singly_linked_list.c:338-357. -/
def eraseNodesL (s : Sll α) (l b e : Nat) : Led (Sll α × Nat) :=
  if !c.alloc l then liftM (extractNodes s l b e) else freeLoopL s l b e 1

/-- `ccc_sll_push_front`, src/singly_linked_list.c:29-48; 38 asks for memory. -/
def pushFrontL (s : Sll α) (l e : Nat) (ans : Slot) : Led (Sll α × Slot) :=
  if c.alloc l then do
    match ← ask ans with
    | none => pure (s, none)
    | some n => do
      let x ← liftM (s.val e)
      let k ← liftM (s.lnk e)
      let s ← liftM (pushFrontNode { s with val := upd s.val n (some x), lnk := upd s.lnk n (some k) } l n)
      let r ← liftM (s.lnk l)
      let r ← liftM (structBase c r)
      pure (s, r)
  else do
    let s ← liftM (pushFrontNode s l e)
    let r ← liftM (s.lnk l)
    let r ← liftM (structBase c r)
    pure (s, r)

/-- `ccc_sll_pop_front`, src/singly_linked_list.c:72-85; 82 gives the memory back. -/
def popFrontL (s : Sll α) (l : Nat) : Led (Sll α × Res) :=
  if s.sz l = 0 then pure (s, .inputErr)
  else do
    let (s, remove) ← liftM (popFrontNode s l)
    if c.alloc l then do
      giveBack remove
      pure (free s remove, .ok)
    else pure (s, .ok)

/-- `ccc_sll_erase`, src/singly_linked_list.c:145-161; 157 gives the memory back. -/
def eraseL (s : Sll α) (l e : Nat) : Led (Sll α × Slot) :=
  if s.sz l = 0 ∨ e = l then pure (s, none)
  else do
    let ret ← liftM (s.lnk e)
    let i ← liftM (before s l e)
    let n ← liftM (s.lnk e)
    let s ← liftM (s.setN i n)
    let s ← liftM (s.setN e none)
    if c.alloc l then giveBack e
    let s := if c.alloc l then free s e else s
    let s := s.setSz l (s.sz l - 1)
    if ret = some l then pure (s, none)
    else do
      let r ← liftM (structBase c ret)
      pure (s, r)

/-- `ccc_sll_erase_range`, src/singly_linked_list.c:163-178. -/
def eraseRangeL (s : Sll α) (l b e : Nat) : Led (Sll α × Slot) :=
  if s.sz l = 0 ∨ b = l ∨ e = l then pure (s, none)
  else do
    let ret ← liftM (s.lnk e)
    let i ← liftM (before s l b)
    let n ← liftM (s.lnk e)
    let s ← liftM (s.setN i n)
    let (s, k) ← eraseNodesL c s l b e
    if k ≤ s.sz l then do
      let s := s.setSz l (s.sz l - k)
      if ret = some l then pure (s, none)
      else do
        let r ← liftM (structBase c ret)
        pure (s, r)
    else liftM (none : Option (Sll α × Slot))

/-- The loop of `ccc_sll_clear`, src/singly_linked_list.c:245-256; 254 gives the memory back. -/
def clearLoopL (s : Sll α) (l : Nat) (destroy : Bool) : Led (Sll α × List Nat) :=
  if isEmpty s l then pure (s, [])
  else do
    let (s, mem) ← liftM (popFrontNode s l)
    let d := if destroy then [mem] else []
    if c.alloc l then giveBack mem
    let s := if c.alloc l then free s mem else s
    let (s, ds) ← clearLoopL s l destroy
    pure (s, d ++ ds)
partial_fixpoint

/-- `ccc_sll_clear`, src/singly_linked_list.c:238-258. -/
def clearL (s : Sll α) (l : Nat) (destroy : Bool) : Led (Sll α × List Nat × Res) := do
  let (s, d) ← clearLoopL c s l destroy
  pure (s, d, .ok)

/-- One call of the interface, with its calls of the allocation function. -/
def stepL (s : Sll α) : Op α → Led (Sll α × Out)
  | .pushFront l e ans => do
    let (s, r) ← pushFrontL c s l e ans
    pure (s, .ptr r)
  | .popFront l => do
    let (s, r) ← popFrontL c s l
    pure (s, .res r)
  | .erase l e => do
    let (s, r) ← eraseL c s l e
    pure (s, .ptr r)
  | .eraseRange l b e => do
    let (s, r) ← eraseRangeL c s l b e
    pure (s, .ptr r)
  | .clear l d => do
    let (s, ds, r) ← clearL c s l d
    pure (s, .gone ds r)
  | op => liftM (step c s op)

/-- A history, with its calls of the allocation function. -/
def runL (s : Sll α) : List (Op α) → Led (Sll α × List Out)
  | [] => pure (s, [])
  | o :: os => do
    let (s, r) ← stepL c s o
    let (s, rs) ← runL s os
    pure (s, r :: rs)

end CCC.Sll
