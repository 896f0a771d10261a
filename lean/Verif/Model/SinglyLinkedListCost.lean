import Verif.Model.SinglyLinkedList
import Verif.Model.Count
/-
The calls of the singly linked list with every read and write of a link, and of a struct that is copied, counted.  They are
the functions of `Verif/Model/SinglyLinkedList.lean`, statement for statement.
-/
namespace CCC.Sll
open CCC Seq SllSpec

variable {α : Type} (c : Cfg)

/-- As `pushFrontNode`, src/singly_linked_list.c:301-307. -/
def pushFrontNodeN (s : Sll α) (l e : Nat) : Count (Sll α) := do
  let n ← acc (s.lnk l)
  let s ← acc (s.setN e n)
  let s ← acc (s.setN l (some e))
  pure (s.setSz l (s.sz l + 1))

/-- As `popFrontNode`, src/singly_linked_list.c:309-317. -/
def popFrontNodeN (s : Sll α) (l : Nat) : Count (Sll α × Nat) := do
  let n ← acc (s.lnk l)
  let remove ← n
  let n' ← acc (s.lnk remove)
  let s ← acc (s.setN l n')
  let s ← acc (s.setN remove none)
  pure (s.setSz l (s.sz l - 1), remove)

/-- As `beforeLoop`, src/singly_linked_list.c:319-327. -/
def beforeLoopN (s : Sll α) (toFind i : Nat) : Count Nat := do
  let n ← acc (s.lnk i)
  if n = some toFind then pure i
  else do
    let j ← n
    beforeLoopN s toFind j
partial_fixpoint

/-- As `before`, src/singly_linked_list.c:319-327. -/
def beforeN (s : Sll α) (l toFind : Nat) : Count Nat := beforeLoopN s toFind l

/-- As `lenLoop`, src/singly_linked_list.c:359-369. -/
def lenLoopN (s : Sll α) (l b e k : Nat) : Count Nat :=
  if b = e then pure k
  else if k ≤ s.sz l then do
    let n ← acc (s.lnk b)
    let b' ← n
    lenLoopN s l b' e (k + 1)
  else failure                                                          -- 366 assert
partial_fixpoint

/-- As `len`, src/singly_linked_list.c:359-369. -/
def lenN (s : Sll α) (l b e : Nat) : Count Nat := lenLoopN s l b e 1

/-- As `extractNodes`, src/singly_linked_list.c:329-336. -/
def extractNodesN (s : Sll α) (l b e : Nat) : Count (Sll α × Nat) := do
  let k ← lenN s l b e
  let s ← acc (s.setN e none)
  pure (s, k)

/-- As `freeLoop`, src/singly_linked_list.c:348-354. -/
def freeLoopN (s : Sll α) (l b e k : Nat) : Count (Sll α × Nat) :=
  if b = e then do
    let _ ← acc (s.lnk e)
    pure (free s e, k)
  else if k ≤ s.sz l then do
    let n ← acc (s.lnk b)
    let b' ← n
    freeLoopN (free s b) l b' e (k + 1)
  else failure                                                          -- 351 assert
partial_fixpoint

/-- As `eraseNodes`, src/singly_linked_list.c:338-357. -/
def eraseNodesN (s : Sll α) (l b e : Nat) : Count (Sll α × Nat) :=
  if !c.alloc l then extractNodesN s l b e else freeLoopN s l b e 1

/-- As `pushFront`, src/singly_linked_list.c:29-48. -/
def pushFrontN (s : Sll α) (l e : Nat) (ans : Slot) : Count (Sll α × Slot) :=
  if c.alloc l then
    match ans with
    | none => pure (s, none)
    | some n => do
      let x ← acc (s.val e)
      let k ← acc (s.lnk e)
      let s ← pushFrontNodeN { s with val := upd s.val n (some x), lnk := upd s.lnk n (some k) } l n
      let r ← acc (s.lnk l)
      let r ← structBase c r
      pure (s, r)
  else do
    let s ← pushFrontNodeN s l e
    let r ← acc (s.lnk l)
    let r ← structBase c r
    pure (s, r)

/-- As `front`, src/singly_linked_list.c:50-58. -/
def frontN (s : Sll α) (l : Nat) : Count Slot := do
  let n ← acc (s.lnk l)
  if n = some l then pure none else liftM (structBase c n)

/-- As `beginElem`, src/singly_linked_list.c:60-64. -/
def beginElemN (s : Sll α) (l : Nat) : Count Slot := acc (s.lnk l)

/-- As `popFront`, src/singly_linked_list.c:72-85. -/
def popFrontN (s : Sll α) (l : Nat) : Count (Sll α × Res) :=
  if s.sz l = 0 then pure (s, .inputErr)
  else do
    let (s, remove) ← popFrontNodeN s l
    pure (if c.alloc l then free s remove else s, .ok)

/-- As `splice`, src/singly_linked_list.c:87-110. -/
def spliceN (s : Sll α) (l pos m e : Nat) : Count (Sll α × Res) :=
  if e = pos then pure (s, .ok)
  else do
    let pn ← acc (s.lnk pos)
    if pn = some e then pure (s, .ok)
    else do
      let i ← beforeN s m e
      let n ← acc (s.lnk e)
      let s ← acc (s.setN i n)
      let pn ← acc (s.lnk pos)
      let s ← acc (s.setN e pn)
      let s ← acc (s.setN pos (some e))
      if l ≠ m then
        let s := s.setSz m (s.sz m - 1)
        pure (s.setSz l (s.sz l + 1), .ok)
      else pure (s, .ok)

/-- As `spliceRange`, src/singly_linked_list.c:112-143. -/
def spliceRangeN (s : Sll α) (l pos m b e : Nat) : Count (Sll α × Res) :=
  if b = pos ∨ e = pos then pure (s, .ok)
  else do
    let pn ← acc (s.lnk pos)
    if pn = some b then pure (s, .ok)
    else if b = e then do
      let (s, _) ← spliceN s l pos m b
      pure (s, .ok)
    else do
      let found ← beforeN s m b
      let n ← acc (s.lnk e)
      let s ← acc (s.setN found n)
      let pn ← acc (s.lnk pos)
      let s ← acc (s.setN e pn)
      let s ← acc (s.setN pos (some b))
      if l ≠ m then do
        let k ← lenN s m b e
        let s := s.setSz m (s.sz m - k)
        pure (s.setSz l (s.sz l + k), .ok)
      else pure (s, .ok)

/-- As `erase`, src/singly_linked_list.c:145-161. -/
def eraseN (s : Sll α) (l e : Nat) : Count (Sll α × Slot) :=
  if s.sz l = 0 ∨ e = l then pure (s, none)
  else do
    let ret ← acc (s.lnk e)
    let i ← beforeN s l e
    let n ← acc (s.lnk e)
    let s ← acc (s.setN i n)
    let s ← acc (s.setN e none)
    let s := if c.alloc l then free s e else s
    let s := s.setSz l (s.sz l - 1)
    if ret = some l then pure (s, none)
    else do
      let r ← structBase c ret
      pure (s, r)

/-- As `eraseRange`, src/singly_linked_list.c:163-178. -/
def eraseRangeN (s : Sll α) (l b e : Nat) : Count (Sll α × Slot) :=
  if s.sz l = 0 ∨ b = l ∨ e = l then pure (s, none)
  else do
    let ret ← acc (s.lnk e)
    let i ← beforeN s l b
    let n ← acc (s.lnk e)
    let s ← acc (s.setN i n)
    let (s, k) ← eraseNodesN c s l b e
    if k ≤ s.sz l then do
      let s := s.setSz l (s.sz l - k)
      if ret = some l then pure (s, none)
      else do
        let r ← structBase c ret
        pure (s, r)
    else failure                                                          -- 175 assert

/-- As `extract`, src/singly_linked_list.c:180-192. -/
def extractN (s : Sll α) (l e : Nat) : Count (Sll α × Slot) :=
  if s.sz l = 0 ∨ e = l then pure (s, none)
  else do
    let ret ← acc (s.lnk e)
    let i ← beforeN s l e
    let n ← acc (s.lnk e)
    let s ← acc (s.setN i n)
    let s ← acc (s.setN e none)
    let s := s.setSz l (s.sz l - 1)
    if ret = some l then pure (s, none)
    else do
      let r ← structBase c ret
      pure (s, r)

/-- As `extractRange`, src/singly_linked_list.c:194-209. -/
def extractRangeN (s : Sll α) (l b e : Nat) : Count (Sll α × Slot) :=
  if s.sz l = 0 ∨ b = l ∨ e = l then pure (s, none)
  else do
    let ret ← acc (s.lnk e)
    let i ← beforeN s l b
    let n ← acc (s.lnk e)
    let s ← acc (s.setN i n)
    let (s, k) ← extractNodesN s l b e
    if k ≤ s.sz l then do
      let s := s.setSz l (s.sz l - k)
      if ret = some l then pure (s, none)
      else do
        let r ← structBase c ret
        pure (s, r)
    else failure                                                          -- 206 assert

/-- As `begin'`, src/singly_linked_list.c:211-219. -/
def beginN' (s : Sll α) (l : Nat) : Count Slot := do
  let n ← acc (s.lnk l)
  if n = some l then pure none else liftM (structBase c n)

/-- As `next`, src/singly_linked_list.c:227-236. -/
def nextN (s : Sll α) (l e : Nat) : Count Slot := do
  let n ← acc (s.lnk e)
  if n = some l then pure none else liftM (structBase c n)

/-- As `clearLoop`, src/singly_linked_list.c:245-256. -/
def clearLoopN (s : Sll α) (l : Nat) (destroy : Bool) : Count (Sll α × List Nat) :=
  if isEmpty s l then pure (s, [])
  else do
    let (s, mem) ← popFrontNodeN s l
    let d := if destroy then [mem] else []
    let s := if c.alloc l then free s mem else s
    let (s, ds) ← clearLoopN s l destroy
    pure (s, d ++ ds)
partial_fixpoint

/-- As `clear`, src/singly_linked_list.c:238-258. -/
def clearN (s : Sll α) (l : Nat) (destroy : Bool) : Count (Sll α × List Nat × Res) := do
  let (s, d) ← clearLoopN c s l destroy
  pure (s, d, .ok)

/-- As `validateLoop`, src/singly_linked_list.c:264-277. -/
def validateLoopN (s : Sll α) (l : Nat) (e : Slot) (k : Nat) : Count Bool :=
  if e = some l then pure (k == s.sz l)
  else if k ≥ s.sz l then pure false
  else match e with
    | none => pure false
    | some a => do
      let n ← acc (s.lnk a)
      if n = none ∨ n = some a then pure false else validateLoopN s l n (k + 1)
partial_fixpoint

/-- As `validate`, src/singly_linked_list.c:260-279. -/
def validateN (s : Sll α) (l : Nat) : Count Bool := do
  let n ← acc (s.lnk l)
  validateLoopN s l n 0

/-- As `step`: one call. -/
def stepN (s : Sll α) : Op α → Count (Sll α × Out)
  | .make e x n => pure ({ s with val := upd s.val e (some x), lnk := upd s.lnk e (some n) }, .unit)
  | .drop e => pure (free s e, .unit)
  | .pushFront l e ans => do
    let (s, r) ← pushFrontN c s l e ans
    pure (s, .ptr r)
  | .popFront l => do
    let (s, r) ← popFrontN c s l
    pure (s, .res r)
  | .splice l pos m e => do
    let (s, r) ← spliceN s l pos m e
    pure (s, .res r)
  | .spliceRange l pos m b e => do
    let (s, r) ← spliceRangeN s l pos m b e
    pure (s, .res r)
  | .erase l e => do
    let (s, r) ← eraseN c s l e
    pure (s, .ptr r)
  | .eraseRange l b e => do
    let (s, r) ← eraseRangeN c s l b e
    pure (s, .ptr r)
  | .extract l e => do
    let (s, r) ← extractN c s l e
    pure (s, .ptr r)
  | .extractRange l b e => do
    let (s, r) ← extractRangeN c s l b e
    pure (s, .ptr r)
  | .clear l d => do
    let (s, ds, r) ← clearN c s l d
    pure (s, .gone ds r)
  | .front l => do
    let r ← frontN c s l
    pure (s, .ptr r)
  | .begin l => do
    let r ← beginN' c s l
    pure (s, .ptr r)
  | .next l e => do
    let r ← nextN c s l e
    pure (s, .ptr r)
  | .beginElem l => do
    let r ← beginElemN s l
    pure (s, .ptr r)
  | .beginSentinel l => pure (s, .ptr (beginSentinel l))
  | .endIter _ => pure (s, .ptr endIter)
  | .size l => pure (s, .num (size s l))
  | .isEmpty l => pure (s, .flag (isEmpty s l))
  | .validate l => do
    let b ← validateN s l
    pure (s, .flag b)

/-- As `run`: a history. -/
def runN (s : Sll α) : List (Op α) → Count (Sll α × List Out)
  | [] => pure (s, [])
  | o :: os => do
    let (s, r) ← stepN c s o
    let (s, rs) ← runN s os
    pure (s, r :: rs)

end CCC.Sll
