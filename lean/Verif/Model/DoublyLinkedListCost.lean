import Verif.Model.DoublyLinkedList
import Verif.Model.Count
/-
The calls of the doubly linked list with every read and write of a link, and of a struct that is copied, counted.  They are
the functions of `Verif/Model/DoublyLinkedList.lean`, statement for statement.
-/
namespace CCC.Dll
open CCC Seq DllSpec

variable {α : Type} (c : Cfg)

/-- As `pushFrontNode`, src/doubly_linked_list.c:447-455. -/
def pushFrontNodeN (s : Dll α) (l e : Nat) : Count (Dll α) := do
  let s ← acc (s.setP e (some l))
  let n ← acc (s.nx l)
  let s ← acc (s.setN e n)
  let n ← acc (s.nx l)
  let f ← n
  let s ← acc (s.setP f (some e))
  let s ← acc (s.setN l (some e))
  pure (s.setSz l (s.sz l + 1))

/-- As `pushBackNode`, src/doubly_linked_list.c:457-465. -/
def pushBackNodeN (s : Dll α) (l e : Nat) : Count (Dll α) := do
  let s ← acc (s.setN e (some l))
  let p ← acc (s.pv l)
  let s ← acc (s.setP e p)
  let p ← acc (s.pv l)
  let b ← p
  let s ← acc (s.setN b (some e))
  let s ← acc (s.setP l (some e))
  pure (s.setSz l (s.sz l + 1))

/-- As `popFrontNode`, src/doubly_linked_list.c:467-476. -/
def popFrontNodeN (s : Dll α) (l : Nat) : Count (Dll α × Nat) := do
  let n ← acc (s.nx l)
  let ret ← n
  let s ← acc (s.setP ret (some l))
  let n' ← acc (s.nx ret)
  let s ← acc (s.setN l n')
  let s ← acc (s.setP ret none)
  let s ← acc (s.setN ret none)
  pure (s.setSz l (s.sz l - 1), ret)

/-- As `lenLoop`, src/doubly_linked_list.c:520-530. -/
def lenLoopN (s : Dll α) (l b e k : Nat) : Count Nat :=
  if b = e then pure k
  else if k ≤ s.sz l then do
    let n ← acc (s.nx b)
    let b' ← n
    lenLoopN s l b' e (k + 1)
  else failure                                                          -- 527 assert
partial_fixpoint

/-- As `len`, src/doubly_linked_list.c:520-530. -/
def lenN (s : Dll α) (l b e : Nat) : Count Nat := lenLoopN s l b e 1

/-- As `extractNodes`, src/doubly_linked_list.c:485-494. -/
def extractNodesN (s : Dll α) (l b e : Nat) : Count (Dll α × Nat) := do
  let s ← acc (s.setP b none)
  let k ← lenN s l b e
  if e = l then failure                                                          -- 491 assert
  else do
    let s ← acc (s.setN e none)
    pure (s, k)

/-- As `freeLoop`, src/doubly_linked_list.c:508-517. -/
def freeLoopN (s : Dll α) (l b e k : Nat) : Count (Dll α × Nat) :=
  if b = e then do
    let _ ← acc (s.nx e)
    pure (free s e, k)
  else if k ≤ s.sz l then do
    let n ← acc (s.nx b)
    let b' ← n
    freeLoopN (free s b) l b' e (k + 1)
  else failure                                                          -- 511 assert
partial_fixpoint

/-- As `eraseNodes`, src/doubly_linked_list.c:496-518. -/
def eraseNodesN (s : Dll α) (l b e : Nat) : Count (Dll α × Nat) :=
  if !c.alloc l then extractNodesN s l b e
  else do
    let s ← acc (s.setP b none)
    freeLoopN s l b e 1

/-- As `withCopy`, src/doubly_linked_list.c:35-44, 56-65, 132-141. -/
def withCopyN (s : Dll α) (l e : Nat) (ans : Slot) (put : Dll α → Nat → Count (Dll α × Slot)) : Count (Dll α × Slot) :=
  if c.alloc l then
    match ans with
    | none => pure (s, none)
    | some n => do
      let x ← acc (s.val e)
      let kn ← acc (s.nx e)
      let kp ← acc (s.pv e)
      put { s with val := upd s.val n (some x), nx := upd s.nx n (some kn), pv := upd s.pv n (some kp) } n
  else put s e

/-- As `pushFront`, src/doubly_linked_list.c:28-47. -/
def pushFrontN (s : Dll α) (l e : Nat) (ans : Slot) : Count (Dll α × Slot) :=
  withCopyN c s l e ans fun s e => do
    let s ← pushFrontNodeN s l e
    let r ← acc (s.nx l)
    let r ← structBase c r
    pure (s, r)

/-- As `pushBack`, src/doubly_linked_list.c:49-68. -/
def pushBackN (s : Dll α) (l e : Nat) (ans : Slot) : Count (Dll α × Slot) :=
  withCopyN c s l e ans fun s e => do
    let s ← pushBackNodeN s l e
    let r ← acc (s.pv l)
    let r ← structBase c r
    pure (s, r)

/-- As `emplaceBack`, ccc/impl/impl_doubly_linked_list.h:50-67. -/
def emplaceBackN (s : Dll α) (l : Nat) (x : α) (kn kp ans : Slot) : Count (Dll α × Slot) :=
  if c.alloc l then
    match ans with
    | none => pure (s, none)
    | some n => do
      let s ← pushBackNodeN { s with val := upd s.val n (some x), nx := upd s.nx n (some kn), pv := upd s.pv n (some kp) } l n
      pure (s, some n)
  else pure (s, none)

/-- As `emplaceFront`, ccc/impl/impl_doubly_linked_list.h:69-88. -/
def emplaceFrontN (s : Dll α) (l : Nat) (x : α) (kn kp ans : Slot) : Count (Dll α × Slot) :=
  if c.alloc l then
    match ans with
    | none => pure (s, none)
    | some n => do
      let s ← pushFrontNodeN { s with val := upd s.val n (some x), nx := upd s.nx n (some kn), pv := upd s.pv n (some kp) } l n
      pure (s, some n)
  else pure (s, none)

/-- As `front`, src/doubly_linked_list.c:70-78. -/
def frontN (s : Dll α) (l : Nat) : Count Slot :=
  if s.sz l = 0 then pure none
  else do
    let n ← acc (s.nx l)
    liftM (structBase c n)

/-- As `back`, src/doubly_linked_list.c:80-88. -/
def backN (s : Dll α) (l : Nat) : Count Slot :=
  if s.sz l = 0 then pure none
  else do
    let n ← acc (s.pv l)
    liftM (structBase c n)

/-- As `popFront`, src/doubly_linked_list.c:90-103. -/
def popFrontN (s : Dll α) (l : Nat) : Count (Dll α × Res) :=
  if s.sz l = 0 then pure (s, .inputErr)
  else do
    let (s, remove) ← popFrontNodeN s l
    pure (if c.alloc l then free s remove else s, .ok)

/-- As `popBack`, src/doubly_linked_list.c:105-122. -/
def popBackN (s : Dll α) (l : Nat) : Count (Dll α × Res) :=
  if s.sz l = 0 then pure (s, .inputErr)
  else do
    let p ← acc (s.pv l)
    let remove ← p
    let q ← acc (s.pv remove)
    let i ← q
    let s ← acc (s.setN i (some l))
    let q ← acc (s.pv remove)
    let s ← acc (s.setP l q)
    let s ← acc (s.setP remove none)
    let s ← acc (s.setN remove none)
    let s := if c.alloc l then free s remove else s
    pure (s.setSz l (s.sz l - 1), .ok)

/-- As `insert`, src/doubly_linked_list.c:124-149. -/
def insertN (s : Dll α) (l pos e : Nat) (ans : Slot) : Count (Dll α × Slot) := do
  let n ← acc (s.nx pos)
  let p ← acc (s.pv pos)
  if n = none ∨ p = none then pure (s, none)
  else
    withCopyN c s l e ans fun s e => do
      let s ← acc (s.setN e (some pos))
      let p ← acc (s.pv pos)
      let s ← acc (s.setP e p)
      let p ← acc (s.pv pos)
      let i ← p
      let s ← acc (s.setN i (some e))
      let s ← acc (s.setP pos (some e))
      let s := s.setSz l (s.sz l + 1)
      let r ← structBase c (some e)
      pure (s, r)

/-- As `erase`, src/doubly_linked_list.c:151-167. -/
def eraseN (s : Dll α) (l e : Nat) : Count (Dll α × Slot) :=
  if s.sz l = 0 then pure (s, none)
  else do
    let n ← acc (s.nx e)
    let j ← n
    let p ← acc (s.pv e)
    let s ← acc (s.setP j p)
    let p ← acc (s.pv e)
    let i ← p
    let n ← acc (s.nx e)
    let s ← acc (s.setN i n)
    let n ← acc (s.nx e)
    let ret := if n = some l then none else some e
    let s := if c.alloc l then free s e else s
    pure (s.setSz l (s.sz l - 1), ret)

/-- As `unlinkRange`, src/doubly_linked_list.c:183-185, 243-245, 296-298. -/
def unlinkRangeN (s : Dll α) (b e : Nat) : Count (Dll α × Nat) := do
  let p ← acc (s.pv e)
  let e ← p
  let n ← acc (s.nx e)
  let j ← n
  let p ← acc (s.pv b)
  let s ← acc (s.setP j p)
  let p ← acc (s.pv b)
  let i ← p
  let n ← acc (s.nx e)
  let s ← acc (s.setN i n)
  pure (s, e)

/-- As `noLinks`, src/doubly_linked_list.c:173-174. -/
def noLinksN (s : Dll α) (b e : Nat) : Count Bool := do
  let bn ← acc (s.nx b)
  let bp ← acc (s.pv b)
  let en ← acc (s.nx e)
  let ep ← acc (s.pv e)
  pure (bn.isNone || bp.isNone || en.isNone || ep.isNone)

/-- As `eraseRange`, src/doubly_linked_list.c:169-192. -/
def eraseRangeN (s : Dll α) (l b e : Nat) : Count (Dll α × Slot) := do
  if (← noLinksN s b e) ∨ s.sz l = 0 then pure (s, none)
  else if b = e then eraseN c s l b
  else do
    let (s, e') ← unlinkRangeN s b e
    let (s, k) ← eraseNodesN c s l b e'
    if k ≤ s.sz l then
      pure (s.setSz l (s.sz l - k), if e = l then none else pure e)
    else failure                                                          -- 189 assert

/-- As `beginElem`, src/doubly_linked_list.c:194-198. -/
def beginElemN (s : Dll α) (l : Nat) : Count Slot := acc (s.nx l)

/-- As `endElem`, src/doubly_linked_list.c:200-204. -/
def endElemN (s : Dll α) (l : Nat) : Count Slot := acc (s.pv l)

/-- As `extract`, src/doubly_linked_list.c:212-227. -/
def extractN (s : Dll α) (l e : Nat) : Count (Dll α × Slot) := do
  let n ← acc (s.nx e)
  let p ← acc (s.pv e)
  if n = none ∨ p = none ∨ s.sz l = 0 then pure (s, none)
  else do
    let ret := n
    let j ← n
    let s ← acc (s.setP j p)
    let p ← acc (s.pv e)
    let i ← p
    let n ← acc (s.nx e)
    let s ← acc (s.setN i n)
    let s ← acc (s.setP e none)
    let s ← acc (s.setN e none)
    let s := s.setSz l (s.sz l - 1)
    if ret = some l then pure (s, none)
    else do
      let r ← structBase c ret
      pure (s, r)

/-- As `extractRange`, src/doubly_linked_list.c:229-252. -/
def extractRangeN (s : Dll α) (l b e : Nat) : Count (Dll α × Slot) := do
  if (← noLinksN s b e) ∨ s.sz l = 0 then pure (s, none)
  else if b = e then extractN c s l b
  else do
    let (s, e') ← unlinkRangeN s b e
    let (s, k) ← extractNodesN s l b e'
    if k ≤ s.sz l then
      pure (s.setSz l (s.sz l - k), if e = l then none else pure e)
    else failure                                                          -- 249 assert

/-- As `splice`, src/doubly_linked_list.c:254-280. -/
def spliceN (s : Dll α) (l pos m e : Nat) : Count (Dll α × Res) :=
  if pos = e then pure (s, .ok)
  else do
    let n ← acc (s.nx e)
    if n = some pos ∨ e = m then pure (s, .ok)
    else do
      let j ← n
      let p ← acc (s.pv e)
      let s ← acc (s.setP j p)
      let p ← acc (s.pv e)
      let i ← p
      let n ← acc (s.nx e)
      let s ← acc (s.setN i n)
      let p ← acc (s.pv pos)
      let s ← acc (s.setP e p)
      let s ← acc (s.setN e (some pos))
      let p ← acc (s.pv pos)
      let i ← p
      let s ← acc (s.setN i (some e))
      let s ← acc (s.setP pos (some e))
      if l ≠ m then
        let s := s.setSz l (s.sz l + 1)
        pure (s.setSz m (s.sz m - 1), .ok)
      else pure (s, .ok)

/-- As `spliceRange`, src/doubly_linked_list.c:282-312. -/
def spliceRangeN (s : Dll α) (l pos m b e : Nat) : Count (Dll α × Res) :=
  if pos = b ∨ pos = e ∨ b = e ∨ b = m then pure (s, .ok)
  else do
    let p ← acc (s.pv e)
    if p = some m then pure (s, .ok)
    else do
      let (s, e) ← unlinkRangeN s b e
      let p ← acc (s.pv pos)
      let s ← acc (s.setP b p)
      let s ← acc (s.setN e (some pos))
      let p ← acc (s.pv pos)
      let i ← p
      let s ← acc (s.setN i (some b))
      let s ← acc (s.setP pos (some e))
      if l ≠ m then do
        let k ← lenN s l b e
        if k ≤ s.sz m then
          let s := s.setSz l (s.sz l + k)
          pure (s.setSz m (s.sz m - k), .ok)
        else failure                                                          -- 307 assert
      else pure (s, .ok)

/-- As `begin'`, src/doubly_linked_list.c:314-322. -/
def beginN' (s : Dll α) (l : Nat) : Count Slot := do
  let n ← acc (s.nx l)
  if n = some l then pure none else liftM (structBase c n)

/-- As `rbegin`, src/doubly_linked_list.c:324-332. -/
def rbeginN (s : Dll α) (l : Nat) : Count Slot := do
  let n ← acc (s.pv l)
  if n = some l then pure none else liftM (structBase c n)

/-- As `next`, src/doubly_linked_list.c:346-354. -/
def nextN (s : Dll α) (l e : Nat) : Count Slot := do
  let n ← acc (s.nx e)
  if n = some l then pure none else liftM (structBase c n)

/-- As `rnext`, src/doubly_linked_list.c:356-364. -/
def rnextN (s : Dll α) (l e : Nat) : Count Slot := do
  let n ← acc (s.pv e)
  if n = some l then pure none else liftM (structBase c n)

/-- As `clearLoop`, src/doubly_linked_list.c:385-396. -/
def clearLoopN (s : Dll α) (l : Nat) (destroy : Bool) : Count (Dll α × List Nat) :=
  if isEmpty s l then pure (s, [])
  else do
    let (s, node) ← popFrontNodeN s l
    let d := if destroy then [node] else []
    let s := if c.alloc l then free s node else s
    let (s, ds) ← clearLoopN s l destroy
    pure (s, d ++ ds)
partial_fixpoint

/-- As `clear`, src/doubly_linked_list.c:378-398. -/
def clearN (s : Dll α) (l : Nat) (destroy : Bool) : Count (Dll α × List Nat × Res) := do
  let (s, d) ← clearLoopN c s l destroy
  pure (s, d, .ok)

/-- As `validateLoop`, src/doubly_linked_list.c:407-420. -/
def validateLoopN (s : Dll α) (l : Nat) (e : Slot) (k : Nat) : Count Bool :=
  if e = some l then pure (k == s.sz l)
  else if k ≥ s.sz l then pure false
  else match e with
    | none => pure false
    | some a => do
      let n ← acc (s.nx a)
      let p ← acc (s.pv a)
      if n = none ∨ p = none ∨ n = some a ∨ p = some a then pure false else validateLoopN s l n (k + 1)
partial_fixpoint

/-- As `validate`, src/doubly_linked_list.c:400-421. -/
def validateN (s : Dll α) (l : Nat) : Count Bool := do
  let n ← acc (s.nx l)
  validateLoopN s l n 0

/-- As `step`: one call. -/
def stepN (s : Dll α) : Op α → Count (Dll α × Out)
  | .make e x n p => pure ({ s with val := upd s.val e (some x), nx := upd s.nx e (some n), pv := upd s.pv e (some p) }, .unit)
  | .drop e => pure (free s e, .unit)
  | .pushFront l e ans => do
    let (s, r) ← pushFrontN c s l e ans
    pure (s, .ptr r)
  | .pushBack l e ans => do
    let (s, r) ← pushBackN c s l e ans
    pure (s, .ptr r)
  | .insert l pos e ans => do
    let (s, r) ← insertN c s l pos e ans
    pure (s, .ptr r)
  | .emplaceFront l x n p ans => do
    let (s, r) ← emplaceFrontN c s l x n p ans
    pure (s, .ptr r)
  | .emplaceBack l x n p ans => do
    let (s, r) ← emplaceBackN c s l x n p ans
    pure (s, .ptr r)
  | .popFront l => do
    let (s, r) ← popFrontN c s l
    pure (s, .res r)
  | .popBack l => do
    let (s, r) ← popBackN c s l
    pure (s, .res r)
  | .splice l pos m e => do
    let (s, r) ← spliceN s l pos m e
    pure (s, .res r)
  | .spliceRange l pos m b e => do
    let (s, r) ← spliceRangeN s l pos m b e
    pure (s, .res r)
  | .erase l e => do
    let (s, r) ← eraseN c s l e
    pure (s, .ptr r)
  | .eraseRange l b e => do
    let (s, r) ← eraseRangeN c s l b e
    pure (s, .ptr r)
  | .extract l e => do
    let (s, r) ← extractN c s l e
    pure (s, .ptr r)
  | .extractRange l b e => do
    let (s, r) ← extractRangeN c s l b e
    pure (s, .ptr r)
  | .clear l d => do
    let (s, ds, r) ← clearN c s l d
    pure (s, .gone ds r)
  | .front l => do
    let r ← frontN c s l
    pure (s, .ptr r)
  | .back l => do
    let r ← backN c s l
    pure (s, .ptr r)
  | .begin l => do
    let r ← beginN' c s l
    pure (s, .ptr r)
  | .rbegin l => do
    let r ← rbeginN c s l
    pure (s, .ptr r)
  | .next l e => do
    let r ← nextN c s l e
    pure (s, .ptr r)
  | .rnext l e => do
    let r ← rnextN c s l e
    pure (s, .ptr r)
  | .beginElem l => do
    let r ← beginElemN s l
    pure (s, .ptr r)
  | .endElem l => do
    let r ← endElemN s l
    pure (s, .ptr r)
  | .endSentinel l => pure (s, .ptr (endSentinel l))
  | .endIter _ => pure (s, .ptr endIter)
  | .rend _ => pure (s, .ptr endIter)
  | .size l => pure (s, .num (size s l))
  | .isEmpty l => pure (s, .flag (isEmpty s l))
  | .validate l => do
    let b ← validateN s l
    pure (s, .flag b)

/-- As `run`: a history. -/
def runN (s : Dll α) : List (Op α) → Count (Dll α × List Out)
  | [] => pure (s, [])
  | o :: os => do
    let (s, r) ← stepN c s o
    let (s, rs) ← runN s os
    pure (s, r :: rs)

end CCC.Dll
