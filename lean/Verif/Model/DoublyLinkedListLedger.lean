import Verif.Model.DoublyLinkedList
import Verif.Model.Ledger
/-
The calls of the doubly linked list that call the user's allocation function (`src/doubly_linked_list.c`,
`ccc/impl/impl_doubly_linked_list.h`), with these calls written down (`Verif/Model/Ledger.lean`).  Statement for statement
the functions of `Verif/Model/DoublyLinkedList.lean`; what does not call the allocation function is taken from there.
-/
namespace CCC.Dll
open CCC Seq DllSpec

variable {α : Type} (c : Cfg)

/-- The loop of `erase_range`, src/doubly_linked_list.c:508-517, which gives the memory back. -/
def freeLoopL (s : Dll α) (l b e k : Nat) : Led (Dll α × Nat) :=
  if b = e then do
    let _ ← liftM (s.nx e)
    giveBack e
    pure (free s e, k)
  else if k ≤ s.sz l then do
    let n ← liftM (s.nx b)
    let b' ← liftM n
    giveBack b
    freeLoopL (free s b) l b' e (k + 1)
  else liftM (none : Option (Dll α × Nat))
partial_fixpoint

/-- `erase_range`, src/doubly_linked_list.c:496-518. -/
def eraseNodesL (s : Dll α) (l b e : Nat) : Led (Dll α × Nat) :=
  if !c.alloc l then liftM (extractNodes s l b e)
  else do
    let s ← liftM (s.setP b none)
    freeLoopL s l b e 1

/-- The allocation and the copy at the start of `ccc_dll_push_front`, `ccc_dll_push_back` and `ccc_dll_insert`,
src/doubly_linked_list.c:35-44, 56-65, 132-141, and then the rest of the call, which does not call the allocation function. -/
def withCopyL (s : Dll α) (l e : Nat) (ans : Slot) (put : Dll α → Nat → Option (Dll α × Slot)) : Led (Dll α × Slot) :=
  if c.alloc l then do
    match ← ask ans with
    | none => pure (s, none)
    | some n => do
      let x ← liftM (s.val e)
      let kn ← liftM (s.nx e)
      let kp ← liftM (s.pv e)
      liftM (put { s with val := upd s.val n (some x), nx := upd s.nx n (some kn), pv := upd s.pv n (some kp) } n)
  else liftM (put s e)

/-- `ccc_dll_push_front`, src/doubly_linked_list.c:28-47. -/
def pushFrontL (s : Dll α) (l e : Nat) (ans : Slot) : Led (Dll α × Slot) :=
  withCopyL c s l e ans fun s e => do
    let s ← pushFrontNode s l e
    let r ← s.nx l
    let r ← structBase c r
    some (s, r)

/-- `ccc_dll_push_back`, src/doubly_linked_list.c:49-68. -/
def pushBackL (s : Dll α) (l e : Nat) (ans : Slot) : Led (Dll α × Slot) :=
  withCopyL c s l e ans fun s e => do
    let s ← pushBackNode s l e
    let r ← s.pv l
    let r ← structBase c r
    some (s, r)

/-- `ccc_impl_dll_emplace_back`, ccc/impl/impl_doubly_linked_list.h:50-67. -/
def emplaceBackL (s : Dll α) (l : Nat) (x : α) (kn kp ans : Slot) : Led (Dll α × Slot) :=
  if c.alloc l then do
    match ← ask ans with
    | none => pure (s, none)
    | some n => do
      let s ← liftM (pushBackNode { s with val := upd s.val n (some x), nx := upd s.nx n (some kn), pv := upd s.pv n (some kp) } l n)
      pure (s, some n)
  else pure (s, none)

/-- `ccc_impl_dll_emplace_front`, ccc/impl/impl_doubly_linked_list.h:69-88. -/
def emplaceFrontL (s : Dll α) (l : Nat) (x : α) (kn kp ans : Slot) : Led (Dll α × Slot) :=
  if c.alloc l then do
    match ← ask ans with
    | none => pure (s, none)
    | some n => do
      let s ← liftM (pushFrontNode { s with val := upd s.val n (some x), nx := upd s.nx n (some kn), pv := upd s.pv n (some kp) } l n)
      pure (s, some n)
  else pure (s, none)

/-- `ccc_dll_pop_front`, src/doubly_linked_list.c:90-103. -/
def popFrontL (s : Dll α) (l : Nat) : Led (Dll α × Res) :=
  if s.sz l = 0 then pure (s, .inputErr)
  else do
    let (s, remove) ← liftM (popFrontNode s l)
    if c.alloc l then do
      giveBack remove
      pure (free s remove, .ok)
    else pure (s, .ok)

/-- `ccc_dll_pop_back`, src/doubly_linked_list.c:105-122. -/
def popBackL (s : Dll α) (l : Nat) : Led (Dll α × Res) :=
  if s.sz l = 0 then pure (s, .inputErr)
  else do
    let p ← liftM (s.pv l)
    let remove ← liftM p
    let q ← liftM (s.pv remove)
    let i ← liftM q
    let s ← liftM (s.setN i (some l))
    let q ← liftM (s.pv remove)
    let s ← liftM (s.setP l q)
    let s ← liftM (s.setP remove none)
    let s ← liftM (s.setN remove none)
    if c.alloc l then giveBack remove
    let s := if c.alloc l then free s remove else s
    pure (s.setSz l (s.sz l - 1), .ok)

/-- `ccc_dll_insert`, src/doubly_linked_list.c:124-149. -/
def insertL (s : Dll α) (l pos e : Nat) (ans : Slot) : Led (Dll α × Slot) := do
  let n ← liftM (s.nx pos)
  let p ← liftM (s.pv pos)
  if n = none ∨ p = none then pure (s, none)
  else
    withCopyL c s l e ans fun s e => do
      let s ← s.setN e (some pos)
      let p ← s.pv pos
      let s ← s.setP e p
      let p ← s.pv pos
      let i ← p
      let s ← s.setN i (some e)
      let s ← s.setP pos (some e)
      let s := s.setSz l (s.sz l + 1)
      let r ← structBase c (some e)
      some (s, r)

/-- `ccc_dll_erase`, src/doubly_linked_list.c:151-167. -/
def eraseL (s : Dll α) (l e : Nat) : Led (Dll α × Slot) :=
  if s.sz l = 0 then pure (s, none)
  else do
    let n ← liftM (s.nx e)
    let j ← liftM n
    let p ← liftM (s.pv e)
    let s ← liftM (s.setP j p)
    let p ← liftM (s.pv e)
    let i ← liftM p
    let n ← liftM (s.nx e)
    let s ← liftM (s.setN i n)
    let n ← liftM (s.nx e)
    let ret := if n = some l then none else some e
    if c.alloc l then giveBack e
    let s := if c.alloc l then free s e else s
    pure (s.setSz l (s.sz l - 1), ret)

/-- `ccc_dll_erase_range`, src/doubly_linked_list.c:169-192. -/
def eraseRangeL (s : Dll α) (l b e : Nat) : Led (Dll α × Slot) := do
  if (← liftM (noLinks s b e)) ∨ s.sz l = 0 then pure (s, none)
  else if b = e then eraseL c s l b
  else do
    let (s, e') ← liftM (unlinkRange s b e)
    let (s, k) ← eraseNodesL c s l b e'
    if k ≤ s.sz l then
      pure (s.setSz l (s.sz l - k), if e = l then none else some e)
    else liftM (none : Option (Dll α × Slot))

/-- The loop of `ccc_dll_clear`, src/doubly_linked_list.c:385-396. -/
def clearLoopL (s : Dll α) (l : Nat) (destroy : Bool) : Led (Dll α × List Nat) :=
  if isEmpty s l then pure (s, [])
  else do
    let (s, node) ← liftM (popFrontNode s l)
    let d := if destroy then [node] else []
    if c.alloc l then giveBack node
    let s := if c.alloc l then free s node else s
    let (s, ds) ← clearLoopL s l destroy
    pure (s, d ++ ds)
partial_fixpoint

/-- `ccc_dll_clear`, src/doubly_linked_list.c:378-398. -/
def clearL (s : Dll α) (l : Nat) (destroy : Bool) : Led (Dll α × List Nat × Res) := do
  let (s, d) ← clearLoopL c s l destroy
  pure (s, d, .ok)

/-- One call of the interface, with its calls of the allocation function. -/
def stepL (s : Dll α) : Op α → Led (Dll α × Out)
  | .pushFront l e ans => do
    let (s, r) ← pushFrontL c s l e ans
    pure (s, .ptr r)
  | .pushBack l e ans => do
    let (s, r) ← pushBackL c s l e ans
    pure (s, .ptr r)
  | .insert l pos e ans => do
    let (s, r) ← insertL c s l pos e ans
    pure (s, .ptr r)
  | .emplaceFront l x n p ans => do
    let (s, r) ← emplaceFrontL c s l x n p ans
    pure (s, .ptr r)
  | .emplaceBack l x n p ans => do
    let (s, r) ← emplaceBackL c s l x n p ans
    pure (s, .ptr r)
  | .popFront l => do
    let (s, r) ← popFrontL c s l
    pure (s, .res r)
  | .popBack l => do
    let (s, r) ← popBackL c s l
    pure (s, .res r)
  | .erase l e => do
    let (s, r) ← eraseL c s l e
    pure (s, .ptr r)
  | .eraseRange l b e => do
    let (s, r) ← eraseRangeL c s l b e
    pure (s, .ptr r)
  | .clear l d => do
    let (s, ds, r) ← clearL c s l d
    pure (s, .gone ds r)
  | op => liftM (step c s op)

/-- A history, with its calls of the allocation function. -/
def runL (s : Dll α) : List (Op α) → Led (Dll α × List Out)
  | [] => pure (s, [])
  | o :: os => do
    let (s, r) ← stepL c s o
    let (s, rs) ← runL s os
    pure (s, r :: rs)

end CCC.Dll
