import Verif.Spec.DoublyLinkedList
/-
Model of the doubly linked list, `src/doubly_linked_list.c` and `ccc/impl/impl_doubly_linked_list.h`.

A handle (`struct ccc_dll_elem_`) is modelled together with the struct of the user it is part of; both have one address.
A list is identified by the address of its sentinel, so that several lists can share elements through splicing.  The two
fields of a handle are two maps from addresses: using an address that is not there, or NULL, is undefined behaviour, `none`.
`struct_base` and `elem_in` (src/doubly_linked_list.c:532-543) are the identity except on NULL, see `structBase`.
NULL list and element arguments, for which most calls return at once, are not modelled.
-/
namespace CCC.Dll
open CCC Seq DllSpec

/-- Memory and the lists.  `struct ccc_dll_elem_` and `struct ccc_dll_`, ccc/impl/impl_doubly_linked_list.h:12-28. -/
structure Dll (α : Type) where
  /-- the field `n_` of the handle, or sentinel, at an address -/
  nx : Nat → Option Slot
  /-- the field `p_` of the handle, or sentinel, at an address -/
  pv : Nat → Option Slot
  /-- the user's struct around the handle at an address -/
  val : Nat → Option α
  /-- the field `sz_` of the list with its sentinel at an address -/
  sz : Nat → Nat

/-- Which addresses are sentinels of lists, whether a list has an allocation function, and `dll_elem_offset_`. -/
structure Cfg where
  lists : List Nat
  alloc : Nat → Bool
  off : Nat

variable {α : Type} (c : Cfg)

/-- `ccc_impl_dll_init` (ccc/impl/impl_doubly_linked_list.h:35-46) for every list; no structs. -/
def init : Dll α := ⟨fun a => if a ∈ c.lists then some (some a) else none, fun a => if a ∈ c.lists then some (some a) else none,
  fun _ => none, fun _ => 0⟩

/-- Write the field `n_` of a handle. -/
def Dll.setN (s : Dll α) (a : Nat) (n : Slot) : Option (Dll α) := do
  let _ ← s.nx a
  some { s with nx := upd s.nx a (some n) }

/-- Write the field `p_` of a handle. -/
def Dll.setP (s : Dll α) (a : Nat) (p : Slot) : Option (Dll α) := do
  let _ ← s.pv a
  some { s with pv := upd s.pv a (some p) }

/-- Write the size of a list. -/
def Dll.setSz (s : Dll α) (l n : Nat) : Dll α := { s with sz := upd s.sz l n }

/-- The user's `free` of a struct, called through `alloc_`. -/
def free (s : Dll α) (e : Nat) : Dll α := { s with nx := upd s.nx e none, pv := upd s.pv e none, val := upd s.val e none }

/-- `struct_base`, src/doubly_linked_list.c:532-536.  For NULL the offset of the handle is subtracted from NULL. -/
def structBase (p : Slot) : Option Slot := if p = none ∧ c.off ≠ 0 then none else some p

/-- `push_front`, src/doubly_linked_list.c:447-455. -/
def pushFrontNode (s : Dll α) (l e : Nat) : Option (Dll α) := do
  let s ← s.setP e (some l)
  let n ← s.nx l
  let s ← s.setN e n
  let n ← s.nx l
  let f ← n
  let s ← s.setP f (some e)
  let s ← s.setN l (some e)
  some (s.setSz l (s.sz l + 1))

/-- `push_back`, src/doubly_linked_list.c:457-465. -/
def pushBackNode (s : Dll α) (l e : Nat) : Option (Dll α) := do
  let s ← s.setN e (some l)
  let p ← s.pv l
  let s ← s.setP e p
  let p ← s.pv l
  let b ← p
  let s ← s.setN b (some e)
  let s ← s.setP l (some e)
  some (s.setSz l (s.sz l + 1))

/-- `pop_front`, src/doubly_linked_list.c:467-476. -/
def popFrontNode (s : Dll α) (l : Nat) : Option (Dll α × Nat) := do
  let n ← s.nx l
  let ret ← n
  let s ← s.setP ret (some l)
  let n' ← s.nx ret
  let s ← s.setN l n'
  let s ← s.setP ret none
  let s ← s.setN ret none
  some (s.setSz l (s.sz l - 1), ret)

/-- `len`, src/doubly_linked_list.c:520-530; `k` is `s`. -/
def lenLoop (s : Dll α) (l b e k : Nat) : Option Nat :=
  if b = e then some k
  else if k ≤ s.sz l then do
    let n ← s.nx b
    let b' ← n
    lenLoop s l b' e (k + 1)
  else none                                                             -- 527 assert
partial_fixpoint

/-- `len`, src/doubly_linked_list.c:520-530. -/
def len (s : Dll α) (l b e : Nat) : Option Nat := lenLoop s l b e 1

/-- `extract_range`, src/doubly_linked_list.c:485-494. -/
def extractNodes (s : Dll α) (l b e : Nat) : Option (Dll α × Nat) := do
  let s ← s.setP b none
  let k ← len s l b e
  if e = l then none                                                    -- 491 assert
  else do
    let s ← s.setN e none
    some (s, k)

/-- The loop of `erase_range`, src/doubly_linked_list.c:508-517. -/
def freeLoop (s : Dll α) (l b e k : Nat) : Option (Dll α × Nat) :=
  if b = e then do
    let _ ← s.nx e
    some (free s e, k)
  else if k ≤ s.sz l then do
    let n ← s.nx b
    let b' ← n
    freeLoop (free s b) l b' e (k + 1)
  else none                                                             -- 511 assert
partial_fixpoint

/-- `erase_range`, src/doubly_linked_list.c:496-518. -/
def eraseNodes (s : Dll α) (l b e : Nat) : Option (Dll α × Nat) :=
  if !c.alloc l then extractNodes s l b e
  else do
    let s ← s.setP b none
    freeLoop s l b e 1

/-- The allocation and the copy at the start of `ccc_dll_push_front`, `ccc_dll_push_back` and `ccc_dll_insert`,
src/doubly_linked_list.c:35-44, 56-65, 132-141, and then the rest of the call.  `ans` is the answer of the allocation
function. -/
def withCopy (s : Dll α) (l e : Nat) (ans : Slot) (put : Dll α → Nat → Option (Dll α × Slot)) : Option (Dll α × Slot) :=
  if c.alloc l then
    match ans with
    | none => some (s, none)
    | some n => do
      let x ← s.val e
      let kn ← s.nx e
      let kp ← s.pv e
      put { s with val := upd s.val n (some x), nx := upd s.nx n (some kn), pv := upd s.pv n (some kp) } n
  else put s e

/-- `ccc_dll_push_front`, src/doubly_linked_list.c:28-47. -/
def pushFront (s : Dll α) (l e : Nat) (ans : Slot) : Option (Dll α × Slot) :=
  withCopy c s l e ans fun s e => do
    let s ← pushFrontNode s l e
    let r ← s.nx l
    let r ← structBase c r
    some (s, r)

/-- `ccc_dll_push_back`, src/doubly_linked_list.c:49-68. -/
def pushBack (s : Dll α) (l e : Nat) (ans : Slot) : Option (Dll α × Slot) :=
  withCopy c s l e ans fun s e => do
    let s ← pushBackNode s l e
    let r ← s.pv l
    let r ← structBase c r
    some (s, r)

/-- `ccc_impl_dll_emplace_back`, ccc/impl/impl_doubly_linked_list.h:50-67. -/
def emplaceBack (s : Dll α) (l : Nat) (x : α) (kn kp ans : Slot) : Option (Dll α × Slot) :=
  if c.alloc l then
    match ans with
    | none => some (s, none)
    | some n => do
      let s ← pushBackNode { s with val := upd s.val n (some x), nx := upd s.nx n (some kn), pv := upd s.pv n (some kp) } l n
      some (s, some n)
  else some (s, none)

/-- `ccc_impl_dll_emplace_front`, ccc/impl/impl_doubly_linked_list.h:69-88. -/
def emplaceFront (s : Dll α) (l : Nat) (x : α) (kn kp ans : Slot) : Option (Dll α × Slot) :=
  if c.alloc l then
    match ans with
    | none => some (s, none)
    | some n => do
      let s ← pushFrontNode { s with val := upd s.val n (some x), nx := upd s.nx n (some kn), pv := upd s.pv n (some kp) } l n
      some (s, some n)
  else some (s, none)

/-- `ccc_dll_front`, src/doubly_linked_list.c:70-78. -/
def front (s : Dll α) (l : Nat) : Option Slot :=
  if s.sz l = 0 then some none
  else do
    let n ← s.nx l
    structBase c n

/-- `ccc_dll_back`, src/doubly_linked_list.c:80-88. -/
def back (s : Dll α) (l : Nat) : Option Slot :=
  if s.sz l = 0 then some none
  else do
    let n ← s.pv l
    structBase c n

/-- `ccc_dll_pop_front`, src/doubly_linked_list.c:90-103. -/
def popFront (s : Dll α) (l : Nat) : Option (Dll α × Res) :=
  if s.sz l = 0 then some (s, .inputErr)
  else do
    let (s, remove) ← popFrontNode s l
    some (if c.alloc l then free s remove else s, .ok)

/-- `ccc_dll_pop_back`, src/doubly_linked_list.c:105-122. -/
def popBack (s : Dll α) (l : Nat) : Option (Dll α × Res) :=
  if s.sz l = 0 then some (s, .inputErr)
  else do
    let p ← s.pv l
    let remove ← p
    let q ← s.pv remove
    let i ← q
    let s ← s.setN i (some l)
    let q ← s.pv remove
    let s ← s.setP l q
    let s ← s.setP remove none
    let s ← s.setN remove none
    let s := if c.alloc l then free s remove else s
    some (s.setSz l (s.sz l - 1), .ok)

/-- `ccc_dll_insert`, src/doubly_linked_list.c:124-149. -/
def insert (s : Dll α) (l pos e : Nat) (ans : Slot) : Option (Dll α × Slot) := do
  let n ← s.nx pos
  let p ← s.pv pos
  if n = none ∨ p = none then some (s, none)
  else
    withCopy c s l e ans fun s e => do
      let s ← s.setN e (some pos)
      let p ← s.pv pos
      let s ← s.setP e p
      let p ← s.pv pos
      let i ← p
      let s ← s.setN i (some e)
      let s ← s.setP pos (some e)
      let s := s.setSz l (s.sz l + 1)
      let r ← structBase c (some e)
      some (s, r)

/-- `ccc_dll_erase`, src/doubly_linked_list.c:151-167. -/
def erase (s : Dll α) (l e : Nat) : Option (Dll α × Slot) :=
  if s.sz l = 0 then some (s, none)
  else do
    let n ← s.nx e
    let j ← n
    let p ← s.pv e
    let s ← s.setP j p
    let p ← s.pv e
    let i ← p
    let n ← s.nx e
    let s ← s.setN i n
    let n ← s.nx e
    let ret := if n = some l then none else some e
    let s := if c.alloc l then free s e else s
    some (s.setSz l (s.sz l - 1), ret)

/-- `elem_end = elem_end->p_` and the unlinking of the range, src/doubly_linked_list.c:183-185, 243-245, 296-298; returns the
last element of the range. -/
def unlinkRange (s : Dll α) (b e : Nat) : Option (Dll α × Nat) := do
  let p ← s.pv e
  let e ← p
  let n ← s.nx e
  let j ← n
  let p ← s.pv b
  let s ← s.setP j p
  let p ← s.pv b
  let i ← p
  let n ← s.nx e
  let s ← s.setN i n
  some (s, e)

/-- One of the four links of the ends of a range is NULL, src/doubly_linked_list.c:173-174 and 233-234. -/
def noLinks (s : Dll α) (b e : Nat) : Option Bool := do
  let bn ← s.nx b
  let bp ← s.pv b
  let en ← s.nx e
  let ep ← s.pv e
  some (bn.isNone || bp.isNone || en.isNone || ep.isNone)

/-- `ccc_dll_erase_range`, src/doubly_linked_list.c:169-192. -/
def eraseRange (s : Dll α) (l b e : Nat) : Option (Dll α × Slot) := do
  if (← noLinks s b e) ∨ s.sz l = 0 then some (s, none)
  else if b = e then erase c s l b
  else do
    let (s, e') ← unlinkRange s b e
    let (s, k) ← eraseNodes c s l b e'
    if k ≤ s.sz l then
      some (s.setSz l (s.sz l - k), if e = l then none else some e)
    else none                                                           -- 189 assert

/-- `ccc_dll_begin_elem`, src/doubly_linked_list.c:194-198. -/
def beginElem (s : Dll α) (l : Nat) : Option Slot := s.nx l
/-- `ccc_dll_end_elem`, src/doubly_linked_list.c:200-204. -/
def endElem (s : Dll α) (l : Nat) : Option Slot := s.pv l
/-- `ccc_dll_end_sentinel`, src/doubly_linked_list.c:206-210. -/
def endSentinel (l : Nat) : Slot := some l

/-- `ccc_dll_extract`, src/doubly_linked_list.c:212-227. -/
def extract (s : Dll α) (l e : Nat) : Option (Dll α × Slot) := do
  let n ← s.nx e
  let p ← s.pv e
  if n = none ∨ p = none ∨ s.sz l = 0 then some (s, none)
  else do
    let ret := n
    let j ← n
    let s ← s.setP j p
    let p ← s.pv e
    let i ← p
    let n ← s.nx e
    let s ← s.setN i n
    let s ← s.setP e none
    let s ← s.setN e none
    let s := s.setSz l (s.sz l - 1)
    if ret = some l then some (s, none)
    else do
      let r ← structBase c ret
      some (s, r)

/-- `ccc_dll_extract_range`, src/doubly_linked_list.c:229-252. -/
def extractRange (s : Dll α) (l b e : Nat) : Option (Dll α × Slot) := do
  if (← noLinks s b e) ∨ s.sz l = 0 then some (s, none)
  else if b = e then extract c s l b
  else do
    let (s, e') ← unlinkRange s b e
    let (s, k) ← extractNodes s l b e'
    if k ≤ s.sz l then
      some (s.setSz l (s.sz l - k), if e = l then none else some e)
    else none                                                           -- 249 assert

/-- `ccc_dll_splice`, src/doubly_linked_list.c:254-280. -/
def splice (s : Dll α) (l pos m e : Nat) : Option (Dll α × Res) :=
  if pos = e then some (s, .ok)
  else do
    let n ← s.nx e
    if n = some pos ∨ e = m then some (s, .ok)
    else do
      let j ← n
      let p ← s.pv e
      let s ← s.setP j p
      let p ← s.pv e
      let i ← p
      let n ← s.nx e
      let s ← s.setN i n
      let p ← s.pv pos
      let s ← s.setP e p
      let s ← s.setN e (some pos)
      let p ← s.pv pos
      let i ← p
      let s ← s.setN i (some e)
      let s ← s.setP pos (some e)
      if l ≠ m then
        let s := s.setSz l (s.sz l + 1)
        some (s.setSz m (s.sz m - 1), .ok)
      else some (s, .ok)

/-- `ccc_dll_splice_range`, src/doubly_linked_list.c:282-312. -/
def spliceRange (s : Dll α) (l pos m b e : Nat) : Option (Dll α × Res) :=
  if pos = b ∨ pos = e ∨ b = e ∨ b = m then some (s, .ok)
  else do
    let p ← s.pv e
    if p = some m then some (s, .ok)
    else do
      let (s, e) ← unlinkRange s b e
      let p ← s.pv pos
      let s ← s.setP b p
      let s ← s.setN e (some pos)
      let p ← s.pv pos
      let i ← p
      let s ← s.setN i (some b)
      let s ← s.setP pos (some e)
      if l ≠ m then do
        let k ← len s l b e
        if k ≤ s.sz m then
          let s := s.setSz l (s.sz l + k)
          some (s.setSz m (s.sz m - k), .ok)
        else none                                                       -- 307 assert
      else some (s, .ok)

/-- `ccc_dll_begin`, src/doubly_linked_list.c:314-322. -/
def begin' (s : Dll α) (l : Nat) : Option Slot := do
  let n ← s.nx l
  if n = some l then some none else structBase c n

/-- `ccc_dll_rbegin`, src/doubly_linked_list.c:324-332. -/
def rbegin (s : Dll α) (l : Nat) : Option Slot := do
  let n ← s.pv l
  if n = some l then some none else structBase c n

/-- `ccc_dll_end` and `ccc_dll_rend`, src/doubly_linked_list.c:334-344. -/
def endIter : Slot := none

/-- `ccc_dll_next`, src/doubly_linked_list.c:346-354. -/
def next (s : Dll α) (l e : Nat) : Option Slot := do
  let n ← s.nx e
  if n = some l then some none else structBase c n

/-- `ccc_dll_rnext`, src/doubly_linked_list.c:356-364. -/
def rnext (s : Dll α) (l e : Nat) : Option Slot := do
  let n ← s.pv e
  if n = some l then some none else structBase c n

/-- `ccc_dll_size`, src/doubly_linked_list.c:366-370. -/
def size (s : Dll α) (l : Nat) : Nat := s.sz l
/-- `ccc_dll_is_empty`, src/doubly_linked_list.c:372-376. -/
def isEmpty (s : Dll α) (l : Nat) : Bool := s.sz l == 0

/-- The loop of `ccc_dll_clear`, src/doubly_linked_list.c:385-396; also returns what the destructor was called with.  The
destructor itself is taken not to change the structs. -/
def clearLoop (s : Dll α) (l : Nat) (destroy : Bool) : Option (Dll α × List Nat) :=
  if isEmpty s l then some (s, [])
  else do
    let (s, node) ← popFrontNode s l
    let d := if destroy then [node] else []
    let s := if c.alloc l then free s node else s
    let (s, ds) ← clearLoop s l destroy
    some (s, d ++ ds)
partial_fixpoint

/-- `ccc_dll_clear`, src/doubly_linked_list.c:378-398. -/
def clear (s : Dll α) (l : Nat) (destroy : Bool) : Option (Dll α × List Nat × Res) := do
  let (s, d) ← clearLoop c s l destroy
  some (s, d, .ok)

/-- The loop of `ccc_dll_validate`, src/doubly_linked_list.c:407-420; `k` is `size`. -/
def validateLoop (s : Dll α) (l : Nat) (e : Slot) (k : Nat) : Option Bool :=
  if e = some l then some (k == s.sz l)
  else if k ≥ s.sz l then some false
  else match e with
    | none => some false
    | some a => do
      let n ← s.nx a
      let p ← s.pv a
      if n = none ∨ p = none ∨ n = some a ∨ p = some a then some false else validateLoop s l n (k + 1)
partial_fixpoint

/-- `ccc_dll_validate`, src/doubly_linked_list.c:400-421. -/
def validate (s : Dll α) (l : Nat) : Option Bool := do
  let n ← s.nx l
  validateLoop s l n 0

/-! ### Histories -/

/-- One call of the interface, or something the user does with a struct outside the lists. -/
def step (s : Dll α) : Op α → Option (Dll α × Out)
  | .make e x n p => some ({ s with val := upd s.val e (some x), nx := upd s.nx e (some n), pv := upd s.pv e (some p) }, .unit)
  | .drop e => some (free s e, .unit)
  | .pushFront l e ans => do
    let (s, r) ← pushFront c s l e ans
    some (s, .ptr r)
  | .pushBack l e ans => do
    let (s, r) ← pushBack c s l e ans
    some (s, .ptr r)
  | .insert l pos e ans => do
    let (s, r) ← insert c s l pos e ans
    some (s, .ptr r)
  | .emplaceFront l x n p ans => do
    let (s, r) ← emplaceFront c s l x n p ans
    some (s, .ptr r)
  | .emplaceBack l x n p ans => do
    let (s, r) ← emplaceBack c s l x n p ans
    some (s, .ptr r)
  | .popFront l => do
    let (s, r) ← popFront c s l
    some (s, .res r)
  | .popBack l => do
    let (s, r) ← popBack c s l
    some (s, .res r)
  | .splice l pos m e => do
    let (s, r) ← splice s l pos m e
    some (s, .res r)
  | .spliceRange l pos m b e => do
    let (s, r) ← spliceRange s l pos m b e
    some (s, .res r)
  | .erase l e => do
    let (s, r) ← erase c s l e
    some (s, .ptr r)
  | .eraseRange l b e => do
    let (s, r) ← eraseRange c s l b e
    some (s, .ptr r)
  | .extract l e => do
    let (s, r) ← extract c s l e
    some (s, .ptr r)
  | .extractRange l b e => do
    let (s, r) ← extractRange c s l b e
    some (s, .ptr r)
  | .clear l d => do
    let (s, ds, r) ← clear c s l d
    some (s, .gone ds r)
  | .front l => do
    let r ← front c s l
    some (s, .ptr r)
  | .back l => do
    let r ← back c s l
    some (s, .ptr r)
  | .begin l => do
    let r ← begin' c s l
    some (s, .ptr r)
  | .rbegin l => do
    let r ← rbegin c s l
    some (s, .ptr r)
  | .next l e => do
    let r ← next c s l e
    some (s, .ptr r)
  | .rnext l e => do
    let r ← rnext c s l e
    some (s, .ptr r)
  | .beginElem l => do
    let r ← beginElem s l
    some (s, .ptr r)
  | .endElem l => do
    let r ← endElem s l
    some (s, .ptr r)
  | .endSentinel l => some (s, .ptr (endSentinel l))
  | .endIter _ => some (s, .ptr endIter)
  | .rend _ => some (s, .ptr endIter)
  | .size l => some (s, .num (size s l))
  | .isEmpty l => some (s, .flag (isEmpty s l))
  | .validate l => do
    let b ← validate s l
    some (s, .flag b)

/-- A history. -/
def run (s : Dll α) : List (Op α) → Option (Dll α × List Out)
  | [] => some (s, [])
  | o :: os => do
    let (s, r) ← step c s o
    let (s, rs) ← run s os
    some (s, r :: rs)

end CCC.Dll
