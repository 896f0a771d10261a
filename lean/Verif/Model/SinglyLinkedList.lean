import Verif.Spec.SinglyLinkedList
/-
Model of the singly linked list, `src/singly_linked_list.c` and `ccc/impl/impl_singly_linked_list.h`.

A handle (`struct ccc_sll_elem_`) is modelled together with the struct of the user it is part of; both have one address.
A list is identified by the address of its sentinel, so that several lists can share elements through splicing.  Memory
maps addresses of handles to their link: using an address that is not there, or NULL, is undefined behaviour, `none`.
`struct_base` and `elem_in` (src/singly_linked_list.c:371-382) are the identity except on NULL, see `structBase`.
NULL list and element arguments, for which most calls return at once, are not modelled.  `ccc_impl_sll_emplace_front`
(ccc/impl/impl_singly_linked_list.h:44-66) does not compile: it calls a function that does not exist, and the allocation
function with two arguments.
-/
namespace CCC.Sll
open CCC Seq SllSpec

/-- Memory and the lists.  `struct ccc_sll_elem_` and `struct ccc_sll_`, ccc/impl/impl_singly_linked_list.h:11-26. -/
structure Sll (α : Type) where
  /-- the field `n_` of the handle, or sentinel, at an address -/
  lnk : Nat → Option Slot
  /-- the user's struct around the handle at an address -/
  val : Nat → Option α
  /-- the field `sz_` of the list with its sentinel at an address -/
  sz : Nat → Nat

/-- Which addresses are sentinels of lists, whether a list has an allocation function, and `sll_elem_offset_`. -/
structure Cfg where
  lists : List Nat
  alloc : Nat → Bool
  off : Nat

variable {α : Type} (c : Cfg)

/-- `ccc_impl_sll_init` (ccc/impl/impl_singly_linked_list.h:28-38) for every list; no structs. -/
def init : Sll α := ⟨fun a => if a ∈ c.lists then some (some a) else none, fun _ => none, fun _ => 0⟩

/-- Write the link of a handle. -/
def Sll.setN (s : Sll α) (a : Nat) (n : Slot) : Option (Sll α) := do
  let _ ← s.lnk a
  some { s with lnk := upd s.lnk a (some n) }

/-- Write the size of a list. -/
def Sll.setSz (s : Sll α) (l n : Nat) : Sll α := { s with sz := upd s.sz l n }

/-- The user's `free` of a struct, called through `alloc_`. -/
def free (s : Sll α) (e : Nat) : Sll α := { s with lnk := upd s.lnk e none, val := upd s.val e none }

/-- `struct_base`, src/singly_linked_list.c:371-375.  For NULL the offset of the handle is subtracted from NULL. -/
def structBase (p : Slot) : Option Slot := if p = none ∧ c.off ≠ 0 then none else some p

/-- `push_front`, src/singly_linked_list.c:301-307. -/
def pushFrontNode (s : Sll α) (l e : Nat) : Option (Sll α) := do
  let n ← s.lnk l
  let s ← s.setN e n
  let s ← s.setN l (some e)
  some (s.setSz l (s.sz l + 1))

/-- `pop_front`, src/singly_linked_list.c:309-317. -/
def popFrontNode (s : Sll α) (l : Nat) : Option (Sll α × Nat) := do
  let n ← s.lnk l
  let remove ← n
  let n' ← s.lnk remove
  let s ← s.setN l n'
  let s ← s.setN remove none
  some (s.setSz l (s.sz l - 1), remove)

/-- `before`, src/singly_linked_list.c:319-327, from a given handle on. -/
def beforeLoop (s : Sll α) (toFind i : Nat) : Option Nat := do
  let n ← s.lnk i
  if n = some toFind then some i
  else do
    let j ← n
    beforeLoop s toFind j
partial_fixpoint

/-- `before`, src/singly_linked_list.c:319-327. -/
def before (s : Sll α) (l toFind : Nat) : Option Nat := beforeLoop s toFind l

/-- `len`, src/singly_linked_list.c:359-369; `k` counts. -/
def lenLoop (s : Sll α) (l b e k : Nat) : Option Nat :=
  if b = e then some k
  else if k ≤ s.sz l then do
    let n ← s.lnk b
    let b' ← n
    lenLoop s l b' e (k + 1)
  else none                                                             -- 366 assert
partial_fixpoint

/-- `len`, src/singly_linked_list.c:359-369. -/
def len (s : Sll α) (l b e : Nat) : Option Nat := lenLoop s l b e 1

/-- `extract_range`, src/singly_linked_list.c:329-336. -/
def extractNodes (s : Sll α) (l b e : Nat) : Option (Sll α × Nat) := do
  let k ← len s l b e
  let s ← s.setN e none
  some (s, k)

/-- The loop of `erase_range`, src/singly_linked_list.c:348-354. -/
def freeLoop (s : Sll α) (l b e k : Nat) : Option (Sll α × Nat) :=
  if b = e then do
    let _ ← s.lnk e
    some (free s e, k)
  else if k ≤ s.sz l then do
    let n ← s.lnk b
    let b' ← n
    freeLoop (free s b) l b' e (k + 1)
  else none                                                             -- 351 assert
partial_fixpoint

/-- `erase_range`, src/singly_linked_list.c:338-357. -/
def eraseNodes (s : Sll α) (l b e : Nat) : Option (Sll α × Nat) :=
  if !c.alloc l then extractNodes s l b e else freeLoop s l b e 1

/-- `ccc_sll_push_front`, src/singly_linked_list.c:29-48.  `ans` is the answer of the allocation function. -/
def pushFront (s : Sll α) (l e : Nat) (ans : Slot) : Option (Sll α × Slot) :=
  if c.alloc l then
    match ans with
    | none => some (s, none)
    | some n => do
      let x ← s.val e
      let k ← s.lnk e
      let s ← pushFrontNode { s with val := upd s.val n (some x), lnk := upd s.lnk n (some k) } l n
      let r ← s.lnk l
      let r ← structBase c r
      some (s, r)
  else do
    let s ← pushFrontNode s l e
    let r ← s.lnk l
    let r ← structBase c r
    some (s, r)

/-- `ccc_sll_front`, src/singly_linked_list.c:50-58. -/
def front (s : Sll α) (l : Nat) : Option Slot := do
  let n ← s.lnk l
  if n = some l then some none else structBase c n

/-- `ccc_sll_begin_elem`, src/singly_linked_list.c:60-64. -/
def beginElem (s : Sll α) (l : Nat) : Option Slot := s.lnk l

/-- `ccc_sll_begin_sentinel`, src/singly_linked_list.c:66-70. -/
def beginSentinel (l : Nat) : Slot := some l

/-- `ccc_sll_pop_front`, src/singly_linked_list.c:72-85. -/
def popFront (s : Sll α) (l : Nat) : Option (Sll α × Res) :=
  if s.sz l = 0 then some (s, .inputErr)
  else do
    let (s, remove) ← popFrontNode s l
    some (if c.alloc l then free s remove else s, .ok)

/-- `ccc_sll_splice`, src/singly_linked_list.c:87-110. -/
def splice (s : Sll α) (l pos m e : Nat) : Option (Sll α × Res) :=
  if e = pos then some (s, .ok)
  else do
    let pn ← s.lnk pos
    if pn = some e then some (s, .ok)
    else do
      let i ← before s m e
      let n ← s.lnk e
      let s ← s.setN i n
      let pn ← s.lnk pos
      let s ← s.setN e pn
      let s ← s.setN pos (some e)
      if l ≠ m then
        let s := s.setSz m (s.sz m - 1)
        some (s.setSz l (s.sz l + 1), .ok)
      else some (s, .ok)

/-- `ccc_sll_splice_range`, src/singly_linked_list.c:112-143. -/
def spliceRange (s : Sll α) (l pos m b e : Nat) : Option (Sll α × Res) :=
  if b = pos ∨ e = pos then some (s, .ok)
  else do
    let pn ← s.lnk pos
    if pn = some b then some (s, .ok)
    else if b = e then do
      let (s, _) ← splice s l pos m b
      some (s, .ok)
    else do
      let found ← before s m b
      let n ← s.lnk e
      let s ← s.setN found n
      let pn ← s.lnk pos
      let s ← s.setN e pn
      let s ← s.setN pos (some b)
      if l ≠ m then do
        let k ← len s m b e
        let s := s.setSz m (s.sz m - k)
        some (s.setSz l (s.sz l + k), .ok)
      else some (s, .ok)

/-- `ccc_sll_erase`, src/singly_linked_list.c:145-161. -/
def erase (s : Sll α) (l e : Nat) : Option (Sll α × Slot) :=
  if s.sz l = 0 ∨ e = l then some (s, none)
  else do
    let ret ← s.lnk e
    let i ← before s l e
    let n ← s.lnk e
    let s ← s.setN i n
    let s ← s.setN e none
    let s := if c.alloc l then free s e else s
    let s := s.setSz l (s.sz l - 1)
    if ret = some l then some (s, none)
    else do
      let r ← structBase c ret
      some (s, r)

/-- `ccc_sll_erase_range`, src/singly_linked_list.c:163-178. -/
def eraseRange (s : Sll α) (l b e : Nat) : Option (Sll α × Slot) :=
  if s.sz l = 0 ∨ b = l ∨ e = l then some (s, none)
  else do
    let ret ← s.lnk e
    let i ← before s l b
    let n ← s.lnk e
    let s ← s.setN i n
    let (s, k) ← eraseNodes c s l b e
    if k ≤ s.sz l then do
      let s := s.setSz l (s.sz l - k)
      if ret = some l then some (s, none)
      else do
        let r ← structBase c ret
        some (s, r)
    else none                                                           -- 175 assert

/-- `ccc_sll_extract`, src/singly_linked_list.c:180-192. -/
def extract (s : Sll α) (l e : Nat) : Option (Sll α × Slot) :=
  if s.sz l = 0 ∨ e = l then some (s, none)
  else do
    let ret ← s.lnk e
    let i ← before s l e
    let n ← s.lnk e
    let s ← s.setN i n
    let s ← s.setN e none
    let s := s.setSz l (s.sz l - 1)
    if ret = some l then some (s, none)
    else do
      let r ← structBase c ret
      some (s, r)

/-- `ccc_sll_extract_range`, src/singly_linked_list.c:194-209. -/
def extractRange (s : Sll α) (l b e : Nat) : Option (Sll α × Slot) :=
  if s.sz l = 0 ∨ b = l ∨ e = l then some (s, none)
  else do
    let ret ← s.lnk e
    let i ← before s l b
    let n ← s.lnk e
    let s ← s.setN i n
    let (s, k) ← extractNodes s l b e
    if k ≤ s.sz l then do
      let s := s.setSz l (s.sz l - k)
      if ret = some l then some (s, none)
      else do
        let r ← structBase c ret
        some (s, r)
    else none                                                           -- 206 assert

/-- `ccc_sll_begin`, src/singly_linked_list.c:211-219. -/
def begin' (s : Sll α) (l : Nat) : Option Slot := do
  let n ← s.lnk l
  if n = some l then some none else structBase c n

/-- `ccc_sll_end`, src/singly_linked_list.c:221-225. -/
def endIter : Slot := none

/-- `ccc_sll_next`, src/singly_linked_list.c:227-236. -/
def next (s : Sll α) (l e : Nat) : Option Slot := do
  let n ← s.lnk e
  if n = some l then some none else structBase c n

/-- `ccc_sll_is_empty`, src/singly_linked_list.c:287-291. -/
def isEmpty (s : Sll α) (l : Nat) : Bool := s.sz l == 0
/-- `ccc_sll_size`, src/singly_linked_list.c:281-285. -/
def size (s : Sll α) (l : Nat) : Nat := s.sz l

/-- The loop of `ccc_sll_clear`, src/singly_linked_list.c:245-256; also returns what the destructor was called with.  The
destructor itself is taken not to change the structs. -/
def clearLoop (s : Sll α) (l : Nat) (destroy : Bool) : Option (Sll α × List Nat) :=
  if isEmpty s l then some (s, [])
  else do
    let (s, mem) ← popFrontNode s l
    let d := if destroy then [mem] else []
    let s := if c.alloc l then free s mem else s
    let (s, ds) ← clearLoop s l destroy
    some (s, d ++ ds)
partial_fixpoint

/-- `ccc_sll_clear`, src/singly_linked_list.c:238-258. -/
def clear (s : Sll α) (l : Nat) (destroy : Bool) : Option (Sll α × List Nat × Res) := do
  let (s, d) ← clearLoop c s l destroy
  some (s, d, .ok)

/-- The loop of `ccc_sll_validate`, src/singly_linked_list.c:264-277; `k` is `size`. -/
def validateLoop (s : Sll α) (l : Nat) (e : Slot) (k : Nat) : Option Bool :=
  if e = some l then some (k == s.sz l)
  else if k ≥ s.sz l then some false
  else match e with
    | none => some false
    | some a => do
      let n ← s.lnk a
      if n = none ∨ n = some a then some false else validateLoop s l n (k + 1)
partial_fixpoint

/-- `ccc_sll_validate`, src/singly_linked_list.c:260-279. -/
def validate (s : Sll α) (l : Nat) : Option Bool := do
  let n ← s.lnk l
  validateLoop s l n 0

/-! ### Histories -/

/-- One call of the interface, or something the user does with a struct outside the lists. -/
def step (s : Sll α) : Op α → Option (Sll α × Out)
  | .make e x n => some ({ s with val := upd s.val e (some x), lnk := upd s.lnk e (some n) }, .unit)
  | .drop e => some (free s e, .unit)
  | .pushFront l e ans => do
    let (s, r) ← pushFront c s l e ans
    some (s, .ptr r)
  | .popFront l => do
    let (s, r) ← popFront c s l
    some (s, .res r)
  | .splice l pos m e => do
    let (s, r) ← splice s l pos m e
    some (s, .res r)
  | .spliceRange l pos m b e => do
    let (s, r) ← spliceRange s l pos m b e
    some (s, .res r)
  | .erase l e => do
    let (s, r) ← erase c s l e
    some (s, .ptr r)
  | .eraseRange l b e => do
    let (s, r) ← eraseRange c s l b e
    some (s, .ptr r)
  | .extract l e => do
    let (s, r) ← extract c s l e
    some (s, .ptr r)
  | .extractRange l b e => do
    let (s, r) ← extractRange c s l b e
    some (s, .ptr r)
  | .clear l d => do
    let (s, ds, r) ← clear c s l d
    some (s, .gone ds r)
  | .front l => do
    let r ← front c s l
    some (s, .ptr r)
  | .begin l => do
    let r ← begin' c s l
    some (s, .ptr r)
  | .next l e => do
    let r ← next c s l e
    some (s, .ptr r)
  | .beginElem l => do
    let r ← beginElem s l
    some (s, .ptr r)
  | .beginSentinel l => some (s, .ptr (beginSentinel l))
  | .endIter _ => some (s, .ptr endIter)
  | .size l => some (s, .num (size s l))
  | .isEmpty l => some (s, .flag (isEmpty s l))
  | .validate l => do
    let b ← validate s l
    some (s, .flag b)

/-- A history. -/
def run (s : Sll α) : List (Op α) → Option (Sll α × List Out)
  | [] => some (s, [])
  | o :: os => do
    let (s, r) ← step c s o
    let (s, rs) ← run s os
    some (s, r :: rs)

end CCC.Sll
