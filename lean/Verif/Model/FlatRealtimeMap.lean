import Verif.Model.RealtimeMap
import Verif.Model.Buffer
import Verif.Spec.FlatMap
/-
Model of `src/flat_realtime_ordered_map.c` (interface functions) and of the macros of
`ccc/impl/impl_flat_realtime_ordered_map.h`.  The tree algorithms are in `Verif/Model/Wavl.lean`.

The buffer of user structs is modelled as separate arrays for the link fields and for the user's data, both indexed by
slot number; `base_at`, `at`, `elem_in_slot`, `struct_base`, `index_of`, `key_from_node`, `key_at`, `parent_r`, `branch_r`
(src/flat_realtime_ordered_map.c:816-906) are offset arithmetic and are not modelled.  Pointer arguments are taken to be
non-NULL.  The user's struct is outside the buffer.  `size_t` is `Nat`: no memory holds 2^64 slots.
-/
namespace CCC.Frm
open CCC Wavl

/-- Contents of fresh memory, as the allocation function hands it out. -/
structure Junk (α : Type) where
  br : Nat → Bool → Nat
  par : Nat → Nat
  parity : Nat → Bool
  val : Nat → α

/-- `struct ccc_fromap_`, ccc/impl/impl_flat_realtime_ordered_map.h:21-28, with its buffer: `sz` is `sz_`, `cap` is
`capacity_`, `hasAlloc` says whether `alloc_` is non-NULL.  `t.root` is `root_`, `t.br`, `t.par`, `t.parity` and `val`
are the contents of the slots.  `t.live` is kept equal to "below `sz_` and below `capacity_`": only slots handed out by
the buffer may be accessed. -/
structure Frm (α : Type) where
  t : Links
  val : Nat → α
  sz : Nat
  cap : Nat
  hasAlloc : Bool

/-- The slots that may be accessed. -/
def inUse (sz cap : Nat) (a : Nat) : Bool := decide (a < sz) && decide (a < cap)

/-- `ccc_impl_frm_init`, ccc/impl/impl_flat_realtime_ordered_map.h:62-70: `capacity` slots of arbitrary memory. -/
def init {α : Type} (mem : Junk α) (capacity : Nat) (alloc : Bool) : Frm α :=
  { t := { br := mem.br, par := mem.par, parity := mem.parity, live := inUse 0 capacity, root := 0 }
    val := mem.val, sz := 0, cap := capacity, hasAlloc := alloc }

variable {α κ : Type} (cmp : κ → κ → Cmp) (key : α → κ)

/-- Change of the buffer's `sz_` field. -/
def setSize (s : Frm α) (n : Nat) : Frm α := { s with t := { s.t with live := inUse n s.cap }, sz := n }

/-- `ccc_buf_alloc` with a positive capacity, src/buffer.c:16-36: old slots keep their contents, the others are fresh. -/
def growTo (s : Frm α) (c : Nat) (j : Junk α) : Frm α :=
  { s with
    t := { s.t with
      br := fun a d => if a < s.cap then s.t.br a d else j.br a d
      par := fun a => if a < s.cap then s.t.par a else j.par a
      parity := fun a => if a < s.cap then s.t.parity a else j.parity a
      live := inUse s.sz c }
    val := fun a => if a < s.cap then s.val a else j.val a
    cap := c }

/-- `ccc_buf_alloc_back`, src/buffer.c:60-78 (model of the buffer itself: `Buf.allocBack`).  Returns the slot. -/
def bufAllocBack (s : Frm α) (ans : Option (Junk α)) : Frm α × Slot :=
  if s.sz = s.cap then
    match (if s.hasAlloc then ans else none) with
    | none => (s, none)
    | some j =>
      let s := growTo s (if s.cap ≠ 0 then s.cap * 2 else Buf.startCapacity) j
      (setSize s (s.sz + 1), some s.sz)
  else (setSize s (s.sz + 1), some s.sz)

/-- `alloc_back`, src/flat_realtime_ordered_map.c:791-806. -/
def allocBack (s : Frm α) (ans : Option (Junk α)) : Option (Frm α × Slot) :=
  if s.sz = 0 then
    match bufAllocBack s ans with
    | (s, none) => some (s, none)
    | (s, some a) => do
      let t ← s.t.setParity a true
      some (bufAllocBack { s with t := t } ans)
  else some (bufAllocBack s ans)

/-- Write the user's data in a slot. -/
def setVal (s : Frm α) (a : Nat) (x : α) : Option (Frm α) :=
  if s.t.live a then some { s with val := upd s.val a x } else none

/-- Copy the link fields of one slot to another. -/
def copyLinks (t : Links) (dst src : Nat) : Option Links :=
  if t.live dst && t.live src then
    some { t with
      br := fun a d => if a = dst then t.br src d else t.br a d
      par := upd t.par dst (t.par src)
      parity := upd t.parity dst (t.parity src) }
  else none

/-- Copy a whole slot to another. -/
def copySlot (s : Frm α) (dst src : Nat) : Option (Frm α) := do
  let t ← copyLinks s.t dst src
  setVal { s with t := t } dst (s.val src)

/-- The user's comparison of a key with the element in a slot: `cmp_elems`, src/flat_realtime_ordered_map.c:782-789. -/
def at_ (s : Frm α) (k : κ) (a : Nat) : Cmp := cmp k (key (s.val a))

/-- `find`, src/flat_realtime_ordered_map.c:700-717. -/
def find (s : Frm α) (k : κ) : Option Query := Wavl.find s.t (at_ cmp key s k)

/-- `ccc_frm_contains`, src/flat_realtime_ordered_map.c:155-164. -/
def contains (s : Frm α) (k : κ) : Option Bool := do
  let q ← find cmp key s k
  some (q.1 == .eql)

/-- `ccc_frm_get_key_val`, src/flat_realtime_ordered_map.c:166-176. -/
def get (s : Frm α) (k : κ) : Option Slot := do
  let q ← find cmp key s k
  some (if q.1 == .eql then some q.2 else none)

/-- `insert`, src/flat_realtime_ordered_map.c:656-677. -/
def insertNode (s : Frm α) (parent : Nat) (last : Cmp) (e : Nat) : Option (Frm α) := do
  let t ← initNode s.t e
  if s.sz = 2 then some { s with t := t.setRoot e }
  else do
    let t ← insertBelow t parent last e
    some { s with t := t }

/-- `maybe_alloc_insert`, src/flat_realtime_ordered_map.c:640-654.  `ccc_buf_write` also copies the link fields of the
user's struct, all of which `insert` overwrites at once. -/
def maybeAllocInsert (s : Frm α) (parent : Nat) (last : Cmp) (x : α) (ans : Option (Junk α)) :
    Option (Frm α × Slot) := do
  let (s, p) ← allocBack s ans
  match p with
  | none => some (s, none)
  | some _ => do
    let node := s.sz - 1
    let s ← setVal s node x
    let s ← insertNode s parent last node
    some (s, some node)

/-- `swap_and_pop`, src/flat_realtime_ordered_map.c:1105-1135.  `sz_` is decremented first in C; the slot at the new
`sz_` is still accessed (it lies below the capacity), so the model decrements last. -/
def swapAndPop (s : Frm α) (vacant : Nat) : Option (Frm α) :=
  let x := s.sz - 1
  if vacant = x then some (setSize s x)
  else do
    req (vacant != 0)
    req (x != 0)
    let t := s.t
    let t ← (if x = t.root then some (t.setRoot vacant)
      else do
        let p ← t.getPar x
        let r ← t.getBr p true
        t.setBr p (r == x) vacant)
    let r ← t.getBr x true
    let t ← t.setPar r vacant
    let l ← t.getBr x false
    let t ← t.setPar l vacant
    let s := { s with t := t }
    let s ← copySlot s 0 vacant
    let s ← copySlot s vacant x
    let s ← copySlot s x 0
    let t ← s.t.setParity 0 true
    let t ← t.setParity x false
    let t ← t.setPar x 0
    let t ← t.setBr x true 0
    let t ← t.setBr x false 0
    some (setSize { s with t := t } x)

/-- `remove_fixup`, src/flat_realtime_ordered_map.c:946-1007: returns the slot that holds the removed element
afterwards. -/
def removeFixup (s : Frm α) (rm : Nat) : Option (Frm α × Nat) := do
  let t ← removeLinks s.t rm
  let s ← swapAndPop { s with t := t } rm
  some (s, s.sz)

/-- `ccc_frm_insert`, src/flat_realtime_ordered_map.c:178-204.  In the occupied case the user's struct first receives
the links of the found slot, then the two structs are swapped through slot 0 (`swap(tmp, user_struct, slot)`: slot 0
receives the user's struct).  The third component is the data in the user's struct after the call. -/
def insert (s : Frm α) (x : α) (ans : Option (Junk α)) : Option (Frm α × Ent × α) := do
  let q ← find cmp key s (key x)
  if q.1 = .eql then do
    let t ← copyLinks s.t 0 q.2
    let s := { s with t := t }
    let s ← setVal s 0 x
    let old := s.val q.2
    let s ← setVal s q.2 (s.val 0)
    let t ← s.t.setParity 0 true
    some ({ s with t := t }, ⟨some q.2, Stat.occupied⟩, old)
  else do
    let (s, i) ← maybeAllocInsert s q.2 q.1 x ans
    match i with
    | none => some (s, ⟨none, Stat.insertError⟩, x)
    | some _ => some (s, ⟨none, Stat.vacant⟩, x)

/-- `ccc_frm_try_insert`, src/flat_realtime_ordered_map.c:206-227. -/
def tryInsert (s : Frm α) (x : α) (ans : Option (Junk α)) : Option (Frm α × Ent) := do
  let q ← find cmp key s (key x)
  if q.1 = .eql then some (s, ⟨some q.2, Stat.occupied⟩)
  else do
    let (s, i) ← maybeAllocInsert s q.2 q.1 x ans
    match i with
    | none => some (s, ⟨none, Stat.insertError⟩)
    | some n => some (s, ⟨some n, Stat.vacant⟩)

/-- `ccc_frm_insert_or_assign`, src/flat_realtime_ordered_map.c:229-253: the user's struct receives the links of the
found slot and is then copied over it, so only the data change. -/
def insertOrAssign (s : Frm α) (x : α) (ans : Option (Junk α)) : Option (Frm α × Ent) := do
  let q ← find cmp key s (key x)
  if q.1 = .eql then do
    let s ← setVal s q.2 x
    some (s, ⟨some q.2, Stat.occupied⟩)
  else do
    let (s, i) ← maybeAllocInsert s q.2 q.1 x ans
    match i with
    | none => some (s, ⟨none, Stat.insertError⟩)
    | some n => some (s, ⟨some n, Stat.vacant⟩)

/-- `struct ccc_frtree_entry_`, ccc/impl/impl_flat_realtime_ordered_map.h:30-39. -/
structure FEnt where
  last : Cmp
  i : Nat
  stats : Nat

/-- `entry`, src/flat_realtime_ordered_map.c:679-698; `ccc_frm_entry`, 313-322. -/
def entry (s : Frm α) (k : κ) : Option FEnt := do
  let q ← find cmp key s k
  if q.1 = .eql then some ⟨q.1, q.2, Stat.occupied⟩
  else some ⟨q.1, q.2, Stat.noUnwrap ||| Stat.vacant⟩

/-- `ccc_frm_and_modify`, `ccc_frm_and_modify_aux`, src/flat_realtime_ordered_map.c:255-276, and the macro
`ccc_impl_frm_and_modify_w`, ccc/impl/impl_flat_realtime_ordered_map.h:74-94. -/
def andModify (s : Frm α) (e : FEnt) (f : α → α) : Option (Frm α) :=
  if Stat.has e.stats Stat.occupied then setVal s e.i (f (s.val e.i)) else some s

/-- `ccc_frm_or_insert`, src/flat_realtime_ordered_map.c:278-291. -/
def orInsert (s : Frm α) (e : FEnt) (x : α) (ans : Option (Junk α)) : Option (Frm α × Slot) :=
  if e.stats = Stat.occupied then some (s, some e.i) else maybeAllocInsert s e.i e.last x ans

/-- `ccc_frm_insert_entry`, src/flat_realtime_ordered_map.c:293-311. -/
def insertEntry (s : Frm α) (e : FEnt) (x : α) (ans : Option (Junk α)) : Option (Frm α × Slot) :=
  if e.stats = Stat.occupied then do
    let s ← setVal s e.i x
    some (s, some e.i)
  else maybeAllocInsert s e.i e.last x ans

/-- `ccc_frm_remove_entry`, src/flat_realtime_ordered_map.c:324-338. -/
def removeEntry (s : Frm α) (e : FEnt) : Option (Frm α × Ent) :=
  if e.stats = Stat.occupied then do
    let (s, a) ← removeFixup s e.i
    some (s, ⟨some a, Stat.occupied⟩)
  else some (s, ⟨none, Stat.vacant⟩)

/-- `ccc_frm_remove`, src/flat_realtime_ordered_map.c:340-358.  Returns the status, whether the entry refers to the
user's struct, and the data in that struct. -/
def remove (s : Frm α) (x : α) : Option (Frm α × Nat × Bool × α) := do
  let q ← find cmp key s (key x)
  if q.1 ≠ .eql then some (s, Stat.vacant, false, x)
  else do
    let (s, a) ← removeFixup s q.2
    some (s, Stat.occupied, true, s.val a)

/-- `ccc_frm_unwrap`, src/flat_realtime_ordered_map.c:383-391. -/
def unwrap (s : Frm α) (e : FEnt) : Slot :=
  if Stat.has e.stats Stat.occupied then (if e.i ≥ s.cap then none else some e.i) else none
/-- `ccc_frm_insert_error`, src/flat_realtime_ordered_map.c:393-397. -/
def insertError (e : FEnt) : Bool := Stat.has e.stats Stat.insertError
/-- `ccc_frm_occupied`, src/flat_realtime_ordered_map.c:399-403. -/
def occupied (e : FEnt) : Bool := Stat.has e.stats Stat.occupied
/-- `ccc_frm_entry_status`, src/flat_realtime_ordered_map.c:405-409. -/
def entryStatus (e : FEnt) : Nat := e.stats

/-- `ccc_impl_frm_or_insert_w`, ccc/impl/impl_flat_realtime_ordered_map.h:96-123: `x` is the value of the lazy
expression. -/
def orInsertW (s : Frm α) (e : FEnt) (x : α) (ans : Option (Junk α)) : Option (Frm α × Slot) :=
  if e.stats = Stat.occupied then some (s, if e.i ≥ s.cap then none else some e.i) else do
    let (s, p) ← allocBack s ans
    match p with
    | none => some (s, none)
    | some a => do
      let s ← setVal s a x
      let s ← insertNode s e.i e.last (s.sz - 1)
      some (s, some a)

/-- `ccc_impl_frm_insert_entry_w`, ccc/impl/impl_flat_realtime_ordered_map.h:125-163. -/
def insertEntryW (s : Frm α) (e : FEnt) (x : α) (ans : Option (Junk α)) : Option (Frm α × Slot) :=
  if !Stat.has e.stats Stat.occupied then do
    let (s, p) ← allocBack s ans
    match p with
    | none => some (s, none)
    | some a => do
      let s ← setVal s a x
      let s ← insertNode s e.i e.last (s.sz - 1)
      some (s, some a)
  else if e.stats = Stat.occupied then do
    let s ← setVal s e.i x
    some (s, some e.i)
  else some (s, none)

/-- The common vacant branch of the next two macros: `x` is the lazy value after the key was copied into it. -/
def insertVacantW (s : Frm α) (e : FEnt) (x : α) (ans : Option (Junk α)) : Option (Frm α × Ent) := do
  let (s, p) ← allocBack s ans
  match p with
  | none => some (s, ⟨none, Stat.insertError⟩)
  | some a => do
    let s ← setVal s a x
    let s ← insertNode s e.i e.last a
    some (s, ⟨some a, Stat.vacant⟩)

/-- `ccc_impl_frm_try_insert_w`, ccc/impl/impl_flat_realtime_ordered_map.h:165-203. -/
def tryInsertW (s : Frm α) (k : κ) (x : α) (ans : Option (Junk α)) : Option (Frm α × Ent) := do
  let e ← entry cmp key s k
  if !Stat.has e.stats Stat.occupied then insertVacantW s e x ans
  else if e.stats = Stat.occupied then some (s, ⟨if e.i ≥ s.cap then none else some e.i, e.stats⟩)
  else some (s, ⟨none, Stat.inputError⟩)

/-- `ccc_impl_frm_insert_or_assign_w`, ccc/impl/impl_flat_realtime_ordered_map.h:205-262. -/
def insertOrAssignW (s : Frm α) (k : κ) (x : α) (ans : Option (Junk α)) : Option (Frm α × Ent) := do
  let e ← entry cmp key s k
  if !Stat.has e.stats Stat.occupied then insertVacantW s e x ans
  else if e.stats = Stat.occupied then do
    let s ← setVal s e.i x
    some (s, ⟨some e.i, e.stats⟩)
  else some (s, ⟨none, Stat.inputError⟩)

/-- `ccc_frm_is_empty` and `ccc_frm_size`, src/flat_realtime_ordered_map.c:411-426. -/
def size (s : Frm α) : Nat := if s.sz = 0 then s.sz else s.sz - 1
def isEmpty (s : Frm α) : Bool := size s == 0
/-- `ccc_frm_capacity`, src/flat_realtime_ordered_map.c:428-436. -/
def capacity (s : Frm α) : Nat := s.cap

/-- `ccc_frm_begin` (`dir = false`), `ccc_frm_rbegin` (`dir = true`), src/flat_realtime_ordered_map.c:444-464. -/
def begin_ (s : Frm α) (dir : Bool) : Option Slot :=
  if s.sz = 0 then some none else do
    let m ← minMaxFrom s.t s.t.root dir
    some (some m)
/-- `ccc_frm_next` (`trav = true`), `ccc_frm_rnext`, src/flat_realtime_ordered_map.c:466-488. -/
def next (s : Frm α) (e : Nat) (trav : Bool) : Option Slot :=
  if s.sz = 0 then some none else do
    let n ← Wavl.next s.t e trav
    some (some n)
/-- `ccc_frm_end`, `ccc_frm_rend`, src/flat_realtime_ordered_map.c:490-508. -/
def end_ (s : Frm α) : Slot := if s.sz = 0 then none else some 0

/-- `equal_range`, src/flat_realtime_ordered_map.c:744-767; `ccc_frm_equal_range`, `ccc_frm_equal_rrange`, 360-381. -/
def equalRange (s : Frm α) (b e : κ) (trav : Bool) : Option (Slot × Slot) :=
  if isEmpty s then some (none, none)
  else do
    let r ← Wavl.equalRange s.t (at_ cmp key s b) (at_ cmp key s e) trav
    some (some r.1, some r.2)

/-- `ccc_buf_size_set`, src/buffer.c:316-330: beyond the capacity the size is clamped and an error reported. -/
def sizeSet (s : Frm α) (n : Nat) : Frm α × Res :=
  if n > s.cap then (setSize s s.cap, .inputErr) else (setSize s n, .ok)

/-- The destructor loop of `ccc_frm_clear` and `ccc_frm_clear_and_free`, src/flat_realtime_ordered_map.c:557-561,
580-584, with the iterator functions of src/buffer.c:236-272.  An iterator is a slot number, `none` is NULL; the
destructor is only defined on slots inside the allocation.  The second argument collects the destroyed slots. -/
def destroyLoop (s : Frm α) (e : Slot) (acc : List (Nat × α)) : Option (List (Nat × α)) :=
  let fin : Slot := if s.cap = 0 then none else some s.sz
  if e = fin then some acc
  else match e with
    | none => none
    | some i =>
      if i ≥ s.cap then none
      else destroyLoop s (some (i + 1)) (acc ++ [(i, s.val i)])
partial_fixpoint

/-- `ccc_frm_clear`, src/flat_realtime_ordered_map.c:545-566; `destroy` says whether `fn` is non-NULL.  The list is
what the destructor was called with. -/
def clear (s : Frm α) (destroy : Bool) : Option (Frm α × List (Nat × α) × Res) :=
  if !destroy then
    let (s, r) := sizeSet { s with t := s.t.setRoot 0 } 1
    some (s, [], r)
  else do
    let d ← destroyLoop s (if 1 ≥ s.cap then none else some 1) []
    let (s, _) := sizeSet s 1
    some ({ s with t := s.t.setRoot 0 }, d, .ok)

/-- `ccc_frm_clear_and_free`, src/flat_realtime_ordered_map.c:568-588.  `ccc_buf_alloc` with capacity 0
(src/buffer.c:16-36) frees the memory and does not touch `sz_`. -/
def clearAndFree (s : Frm α) (destroy : Bool) : Option (Frm α × List (Nat × α) × Res) := do
  let d ← (if destroy then destroyLoop s (if 1 ≥ s.cap then none else some 1) [] else some [])
  let s := { s with t := s.t.setRoot 0 }
  if s.hasAlloc then some ({ s with cap := 0, t := { s.t with live := inUse s.sz 0 } }, d, .ok)
  else some (s, d, .noAlloc)

/-- `ccc_frm_copy`, src/flat_realtime_ordered_map.c:510-543.  `fn` is the allocation function passed to the call (`none`
for NULL) with its answer. -/
def copy (dst src : Frm α) (fn : Option (Option (Junk α))) : Frm α × Res :=
  if dst.cap < src.cap ∧ fn.isNone then (dst, .inputErr)
  else
    let mid : Frm α := { dst with t := { dst.t with root := src.t.root, live := inUse src.sz dst.cap }, sz := src.sz }
    let go (d : Frm α) : Frm α :=
      { d with
        t := { d.t with
          br := fun a b => if a < src.cap then src.t.br a b else d.t.br a b
          par := fun a => if a < src.cap then src.t.par a else d.t.par a
          parity := fun a => if a < src.cap then src.t.parity a else d.t.parity a }
        val := fun a => if a < src.cap then src.val a else d.val a }
    if mid.cap < src.cap then
      match fn with
      | none => (mid, .noAlloc)
      | some none => (mid, .memErr)
      | some (some j) => (go (growTo mid src.cap j), .ok)
    else (go mid, .ok)

/-- The three recursive checks of `validate`, src/flat_realtime_ordered_map.c:1364-1414, have the same text as those of
the pointer based map and are shared with it through this view. -/
def asRom (s : Frm α) : Rom.Rom α := { t := s.t, sz := s.sz - 1, val := s.val, alloc := false }

/-- `validate`, src/flat_realtime_ordered_map.c:1416-1437; `ccc_frm_validate`, 590-594. -/
def validate (s : Frm α) : Option Bool := do
  let p ← (if s.sz ≠ 0 then s.t.getParity 0 else some true)
  if !p then some false
  else do
    let a ← Rom.areSubtreesValid cmp key (asRom s) 0 s.t.root 0
    if !a then some false
    else do
      let n ← Rom.recursiveSize s.t s.t.root
      if n ≠ 0 ∧ n ≠ s.sz - 1 then some false
      else Rom.isStoringParent s.t 0 s.t.root

/-! ### Histories -/
open FlatMap

/-- What the user reads through a pointer. -/
def view (s : Frm α) : Slot → View α
  | none => .null
  | some 0 => .fin
  | some a => .elem a (s.val a)

/-- One call of the interface. -/
def step (s : Frm α) : Op α κ (Junk α) → Option (Frm α × Out α)
  | .insert x ans => do
    let (s, e, h) ← insert cmp key s x ans
    some (s, .insEnt e.stats (view s (Ent.unwrap (some e))) h)
  | .tryInsert x ans => do
    let (s, e) ← tryInsert cmp key s x ans
    some (s, .ent e.stats (view s (Ent.unwrap (some e))))
  | .insertOrAssign x ans => do
    let (s, e) ← insertOrAssign cmp key s x ans
    some (s, .ent e.stats (view s (Ent.unwrap (some e))))
  | .remove x => do
    let (s, st, b, h) ← remove cmp key s x
    some (s, .remEnt st b h)
  | .orInsert k x ans => do
    let e ← entry cmp key s k
    let (s, p) ← orInsert s e x ans
    some (s, .ptr (view s p))
  | .insertEntry k x ans => do
    let e ← entry cmp key s k
    let (s, p) ← insertEntry s e x ans
    some (s, .ptr (view s p))
  | .removeEntry k => do
    let e ← entry cmp key s k
    let (s, e) ← removeEntry s e
    some (s, .ent e.stats (view s (Ent.unwrap (some e))))
  | .andModify k f => do
    let e ← entry cmp key s k
    let s ← andModify s e f
    some (s, .ptr (view s (unwrap s e)))
  | .occupied k => do
    let e ← entry cmp key s k
    some (s, .flag (occupied e))
  | .orInsertW k x ans => do
    let e ← entry cmp key s k
    let (s, p) ← orInsertW s e x ans
    some (s, .ptr (view s p))
  | .insertEntryW k x ans => do
    let e ← entry cmp key s k
    let (s, p) ← insertEntryW s e x ans
    some (s, .ptr (view s p))
  | .tryInsertW k x ans => do
    let (s, e) ← tryInsertW cmp key s k x ans
    some (s, .ent e.stats (view s (Ent.unwrap (some e))))
  | .insertOrAssignW k x ans => do
    let (s, e) ← insertOrAssignW cmp key s k x ans
    some (s, .ent e.stats (view s (Ent.unwrap (some e))))
  | .contains k => do
    let b ← contains cmp key s k
    some (s, .flag b)
  | .get k => do
    let p ← get cmp key s k
    some (s, .ptr (view s p))
  | .begin => do
    let p ← begin_ s false
    some (s, .ptr (view s p))
  | .rbegin => do
    let p ← begin_ s true
    some (s, .ptr (view s p))
  | .next a => do
    let p ← next s a true
    some (s, .ptr (view s p))
  | .rnext a => do
    let p ← next s a false
    some (s, .ptr (view s p))
  | .end_ => some (s, .ptr (view s (end_ s)))
  | .equalRange b e => do
    let r ← equalRange cmp key s b e true
    some (s, .range (view s r.1) (view s r.2))
  | .equalRrange b e => do
    let r ← equalRange cmp key s b e false
    some (s, .range (view s r.1) (view s r.2))
  | .size => some (s, .num (size s))
  | .isEmpty => some (s, .flag (isEmpty s))
  | .capacity => some (s, .num (capacity s))
  | .validate => do
    let b ← validate cmp key s
    some (s, .flag b)
  | .clear => do
    let (s, _, r) ← clear s false
    some (s, .result r)

/-- A history of calls. -/
def run (s : Frm α) : List (Op α κ (Junk α)) → Option (Frm α × List (Out α))
  | [] => some (s, [])
  | o :: os => do
    let (s, r) ← step cmp key s o
    let (s, rs) ← run s os
    some (s, r :: rs)

end CCC.Frm
