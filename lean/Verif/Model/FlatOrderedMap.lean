import Verif.Model.FlatRealtimeMap
import Verif.Model.Splay
/-
Model of `src/flat_ordered_map.c` (interface functions) and of the macros of `ccc/impl/impl_flat_ordered_map.h`.  The
tree algorithms are in `Verif/Model/Splay.lean`.

The buffer is modelled as for the flat realtime map: separate arrays for the link fields and for the user's data, both
indexed by slot number; `at`, `branch_i`, `parent_i`, `index_of`, `branch_ref`, `parent_ref`, `base_at`, `struct_base`,
`elem_in_slot`, `key_from_node`, `key_at` (src/flat_ordered_map.c:895-964) and the accessors at 556-575 are offset
arithmetic and are not modelled.  Pointer arguments are taken to be non-NULL.  The user's struct is outside the buffer.
`size_t` is `Nat`.
-/
namespace CCC.Fom
open CCC Splay
open CCC.Frm (Frm Junk inUse setSize growTo bufAllocBack setVal copyLinks copySlot sizeSet destroyLoop asRom view)

/-- `struct ccc_fomap_`, ccc/impl/impl_flat_ordered_map.h:17-25, with its buffer, has the fields of the flat realtime
map; the links have no parity, the model's parity bits are copied around but never decide anything. -/
abbrev Fom (α : Type) := Frm α

/-- `ccc_impl_fom_init`, ccc/impl/impl_flat_ordered_map.h:45-53. -/
def init {α : Type} (mem : Junk α) (capacity : Nat) (alloc : Bool) : Fom α := Frm.init mem capacity alloc

variable {α κ : Type} (cmp : κ → κ → Cmp) (key : α → κ)

/-- `cmp_elems`, src/flat_ordered_map.c:855-862: the user's comparison of a key with the struct in slot `a`.  Slot 0 is
a struct like the others once it is in use. -/
def cmpAt (s : Fom α) (k : κ) (a : Nat) : Option Cmp :=
  if s.t.live a = true then some (cmp k (key (s.val a))) else none

/-- `ccc_fom_size`, src/flat_ordered_map.c:340-349. -/
def size (s : Fom α) : Nat := if s.sz = 0 then s.sz else s.sz - 1
/-- `ccc_fom_is_empty`, src/flat_ordered_map.c:334-338. -/
def isEmpty (s : Fom α) : Bool := size s == 0
/-- `ccc_fom_capacity`, src/flat_ordered_map.c:351-359. -/
def capacity (s : Fom α) : Nat := s.cap

/-- `fom->root_ = splay(fom, fom->root_, key, fom->cmp_)`, and the comparison of the key with the new root that follows
it everywhere. -/
def splayTo (s : Fom α) (k : κ) : Option (Fom α × Cmp) := do
  let (t, r) ← splay s.t (cmpAt cmp key s k) s.t.root
  let s := { s with t := t.setRoot r }
  let q ← cmpAt cmp key s k s.t.root
  some (s, q)

/-- `find`, src/flat_ordered_map.c:749-760. -/
def find (s : Fom α) (k : κ) : Option (Fom α × Slot) :=
  if s.t.root = 0 then some (s, none)
  else do
    let (s, q) ← splayTo cmp key s k
    some (s, if q = .eql then some s.t.root else none)

/-- `ccc_fom_contains`, src/flat_ordered_map.c:99-108.  There is no test for an empty tree. -/
def contains (s : Fom α) (k : κ) : Option (Fom α × Bool) := do
  let (s, q) ← splayTo cmp key s k
  some (s, q == .eql)

/-- `ccc_fom_get_key_val`, src/flat_ordered_map.c:110-118. -/
def get (s : Fom α) (k : κ) : Option (Fom α × Slot) := find cmp key s k

/-- `alloc_back`, src/flat_ordered_map.c:864-874; `ccc_impl_fom_alloc_back`, 577-581. -/
def allocBack (s : Fom α) (ans : Option (Junk α)) : Fom α × Slot :=
  if s.sz = 0 then
    match bufAllocBack s ans with
    | (s, none) => (s, none)
    | (s, some _) => bufAllocBack s ans
  else bufAllocBack s ans

/-- `insert`, src/flat_ordered_map.c:649-667; `ccc_impl_fom_insert`, 544-548. -/
def insertNode (s : Fom α) (n : Nat) : Option (Fom α × Slot) := do
  let t ← initNode s.t n
  let s := { s with t := t }
  if s.sz = 2 then some ({ s with t := s.t.setRoot n }, some n)
  else do
    let (s, rc) ← splayTo cmp key s (key (s.val n))
    if rc = .eql then some (s, none)
    else do
      let t ← connectNewRoot s.t n rc
      some ({ s with t := t }, some n)

/-- `maybe_alloc_insert`, src/flat_ordered_map.c:634-647.  `ccc_buf_write` also copies the link fields of the user's
struct, all of which `insert` overwrites at once. -/
def maybeAllocInsert (s : Fom α) (x : α) (ans : Option (Junk α)) : Option (Fom α × Slot) :=
  match allocBack s ans with
  | (s, none) => some (s, none)
  | (s, some _) => do
    let node := s.sz - 1
    let s ← setVal s node x
    insertNode cmp key s node

/-- `swap_and_pop`, src/flat_ordered_map.c:687-716.  `sz_` is decremented first in C; the slot at the new `sz_` is still
accessed (it lies below the capacity), so the model decrements last. -/
def swapAndPop (s : Fom α) (vacant : Nat) : Option (Fom α) :=
  let x := s.sz - 1
  if vacant = x then some (setSize s x)
  else do
    req (vacant != 0)
    req (x != 0)
    let t := s.t
    let t ← (if x = t.root then some (t.setRoot vacant)
      else do
        let p ← t.getPar x
        let r ← t.getBr p true
        t.setBr p (r == x) vacant)
    let r ← t.getBr x true
    let t ← t.setPar r vacant
    let l ← t.getBr x false
    let t ← t.setPar l vacant
    let s := { s with t := t }
    let s ← copySlot s 0 vacant
    let s ← copySlot s vacant x
    let s ← copySlot s x 0
    let t ← s.t.setPar x 0
    let t ← t.setBr x true 0
    let t ← t.setBr x false 0
    some (setSize { s with t := t } x)

/-- `erase`, src/flat_ordered_map.c:669-685: returns the slot behind the last element, which holds the erased one. -/
def erase (s : Fom α) (k : κ) : Option (Fom α × Slot) :=
  if isEmpty s then some (s, none)
  else do
    let (t, ret) ← splay s.t (cmpAt cmp key s k) s.t.root
    let s := { s with t := t }
    let q ← cmpAt cmp key s k ret
    if q ≠ .eql then some (s, none)
    else do
      let t ← removeFromTree s.t (cmpAt cmp key s (key (s.val ret))) ret
      let s ← swapAndPop { s with t := t } ret
      some (s, some s.sz)

/-- `ccc_fom_insert`, src/flat_ordered_map.c:197-222.  In the occupied case the user's struct first receives the links
of the root, then the two structs are swapped through slot 0 (`swap(tmp, user_struct, ret)`: slot 0 receives the user's
struct).  The third component is the data in the user's struct after the call. -/
def insert (s : Fom α) (x : α) (ans : Option (Junk α)) : Option (Fom α × Ent × α) := do
  let (s, f) ← find cmp key s (key x)
  if f.isSome then do
    let r := s.t.root
    req (r != 0)
    let t ← copyLinks s.t 0 r
    let s := { s with t := t }
    let s ← setVal s 0 x
    let old := s.val r
    let s ← setVal s r (s.val 0)
    some (s, ⟨some r, Stat.occupied⟩, old)
  else do
    let (s, i) ← maybeAllocInsert cmp key s x ans
    match i with
    | none => some (s, ⟨none, Stat.insertError⟩, x)
    | some _ => some (s, ⟨none, Stat.vacant⟩, x)

/-- `ccc_fom_try_insert`, src/flat_ordered_map.c:224-244. -/
def tryInsert (s : Fom α) (x : α) (ans : Option (Junk α)) : Option (Fom α × Ent) := do
  let (s, f) ← find cmp key s (key x)
  match f with
  | some a => do
    req (s.t.root != 0)
    some (s, ⟨some a, Stat.occupied⟩)
  | none => do
    let (s, i) ← maybeAllocInsert cmp key s x ans
    match i with
    | none => some (s, ⟨none, Stat.insertError⟩)
    | some n => some (s, ⟨some n, Stat.vacant⟩)

/-- `ccc_fom_insert_or_assign`, src/flat_ordered_map.c:246-269: the user's struct receives the links of the found slot
and is then copied over it, so only the data change. -/
def insertOrAssign (s : Fom α) (x : α) (ans : Option (Junk α)) : Option (Fom α × Ent) := do
  let (s, f) ← find cmp key s (key x)
  match f with
  | some a => do
    req (s.t.root != 0)
    let s ← setVal s a x
    some (s, ⟨some a, Stat.occupied⟩)
  | none => do
    let (s, i) ← maybeAllocInsert cmp key s x ans
    match i with
    | none => some (s, ⟨none, Stat.insertError⟩)
    | some n => some (s, ⟨some n, Stat.vacant⟩)

/-- `ccc_fom_remove`, src/flat_ordered_map.c:271-285. -/
def remove (s : Fom α) (x : α) : Option (Fom α × Ent) := do
  let (s, n) ← erase cmp key s (key x)
  match n with
  | none => some (s, ⟨none, Stat.vacant⟩)
  | some n => some (s, ⟨some n, Stat.occupied⟩)

/-- `struct ccc_ftree_entry_`, ccc/impl/impl_flat_ordered_map.h:27-36; the map it points to is a separate argument
here. -/
structure FEnt where
  i : Nat
  stats : Nat

/-- `entry`, src/flat_ordered_map.c:615-632; `ccc_fom_entry`, 120-128; `ccc_impl_fom_entry`, 550-554. -/
def entry (s : Fom α) (k : κ) : Option (Fom α × FEnt) := do
  let (s, f) ← find cmp key s k
  match f with
  | some a => some (s, ⟨a, Stat.occupied⟩)
  | none => some (s, ⟨0, Stat.vacant⟩)

/-- `ccc_fom_insert_entry`, src/flat_ordered_map.c:130-146. -/
def insertEntry (s : Fom α) (e : FEnt) (x : α) (ans : Option (Junk α)) : Option (Fom α × Slot) :=
  if e.stats = Stat.occupied then do
    let s ← setVal s e.i x
    some (s, some e.i)
  else maybeAllocInsert cmp key s x ans

/-- `ccc_fom_and_modify`, `ccc_fom_and_modify_aux`, src/flat_ordered_map.c:148-181, and the macro
`ccc_impl_fom_and_modify_w`, ccc/impl/impl_flat_ordered_map.h:69-89. -/
def andModify (s : Fom α) (e : FEnt) (f : α → α) : Option (Fom α) :=
  if Stat.has e.stats Stat.occupied then setVal s e.i (f (s.val e.i)) else some s

/-- `ccc_fom_or_insert`, src/flat_ordered_map.c:183-195. -/
def orInsert (s : Fom α) (e : FEnt) (x : α) (ans : Option (Junk α)) : Option (Fom α × Slot) :=
  if Stat.has e.stats Stat.occupied then some (s, some e.i) else maybeAllocInsert cmp key s x ans

/-- `ccc_fom_remove_entry`, src/flat_ordered_map.c:287-302. -/
def removeEntry (s : Fom α) (e : FEnt) : Option (Fom α × Ent) :=
  if e.stats = Stat.occupied then do
    let (s, p) ← erase cmp key s (key (s.val e.i))
    let n ← p
    some (s, ⟨some n, Stat.occupied⟩)
  else some (s, ⟨none, Stat.vacant⟩)

/-- `ccc_fom_unwrap`, src/flat_ordered_map.c:304-314, with the bounds check of `ccc_buf_at`, src/buffer.c:38-46. -/
def unwrap (s : Fom α) (e : FEnt) : Slot :=
  if e.stats = Stat.occupied then (if e.i ≥ s.cap then none else some e.i) else none
/-- `ccc_fom_insert_error`, src/flat_ordered_map.c:316-320. -/
def insertError (e : FEnt) : Bool := Stat.has e.stats Stat.insertError
/-- `ccc_fom_occupied`, src/flat_ordered_map.c:322-326. -/
def occupied (e : FEnt) : Bool := Stat.has e.stats Stat.occupied
/-- `ccc_fom_entry_status`, src/flat_ordered_map.c:328-332. -/
def entryStatus (e : FEnt) : Nat := e.stats

/-- `ccc_impl_fom_or_insert_w`, ccc/impl/impl_flat_ordered_map.h:91-119: `x` is the value of the lazy expression; the
result of `insert` is ignored. -/
def orInsertW (s : Fom α) (e : FEnt) (x : α) (ans : Option (Junk α)) : Option (Fom α × Slot) :=
  if e.stats = Stat.occupied then some (s, if e.i ≥ s.cap then none else some e.i)
  else
    match allocBack s ans with
    | (s, none) => some (s, none)
    | (s, some a) => do
      let s ← setVal s a x
      let (s, _) ← insertNode cmp key s (s.sz - 1)
      some (s, some a)

/-- `ccc_impl_fom_insert_entry_w`, ccc/impl/impl_flat_ordered_map.h:121-155. -/
def insertEntryW (s : Fom α) (e : FEnt) (x : α) (ans : Option (Junk α)) : Option (Fom α × Slot) :=
  if !Stat.has e.stats Stat.occupied then
    match allocBack s ans with
    | (s, none) => some (s, none)
    | (s, some a) => do
      let s ← setVal s a x
      let (s, _) ← insertNode cmp key s (s.sz - 1)
      some (s, some a)
  else if e.stats = Stat.occupied then do
    let s ← setVal s e.i x
    some (s, some e.i)
  else some (s, none)

/-- The common vacant branch of the next two macros, ccc/impl/impl_flat_ordered_map.h:167-185, 209-229: `x` is the lazy
value after the key was copied into it. -/
def insertVacantW (s : Fom α) (x : α) (ans : Option (Junk α)) : Option (Fom α × Ent) :=
  match allocBack s ans with
  | (s, none) => some (s, ⟨none, Stat.insertError⟩)
  | (s, some a) => do
    let s ← setVal s a x
    let (s, _) ← insertNode cmp key s a
    some (s, ⟨some a, Stat.vacant⟩)

/-- `ccc_impl_fom_try_insert_w`, ccc/impl/impl_flat_ordered_map.h:157-195. -/
def tryInsertW (s : Fom α) (k : κ) (x : α) (ans : Option (Junk α)) : Option (Fom α × Ent) := do
  let (s, e) ← entry cmp key s k
  if !Stat.has e.stats Stat.occupied then insertVacantW cmp key s x ans
  else if e.stats = Stat.occupied then some (s, ⟨if e.i ≥ s.cap then none else some e.i, e.stats⟩)
  else some (s, ⟨none, Stat.inputError⟩)

/-- `ccc_impl_fom_insert_or_assign_w`, ccc/impl/impl_flat_ordered_map.h:197-251. -/
def insertOrAssignW (s : Fom α) (k : κ) (x : α) (ans : Option (Junk α)) : Option (Fom α × Ent) := do
  let (s, e) ← entry cmp key s k
  if !Stat.has e.stats Stat.occupied then insertVacantW cmp key s x ans
  else if e.stats = Stat.occupied then do
    let s ← setVal s e.i x
    some (s, ⟨some e.i, e.stats⟩)
  else some (s, ⟨none, Stat.inputError⟩)

/-- `ccc_fom_begin` (`dir = false`), `ccc_fom_rbegin` (`dir = true`), src/flat_ordered_map.c:361-381; `min_max_from`,
817-828. -/
def begin_ (s : Fom α) (dir : Bool) : Option Slot :=
  if s.sz = 0 then some none else do
    let m ← Wavl.minMaxFrom s.t s.t.root dir
    some (some m)
/-- `ccc_fom_next` (`trav = true`), `ccc_fom_rnext`, src/flat_ordered_map.c:383-405; `next`, 830-853. -/
def next (s : Fom α) (e : Nat) (trav : Bool) : Option Slot :=
  if s.sz = 0 then some none else do
    let n ← Wavl.next s.t e trav
    some (some n)
/-- `ccc_fom_end`, `ccc_fom_rend`, src/flat_ordered_map.c:407-425. -/
def end_ (s : Fom α) : Slot := if s.sz = 0 then none else some 0

/-- `equal_range`, src/flat_ordered_map.c:585-613; `ccc_fom_equal_range`, `ccc_fom_equal_rrange`, 433-455. -/
def equalRange (s : Fom α) (b e : κ) (trav : Bool) : Option (Fom α × Slot × Slot) :=
  if isEmpty s then some (s, none, none)
  else do
    let (t, x, y) ← Splay.equalRange s.t (cmpAt cmp key s b) (cmpAt cmp key s e) trav
    some ({ s with t := t }, some x, some y)

/-- `ccc_fom_clear`, src/flat_ordered_map.c:491-512; `destroy` says whether `fn` is non-NULL.  The list is what the
destructor was called with. -/
def clear (s : Fom α) (destroy : Bool) : Option (Fom α × List (Nat × α) × Res) := do
  let d ← (if destroy then destroyLoop s (if 1 ≥ s.cap then none else some 1) [] else some [])
  let (s, _) := sizeSet s 1
  some ({ s with t := s.t.setRoot 0 }, d, .ok)

/-- `ccc_fom_clear_and_free`, src/flat_ordered_map.c:514-534.  `ccc_buf_alloc` with capacity 0 (src/buffer.c:16-36)
frees the memory and does not touch `sz_`. -/
def clearAndFree (s : Fom α) (destroy : Bool) : Option (Fom α × List (Nat × α) × Res) := do
  let d ← (if destroy then destroyLoop s (if 1 ≥ s.cap then none else some 1) [] else some [])
  let s := { s with t := s.t.setRoot 0 }
  if s.hasAlloc then some ({ s with cap := 0, t := { s.t with live := inUse s.sz 0 } }, d, .ok)
  else some (s, d, .noAlloc)

/-- `ccc_fom_copy`, src/flat_ordered_map.c:457-489, has the statements of `ccc_frm_copy`. -/
def copy (dst src : Fom α) (fn : Option (Option (Junk α))) : Fom α × Res := Frm.copy dst src fn

/-- `validate`, src/flat_ordered_map.c:1030-1047; `ccc_fom_validate`, 536-540.  The three recursive checks
(978-1028) have the statements of those of the realtime map. -/
def validate (s : Fom α) : Option Bool := do
  let a ← Rom.areSubtreesValid cmp key (asRom s) 0 s.t.root 0
  if !a then some false
  else do
    let n ← Rom.recursiveSize s.t s.t.root
    if n ≠ 0 ∧ n ≠ s.sz - 1 then some false
    else Rom.isStoringParent s.t 0 s.t.root

/-! ### Histories -/
open FlatMap

/-- One call of the interface. -/
def step (s : Fom α) : Op α κ (Junk α) → Option (Fom α × Out α)
  | .insert x ans => do
    let (s, e, h) ← insert cmp key s x ans
    some (s, .insEnt e.stats (view s (Ent.unwrap (some e))) h)
  | .tryInsert x ans => do
    let (s, e) ← tryInsert cmp key s x ans
    some (s, .ent e.stats (view s (Ent.unwrap (some e))))
  | .insertOrAssign x ans => do
    let (s, e) ← insertOrAssign cmp key s x ans
    some (s, .ent e.stats (view s (Ent.unwrap (some e))))
  | .remove x => do
    let (s, e) ← remove cmp key s x
    some (s, .ent e.stats (view s (Ent.unwrap (some e))))
  | .orInsert k x ans => do
    let (s, e) ← entry cmp key s k
    let (s, p) ← orInsert cmp key s e x ans
    some (s, .ptr (view s p))
  | .insertEntry k x ans => do
    let (s, e) ← entry cmp key s k
    let (s, p) ← insertEntry cmp key s e x ans
    some (s, .ptr (view s p))
  | .removeEntry k => do
    let (s, e) ← entry cmp key s k
    let (s, e) ← removeEntry cmp key s e
    some (s, .ent e.stats (view s (Ent.unwrap (some e))))
  | .andModify k f => do
    let (s, e) ← entry cmp key s k
    let s ← andModify s e f
    some (s, .ptr (view s (unwrap s e)))
  | .occupied k => do
    let (s, e) ← entry cmp key s k
    some (s, .flag (occupied e))
  | .orInsertW k x ans => do
    let (s, e) ← entry cmp key s k
    let (s, p) ← orInsertW cmp key s e x ans
    some (s, .ptr (view s p))
  | .insertEntryW k x ans => do
    let (s, e) ← entry cmp key s k
    let (s, p) ← insertEntryW cmp key s e x ans
    some (s, .ptr (view s p))
  | .tryInsertW k x ans => do
    let (s, e) ← tryInsertW cmp key s k x ans
    some (s, .ent e.stats (view s (Ent.unwrap (some e))))
  | .insertOrAssignW k x ans => do
    let (s, e) ← insertOrAssignW cmp key s k x ans
    some (s, .ent e.stats (view s (Ent.unwrap (some e))))
  | .contains k => do
    let (s, b) ← contains cmp key s k
    some (s, .flag b)
  | .get k => do
    let (s, p) ← get cmp key s k
    some (s, .ptr (view s p))
  | .begin => do
    let p ← begin_ s false
    some (s, .ptr (view s p))
  | .rbegin => do
    let p ← begin_ s true
    some (s, .ptr (view s p))
  | .next a => do
    let p ← next s a true
    some (s, .ptr (view s p))
  | .rnext a => do
    let p ← next s a false
    some (s, .ptr (view s p))
  | .end_ => some (s, .ptr (view s (end_ s)))
  | .equalRange b e => do
    let (s, x, y) ← equalRange cmp key s b e true
    some (s, .range (view s x) (view s y))
  | .equalRrange b e => do
    let (s, x, y) ← equalRange cmp key s b e false
    some (s, .range (view s x) (view s y))
  | .size => some (s, .num (size s))
  | .isEmpty => some (s, .flag (isEmpty s))
  | .capacity => some (s, .num (capacity s))
  | .validate => do
    let b ← validate cmp key s
    some (s, .flag b)
  | .clear => do
    let (s, _, r) ← clear s false
    some (s, .result r)

/-- A history of calls. -/
def run (s : Fom α) : List (Op α κ (Junk α)) → Option (Fom α × List (Out α))
  | [] => some (s, [])
  | o :: os => do
    let (s, r) ← step cmp key s o
    let (s, rs) ← run s os
    some (s, r :: rs)

end CCC.Fom
