import Verif.Model.FlatOrderedMap
import Verif.Model.FlatRealtimeMapWord
/-
The flat ordered map once more, with `size_t` arithmetic modulo 2^64 wherever the source adds, subtracts or multiplies.
The data structure, memory accesses, the allocator and the simplifications are those of `Model/FlatOrderedMap.lean`;
functions without arithmetic are not repeated.
-/
namespace CCC.Fom
open CCC Splay CCC.Word FlatMap
open CCC.Frm (Frm Junk inUse setSize growTo bufAllocBack64 setVal copyLinks copySlot sizeSet destroyLoop asRom view recursiveSize64)
variable {α κ : Type} (cmp : κ → κ → Cmp) (key : α → κ)

/-- `ccc_fom_size`, src/flat_ordered_map.c:340-349. -/
def size64 (s : Fom α) : Nat := if s.sz = 0 then s.sz else s.sz -ʷ 1
/-- `ccc_fom_is_empty`, src/flat_ordered_map.c:334-338. -/
def isEmpty64 (s : Fom α) : Bool := size64 s == 0
/-- `alloc_back`, src/flat_ordered_map.c:864-874; `ccc_impl_fom_alloc_back`, 577-581. -/
def allocBack64 (s : Fom α) (ans : Option (Junk α)) : Fom α × Slot :=
  if s.sz = 0 then
    match bufAllocBack64 s ans with
    | (s, none) => (s, none)
    | (s, some _) => bufAllocBack64 s ans
  else bufAllocBack64 s ans
/-- `maybe_alloc_insert`, src/flat_ordered_map.c:634-647.  `ccc_buf_write` also copies the link fields of the user's
struct, all of which `insert` overwrites at once. -/
def maybeAllocInsert64 (s : Fom α) (x : α) (ans : Option (Junk α)) : Option (Fom α × Slot) :=
  match allocBack64 s ans with
  | (s, none) => some (s, none)
  | (s, some _) => do
    let node := s.sz -ʷ 1
    let s ← setVal s node x
    insertNode cmp key s node
/-- `swap_and_pop`, src/flat_ordered_map.c:687-716.  `sz_` is decremented first in C; the slot at the new `sz_` is still
accessed (it lies below the capacity), so the model decrements last. -/
def swapAndPop64 (s : Fom α) (vacant : Nat) : Option (Fom α) :=
  let x := s.sz -ʷ 1
  if vacant = x then some (setSize s x)
  else do
    req (vacant != 0)
    req (x != 0)
    let t := s.t
    let t ← (if x = t.root then some (t.setRoot vacant)
      else do
        let p ← t.getPar x
        let r ← t.getBr p true
        t.setBr p (r == x) vacant)
    let r ← t.getBr x true
    let t ← t.setPar r vacant
    let l ← t.getBr x false
    let t ← t.setPar l vacant
    let s := { s with t := t }
    let s ← copySlot s 0 vacant
    let s ← copySlot s vacant x
    let s ← copySlot s x 0
    let t ← s.t.setPar x 0
    let t ← t.setBr x true 0
    let t ← t.setBr x false 0
    some (setSize { s with t := t } x)
/-- `erase`, src/flat_ordered_map.c:669-685: returns the slot behind the last element, which holds the erased one. -/
def erase64 (s : Fom α) (k : κ) : Option (Fom α × Slot) :=
  if isEmpty64 s then some (s, none)
  else do
    let (t, ret) ← splay s.t (cmpAt cmp key s k) s.t.root
    let s := { s with t := t }
    let q ← cmpAt cmp key s k ret
    if q ≠ .eql then some (s, none)
    else do
      let t ← removeFromTree s.t (cmpAt cmp key s (key (s.val ret))) ret
      let s ← swapAndPop64 { s with t := t } ret
      some (s, some s.sz)
/-- `ccc_fom_insert`, src/flat_ordered_map.c:197-222.  In the occupied case the user's struct first receives the links
of the root, then the two structs are swapped through slot 0 (`swap(tmp, user_struct, ret)`: slot 0 receives the user's
struct).  The third component is the data in the user's struct after the call. -/
def insert64 (s : Fom α) (x : α) (ans : Option (Junk α)) : Option (Fom α × Ent × α) := do
  let (s, f) ← find cmp key s (key x)
  if f.isSome then do
    let r := s.t.root
    req (r != 0)
    let t ← copyLinks s.t 0 r
    let s := { s with t := t }
    let s ← setVal s 0 x
    let old := s.val r
    let s ← setVal s r (s.val 0)
    some (s, ⟨some r, Stat.occupied⟩, old)
  else do
    let (s, i) ← maybeAllocInsert64 cmp key s x ans
    match i with
    | none => some (s, ⟨none, Stat.insertError⟩, x)
    | some _ => some (s, ⟨none, Stat.vacant⟩, x)
/-- `ccc_fom_try_insert`, src/flat_ordered_map.c:224-244. -/
def tryInsert64 (s : Fom α) (x : α) (ans : Option (Junk α)) : Option (Fom α × Ent) := do
  let (s, f) ← find cmp key s (key x)
  match f with
  | some a => do
    req (s.t.root != 0)
    some (s, ⟨some a, Stat.occupied⟩)
  | none => do
    let (s, i) ← maybeAllocInsert64 cmp key s x ans
    match i with
    | none => some (s, ⟨none, Stat.insertError⟩)
    | some n => some (s, ⟨some n, Stat.vacant⟩)
/-- `ccc_fom_insert_or_assign`, src/flat_ordered_map.c:246-269: the user's struct receives the links of the found slot
and is then copied over it, so only the data change. -/
def insertOrAssign64 (s : Fom α) (x : α) (ans : Option (Junk α)) : Option (Fom α × Ent) := do
  let (s, f) ← find cmp key s (key x)
  match f with
  | some a => do
    req (s.t.root != 0)
    let s ← setVal s a x
    some (s, ⟨some a, Stat.occupied⟩)
  | none => do
    let (s, i) ← maybeAllocInsert64 cmp key s x ans
    match i with
    | none => some (s, ⟨none, Stat.insertError⟩)
    | some n => some (s, ⟨some n, Stat.vacant⟩)
/-- `ccc_fom_remove`, src/flat_ordered_map.c:271-285. -/
def remove64 (s : Fom α) (x : α) : Option (Fom α × Ent) := do
  let (s, n) ← erase64 cmp key s (key x)
  match n with
  | none => some (s, ⟨none, Stat.vacant⟩)
  | some n => some (s, ⟨some n, Stat.occupied⟩)
/-- `ccc_fom_insert_entry`, src/flat_ordered_map.c:130-146. -/
def insertEntry64 (s : Fom α) (e : FEnt) (x : α) (ans : Option (Junk α)) : Option (Fom α × Slot) :=
  if e.stats = Stat.occupied then do
    let s ← setVal s e.i x
    some (s, some e.i)
  else maybeAllocInsert64 cmp key s x ans
/-- `ccc_fom_or_insert`, src/flat_ordered_map.c:183-195. -/
def orInsert64 (s : Fom α) (e : FEnt) (x : α) (ans : Option (Junk α)) : Option (Fom α × Slot) :=
  if Stat.has e.stats Stat.occupied then some (s, some e.i) else maybeAllocInsert64 cmp key s x ans
/-- `ccc_fom_remove_entry`, src/flat_ordered_map.c:287-302. -/
def removeEntry64 (s : Fom α) (e : FEnt) : Option (Fom α × Ent) :=
  if e.stats = Stat.occupied then do
    let (s, p) ← erase64 cmp key s (key (s.val e.i))
    let n ← p
    some (s, ⟨some n, Stat.occupied⟩)
  else some (s, ⟨none, Stat.vacant⟩)
/-- `ccc_impl_fom_or_insert_w`, ccc/impl/impl_flat_ordered_map.h:91-119: `x` is the value of the lazy expression; the
result of `insert` is ignored. -/
def orInsertW64 (s : Fom α) (e : FEnt) (x : α) (ans : Option (Junk α)) : Option (Fom α × Slot) :=
  if e.stats = Stat.occupied then some (s, if e.i ≥ s.cap then none else some e.i)
  else
    match allocBack64 s ans with
    | (s, none) => some (s, none)
    | (s, some a) => do
      let s ← setVal s a x
      let (s, _) ← insertNode cmp key s (s.sz -ʷ 1)
      some (s, some a)
/-- `ccc_impl_fom_insert_entry_w`, ccc/impl/impl_flat_ordered_map.h:121-155. -/
def insertEntryW64 (s : Fom α) (e : FEnt) (x : α) (ans : Option (Junk α)) : Option (Fom α × Slot) :=
  if !Stat.has e.stats Stat.occupied then
    match allocBack64 s ans with
    | (s, none) => some (s, none)
    | (s, some a) => do
      let s ← setVal s a x
      let (s, _) ← insertNode cmp key s (s.sz -ʷ 1)
      some (s, some a)
  else if e.stats = Stat.occupied then do
    let s ← setVal s e.i x
    some (s, some e.i)
  else some (s, none)
/-- The common vacant branch of the next two macros, ccc/impl/impl_flat_ordered_map.h:167-185, 209-229: `x` is the lazy
value after the key was copied into it. -/
def insertVacantW64 (s : Fom α) (x : α) (ans : Option (Junk α)) : Option (Fom α × Ent) :=
  match allocBack64 s ans with
  | (s, none) => some (s, ⟨none, Stat.insertError⟩)
  | (s, some a) => do
    let s ← setVal s a x
    let (s, _) ← insertNode cmp key s a
    some (s, ⟨some a, Stat.vacant⟩)
/-- `ccc_impl_fom_try_insert_w`, ccc/impl/impl_flat_ordered_map.h:157-195. -/
def tryInsertW64 (s : Fom α) (k : κ) (x : α) (ans : Option (Junk α)) : Option (Fom α × Ent) := do
  let (s, e) ← entry cmp key s k
  if !Stat.has e.stats Stat.occupied then insertVacantW64 cmp key s x ans
  else if e.stats = Stat.occupied then some (s, ⟨if e.i ≥ s.cap then none else some e.i, e.stats⟩)
  else some (s, ⟨none, Stat.inputError⟩)
/-- `ccc_impl_fom_insert_or_assign_w`, ccc/impl/impl_flat_ordered_map.h:197-251. -/
def insertOrAssignW64 (s : Fom α) (k : κ) (x : α) (ans : Option (Junk α)) : Option (Fom α × Ent) := do
  let (s, e) ← entry cmp key s k
  if !Stat.has e.stats Stat.occupied then insertVacantW64 cmp key s x ans
  else if e.stats = Stat.occupied then do
    let s ← setVal s e.i x
    some (s, ⟨some e.i, e.stats⟩)
  else some (s, ⟨none, Stat.inputError⟩)
/-- `equal_range`, src/flat_ordered_map.c:585-613; `ccc_fom_equal_range`, `ccc_fom_equal_rrange`, 433-455. -/
def equalRange64 (s : Fom α) (b e : κ) (trav : Bool) : Option (Fom α × Slot × Slot) :=
  if isEmpty64 s then some (s, none, none)
  else do
    let (t, x, y) ← Splay.equalRange s.t (cmpAt cmp key s b) (cmpAt cmp key s e) trav
    some ({ s with t := t }, some x, some y)
/-- `validate`, src/flat_ordered_map.c:1030-1047; `ccc_fom_validate`, 536-540.  The three recursive checks
(978-1028) have the statements of those of the realtime map. -/
def validate64 (s : Fom α) : Option Bool := do
  let a ← Rom.areSubtreesValid cmp key (asRom s) 0 s.t.root 0
  if !a then some false
  else do
    let n ← recursiveSize64 s.t s.t.root
    if n ≠ 0 ∧ n ≠ s.sz -ʷ 1 then some false
    else Rom.isStoringParent s.t 0 s.t.root
/-- One call of the interface. -/
def step64 (s : Fom α) : Op α κ (Junk α) → Option (Fom α × Out α)
  | .insert x ans => do
    let (s, e, h) ← insert64 cmp key s x ans
    some (s, .insEnt e.stats (view s (Ent.unwrap (some e))) h)
  | .tryInsert x ans => do
    let (s, e) ← tryInsert64 cmp key s x ans
    some (s, .ent e.stats (view s (Ent.unwrap (some e))))
  | .insertOrAssign x ans => do
    let (s, e) ← insertOrAssign64 cmp key s x ans
    some (s, .ent e.stats (view s (Ent.unwrap (some e))))
  | .remove x => do
    let (s, e) ← remove64 cmp key s x
    some (s, .ent e.stats (view s (Ent.unwrap (some e))))
  | .orInsert k x ans => do
    let (s, e) ← entry cmp key s k
    let (s, p) ← orInsert64 cmp key s e x ans
    some (s, .ptr (view s p))
  | .insertEntry k x ans => do
    let (s, e) ← entry cmp key s k
    let (s, p) ← insertEntry64 cmp key s e x ans
    some (s, .ptr (view s p))
  | .removeEntry k => do
    let (s, e) ← entry cmp key s k
    let (s, e) ← removeEntry64 cmp key s e
    some (s, .ent e.stats (view s (Ent.unwrap (some e))))
  | .andModify k f => do
    let (s, e) ← entry cmp key s k
    let s ← andModify s e f
    some (s, .ptr (view s (unwrap s e)))
  | .occupied k => do
    let (s, e) ← entry cmp key s k
    some (s, .flag (occupied e))
  | .orInsertW k x ans => do
    let (s, e) ← entry cmp key s k
    let (s, p) ← orInsertW64 cmp key s e x ans
    some (s, .ptr (view s p))
  | .insertEntryW k x ans => do
    let (s, e) ← entry cmp key s k
    let (s, p) ← insertEntryW64 cmp key s e x ans
    some (s, .ptr (view s p))
  | .tryInsertW k x ans => do
    let (s, e) ← tryInsertW64 cmp key s k x ans
    some (s, .ent e.stats (view s (Ent.unwrap (some e))))
  | .insertOrAssignW k x ans => do
    let (s, e) ← insertOrAssignW64 cmp key s k x ans
    some (s, .ent e.stats (view s (Ent.unwrap (some e))))
  | .contains k => do
    let (s, b) ← contains cmp key s k
    some (s, .flag b)
  | .get k => do
    let (s, p) ← get cmp key s k
    some (s, .ptr (view s p))
  | .begin => do
    let p ← begin_ s false
    some (s, .ptr (view s p))
  | .rbegin => do
    let p ← begin_ s true
    some (s, .ptr (view s p))
  | .next a => do
    let p ← next s a true
    some (s, .ptr (view s p))
  | .rnext a => do
    let p ← next s a false
    some (s, .ptr (view s p))
  | .end_ => some (s, .ptr (view s (end_ s)))
  | .equalRange b e => do
    let (s, x, y) ← equalRange64 cmp key s b e true
    some (s, .range (view s x) (view s y))
  | .equalRrange b e => do
    let (s, x, y) ← equalRange64 cmp key s b e false
    some (s, .range (view s x) (view s y))
  | .size => some (s, .num (size64 s))
  | .isEmpty => some (s, .flag (isEmpty64 s))
  | .capacity => some (s, .num (capacity s))
  | .validate => do
    let b ← validate64 cmp key s
    some (s, .flag b)
  | .clear => do
    let (s, _, r) ← clear s false
    some (s, .result r)
/-- A history of calls. -/
def run64 (s : Fom α) : List (Op α κ (Junk α)) → Option (Fom α × List (Out α))
  | [] => some (s, [])
  | o :: os => do
    let (s, r) ← step64 cmp key s o
    let (s, rs) ← run64 s os
    some (s, r :: rs)

end CCC.Fom
