import Verif.Model.FlatRealtimeMap
import Verif.Model.FlatDequeWord
/-
The flat realtime ordered map once more, with `size_t` arithmetic modulo 2^64 wherever the source adds, subtracts or
multiplies.  The data structure, memory accesses, the allocator and the simplifications are those of
`Model/FlatRealtimeMap.lean`; functions without arithmetic are not repeated.
-/
namespace CCC.Frm
open CCC Wavl CCC.Word FlatMap
variable {α κ : Type} (cmp : κ → κ → Cmp) (key : α → κ)

/-- `recursive_size`, src/flat_realtime_ordered_map.c:1364-1373, src/flat_ordered_map.c:978-987. -/
def recursiveSize64 (t : Links) (r : Nat) : Option Nat :=
  if r = 0 then some 0
  else do
    let br ← t.getBr r true
    let a ← recursiveSize64 t br
    let bl ← t.getBr r false
    let b ← recursiveSize64 t bl
    some (1 +ʷ a +ʷ b)
partial_fixpoint

/-- `ccc_buf_alloc_back`, src/buffer.c:60-78 (model of the buffer itself: `Buf.allocBack`).  Returns the slot. -/
def bufAllocBack64 (s : Frm α) (ans : Option (Junk α)) : Frm α × Slot :=
  if s.sz = s.cap then
    match (if s.hasAlloc then ans else none) with
    | none => (s, none)
    | some j =>
      let s := growTo s (if s.cap ≠ 0 then s.cap *ʷ 2 else Buf.startCapacity) j
      (setSize s (s.sz +ʷ 1), some s.sz)
  else (setSize s (s.sz +ʷ 1), some s.sz)
/-- `alloc_back`, src/flat_realtime_ordered_map.c:791-806. -/
def allocBack64 (s : Frm α) (ans : Option (Junk α)) : Option (Frm α × Slot) :=
  if s.sz = 0 then
    match bufAllocBack64 s ans with
    | (s, none) => some (s, none)
    | (s, some a) => do
      let t ← s.t.setParity a true
      some (bufAllocBack64 { s with t := t } ans)
  else some (bufAllocBack64 s ans)
/-- `maybe_alloc_insert`, src/flat_realtime_ordered_map.c:640-654.  `ccc_buf_write` also copies the link fields of the
user's struct, all of which `insert` overwrites at once. -/
def maybeAllocInsert64 (s : Frm α) (parent : Nat) (last : Cmp) (x : α) (ans : Option (Junk α)) :
    Option (Frm α × Slot) := do
  let (s, p) ← allocBack64 s ans
  match p with
  | none => some (s, none)
  | some _ => do
    let node := s.sz -ʷ 1
    let s ← setVal s node x
    let s ← insertNode s parent last node
    some (s, some node)
/-- `swap_and_pop`, src/flat_realtime_ordered_map.c:1105-1135.  `sz_` is decremented first in C; the slot at the new
`sz_` is still accessed (it lies below the capacity), so the model decrements last. -/
def swapAndPop64 (s : Frm α) (vacant : Nat) : Option (Frm α) :=
  let x := s.sz -ʷ 1
  if vacant = x then some (setSize s x)
  else do
    req (vacant != 0)
    req (x != 0)
    let t := s.t
    let t ← (if x = t.root then some (t.setRoot vacant)
      else do
        let p ← t.getPar x
        let r ← t.getBr p true
        t.setBr p (r == x) vacant)
    let r ← t.getBr x true
    let t ← t.setPar r vacant
    let l ← t.getBr x false
    let t ← t.setPar l vacant
    let s := { s with t := t }
    let s ← copySlot s 0 vacant
    let s ← copySlot s vacant x
    let s ← copySlot s x 0
    let t ← s.t.setParity 0 true
    let t ← t.setParity x false
    let t ← t.setPar x 0
    let t ← t.setBr x true 0
    let t ← t.setBr x false 0
    some (setSize { s with t := t } x)
/-- `remove_fixup`, src/flat_realtime_ordered_map.c:946-1007: returns the slot that holds the removed element
afterwards. -/
def removeFixup64 (s : Frm α) (rm : Nat) : Option (Frm α × Nat) := do
  let t ← removeLinks s.t rm
  let s ← swapAndPop64 { s with t := t } rm
  some (s, s.sz)
/-- `ccc_frm_insert`, src/flat_realtime_ordered_map.c:178-204.  In the occupied case the user's struct first receives
the links of the found slot, then the two structs are swapped through slot 0 (`swap(tmp, user_struct, slot)`: slot 0
receives the user's struct).  The third component is the data in the user's struct after the call. -/
def insert64 (s : Frm α) (x : α) (ans : Option (Junk α)) : Option (Frm α × Ent × α) := do
  let q ← find cmp key s (key x)
  if q.1 = .eql then do
    let t ← copyLinks s.t 0 q.2
    let s := { s with t := t }
    let s ← setVal s 0 x
    let old := s.val q.2
    let s ← setVal s q.2 (s.val 0)
    let t ← s.t.setParity 0 true
    some ({ s with t := t }, ⟨some q.2, Stat.occupied⟩, old)
  else do
    let (s, i) ← maybeAllocInsert64 s q.2 q.1 x ans
    match i with
    | none => some (s, ⟨none, Stat.insertError⟩, x)
    | some _ => some (s, ⟨none, Stat.vacant⟩, x)
/-- `ccc_frm_try_insert`, src/flat_realtime_ordered_map.c:206-227. -/
def tryInsert64 (s : Frm α) (x : α) (ans : Option (Junk α)) : Option (Frm α × Ent) := do
  let q ← find cmp key s (key x)
  if q.1 = .eql then some (s, ⟨some q.2, Stat.occupied⟩)
  else do
    let (s, i) ← maybeAllocInsert64 s q.2 q.1 x ans
    match i with
    | none => some (s, ⟨none, Stat.insertError⟩)
    | some n => some (s, ⟨some n, Stat.vacant⟩)
/-- `ccc_frm_insert_or_assign`, src/flat_realtime_ordered_map.c:229-253: the user's struct receives the links of the
found slot and is then copied over it, so only the data change. -/
def insertOrAssign64 (s : Frm α) (x : α) (ans : Option (Junk α)) : Option (Frm α × Ent) := do
  let q ← find cmp key s (key x)
  if q.1 = .eql then do
    let s ← setVal s q.2 x
    some (s, ⟨some q.2, Stat.occupied⟩)
  else do
    let (s, i) ← maybeAllocInsert64 s q.2 q.1 x ans
    match i with
    | none => some (s, ⟨none, Stat.insertError⟩)
    | some n => some (s, ⟨some n, Stat.vacant⟩)
/-- `ccc_frm_or_insert`, src/flat_realtime_ordered_map.c:278-291. -/
def orInsert64 (s : Frm α) (e : FEnt) (x : α) (ans : Option (Junk α)) : Option (Frm α × Slot) :=
  if e.stats = Stat.occupied then some (s, some e.i) else maybeAllocInsert64 s e.i e.last x ans
/-- `ccc_frm_insert_entry`, src/flat_realtime_ordered_map.c:293-311. -/
def insertEntry64 (s : Frm α) (e : FEnt) (x : α) (ans : Option (Junk α)) : Option (Frm α × Slot) :=
  if e.stats = Stat.occupied then do
    let s ← setVal s e.i x
    some (s, some e.i)
  else maybeAllocInsert64 s e.i e.last x ans
/-- `ccc_frm_remove_entry`, src/flat_realtime_ordered_map.c:324-338. -/
def removeEntry64 (s : Frm α) (e : FEnt) : Option (Frm α × Ent) :=
  if e.stats = Stat.occupied then do
    let (s, a) ← removeFixup64 s e.i
    some (s, ⟨some a, Stat.occupied⟩)
  else some (s, ⟨none, Stat.vacant⟩)
/-- `ccc_frm_remove`, src/flat_realtime_ordered_map.c:340-358.  Returns the status, whether the entry refers to the
user's struct, and the data in that struct. -/
def remove64 (s : Frm α) (x : α) : Option (Frm α × Nat × Bool × α) := do
  let q ← find cmp key s (key x)
  if q.1 ≠ .eql then some (s, Stat.vacant, false, x)
  else do
    let (s, a) ← removeFixup64 s q.2
    some (s, Stat.occupied, true, s.val a)
/-- `ccc_impl_frm_or_insert_w`, ccc/impl/impl_flat_realtime_ordered_map.h:96-123: `x` is the value of the lazy
expression. -/
def orInsertW64 (s : Frm α) (e : FEnt) (x : α) (ans : Option (Junk α)) : Option (Frm α × Slot) :=
  if e.stats = Stat.occupied then some (s, if e.i ≥ s.cap then none else some e.i) else do
    let (s, p) ← allocBack64 s ans
    match p with
    | none => some (s, none)
    | some a => do
      let s ← setVal s a x
      let s ← insertNode s e.i e.last (s.sz -ʷ 1)
      some (s, some a)
/-- `ccc_impl_frm_insert_entry_w`, ccc/impl/impl_flat_realtime_ordered_map.h:125-163. -/
def insertEntryW64 (s : Frm α) (e : FEnt) (x : α) (ans : Option (Junk α)) : Option (Frm α × Slot) :=
  if !Stat.has e.stats Stat.occupied then do
    let (s, p) ← allocBack64 s ans
    match p with
    | none => some (s, none)
    | some a => do
      let s ← setVal s a x
      let s ← insertNode s e.i e.last (s.sz -ʷ 1)
      some (s, some a)
  else if e.stats = Stat.occupied then do
    let s ← setVal s e.i x
    some (s, some e.i)
  else some (s, none)
/-- The common vacant branch of the next two macros: `x` is the lazy value after the key was copied into it. -/
def insertVacantW64 (s : Frm α) (e : FEnt) (x : α) (ans : Option (Junk α)) : Option (Frm α × Ent) := do
  let (s, p) ← allocBack64 s ans
  match p with
  | none => some (s, ⟨none, Stat.insertError⟩)
  | some a => do
    let s ← setVal s a x
    let s ← insertNode s e.i e.last a
    some (s, ⟨some a, Stat.vacant⟩)
/-- `ccc_impl_frm_try_insert_w`, ccc/impl/impl_flat_realtime_ordered_map.h:165-203. -/
def tryInsertW64 (s : Frm α) (k : κ) (x : α) (ans : Option (Junk α)) : Option (Frm α × Ent) := do
  let e ← entry cmp key s k
  if !Stat.has e.stats Stat.occupied then insertVacantW64 s e x ans
  else if e.stats = Stat.occupied then some (s, ⟨if e.i ≥ s.cap then none else some e.i, e.stats⟩)
  else some (s, ⟨none, Stat.inputError⟩)
/-- `ccc_impl_frm_insert_or_assign_w`, ccc/impl/impl_flat_realtime_ordered_map.h:205-262. -/
def insertOrAssignW64 (s : Frm α) (k : κ) (x : α) (ans : Option (Junk α)) : Option (Frm α × Ent) := do
  let e ← entry cmp key s k
  if !Stat.has e.stats Stat.occupied then insertVacantW64 s e x ans
  else if e.stats = Stat.occupied then do
    let s ← setVal s e.i x
    some (s, ⟨some e.i, e.stats⟩)
  else some (s, ⟨none, Stat.inputError⟩)
/-- `ccc_frm_is_empty` and `ccc_frm_size`, src/flat_realtime_ordered_map.c:411-426. -/
def size64 (s : Frm α) : Nat := if s.sz = 0 then s.sz else s.sz -ʷ 1
def isEmpty64 (s : Frm α) : Bool := size64 s == 0
/-- `equal_range`, src/flat_realtime_ordered_map.c:744-767; `ccc_frm_equal_range`, `ccc_frm_equal_rrange`, 360-381. -/
def equalRange64 (s : Frm α) (b e : κ) (trav : Bool) : Option (Slot × Slot) :=
  if isEmpty64 s then some (none, none)
  else do
    let r ← Wavl.equalRange s.t (at_ cmp key s b) (at_ cmp key s e) trav
    some (some r.1, some r.2)
/-- `validate`, src/flat_realtime_ordered_map.c:1416-1437; `ccc_frm_validate`, 590-594. -/
def validate64 (s : Frm α) : Option Bool := do
  let p ← (if s.sz ≠ 0 then s.t.getParity 0 else some true)
  if !p then some false
  else do
    let a ← Rom.areSubtreesValid cmp key (asRom s) 0 s.t.root 0
    if !a then some false
    else do
      let n ← recursiveSize64 s.t s.t.root
      if n ≠ 0 ∧ n ≠ s.sz -ʷ 1 then some false
      else Rom.isStoringParent s.t 0 s.t.root
/-- One call of the interface. -/
def step64 (s : Frm α) : Op α κ (Junk α) → Option (Frm α × Out α)
  | .insert x ans => do
    let (s, e, h) ← insert64 cmp key s x ans
    some (s, .insEnt e.stats (view s (Ent.unwrap (some e))) h)
  | .tryInsert x ans => do
    let (s, e) ← tryInsert64 cmp key s x ans
    some (s, .ent e.stats (view s (Ent.unwrap (some e))))
  | .insertOrAssign x ans => do
    let (s, e) ← insertOrAssign64 cmp key s x ans
    some (s, .ent e.stats (view s (Ent.unwrap (some e))))
  | .remove x => do
    let (s, st, b, h) ← remove64 cmp key s x
    some (s, .remEnt st b h)
  | .orInsert k x ans => do
    let e ← entry cmp key s k
    let (s, p) ← orInsert64 s e x ans
    some (s, .ptr (view s p))
  | .insertEntry k x ans => do
    let e ← entry cmp key s k
    let (s, p) ← insertEntry64 s e x ans
    some (s, .ptr (view s p))
  | .removeEntry k => do
    let e ← entry cmp key s k
    let (s, e) ← removeEntry64 s e
    some (s, .ent e.stats (view s (Ent.unwrap (some e))))
  | .andModify k f => do
    let e ← entry cmp key s k
    let s ← andModify s e f
    some (s, .ptr (view s (unwrap s e)))
  | .occupied k => do
    let e ← entry cmp key s k
    some (s, .flag (occupied e))
  | .orInsertW k x ans => do
    let e ← entry cmp key s k
    let (s, p) ← orInsertW64 s e x ans
    some (s, .ptr (view s p))
  | .insertEntryW k x ans => do
    let e ← entry cmp key s k
    let (s, p) ← insertEntryW64 s e x ans
    some (s, .ptr (view s p))
  | .tryInsertW k x ans => do
    let (s, e) ← tryInsertW64 cmp key s k x ans
    some (s, .ent e.stats (view s (Ent.unwrap (some e))))
  | .insertOrAssignW k x ans => do
    let (s, e) ← insertOrAssignW64 cmp key s k x ans
    some (s, .ent e.stats (view s (Ent.unwrap (some e))))
  | .contains k => do
    let b ← contains cmp key s k
    some (s, .flag b)
  | .get k => do
    let p ← get cmp key s k
    some (s, .ptr (view s p))
  | .begin => do
    let p ← begin_ s false
    some (s, .ptr (view s p))
  | .rbegin => do
    let p ← begin_ s true
    some (s, .ptr (view s p))
  | .next a => do
    let p ← next s a true
    some (s, .ptr (view s p))
  | .rnext a => do
    let p ← next s a false
    some (s, .ptr (view s p))
  | .end_ => some (s, .ptr (view s (end_ s)))
  | .equalRange b e => do
    let r ← equalRange64 cmp key s b e true
    some (s, .range (view s r.1) (view s r.2))
  | .equalRrange b e => do
    let r ← equalRange64 cmp key s b e false
    some (s, .range (view s r.1) (view s r.2))
  | .size => some (s, .num (size64 s))
  | .isEmpty => some (s, .flag (isEmpty64 s))
  | .capacity => some (s, .num (capacity s))
  | .validate => do
    let b ← validate64 cmp key s
    some (s, .flag b)
  | .clear => do
    let (s, _, r) ← clear s false
    some (s, .result r)
/-- A history of calls. -/
def run64 (s : Frm α) : List (Op α κ (Junk α)) → Option (Frm α × List (Out α))
  | [] => some (s, [])
  | o :: os => do
    let (s, r) ← step64 cmp key s o
    let (s, rs) ← run64 s os
    some (s, r :: rs)

end CCC.Frm
