import Verif.Model.Splay
import Verif.Model.RealtimeMap
/-
Model of `src/ordered_map.c` (interface functions) and of the macros of `ccc/impl/impl_ordered_map.h`.  The tree
algorithms are in `Verif/Model/Splay.lean`.

As in `Verif/Model/RealtimeMap.lean` the address of a user struct also stands for the address of the intrusive element
inside it: `struct_base`, `elem_in_slot`, `key_from_node`, `key_in_slot` (src/ordered_map.c:495-512, 780-787) are offset
arithmetic and are not modelled.  Address 0 as an element is `&t->end_`; as a user pointer it is NULL.  Arguments are
taken to be non-NULL.  `size_` is a natural number: no memory holds 2^64 elements.
-/
namespace CCC.Om
open CCC Splay Rom PtrMap

/-- `struct ccc_tree_`, ccc/impl/impl_tree.h:52-64, has the fields of the realtime map's struct; the links have no
parity, the model's parity bits are never read. -/
abbrev Om (α : Type) := Rom.Rom α

/-- `ccc_tree_init`, ccc/impl/impl_tree.h:73-90; `ccc_impl_om_init`: root is the sentinel, which points to itself. -/
def init {α : Type} (mem : Nat → α) (alloc : Bool) : Om α := Rom.init mem alloc

variable {α κ : Type} (cmp : κ → κ → Cmp) (key : α → κ)

/-- `cmp`, src/ordered_map.c:789-798: the user's comparison of a key with the struct around the element at `a`.
Calling it on the sentinel or on something that is no element reads memory that is not a user struct. -/
def cmpAt (s : Om α) (k : κ) (a : Nat) : Option Cmp :=
  if a ≠ 0 ∧ s.t.live a = true then some (cmp k (key (s.val a))) else none

/-- `empty`, src/ordered_map.c:522-526; `root_` is never NULL. -/
def empty (s : Om α) : Bool := s.sz == 0 || s.t.root == 0

/-- `t->root_ = splay(t, t->root_, key, t->cmp_)`, and the comparison of the key with the new root that follows it
everywhere. -/
def splayTo (s : Om α) (k : κ) : Option (Om α × Cmp) := do
  let (t, r) ← splay s.t (cmpAt cmp key s k) s.t.root
  let s := { s with t := t.setRoot r }
  let q ← cmpAt cmp key s k s.t.root
  some (s, q)

/-- `find`, src/ordered_map.c:609-619. -/
def find (s : Om α) (k : κ) : Option (Om α × Slot) :=
  if s.t.root = 0 then some (s, none)
  else do
    let (s, q) ← splayTo cmp key s k
    some (s, if q = .eql then some s.t.root else none)

/-- `contains`, src/ordered_map.c:621-626; `ccc_om_contains`, 97-105.  There is no test for an empty tree. -/
def contains (s : Om α) (k : κ) : Option (Om α × Bool) := do
  let (s, q) ← splayTo cmp key s k
  some (s, q == .eql)

/-- `ccc_om_get_key_val`, src/ordered_map.c:301-309. -/
def get (s : Om α) (k : κ) : Option (Om α × Slot) := find cmp key s k

/-- `alloc_insert`, src/ordered_map.c:628-662.  `ans` is the allocator's answer.  Simplification: `init_node` is applied
to the handle and the links are then copied with the struct; here the struct that becomes an element is
initialised. -/
def allocInsert (s : Om α) (h : Nat) (ans : Option Nat) : Option (Om α × Slot) := do
  let (s, rc) ← (if !empty s then splayTo cmp key s (key (s.val h)) else some (s, .err))
  if rc = .eql then some (s, none)
  else
    match (if s.alloc then ans else some h) with
    | none => some (s, none)
    | some n => do
      let v := if s.alloc then upd s.val n (s.val h) else s.val
      let t ← initNode { s.t with live := upd s.t.live n true } n
      if empty s then some ({ s with t := t.setRoot n, sz := 1, val := v }, some n)
      else do
        req (rc != .err)
        let t ← connectNewRoot t n rc
        some ({ s with t := t, sz := s.sz + 1, val := v }, some n)

/-- `insert`, src/ordered_map.c:664-683: the struct at `n` becomes an element; also `ccc_impl_om_insert`, 454-458. -/
def insertNode (s : Om α) (n : Nat) : Option (Om α × Slot) := do
  let t ← initNode { s.t with live := upd s.t.live n true } n
  let s := { s with t := t }
  if empty s then some ({ s with t := t.setRoot n, sz := 1 }, some n)
  else do
    let (s, rc) ← splayTo cmp key s (key (s.val n))
    if rc = .eql then some (s, none)
    else do
      let t ← connectNewRoot s.t n rc
      some ({ s with t := t, sz := s.sz + 1 }, some n)

/-- `erase`, src/ordered_map.c:699-716.  The links of the erased element become NULL: it is no element any more. -/
def erase (s : Om α) (k : κ) : Option (Om α × Slot) :=
  if empty s then some (s, none)
  else do
    let (t, ret) ← splay s.t (cmpAt cmp key s k) s.t.root
    let s := { s with t := t }
    let q ← cmpAt cmp key s k ret
    if q ≠ .eql then some (s, none)
    else do
      let t ← removeFromTree s.t (cmpAt cmp key s (key (s.val ret))) ret
      some ({ s with t := { t with live := upd t.live ret false }, sz := s.sz - 1 }, some ret)

/-- `ccc_om_insert`, src/ordered_map.c:173-204.  In the occupied case the struct of the handle first receives the links
of the root, then the two structs are swapped through the struct of `tmp`: the links of the stored element stay and
the user data move. -/
def insert (s : Om α) (h tmp : Nat) (ans : Option Nat) : Option (Om α × Ent) := do
  let (s, f) ← find cmp key s (key (s.val h))
  if f.isSome then do
    req (s.t.root != 0)
    let v := upd s.val tmp (s.val s.t.root)
    let v := upd v s.t.root (v h)
    let v := upd v h (v tmp)
    some ({ s with val := v }, ⟨some tmp, Stat.occupied⟩)
  else do
    let (s, i) ← allocInsert cmp key s h ans
    match i with
    | none => some (s, ⟨none, Stat.insertError⟩)
    | some _ => some (s, ⟨none, Stat.vacant⟩)

/-- `ccc_om_try_insert`, src/ordered_map.c:206-228. -/
def tryInsert (s : Om α) (h : Nat) (ans : Option Nat) : Option (Om α × Ent) := do
  let (s, f) ← find cmp key s (key (s.val h))
  if f.isSome then do
    req (s.t.root != 0)
    some (s, ⟨some s.t.root, Stat.occupied⟩)
  else do
    let (s, i) ← allocInsert cmp key s h ans
    match i with
    | none => some (s, ⟨none, Stat.insertError⟩)
    | some n => some (s, ⟨some n, Stat.vacant⟩)

/-- `ccc_om_insert_or_assign`, src/ordered_map.c:230-254. -/
def insertOrAssign (s : Om α) (h : Nat) (ans : Option Nat) : Option (Om α × Ent) := do
  let (s, f) ← find cmp key s (key (s.val h))
  match f with
  | some a => do
    req (s.t.root != 0)
    some ({ s with val := upd s.val a (s.val h) }, ⟨some a, Stat.occupied⟩)
  | none => do
    let (s, i) ← allocInsert cmp key s h ans
    match i with
    | none => some (s, ⟨none, Stat.insertError⟩)
    | some n => some (s, ⟨some n, Stat.vacant⟩)

/-- `ccc_om_remove`, src/ordered_map.c:256-277.  Freed memory is not modelled beyond the struct not being an element
any more. -/
def remove (s : Om α) (h : Nat) : Option (Om α × Ent) := do
  let (s, n) ← erase cmp key s (key (s.val h))
  match n with
  | none => some (s, ⟨none, Stat.vacant⟩)
  | some n =>
    if s.alloc then some ({ s with val := upd s.val h (s.val n) }, ⟨some h, Stat.occupied⟩)
    else some (s, ⟨some n, Stat.occupied⟩)

/-- `container_entry`, src/ordered_map.c:482-493; `ccc_om_entry`, 107-115; `ccc_impl_om_entry`, 448-452.  The entry is
`struct ccc_tree_entry_`, ccc/impl/impl_tree.h:66-71; the map it points to is a separate argument here. -/
def entry (s : Om α) (k : κ) : Option (Om α × Ent) := do
  let (s, f) ← find cmp key s k
  if f.isSome then some (s, ⟨f, Stat.occupied⟩) else some (s, ⟨f, Stat.vacant⟩)

/-- `ccc_om_insert_entry`, src/ordered_map.c:117-132. -/
def insertEntry (s : Om α) (e : Ent) (h : Nat) (ans : Option Nat) : Option (Om α × Slot) :=
  if e.stats = Stat.occupied then do
    let a ← e.e
    some ({ s with val := upd s.val a (s.val h) }, some a)
  else allocInsert cmp key s h ans

/-- `ccc_om_or_insert`, src/ordered_map.c:134-146. -/
def orInsert (s : Om α) (e : Ent) (h : Nat) (ans : Option Nat) : Option (Om α × Slot) :=
  if Stat.has e.stats Stat.occupied then some (s, e.e) else allocInsert cmp key s h ans

/-- `ccc_om_remove_entry`, src/ordered_map.c:279-299. -/
def removeEntry (s : Om α) (e : Ent) : Option (Om α × Ent) :=
  if e.stats = Stat.occupied then do
    let a ← e.e
    let (s, p) ← erase cmp key s (key (s.val a))
    let n ← p
    if s.alloc then some (s, ⟨none, Stat.occupied⟩) else some (s, ⟨some n, Stat.occupied⟩)
  else some (s, ⟨none, Stat.vacant⟩)

/-- `ccc_om_and_modify`, `ccc_om_and_modify_aux`, src/ordered_map.c:148-171, and the macro `ccc_impl_om_and_modify_w`,
ccc/impl/impl_ordered_map.h:94-113: the user's function runs on the struct of an occupied entry. -/
def andModify (s : Om α) (e : Ent) (f : α → α) : Option (Om α) :=
  if Stat.has e.stats Stat.occupied then do
    let a ← e.e
    some { s with val := upd s.val a (f (s.val a)) }
  else some s

/-- `ccc_om_unwrap`, src/ordered_map.c:311-320. -/
def unwrap (e : Ent) : Slot := if e.stats = Stat.occupied then e.e else none
/-- `ccc_om_occupied`, src/ordered_map.c:328-332. -/
def occupied (e : Ent) : Bool := Stat.has e.stats Stat.occupied
/-- `ccc_om_insert_error`, src/ordered_map.c:322-326. -/
def insertError (e : Ent) : Bool := Stat.has e.stats Stat.insertError
/-- `ccc_om_entry_status`, src/ordered_map.c:334-338. -/
def entryStatus (e : Ent) : Nat := e.stats

/-- `ccc_impl_om_new`, ccc/impl/impl_ordered_map.h:45-56. -/
def newMem (s : Om α) (ans : Option Nat) : Option Nat := if s.alloc then ans else none

/-- `ccc_impl_om_insert_key_val`, ccc/impl/impl_ordered_map.h:58-68: `x` is the value of the lazy expression; the
result of the insertion replaces the pointer. -/
def insertKeyVal (s : Om α) (new : Option Nat) (x : α) : Option (Om α × Slot) :=
  match new with
  | none => some (s, none)
  | some n => insertNode cmp key { s with val := upd s.val n x } n

/-- `ccc_impl_om_or_insert_w`, ccc/impl/impl_ordered_map.h:115-135. -/
def orInsertW (s : Om α) (e : Ent) (x : α) (ans : Option Nat) : Option (Om α × Slot) :=
  if e.stats = Stat.occupied then some (s, e.e) else insertKeyVal cmp key s (newMem s ans) x

/-- `ccc_impl_om_insert_entry_w`, ccc/impl/impl_ordered_map.h:137-163. -/
def insertEntryW (s : Om α) (e : Ent) (x : α) (ans : Option Nat) : Option (Om α × Slot) :=
  if !Stat.has e.stats Stat.occupied then insertKeyVal cmp key s (newMem s ans) x
  else if e.stats = Stat.occupied then do
    let a ← e.e
    some ({ s with val := upd s.val a x }, some a)
  else some (s, none)

/-- `ccc_impl_om_insert_and_copy_key`, ccc/impl/impl_ordered_map.h:70-90.  `x` is the lazy value after the key was
copied into it.  The status is the one the macro assigns before it knows the outcome and never corrects. -/
def insertAndCopyKey (s : Om α) (x : α) (ans : Option Nat) : Option (Om α × Ent) :=
  match newMem s ans with
  | none => some (s, ⟨none, Stat.insertError⟩)
  | some n => do
    let (s, _) ← insertNode cmp key { s with val := upd s.val n x } n
    some (s, ⟨some n, Stat.insertError⟩)

/-- `ccc_impl_om_try_insert_w`, ccc/impl/impl_ordered_map.h:165-188. -/
def tryInsertW (s : Om α) (k : κ) (x : α) (ans : Option Nat) : Option (Om α × Ent) := do
  let (s, e) ← entry cmp key s k
  if !Stat.has e.stats Stat.occupied then insertAndCopyKey cmp key s x ans
  else if e.stats = Stat.occupied then some (s, e)
  else some (s, ⟨none, Stat.inputError⟩)

/-- `ccc_impl_om_insert_or_assign_w`, ccc/impl/impl_ordered_map.h:190-226. -/
def insertOrAssignW (s : Om α) (k : κ) (x : α) (ans : Option Nat) : Option (Om α × Ent) := do
  let (s, e) ← entry cmp key s k
  if !Stat.has e.stats Stat.occupied then insertAndCopyKey cmp key s x ans
  else if e.stats = Stat.occupied then do
    let a ← e.e
    some ({ s with val := upd s.val a x }, e)
  else some (s, ⟨none, Stat.inputError⟩)

/-- `min`, src/ordered_map.c:541-552; `ccc_om_begin`, 340-344. -/
def begin_ (s : Om α) : Option Slot :=
  if s.sz = 0 then some none
  else do
    let m ← Wavl.minMaxLoop s.t s.t.root false
    some (some m)
/-- `max`, src/ordered_map.c:528-539; `ccc_om_rbegin`, 346-350. -/
def rbegin (s : Om α) : Option Slot :=
  if s.sz = 0 then some none
  else do
    let m ← Wavl.minMaxLoop s.t s.t.root true
    some (some m)
/-- `ccc_om_next`, src/ordered_map.c:364-373; `next`, 554-577. -/
def next (s : Om α) (e : Nat) : Option Slot := do
  let n ← Wavl.next s.t e true
  some (toSlot n)
/-- `ccc_om_rnext`, src/ordered_map.c:375-385. -/
def rnext (s : Om α) (e : Nat) : Option Slot := do
  let n ← Wavl.next s.t e false
  some (toSlot n)
/-- `ccc_om_end`, `ccc_om_rend`, src/ordered_map.c:352-362. -/
def end_ : Slot := none

/-- `equal_range`, src/ordered_map.c:579-607; `ccc_om_equal_range` and `ccc_om_equal_rrange`, 387-410. -/
def equalRange (s : Om α) (b e : κ) (trav : Bool) : Option (Om α × Slot × Slot) :=
  if s.sz = 0 then some (s, none, none)
  else do
    let (t, x, y) ← Splay.equalRange s.t (cmpAt cmp key s b) (cmpAt cmp key s e) trav
    some ({ s with t := t }, toSlot x, toSlot y)

/-- `ccc_om_size`, src/ordered_map.c:91-95. -/
def size (s : Om α) : Nat := s.sz
/-- `ccc_om_is_empty`, src/ordered_map.c:85-89. -/
def isEmpty (s : Om α) : Bool := empty s

/-- The loop of `ccc_om_clear`, src/ordered_map.c:419-432.  The second component lists the elements handed to the
destructor, in order; handing NULL to it counts as an error. -/
def clearLoop (s : Om α) (acc : List (Nat × α)) : Option (Om α × List (Nat × α)) :=
  if isEmpty s then some (s, acc)
  else do
    let (s, p) ← erase cmp key s (key (s.val s.t.root))
    let r ← p
    clearLoop s (acc ++ [(r, s.val r)])
partial_fixpoint

/-- `ccc_om_clear`, src/ordered_map.c:412-434. -/
def clear (s : Om α) : Option (Om α × List (Nat × α) × Res) := do
  let (s, d) ← clearLoop cmp key s []
  some (s, d, .ok)

/-- `ccc_tree_validate`, src/ordered_map.c:924-946; `ccc_om_validate`, 436-444.  `are_subtrees_valid` (853-887; links are
never NULL), `is_duplicate_storing_parent` with `child_tracks_parent` (889-916) and `recursive_size` (842-851) have the
statements of the realtime map's functions. -/
def validate (s : Om α) : Option Bool := do
  let a ← areSubtreesValid cmp key s 0 s.t.root 0
  if !a then some false
  else do
    let b ← isStoringParent s.t 0 s.t.root
    if !b then some false
    else do
      let n ← recursiveSize s.t s.t.root
      some (n == s.sz)

/-! ### Histories -/

/-- One call of the interface. -/
def step (s : Om α) : Op α κ → Option (Om α × Out α)
  | .insert h x tmp y ans => do
    let (s, e) ← insert cmp key (put (put s tmp y) h x) h tmp ans
    some (s, .insEnt e.stats (view s (Ent.unwrap (some e))) (s.val tmp))
  | .tryInsert h x ans => do
    let (s, e) ← tryInsert cmp key (put s h x) h ans
    some (s, .ent e.stats (view s (Ent.unwrap (some e))))
  | .insertOrAssign h x ans => do
    let (s, e) ← insertOrAssign cmp key (put s h x) h ans
    some (s, .ent e.stats (view s (Ent.unwrap (some e))))
  | .remove h x => do
    let (s, e) ← remove cmp key (put s h x) h
    some (s, .ent e.stats (view s (Ent.unwrap (some e))))
  | .orInsert k h x ans => do
    let (s, e) ← entry cmp key (put s h x) k
    let (s, p) ← orInsert cmp key s e h ans
    some (s, .ptr (view s p))
  | .insertEntry k h x ans => do
    let (s, e) ← entry cmp key (put s h x) k
    let (s, p) ← insertEntry cmp key s e h ans
    some (s, .ptr (view s p))
  | .removeEntry k => do
    let (s, e) ← entry cmp key s k
    let (s, e) ← removeEntry cmp key s e
    some (s, .ent e.stats (view s (Ent.unwrap (some e))))
  | .andModify k f => do
    let (s, e) ← entry cmp key s k
    let s ← andModify s e f
    some (s, .ptr (view s (unwrap e)))
  | .occupied k => do
    let (s, e) ← entry cmp key s k
    some (s, .flag (occupied e))
  | .orInsertW k x ans => do
    let (s, e) ← entry cmp key s k
    let (s, p) ← orInsertW cmp key s e x ans
    some (s, .ptr (view s p))
  | .insertEntryW k x ans => do
    let (s, e) ← entry cmp key s k
    let (s, p) ← insertEntryW cmp key s e x ans
    some (s, .ptr (view s p))
  | .tryInsertW k x ans => do
    let (s, e) ← tryInsertW cmp key s k x ans
    some (s, .ptr (view s (Ent.unwrap (some e))))
  | .insertOrAssignW k x ans => do
    let (s, e) ← insertOrAssignW cmp key s k x ans
    some (s, .ptr (view s (Ent.unwrap (some e))))
  | .contains k => do
    let (s, b) ← contains cmp key s k
    some (s, .flag b)
  | .get k => do
    let (s, p) ← get cmp key s k
    some (s, .ptr (view s p))
  | .begin => do
    let p ← begin_ s
    some (s, .ptr (view s p))
  | .rbegin => do
    let p ← rbegin s
    some (s, .ptr (view s p))
  | .next a => do
    let p ← next s a
    some (s, .ptr (view s p))
  | .rnext a => do
    let p ← rnext s a
    some (s, .ptr (view s p))
  | .equalRange b e => do
    let (s, x, y) ← equalRange cmp key s b e true
    some (s, .range (view s x) (view s y))
  | .equalRrange b e => do
    let (s, x, y) ← equalRange cmp key s b e false
    some (s, .range (view s x) (view s y))
  | .size => some (s, .num (size s))
  | .isEmpty => some (s, .flag (isEmpty s))
  | .validate => do
    let b ← validate cmp key s
    some (s, .flag b)
  | .clear => do
    let (s, _, r) ← clear cmp key s
    some (s, .result r)

/-- A history of calls. -/
def run (s : Om α) : List (Op α κ) → Option (Om α × List (Out α))
  | [] => some (s, [])
  | o :: os => do
    let (s, r) ← step cmp key s o
    let (s, rs) ← run s os
    some (s, r :: rs)

end CCC.Om
