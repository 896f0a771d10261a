import Verif.Model.Wavl
import Verif.Spec.PtrMap
/-
Model of `src/realtime_ordered_map.c` (interface functions) and of the macros of
`ccc/impl/impl_realtime_ordered_map.h`.  The tree algorithms are in `Verif/Model/Wavl.lean`.

The address of a user struct also stands for the address of the intrusive element inside it: `struct_base`,
`elem_in_slot`, `key_from_node`, `key_in_slot` (src/realtime_ordered_map.c:757-782) are offset arithmetic and are
not modelled.  Address 0 as an element is `&rom->end_`; as a user pointer it is NULL.  Arguments are taken to be non-NULL.
`sz_` is a natural number: no memory holds 2^64 elements.
-/
namespace CCC.Rom
open CCC Wavl

/-- `struct ccc_romap_`, ccc/impl/impl_realtime_ordered_map.h:19-32, together with the user data of every struct in
memory (`val`).  `alloc` says whether `alloc_` is non-NULL. -/
structure Rom (α : Type) where
  t : Links
  sz : Nat
  val : Nat → α
  alloc : Bool

/-- `ccc_impl_rom_init`, ccc/impl/impl_realtime_ordered_map.h:48-62: the sentinel points to itself and has
parity 1. -/
def init {α : Type} (mem : Nat → α) (alloc : Bool) : Rom α :=
  { t := { br := fun _ _ => 0, par := fun _ => 0, parity := fun _ => true, live := fun a => a == 0, root := 0 }
    sz := 0, val := mem, alloc := alloc }

variable {α κ : Type} (cmp : κ → κ → Cmp) (key : α → κ)

/-- The user's comparison of a key with the element at an address: `cmp`, src/realtime_ordered_map.c:746-755. -/
def at_ (s : Rom α) (k : κ) (a : Nat) : Cmp := cmp k (key (s.val a))

/-- `find`, src/realtime_ordered_map.c:656-674. -/
def find (s : Rom α) (k : κ) : Option Query := Wavl.find s.t (at_ cmp key s k)

/-- `struct_base` of an element in a context where the sentinel becomes NULL. -/
def toSlot (a : Nat) : Slot := if a = 0 then none else some a

/-- `ccc_rom_contains`, src/realtime_ordered_map.c:155-164. -/
def contains (s : Rom α) (k : κ) : Option Bool := do
  let q ← find cmp key s k
  some (q.1 == .eql)

/-- `ccc_rom_get_key_val`, src/realtime_ordered_map.c:166-176. -/
def get (s : Rom α) (k : κ) : Option Slot := do
  let q ← find cmp key s k
  some (if q.1 == .eql then some q.2 else none)

/-- `insert`, src/realtime_ordered_map.c:612-635: the struct at `e` becomes an element. -/
def insertNode (s : Rom α) (parent : Nat) (last : Cmp) (e : Nat) : Option (Rom α) := do
  let t := { s.t with live := upd s.t.live e true }
  let t ← initNode t e
  if s.sz = 0 then some { s with t := t.setRoot e, sz := s.sz + 1 }
  else do
    let t ← insertBelow t parent last e
    some { s with t := t, sz := s.sz + 1 }

/-- `maybe_alloc_insert`, src/realtime_ordered_map.c:637-654.  `ans` is the allocator's answer. -/
def maybeAllocInsert (s : Rom α) (parent : Nat) (last : Cmp) (h : Nat) (ans : Option Nat) :
    Option (Rom α × Slot) :=
  if s.alloc then
    match ans with
    | none => some (s, none)
    | some n => do
      let s ← insertNode { s with val := upd s.val n (s.val h) } parent last n
      some (s, some n)
  else do
    let s ← insertNode s parent last h
    some (s, some h)

/-- `remove_fixup`, src/realtime_ordered_map.c:823-887: also decrements the size and clears the links of the removed
element, after which it is no element any more. -/
def removeFixup (s : Rom α) (rm : Nat) : Option (Rom α) := do
  let t ← removeLinks s.t rm
  some { s with t := { t with live := upd t.live rm false }, sz := s.sz - 1 }

/-- `ccc_rom_insert`, src/realtime_ordered_map.c:178-206.  In the occupied case the struct of the handle first
receives the links of the found element, then the two structs are swapped through the struct of `tmp`: the links of
the found element stay and the user data move. -/
def insert (s : Rom α) (h tmp : Nat) (ans : Option Nat) : Option (Rom α × Ent) := do
  let q ← find cmp key s (key (s.val h))
  if q.1 = .eql then
    let v := upd s.val tmp (s.val q.2)
    let v := upd v q.2 (v h)
    let v := upd v h (v tmp)
    some ({ s with val := v }, ⟨some tmp, Stat.occupied⟩)
  else do
    let (s, i) ← maybeAllocInsert s q.2 q.1 h ans
    match i with
    | none => some (s, ⟨none, Stat.insertError⟩)
    | some _ => some (s, ⟨none, Stat.vacant⟩)

/-- `ccc_rom_try_insert`, src/realtime_ordered_map.c:208-229. -/
def tryInsert (s : Rom α) (h : Nat) (ans : Option Nat) : Option (Rom α × Ent) := do
  let q ← find cmp key s (key (s.val h))
  if q.1 = .eql then some (s, ⟨some q.2, Stat.occupied⟩)
  else do
    let (s, i) ← maybeAllocInsert s q.2 q.1 h ans
    match i with
    | none => some (s, ⟨none, Stat.insertError⟩)
    | some n => some (s, ⟨some n, Stat.vacant⟩)

/-- `ccc_rom_insert_or_assign`, src/realtime_ordered_map.c:231-254. -/
def insertOrAssign (s : Rom α) (h : Nat) (ans : Option Nat) : Option (Rom α × Ent) := do
  let q ← find cmp key s (key (s.val h))
  if q.1 = .eql then some ({ s with val := upd s.val q.2 (s.val h) }, ⟨some q.2, Stat.occupied⟩)
  else do
    let (s, i) ← maybeAllocInsert s q.2 q.1 h ans
    match i with
    | none => some (s, ⟨none, Stat.insertError⟩)
    | some n => some (s, ⟨some n, Stat.vacant⟩)

/-- `ccc_rom_remove`, src/realtime_ordered_map.c:323-345.  Freed memory is not modelled beyond the struct not
being an element any more. -/
def remove (s : Rom α) (h : Nat) : Option (Rom α × Ent) := do
  let q ← find cmp key s (key (s.val h))
  if q.1 ≠ .eql then some (s, ⟨none, Stat.vacant⟩)
  else do
    let s ← removeFixup s q.2
    if s.alloc then some ({ s with val := upd s.val h (s.val q.2) }, ⟨some h, Stat.occupied⟩)
    else some (s, ⟨some q.2, Stat.occupied⟩)

/-- `struct ccc_rtree_entry_`, ccc/impl/impl_realtime_ordered_map.h:35-40; the map it points to is a separate
argument here. -/
structure REnt where
  last : Cmp
  e : Nat
  stats : Nat

/-- `entry`, src/realtime_ordered_map.c:587-610; `ccc_rom_entry`, 256-264. -/
def entry (s : Rom α) (k : κ) : Option REnt := do
  let q ← find cmp key s k
  if q.1 = .eql then some ⟨q.1, q.2, Stat.occupied⟩
  else some ⟨q.1, q.2, Stat.vacant ||| Stat.noUnwrap⟩

/-- `ccc_rom_or_insert`, src/realtime_ordered_map.c:266-280. -/
def orInsert (s : Rom α) (e : REnt) (h : Nat) (ans : Option Nat) : Option (Rom α × Slot) :=
  if e.stats = Stat.occupied then some (s, some e.e) else maybeAllocInsert s e.e e.last h ans

/-- `ccc_rom_insert_entry`, src/realtime_ordered_map.c:282-299. -/
def insertEntry (s : Rom α) (e : REnt) (h : Nat) (ans : Option Nat) : Option (Rom α × Slot) :=
  if e.stats = Stat.occupied then some ({ s with val := upd s.val e.e (s.val h) }, some e.e)
  else maybeAllocInsert s e.e e.last h ans

/-- `ccc_rom_remove_entry`, src/realtime_ordered_map.c:301-321. -/
def removeEntry (s : Rom α) (e : REnt) : Option (Rom α × Ent) :=
  if e.stats = Stat.occupied then do
    let s ← removeFixup s e.e
    if s.alloc then some (s, ⟨none, Stat.occupied⟩) else some (s, ⟨some e.e, Stat.occupied⟩)
  else some (s, ⟨none, Stat.vacant⟩)

/-- `ccc_rom_and_modify`, `ccc_rom_and_modify_aux`, src/realtime_ordered_map.c:347-373, and the macro
`ccc_impl_rom_and_modify_w`: the user's function runs on the struct of an occupied entry. -/
def andModify (s : Rom α) (e : REnt) (f : α → α) : Rom α :=
  if Stat.has e.stats Stat.occupied then { s with val := upd s.val e.e (f (s.val e.e)) } else s

/-- `ccc_rom_unwrap`, src/realtime_ordered_map.c:375-383. -/
def unwrap (e : REnt) : Slot := if Stat.has e.stats Stat.occupied then some e.e else none

/-- `ccc_rom_occupied`, src/realtime_ordered_map.c:385-389. -/
def occupied (e : REnt) : Bool := Stat.has e.stats Stat.occupied
/-- `ccc_rom_insert_error`, src/realtime_ordered_map.c:391-395. -/
def insertError (e : REnt) : Bool := Stat.has e.stats Stat.insertError
/-- `ccc_rom_entry_status`, src/realtime_ordered_map.c:397-401. -/
def entryStatus (e : REnt) : Nat := e.stats

/-- `ccc_impl_rom_new`, ccc/impl/impl_realtime_ordered_map.h:80-92. -/
def newMem (s : Rom α) (ans : Option Nat) : Option Nat := if s.alloc then ans else none

/-- `ccc_impl_rom_insert_key_val`, ccc/impl/impl_realtime_ordered_map.h:94-109: `x` is the value of the lazy
expression. -/
def insertKeyVal (s : Rom α) (e : REnt) (new : Option Nat) (x : α) : Option (Rom α × Slot) :=
  match new with
  | none => some (s, none)
  | some n => do
    let s ← insertNode { s with val := upd s.val n x } e.e e.last n
    some (s, some n)

/-- `ccc_impl_rom_or_insert_w`, ccc/impl/impl_realtime_ordered_map.h:159-180. -/
def orInsertW (s : Rom α) (e : REnt) (x : α) (ans : Option Nat) : Option (Rom α × Slot) :=
  if e.stats = Stat.occupied then some (s, some e.e) else insertKeyVal s e (newMem s ans) x

/-- `ccc_impl_rom_insert_entry_w`, ccc/impl/impl_realtime_ordered_map.h:182-210. -/
def insertEntryW (s : Rom α) (e : REnt) (x : α) (ans : Option Nat) : Option (Rom α × Slot) :=
  if !Stat.has e.stats Stat.occupied then insertKeyVal s e (newMem s ans) x
  else if e.stats = Stat.occupied then some ({ s with val := upd s.val e.e x }, some e.e)
  else some (s, none)

/-- `ccc_impl_rom_insert_and_copy_key`, ccc/impl/impl_realtime_ordered_map.h:111-134.  `x` is the lazy value after
the key was copied into it.  The status is the one the macro assigns before it knows the outcome and never
corrects. -/
def insertAndCopyKey (s : Rom α) (e : REnt) (x : α) (ans : Option Nat) : Option (Rom α × Ent) :=
  let n := newMem s ans
  match n with
  | none => some (s, ⟨none, Stat.insertError⟩)
  | some n => do
    let s ← insertNode { s with val := upd s.val n x } e.e e.last n
    some (s, ⟨some n, Stat.insertError⟩)

/-- `ccc_impl_rom_try_insert_w`, ccc/impl/impl_realtime_ordered_map.h:212-235. -/
def tryInsertW (s : Rom α) (k : κ) (x : α) (ans : Option Nat) : Option (Rom α × Ent) := do
  let e ← entry cmp key s k
  if !Stat.has e.stats Stat.occupied then insertAndCopyKey s e x ans
  else if e.stats = Stat.occupied then some (s, ⟨some e.e, e.stats⟩)
  else some (s, ⟨none, Stat.inputError⟩)

/-- `ccc_impl_rom_insert_or_assign_w`, ccc/impl/impl_realtime_ordered_map.h:237-282. -/
def insertOrAssignW (s : Rom α) (k : κ) (x : α) (ans : Option Nat) : Option (Rom α × Ent) := do
  let e ← entry cmp key s k
  if !Stat.has e.stats Stat.occupied then insertAndCopyKey s e x ans
  else if e.stats = Stat.occupied then some ({ s with val := upd s.val e.e x }, ⟨some e.e, e.stats⟩)
  else some (s, ⟨none, Stat.inputError⟩)

/-- `ccc_rom_begin`, src/realtime_ordered_map.c:403-412. -/
def begin_ (s : Rom α) : Option Slot := do
  let m ← minMaxFrom s.t s.t.root false
  some (toSlot m)
/-- `ccc_rom_rbegin`, src/realtime_ordered_map.c:430-439. -/
def rbegin (s : Rom α) : Option Slot := do
  let m ← minMaxFrom s.t s.t.root true
  some (toSlot m)
/-- `ccc_rom_next`, src/realtime_ordered_map.c:414-428. -/
def next (s : Rom α) (e : Nat) : Option Slot := do
  let n ← Wavl.next s.t e true
  some (toSlot n)
/-- `ccc_rom_rnext`, src/realtime_ordered_map.c:453-464. -/
def rnext (s : Rom α) (e : Nat) : Option Slot := do
  let n ← Wavl.next s.t e false
  some (toSlot n)
/-- `ccc_rom_end`, `ccc_rom_rend`, src/realtime_ordered_map.c:441-451. -/
def end_ : Slot := none

/-- `equal_range`, src/realtime_ordered_map.c:700-723; `ccc_rom_equal_range` and `ccc_rom_equal_rrange`,
466-487. -/
def equalRange (s : Rom α) (b e : κ) (trav : Bool) : Option (Slot × Slot) :=
  if s.sz = 0 then some (none, none)
  else do
    let r ← Wavl.equalRange s.t (at_ cmp key s b) (at_ cmp key s e) trav
    some (toSlot r.1, toSlot r.2)

/-- `ccc_rom_size`, src/realtime_ordered_map.c:489-493. -/
def size (s : Rom α) : Nat := s.sz
/-- `ccc_rom_is_empty`, src/realtime_ordered_map.c:495-499. -/
def isEmpty (s : Rom α) : Bool := s.sz == 0

/-- The loop of `ccc_rom_clear`, src/realtime_ordered_map.c:507-532.  The second component lists the elements handed
to the destructor, in order.  Simplification: the test for NULL branches of the root is left out, links of elements
are never NULL; reading them is kept. -/
def clearLoop (s : Rom α) (acc : List (Nat × α)) : Option (Rom α × List (Nat × α)) :=
  if s.sz = 0 then some (s, acc)
  else do
    let _ ← s.t.getBr s.t.root false
    let _ ← s.t.getBr s.t.root true
    let r := s.t.root
    let s' ← removeFixup s r
    clearLoop s' (acc ++ [(r, s'.val r)])
partial_fixpoint

/-- `ccc_rom_clear`, src/realtime_ordered_map.c:507-532. -/
def clear (s : Rom α) : Option (Rom α × List (Nat × α) × Res) := do
  let (s, d) ← clearLoop s []
  some (s, d, .ok)

/-- `recursive_size`, src/realtime_ordered_map.c:1219-1229. -/
def recursiveSize (t : Links) (r : Nat) : Option Nat :=
  if r = 0 then some 0
  else do
    let br ← t.getBr r true
    let a ← recursiveSize t br
    let bl ← t.getBr r false
    let b ← recursiveSize t bl
    some (1 + a + b)
partial_fixpoint

/-- `are_subtrees_valid`, src/realtime_ordered_map.c:1231-1267; a subtree root of 0 is the sentinel. -/
def areSubtreesValid (s : Rom α) (low root high : Nat) : Option Bool :=
  if root = 0 then some true
  else if low ≠ 0 ∧ at_ cmp key s (key (s.val low)) root ≠ .les then some false
  else if high ≠ 0 ∧ at_ cmp key s (key (s.val high)) root ≠ .grt then some false
  else do
    let l ← s.t.getBr root false
    let a ← areSubtreesValid s low l root
    if !a then some false
    else do
      let r ← s.t.getBr root true
      areSubtreesValid s root r high
partial_fixpoint

/-- `is_storing_parent`, src/realtime_ordered_map.c:1269-1284. -/
def isStoringParent (t : Links) (parent root : Nat) : Option Bool :=
  if root = 0 then some true
  else do
    let p ← t.getPar root
    if p ≠ parent then some false
    else do
      let l ← t.getBr root false
      let a ← isStoringParent t root l
      if !a then some false
      else do
        let r ← t.getBr root true
        isStoringParent t root r
partial_fixpoint

/-- `validate`, src/realtime_ordered_map.c:1286-1312; `ccc_rom_validate`, 501-505. -/
def validate (s : Rom α) : Option Bool := do
  let p ← s.t.getParity 0
  if !p then some false
  else do
    let a ← areSubtreesValid cmp key s 0 s.t.root 0
    if !a then some false
    else do
      let n ← recursiveSize s.t s.t.root
      if n ≠ s.sz then some false
      else isStoringParent s.t 0 s.t.root

/-! ### Histories -/
open PtrMap

/-- What the user reads through a pointer. -/
def view (s : Rom α) (p : Slot) : View α := p.map (fun a => (a, s.val a))

/-- The user writes the struct at `h` before handing it to the map. -/
def put (s : Rom α) (h : Nat) (x : α) : Rom α := { s with val := upd s.val h x }

/-- One call of the interface. -/
def step (s : Rom α) : Op α κ → Option (Rom α × Out α)
  | .insert h x tmp y ans => do
    let (s, e) ← insert cmp key (put (put s tmp y) h x) h tmp ans
    some (s, .insEnt e.stats (view s (Ent.unwrap (some e))) (s.val tmp))
  | .tryInsert h x ans => do
    let (s, e) ← tryInsert cmp key (put s h x) h ans
    some (s, .ent e.stats (view s (Ent.unwrap (some e))))
  | .insertOrAssign h x ans => do
    let (s, e) ← insertOrAssign cmp key (put s h x) h ans
    some (s, .ent e.stats (view s (Ent.unwrap (some e))))
  | .remove h x => do
    let (s, e) ← remove cmp key (put s h x) h
    some (s, .ent e.stats (view s (Ent.unwrap (some e))))
  | .orInsert k h x ans => do
    let s := put s h x
    let e ← entry cmp key s k
    let (s, p) ← orInsert s e h ans
    some (s, .ptr (view s p))
  | .insertEntry k h x ans => do
    let s := put s h x
    let e ← entry cmp key s k
    let (s, p) ← insertEntry s e h ans
    some (s, .ptr (view s p))
  | .removeEntry k => do
    let e ← entry cmp key s k
    let (s, e) ← removeEntry s e
    some (s, .ent e.stats (view s (Ent.unwrap (some e))))
  | .andModify k f => do
    let e ← entry cmp key s k
    let s := andModify s e f
    some (s, .ptr (view s (unwrap e)))
  | .occupied k => do
    let e ← entry cmp key s k
    some (s, .flag (occupied e))
  | .orInsertW k x ans => do
    let e ← entry cmp key s k
    let (s, p) ← orInsertW s e x ans
    some (s, .ptr (view s p))
  | .insertEntryW k x ans => do
    let e ← entry cmp key s k
    let (s, p) ← insertEntryW s e x ans
    some (s, .ptr (view s p))
  | .tryInsertW k x ans => do
    let (s, e) ← tryInsertW cmp key s k x ans
    some (s, .ptr (view s (Ent.unwrap (some e))))
  | .insertOrAssignW k x ans => do
    let (s, e) ← insertOrAssignW cmp key s k x ans
    some (s, .ptr (view s (Ent.unwrap (some e))))
  | .contains k => do
    let b ← contains cmp key s k
    some (s, .flag b)
  | .get k => do
    let p ← get cmp key s k
    some (s, .ptr (view s p))
  | .begin => do
    let p ← begin_ s
    some (s, .ptr (view s p))
  | .rbegin => do
    let p ← rbegin s
    some (s, .ptr (view s p))
  | .next a => do
    let p ← next s a
    some (s, .ptr (view s p))
  | .rnext a => do
    let p ← rnext s a
    some (s, .ptr (view s p))
  | .equalRange b e => do
    let r ← equalRange cmp key s b e true
    some (s, .range (view s r.1) (view s r.2))
  | .equalRrange b e => do
    let r ← equalRange cmp key s b e false
    some (s, .range (view s r.1) (view s r.2))
  | .size => some (s, .num (size s))
  | .isEmpty => some (s, .flag (isEmpty s))
  | .validate => do
    let b ← validate cmp key s
    some (s, .flag b)
  | .clear => do
    let (s, _, r) ← clear s
    some (s, .result r)

/-- A history of calls. -/
def run (s : Rom α) : List (Op α κ) → Option (Rom α × List (Out α))
  | [] => some (s, [])
  | o :: os => do
    let (s, r) ← step cmp key s o
    let (s, rs) ← run s os
    some (s, r :: rs)

end CCC.Rom
