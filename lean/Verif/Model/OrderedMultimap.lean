import Verif.Spec.Multimap
/-
Model of the ordered multimap, `src/ordered_multimap.c` and the macros of `ccc/impl/impl_ordered_multimap.h`.

A node (`struct ccc_node_`, ccc/impl/impl_tree.h:39-51) has two unions: `branch_`/`link_`, the children of a tree node or the
neighbours of a duplicate in its ring, and `parent_`/`dup_head_`.  Both are modelled as one field each, as in the code, so
that everything the code deduces from the shape of the pointers is deduced here in the same way.

The address of a user struct also stands for the address of the intrusive element inside it: `struct_base`,
`elem_in_slot`, `key_from_node`, `key_in_slot` (src/ordered_multimap.c:1195-1231) are offset arithmetic.  They only matter
in `ccc_omm_pop_min`, which applies `struct_base` to a struct.  Address 0 as an element is `&t->end_`; a user pointer
to the struct "around" it is `some 0`, NULL is `none`.  Arguments are taken to be non-NULL.  `size_` is a natural number: no
memory holds 2^64 elements.  Reading memory that is not there, following NULL, a failed assertion and a loop that does not
end are `none`.
-/
namespace CCC.Omm
open CCC PtrMap MultiSpec

/-- `struct ccc_tree_`, ccc/impl/impl_tree.h:53-65, together with the structs in memory. -/
structure Omm (α : Type) where
  /-- `branch_` or `link_` of the node at an address; `false` is `L` and `P`, `true` is `R` and `N` -/
  br : Nat → Bool → Slot
  /-- `parent_` or `dup_head_` of the node at an address -/
  par : Nat → Slot
  /-- there is a struct at the address -/
  live : Nat → Bool
  /-- the struct comes from the allocation function -/
  own : Nat → Bool
  /-- the user's data in the struct at an address -/
  val : Nat → α
  /-- `root_` -/
  root : Nat
  /-- `size_` -/
  sz : Nat
  /-- `alloc_` is not NULL -/
  alloc : Bool
  /-- `node_elem_offset_` -/
  off : Nat

/-- `ccc_tree_init`, ccc/impl/impl_tree.h:74-91, in a memory with arbitrary contents and no structs yet. -/
def init {α : Type} (br : Nat → Bool → Slot) (par : Nat → Slot) (mem : Nat → α) (alloc : Bool) (off : Nat) : Omm α :=
  { br := fun a d => if a = 0 then some 0 else br a d, par := fun a => if a = 0 then some 0 else par a,
    live := fun a => a == 0, own := fun _ => false, val := mem, root := 0, sz := 0, alloc := alloc, off := off }

variable {α κ : Type}

/-- Read `a->branch_[d]` or `a->link_[d]`. -/
def getBr (s : Omm α) (a : Nat) (d : Bool) : Option Slot := if s.live a then some (s.br a d) else none
/-- Read `a->parent_` or `a->dup_head_`. -/
def getPar (s : Omm α) (a : Nat) : Option Slot := if s.live a then some (s.par a) else none
/-- Write `a->branch_[d]` or `a->link_[d]`. -/
def setBr (s : Omm α) (a : Nat) (d : Bool) (v : Slot) : Option (Omm α) :=
  if s.live a then some { s with br := fun b e => if b = a ∧ e = d then v else s.br b e } else none
/-- Write `a->parent_` or `a->dup_head_`. -/
def setPar (s : Omm α) (a : Nat) (v : Slot) : Option (Omm α) :=
  if s.live a then some { s with par := upd s.par a v } else none

/-- Read `a->branch_[d]` or `a->link_[d]` in order to follow the pointer. -/
def branch (s : Omm α) (a : Nat) (d : Bool) : Option Nat := do
  let x ← getBr s a d
  x
/-- Read `a->parent_` or `a->dup_head_` in order to follow the pointer. -/
def parent (s : Omm α) (a : Nat) : Option Nat := do
  let x ← getPar s a
  x

/-- `init_node`, src/ordered_multimap.c:654-660. -/
def initNode (s : Omm α) (n : Nat) : Option (Omm α) := do
  let s ← setBr s n false (some 0)
  let s ← setBr s n true (some 0)
  setPar s n (some 0)

/-- `i->link_[P] != end && i->link_[P]->link_[N] == i`, src/ordered_multimap.c:715 and 1185-1186. -/
def inRing (s : Omm α) (i : Nat) : Option Bool := do
  let p ← branch s i false
  if p = 0 then some false
  else do
    let q ← getBr s p true
    some (q == some i)

/-- `has_dups`, src/ordered_multimap.c:1182-1187. -/
def hasDups (s : Omm α) (n : Nat) : Option Bool :=
  if n = 0 then some false
  else do
    let h ← parent s n
    if h = 0 then some false else inRing s h

/-- `is_dup_head`, src/ordered_multimap.c:712-716. -/
def isDupHead (s : Omm α) (i : Nat) : Option Bool := if i = 0 then some false else inRing s i

/-- `is_dup_head_next`, src/ordered_multimap.c:706-710. -/
def isDupHeadNext (s : Omm α) (i : Nat) : Option Bool := do
  let n ← branch s i true
  let p ← getPar s n
  some p.isSome

/-- `link_trees`, src/ordered_multimap.c:1140-1151. -/
def link (s : Omm α) (p : Nat) (d : Bool) (x : Nat) : Option (Omm α) := do
  let s ← setBr s p d (some x)
  if ← hasDups s x then do
    let h ← parent s x
    setPar s h (some p)
  else setPar s x (some p)

/-- `parent_r`, src/ordered_multimap.c:1189-1193. -/
def parentR (s : Omm α) (n : Nat) : Option Nat := do
  if ← hasDups s n then do
    let h ← parent s n
    parent s h
  else parent s n

/-- The loop of `splay`, src/ordered_multimap.c:1096-1123.  `c a` is the comparison of the key with the element at `a`;
`lr false` is `l_r_subtrees[L]`. -/
def splayLoop (s : Omm α) (c : Nat → Option Cmp) (lr : Bool → Nat) (root : Nat) :
    Option (Omm α × (Bool → Nat) × Nat) := do
  let rc ← c root
  if rc = .eql then some (s, lr, root) else
  let dir := decide (rc = .grt)
  let child ← branch s root dir
  if child = 0 then some (s, lr, root) else
  let cc ← c child
  if cc ≠ .eql ∧ dir = decide (cc = .grt) then do
    let b ← branch s child (!dir)
    let s ← link s root dir b
    let s ← link s child (!dir) root
    let nx ← branch s child dir
    if nx = 0 then some (s, lr, child)
    else do
      let s ← link s (lr (!dir)) dir child
      let nx ← branch s child dir
      splayLoop s c (fun b => if b = !dir then child else lr b) nx
  else do
    let s ← link s (lr (!dir)) dir root
    let nx ← branch s root dir
    splayLoop s c (fun b => if b = !dir then root else lr b) nx
partial_fixpoint

/-- `splay`, src/ordered_multimap.c:1087-1131.  Returns the new root. -/
def splay (s : Omm α) (c : Nat → Option Cmp) (root : Nat) : Option (Omm α × Nat) := do
  let s ← setBr s 0 false (some 0)
  let s ← setBr s 0 true (some 0)
  let s ← setPar s 0 (some 0)
  let (s, lr, root) ← splayLoop s c (fun _ => 0) root
  let a ← branch s root false
  let s ← link s (lr false) true a
  let b ← branch s root true
  let s ← link s (lr true) false b
  let x ← branch s 0 true
  let s ← link s root false x
  let y ← branch s 0 false
  let s ← link s root true y
  let s := { s with root := root }
  let s ← link s 0 false root
  some (s, root)

variable (cmp : κ → κ → Cmp) (key : α → κ)

/-- `cmp`, src/ordered_multimap.c:1204-1213: the user's comparison of a key with the struct around the node at `a`.
Calling it on the sentinel or on something that is no struct reads memory that is not a user struct. -/
def cmpAt (s : Omm α) (k : κ) (a : Nat) : Option Cmp :=
  if a ≠ 0 ∧ s.live a = true then some (cmp k (key (s.val a))) else none

/-- `force_find_grt`, `force_find_les`, src/ordered_multimap.c:1238-1248: comparisons that look at nothing. -/
def force (q : Cmp) (_ : Nat) : Option Cmp := some q

/-- `empty`, src/ordered_multimap.c:662-666; `ccc_omm_is_empty`, 129-137. -/
def isEmpty (s : Omm α) : Bool := s.sz == 0
/-- `ccc_omm_size`, src/ordered_multimap.c:522-526. -/
def size (s : Omm α) : Nat := s.sz

/-- `t->root_ = splay(t, t->root_, key, t->cmp_)` and the comparison of the key with the new root that follows it. -/
def splayTo (s : Omm α) (k : κ) : Option (Omm α × Cmp) := do
  let (s, r) ← splay s (cmpAt cmp key s k) s.root
  let s := { s with root := r }
  let q ← cmpAt cmp key s k s.root
  some (s, q)

/-- `find`, src/ordered_multimap.c:642-652; `ccc_omm_get_key_val`, 119-127. -/
def find (s : Omm α) (k : κ) : Option (Omm α × Slot) :=
  if s.root = 0 then some (s, none)
  else do
    let (s, q) ← splayTo cmp key s k
    some (s, if q = .eql then some s.root else none)

/-- `contains`, src/ordered_multimap.c:826-831; `ccc_omm_contains`, 474-482.  There is no test for an empty tree. -/
def contains (s : Omm α) (k : κ) : Option (Omm α × Bool) := do
  let (s, q) ← splayTo cmp key s k
  some (s, q == .eql)

/-- `connect_new_root`, src/ordered_multimap.c:859-871. -/
def connectNewRoot (s : Omm α) (new : Nat) (res : Cmp) : Option (Omm α) := do
  let lk := decide (res = .grt)
  let b ← branch s s.root lk
  let s ← link s new lk b
  let s ← link s new (!lk) s.root
  let s ← setBr s s.root lk (some 0)
  let s := { s with root := new }
  link s 0 false s.root

/-- `add_duplicate`, src/ordered_multimap.c:873-898. -/
def addDuplicate (s : Omm α) (node add par : Nat) : Option (Omm α) := do
  if !(← hasDups s node) then do
    let s ← setPar s add (some par)
    let s ← setPar s node (some add)
    let s ← setBr s add true (some add)
    setBr s add false (some add)
  else do
    let s ← setPar s add none
    let head ← parent s node
    let tail ← branch s head false
    let s ← setBr s tail true (some add)
    let s ← setBr s head false (some add)
    let s ← setBr s add true (some head)
    setBr s add false (some tail)

/-- `multimap_insert`, src/ordered_multimap.c:833-857; `ccc_impl_omm_multimap_insert`, 600-604. -/
def insertNode (s : Omm α) (n : Nat) : Option (Omm α × Ent) := do
  let s ← initNode s n
  if isEmpty s then some ({ s with root := n, sz := 1 }, ⟨some n, Stat.vacant⟩)
  else do
    let s := { s with sz := s.sz + 1 }
    let (s, q) ← splayTo cmp key s (key (s.val n))
    if q = .eql then do
      let s ← addDuplicate s s.root n 0
      some (s, ⟨some n, Stat.occupied⟩)
    else do
      let s ← connectNewRoot s n q
      some (s, ⟨some n, Stat.vacant⟩)

/-- `pop_front_dup`, src/ordered_multimap.c:1034-1069. -/
def popFrontDup (s : Omm α) (old : Nat) (k : κ) : Option (Omm α × Nat) := do
  let repl ← parent s old
  let par ← parent s repl
  let s ← (if old = s.root then some { s with root := repl }
    else do
      let q ← cmpAt cmp key s k par
      setBr s par (decide (q = .grt)) (some repl))
  let newHead ← branch s repl true
  let tail ← branch s repl false
  let q ← getBr s newHead true
  let alone := q == some newHead
  let s ← setBr s newHead false (some tail)
  let s ← setPar s newHead (some par)
  let s ← setBr s tail true (some newHead)
  let l ← getBr s old false
  let s ← setBr s repl false l
  let r ← getBr s old true
  let s ← setBr s repl true r
  let s ← setPar s repl (some newHead)
  let l ← branch s repl false
  let s ← link s repl false l
  let r ← branch s repl true
  let s ← link s repl true r
  let s ← (if alone then setPar s repl (some par) else some s)
  some (s, old)

/-- `remove_from_tree`, src/ordered_multimap.c:1071-1085. -/
def removeFromTree (s : Omm α) (ret : Nat) : Option (Omm α × Nat) := do
  let l ← branch s ret false
  if l = 0 then do
    let r ← branch s ret true
    let s := { s with root := r }
    let s ← link s 0 false s.root
    some (s, ret)
  else do
    let (s, r) ← splay s (cmpAt cmp key s (key (s.val ret))) l
    let s := { s with root := r }
    let b ← branch s ret true
    let s ← link s s.root true b
    some (s, ret)

/-- `ret->branch_[L] = ret->branch_[R] = ret->parent_ = NULL`, src/ordered_multimap.c:925, 957, 1005. -/
def clearNode (s : Omm α) (n : Nat) : Option (Omm α) := do
  let s ← setPar s n none
  let s ← setBr s n true none
  setBr s n false none

/-- Taking the splayed element away, src/ordered_multimap.c:917-926 and 949-958. -/
def takeRoot (s : Omm α) (ret : Nat) : Option (Omm α × Slot) := do
  let d ← hasDups s ret
  let (s, ret) ← (if d then popFrontDup cmp key s ret (key (s.val ret)) else removeFromTree cmp key s ret)
  let s ← clearNode s ret
  some (s, some ret)

/-- `multimap_erase`, src/ordered_multimap.c:900-927. -/
def erase (s : Omm α) (k : κ) : Option (Omm α × Slot) :=
  if isEmpty s then some (s, none)
  else do
    let (s, ret) ← splay s (cmpAt cmp key s k) s.root
    let q ← cmpAt cmp key s k ret
    if q ≠ .eql then some (s, none) else takeRoot cmp key { s with sz := s.sz - 1 } ret

/-- `multimap_erase_max_or_min`, src/ordered_multimap.c:935-959; `pop_max`, `pop_min`, 694-704. -/
def eraseMaxOrMin (s : Omm α) (q : Cmp) : Option (Omm α × Slot) :=
  if isEmpty s then some (s, none)
  else do
    let s := { s with sz := s.sz - 1 }
    let (s, ret) ← splay s (force q) s.root
    takeRoot cmp key s ret

/-- `pop_dup_node`, src/ordered_multimap.c:1009-1032. -/
def popDupNode (s : Omm α) (dup splayed : Nat) : Option (Omm α × Nat) :=
  if dup = splayed then popFrontDup cmp key s splayed (key (s.val splayed))
  else do
    let n ← getBr s dup true
    if n = some dup then do
      let s ← setPar s splayed (some 0)
      some (s, dup)
    else do
      let n ← branch s dup true
      let p ← branch s dup false
      let s ← setBr s p true (some n)
      let s ← setBr s n false (some p)
      let par ← getPar s dup
      let s ← setPar s n par
      let s ← setPar s splayed (some n)
      some (s, dup)

/-- `multimap_erase_node`, src/ordered_multimap.c:966-1007; `ccc_omm_extract`, 427-436. -/
def eraseNode (s : Omm α) (node : Nat) : Option (Omm α × Slot) := do
  let l ← getBr s node false
  let r ← getBr s node true
  if r = none ∨ l = none then some (s, none)
  else if isEmpty s then some (s, none)
  else do
    let s := { s with sz := s.sz - 1 }
    let p ← getPar s node
    if p = none then do
      let p ← branch s node false
      let n ← branch s node true
      let np ← getBr s n false
      let pn ← getBr s p true
      if np = some node ∧ pn = some node then do                        -- 984-986 assert
        let s ← setBr s p true (some n)
        let s ← setBr s n false (some p)
        some (s, some node)
      else none
    else do
      let k := key (s.val node)
      let (s, ret) ← splay s (cmpAt cmp key s k) s.root
      let q ← cmpAt cmp key s k ret
      if q ≠ .eql then some (s, none)
      else do
        let d ← hasDups s ret
        let (s, ret) ← (if d then popDupNode cmp key s node ret else removeFromTree cmp key s ret)
        let s ← clearNode s ret
        some (s, some ret)

/-- The user's `free` of the struct at an address, called through `alloc_`.  Freeing what was not allocated is an
error. -/
def free (s : Omm α) (a : Nat) : Option (Omm α) :=
  if s.live a ∧ s.own a then some { s with live := upd s.live a false, own := upd s.own a false } else none

/-- A call of `alloc_` for a new struct with the answer `n`, whose contents become those of the struct at `h`: `memcpy` in
`ccc_omm_insert`, src/ordered_multimap.c:216-224. -/
def allocCopy (s : Omm α) (n h : Nat) : Omm α :=
  { s with live := upd s.live n true, own := upd s.own n true, val := upd s.val n (s.val h),
           br := fun b e => if b = n then s.br h e else s.br b e, par := upd s.par n (s.par h) }

/-- `ccc_omm_insert`, src/ordered_multimap.c:205-227. -/
def insert (s : Omm α) (h : Nat) (ans : Slot) : Option (Omm α × Ent) :=
  if s.alloc then
    match ans with
    | none => some (s, ⟨none, Stat.insertError⟩)
    | some n => insertNode cmp key (allocCopy s n h) n
  else insertNode cmp key s h

/-- `ccc_omm_try_insert`, src/ordered_multimap.c:229-244.  There is no allocation. -/
def tryInsert (s : Omm α) (h : Nat) : Option (Omm α × Ent) := do
  let (s, f) ← find cmp key s (key (s.val h))
  if f.isSome then some (s, ⟨f, Stat.occupied⟩) else insertNode cmp key s h

/-- `ccc_omm_insert_or_assign`, src/ordered_multimap.c:246-265.  The handle receives the links of the stored element, then
the whole struct is copied. -/
def insertOrAssign (s : Omm α) (h : Nat) : Option (Omm α × Ent) := do
  let (s, f) ← find cmp key s (key (s.val h))
  match f with
  | some a =>
    let s := { s with br := fun b e => if b = h then s.br a e else s.br b e, par := upd s.par h (s.par a) }
    if s.root = 0 then none                                             -- 259 assert
    else
      some ({ s with br := fun b e => if b = a then s.br h e else s.br b e, par := upd s.par a (s.par h),
                     val := upd s.val a (s.val h) }, ⟨some a, Stat.occupied⟩)
  | none => insertNode cmp key s h

/-- `ccc_omm_remove`, src/ordered_multimap.c:267-289. -/
def remove (s : Omm α) (h : Nat) : Option (Omm α × Ent) := do
  let (s, n) ← erase cmp key s (key (s.val h))
  match n with
  | none => some (s, ⟨none, Stat.vacant⟩)
  | some n =>
    if s.alloc then do
      let s := { s with val := upd s.val h (s.val n), br := fun b e => if b = h then s.br n e else s.br b e,
                        par := upd s.par h (s.par n) }
      let s ← free s n
      some (s, ⟨some h, Stat.occupied⟩)
    else some (s, ⟨some n, Stat.occupied⟩)

/-- `container_entry`, src/ordered_multimap.c:629-640; `ccc_omm_entry`, 139-149; `ccc_impl_omm_entry`, 594-598.  The map
the entry points to is a separate argument here. -/
def entry (s : Omm α) (k : κ) : Option (Omm α × Ent) := do
  let (s, f) ← find cmp key s k
  if f.isSome then some (s, ⟨f, Stat.occupied⟩) else some (s, ⟨none, Stat.vacant⟩)

/-- `ccc_omm_insert_entry`, src/ordered_multimap.c:151-160.  The entry itself is not looked at. -/
def insertEntry (s : Omm α) (h : Nat) : Option (Omm α × Slot) := do
  let (s, e) ← insertNode cmp key s h
  some (s, e.e)

/-- `ccc_omm_or_insert`, src/ordered_multimap.c:162-174. -/
def orInsert (s : Omm α) (e : Ent) (h : Nat) : Option (Omm α × Slot) :=
  if Stat.has e.stats Stat.occupied then some (s, e.e) else insertEntry cmp key s h

/-- `ccc_omm_remove_entry`, src/ordered_multimap.c:291-311. -/
def removeEntry (s : Omm α) (e : Ent) : Option (Omm α × Ent) :=
  if e.stats = Stat.occupied then do
    let a ← e.e
    let (s, p) ← erase cmp key s (key (s.val a))
    let n ← p
    if s.alloc then do
      let s ← free s n
      some (s, ⟨none, Stat.occupied⟩)
    else some (s, ⟨some n, Stat.occupied⟩)
  else some (s, ⟨none, Stat.vacant⟩)

/-- `ccc_omm_and_modify`, `ccc_omm_and_modify_aux`, src/ordered_multimap.c:176-203, and the macro
`ccc_impl_omm_and_modify_w`, ccc/impl/impl_ordered_multimap.h:93-112: the user's function runs on the struct of an occupied
entry. -/
def andModify (s : Omm α) (e : Ent) (f : α → α) : Option (Omm α) :=
  if Stat.has e.stats Stat.occupied then do
    let a ← e.e
    some { s with val := upd s.val a (f (s.val a)) }
  else some s

/-- `ccc_omm_unwrap`, src/ordered_multimap.c:528-532. -/
def unwrap (e : Ent) : Slot := Ent.unwrap (some e)
/-- `ccc_omm_occupied`, src/ordered_multimap.c:546-550. -/
def occupied (e : Ent) : Bool := Stat.has e.stats Stat.occupied
/-- `ccc_omm_insert_error`, src/ordered_multimap.c:534-538. -/
def insertError (e : Ent) : Bool := Stat.has e.stats Stat.insertError
/-- `ccc_omm_entry_status`, src/ordered_multimap.c:552-556. -/
def entryStatus (e : Ent) : Nat := e.stats

/-- `ccc_impl_omm_new`, ccc/impl/impl_ordered_multimap.h:43-54: `alloc_` is called for a new struct, with the answer `ans`.
`x` is the value of the lazy expression that is then written to it, the initializer leaves NULL in the links. -/
def newMem (s : Omm α) (x : α) (ans : Slot) : Omm α × Slot :=
  if s.alloc then
    match ans with
    | none => (s, none)
    | some n => ({ s with live := upd s.live n true, own := upd s.own n true, val := upd s.val n x,
                          br := fun b e => if b = n then none else s.br b e, par := upd s.par n none }, some n)
  else (s, none)

/-- `ccc_impl_omm_new` and `ccc_impl_omm_insert_key_val`, ccc/impl/impl_ordered_multimap.h:56-67. -/
def insertKeyVal (s : Omm α) (x : α) (ans : Slot) : Option (Omm α × Slot) :=
  match newMem s x ans with
  | (s, none) => some (s, none)
  | (s, some n) => insertEntry cmp key s n

/-- `ccc_impl_omm_or_insert_w`, ccc/impl/impl_ordered_multimap.h:114-134. -/
def orInsertW (s : Omm α) (e : Ent) (x : α) (ans : Slot) : Option (Omm α × Slot) :=
  if e.stats = Stat.occupied then some (s, e.e) else insertKeyVal cmp key s x ans

/-- `ccc_impl_omm_insert_entry_w`, ccc/impl/impl_ordered_multimap.h:136-148.  The entry itself is not looked at. -/
def insertEntryW (s : Omm α) (x : α) (ans : Slot) : Option (Omm α × Slot) := insertKeyVal cmp key s x ans

/-- `ccc_impl_omm_insert_and_copy_key`, ccc/impl/impl_ordered_multimap.h:69-89.  `x` is the lazy value after the key was
copied into it.  The status is the one the macro assigns before it knows the outcome and never corrects. -/
def insertAndCopyKey (s : Omm α) (x : α) (ans : Slot) : Option (Omm α × Ent) := do
  let (s, n) ← insertKeyVal cmp key s x ans
  some (s, ⟨n, Stat.insertError⟩)

/-- `ccc_impl_omm_try_insert_w`, ccc/impl/impl_ordered_multimap.h:150-173. -/
def tryInsertW (s : Omm α) (k : κ) (x : α) (ans : Slot) : Option (Omm α × Ent) := do
  let (s, e) ← entry cmp key s k
  if !Stat.has e.stats Stat.occupied then insertAndCopyKey cmp key s x ans
  else if e.stats = Stat.occupied then some (s, e)
  else some (s, ⟨none, Stat.inputError⟩)

/-- `ccc_impl_omm_insert_or_assign_w`, ccc/impl/impl_ordered_multimap.h:175-211: the links of the struct are saved and
restored around the assignment. -/
def insertOrAssignW (s : Omm α) (k : κ) (x : α) (ans : Slot) : Option (Omm α × Ent) := do
  let (s, e) ← entry cmp key s k
  if !Stat.has e.stats Stat.occupied then insertAndCopyKey cmp key s x ans
  else if e.stats = Stat.occupied then do
    let a ← e.e
    some ({ s with val := upd s.val a x }, e)
  else some (s, ⟨none, Stat.inputError⟩)

/-- `ccc_omm_max` and `ccc_omm_min`, src/ordered_multimap.c:313-343.  There is no test for an empty tree: the sentinel is
splayed, and the pointer to the struct "around" it is returned. -/
def maxMin (s : Omm α) (q : Cmp) : Option (Omm α × Slot) := do
  let (s, n) ← splay s (force q) s.root
  some (s, some n)

/-- `ccc_omm_update`, `ccc_omm_increase`, `ccc_omm_decrease`, src/ordered_multimap.c:438-472. -/
def update (s : Omm α) (a : Nat) (f : α → α) : Option (Omm α × Bool) := do
  let l ← getBr s a false
  let r ← getBr s a true
  if l = none ∨ r = none then some (s, false)
  else do
    let (s, e) ← eraseNode cmp key s a
    match e with
    | none => some (s, false)
    | some e => do
      let s := { s with val := upd s.val e (f (s.val e)) }
      let (s, _) ← insertNode cmp key s a
      some (s, true)

/-- `ccc_omm_pop_max`, src/ordered_multimap.c:484-501. -/
def popMax (s : Omm α) : Option (Omm α × Res) := do
  let (s, n) ← eraseMaxOrMin cmp key s .grt
  match n with
  | none => some (s, .inputErr)
  | some n =>
    if s.alloc then do
      let s ← free s n
      some (s, .ok)
    else some (s, .ok)

/-- `ccc_omm_pop_min`, src/ordered_multimap.c:503-520.  `pop_min` returns the struct, and `struct_base` is applied to it
once more before it is freed: unless the offset is 0 the result is no struct. -/
def popMin (s : Omm α) : Option (Omm α × Res) := do
  let (s, n) ← eraseMaxOrMin cmp key s .les
  match n with
  | none => some (s, .inputErr)
  | some n =>
    if s.alloc then
      if s.off = 0 then do
        let s ← free s n
        some (s, .ok)
      else none
    else some (s, .ok)

/-- The loops of `max`, `min` and `next`, src/ordered_multimap.c:676-677, 689-690, 783-785. -/
def runDown (s : Omm α) (m : Nat) (d : Bool) : Option Nat := do
  let b ← branch s m d
  if b = 0 then some m else runDown s b d
partial_fixpoint

/-- `max`, src/ordered_multimap.c:668-679; `ccc_omm_begin`, 345-353. -/
def begin_ (s : Omm α) : Option Slot :=
  if s.sz = 0 then some none
  else do
    let m ← runDown s s.root true
    some (some m)

/-- `min`, src/ordered_multimap.c:681-692; `ccc_omm_rbegin`, 355-363. -/
def rbegin (s : Omm α) : Option Slot :=
  if s.sz = 0 then some none
  else do
    let m ← runDown s s.root false
    some (some m)

/-- The second loop of `next`, src/ordered_multimap.c:789-793. -/
def climb (s : Omm α) (n : Nat) (trav : Bool) : Option Nat := do
  let p ← parentR s n
  if p = 0 then some p
  else do
    let b ← getBr s p (!trav)
    if b = some n then some p else climb s p trav
partial_fixpoint

/-- `next`, src/ordered_multimap.c:770-794.  Simplification: for the sentinel the code returns NULL, which no caller
can use. -/
def nextTree (s : Omm α) (n : Nat) (trav : Bool) : Option Nat :=
  if n = 0 then none
  else do
    let r ← parentR s s.root
    if r ≠ 0 then none                                                  -- 778 assert
    else do
      let b ← branch s n trav
      if b ≠ 0 then runDown s b (!trav) else climb s n trav

/-- One of the two tests of `next_tree_node`, src/ordered_multimap.c:759 and 763: the child exists and its duplicates
start at `head`. -/
def leadsTo (s : Omm α) (child head : Nat) : Option Bool :=
  if child = 0 then some false
  else do
    let h ← getPar s child
    some (h == some head)

/-- `next_tree_node`, src/ordered_multimap.c:749-768. -/
def nextTreeNode (s : Omm α) (head : Nat) (trav : Bool) : Option Nat := do
  let p ← parent s head
  if p = 0 then nextTree s s.root trav
  else do
    let l ← branch s p false
    if ← leadsTo s l head then nextTree s l trav
    else do
      let r ← branch s p true
      if ← leadsTo s r head then nextTree s r trav
      else some 0

/-- `multimap_next`, src/ordered_multimap.c:718-747. -/
def multimapNext (s : Omm α) (i : Nat) (trav : Bool) : Option Nat := do
  let p ← getPar s i
  if p = none then
    if ← isDupHeadNext s i then do
      let h ← branch s i true
      nextTreeNode s h trav
    else branch s i true
  else if ← isDupHead s i then
    if ← isDupHeadNext s i then nextTreeNode s i trav
    else branch s i true
  else if ← hasDups s i then parent s i
  else nextTree s i trav

/-- The sentinel becomes NULL, everything else the user struct around it. -/
def toUser (n : Nat) : Slot := if n = 0 then none else some n

/-- `ccc_omm_next`, src/ordered_multimap.c:365-376 (`trav = false`), and `ccc_omm_rnext`, 378-389. -/
def next (s : Omm α) (i : Nat) (trav : Bool) : Option Slot := do
  let n ← multimapNext s i trav
  some (toUser n)

/-- `equal_range`, src/ordered_multimap.c:796-824; `ccc_omm_equal_range` (`trav = false`), 403-413, and
`ccc_omm_equal_rrange`, 415-425. -/
def equalRange (s : Omm α) (b e : κ) (trav : Bool) : Option (Omm α × Slot × Slot) :=
  if s.sz = 0 then some (s, none, none)
  else do
    let (s, x) ← splay s (cmpAt cmp key s b) s.root
    let q ← cmpAt cmp key s b x
    let x ← (if q = (if trav then Cmp.grt else Cmp.les) then nextTree s x trav else some x)
    let (s, y) ← splay s (cmpAt cmp key s e) s.root
    let q ← cmpAt cmp key s e y
    let y ← (if q ≠ (if trav then Cmp.les else Cmp.grt) then nextTree s y trav else some y)
    some (s, toUser x, toUser y)

/-- The loop of `ccc_omm_clear`, src/ordered_multimap.c:576-588.  The second component lists the elements handed to the
destructor, in order; handing NULL to it counts as an error.  The destructor itself is taken not to change the
structs. -/
def clearLoop (s : Omm α) (acc : List (Nat × α)) : Option (Omm α × List (Nat × α)) :=
  if isEmpty s then some (s, acc)
  else do
    let (s, p) ← eraseMaxOrMin cmp key s .les
    let r ← p
    let x := s.val r
    let s ← (if s.alloc then free s r else some s)
    clearLoop s (acc ++ [(r, x)])
partial_fixpoint

/-- `ccc_omm_clear`, src/ordered_multimap.c:568-590. -/
def clear (s : Omm α) : Option (Omm α × List (Nat × α) × Res) := do
  let (s, d) ← clearLoop cmp key s []
  some (s, d, .ok)

/-- The loop of `count_dups`, src/ordered_multimap.c:1280-1284. -/
def countLoop (s : Omm α) (head cur k : Nat) : Option Nat :=
  if cur = head then some k
  else do
    let n ← branch s cur true
    countLoop s head n (k + 1)
partial_fixpoint

/-- `count_dups`, src/ordered_multimap.c:1272-1286. -/
def countDups (s : Omm α) (n : Nat) : Option Nat := do
  if !(← hasDups s n) then some 0
  else do
    let h ← parent s n
    let c ← branch s h true
    countLoop s h c 1

/-- `recursive_size`, src/ordered_multimap.c:1288-1298. -/
def recursiveSize (s : Omm α) (r : Nat) : Option Nat :=
  if r = 0 then some 0
  else do
    let k ← countDups s r
    let a ← branch s r true
    let a ← recursiveSize s a
    let b ← branch s r false
    let b ← recursiveSize s b
    some (k + 1 + a + b)
partial_fixpoint

/-- `are_subtrees_valid`, src/ordered_multimap.c:1300-1336. -/
def areSubtreesValid (s : Omm α) (low : Nat) (root : Slot) (high : Nat) : Option Bool :=
  match root with
  | none => some false
  | some root =>
    if root = 0 then some true
    else do
      let a ← (if low ≠ 0 then cmpAt cmp key s (key (s.val low)) root else some .les)
      if a ≠ .les then some false
      else do
        let b ← (if high ≠ 0 then cmpAt cmp key s (key (s.val high)) root else some .grt)
        if b ≠ .grt then some false
        else do
          let l ← getBr s root false
          let v ← areSubtreesValid s low l root
          if !v then some false
          else do
            let r ← getBr s root true
            areSubtreesValid s root r high
partial_fixpoint

/-- `child_tracks_parent`, src/ordered_multimap.c:1338-1357; only the flag is used. -/
def childTracksParent (s : Omm α) (par root : Nat) : Option Bool := do
  if ← hasDups s root then do
    let h ← parent s root
    let p ← getPar s h
    some (p == some par)
  else do
    let p ← getPar s root
    if p ≠ some par then do
      let h ← parent s root
      let _ ← getPar s h
      some false
    else some true

/-- `is_duplicate_storing_parent`, src/ordered_multimap.c:1359-1374. -/
def isStoringParent (s : Omm α) (par root : Nat) : Option Bool :=
  if root = 0 then some true
  else do
    if !(← childTracksParent s par root) then some false
    else do
      let l ← branch s root false
      let a ← isStoringParent s root l
      if !a then some false
      else do
        let r ← branch s root true
        isStoringParent s root r
partial_fixpoint

/-- `ccc_tree_validate`, src/ordered_multimap.c:1382-1404; `ccc_omm_validate`, 558-566. -/
def validate (s : Omm α) : Option Bool := do
  if !(← areSubtreesValid cmp key s 0 (some s.root) 0) then some false
  else if !(← isStoringParent s 0 s.root) then some false
  else do
    let n ← recursiveSize s s.root
    some (n == s.sz)

/-! ### Histories -/

/-- What the user reads through a pointer. -/
def view (s : Omm α) (p : Slot) : View α := p.map (fun a => (a, s.val a))

/-- The user makes a struct at `h`, or changes the data in it, before handing it to the multimap. -/
def put (s : Omm α) (h : Nat) (x : α) : Omm α := { s with val := upd s.val h x, live := upd s.live h true }

/-- One call of the interface. -/
def step (s : Omm α) : MultiSpec.Op α κ → Option (Omm α × Out α)
  | .insert h x ans => do
    let (s, e) ← insert cmp key (put s h x) h ans
    some (s, .ent e.stats (view s (unwrap e)))
  | .tryInsert h x _ => do
    let (s, e) ← tryInsert cmp key (put s h x) h
    some (s, .ent e.stats (view s (unwrap e)))
  | .insertOrAssign h x _ => do
    let (s, e) ← insertOrAssign cmp key (put s h x) h
    some (s, .ent e.stats (view s (unwrap e)))
  | .remove h x => do
    let (s, e) ← remove cmp key (put s h x) h
    some (s, .ent e.stats (view s (unwrap e)))
  | .orInsert k h x _ => do
    let (s, e) ← entry cmp key (put s h x) k
    let (s, p) ← orInsert cmp key s e h
    some (s, .ptr (view s p))
  | .insertEntry k h x _ => do
    let (s, _) ← entry cmp key (put s h x) k
    let (s, p) ← insertEntry cmp key s h
    some (s, .ptr (view s p))
  | .removeEntry k => do
    let (s, e) ← entry cmp key s k
    let (s, e) ← removeEntry cmp key s e
    some (s, .ent e.stats (view s (unwrap e)))
  | .andModify k f => do
    let (s, e) ← entry cmp key s k
    let s ← andModify s e f
    some (s, .ptr (view s (unwrap e)))
  | .occupied k => do
    let (s, e) ← entry cmp key s k
    some (s, .flag (occupied e))
  | .orInsertW k x ans => do
    let (s, e) ← entry cmp key s k
    let (s, p) ← orInsertW cmp key s e x ans
    some (s, .ptr (view s p))
  | .insertEntryW k x ans => do
    let (s, _) ← entry cmp key s k
    let (s, p) ← insertEntryW cmp key s x ans
    some (s, .ptr (view s p))
  | .tryInsertW k x ans => do
    let (s, e) ← tryInsertW cmp key s k x ans
    some (s, .ptr (view s (unwrap e)))
  | .insertOrAssignW k x ans => do
    let (s, e) ← insertOrAssignW cmp key s k x ans
    some (s, .ptr (view s (unwrap e)))
  | .contains k => do
    let (s, b) ← contains cmp key s k
    some (s, .flag b)
  | .get k => do
    let (s, p) ← find cmp key s k
    some (s, .ptr (view s p))
  | .max => do
    let (s, p) ← maxMin s .grt
    some (s, .ptr (view s p))
  | .min => do
    let (s, p) ← maxMin s .les
    some (s, .ptr (view s p))
  | .popMax => do
    let (s, r) ← popMax cmp key s
    some (s, .result r)
  | .popMin => do
    let (s, r) ← popMin cmp key s
    some (s, .result r)
  | .extract a => do
    let (s, p) ← eraseNode cmp key s a
    some (s, .ptr (view s p))
  | .update a f => do
    let (s, b) ← update cmp key s a f
    some (s, .flag b)
  | .begin => do
    let p ← begin_ s
    some (s, .ptr (view s p))
  | .rbegin => do
    let p ← rbegin s
    some (s, .ptr (view s p))
  | .next a => do
    let p ← next s a false
    some (s, .ptr (view s p))
  | .rnext a => do
    let p ← next s a true
    some (s, .ptr (view s p))
  | .equalRange b e => do
    let (s, x, y) ← equalRange cmp key s b e false
    some (s, .range (view s x) (view s y))
  | .equalRrange b e => do
    let (s, x, y) ← equalRange cmp key s b e true
    some (s, .range (view s x) (view s y))
  | .size => some (s, .num (size s))
  | .isEmpty => some (s, .flag (isEmpty s))
  | .validate => do
    let b ← validate cmp key s
    some (s, .flag b)
  | .clear => do
    let (s, _, r) ← clear cmp key s
    some (s, .result r)
  | .drop a => some ({ s with live := upd s.live a false, own := upd s.own a false }, .flag true)

/-- A history of calls. -/
def run (s : Omm α) : List (MultiSpec.Op α κ) → Option (Omm α × List (Out α))
  | [] => some (s, [])
  | o :: os => do
    let (s, r) ← step cmp key s o
    let (s, rs) ← run s os
    some (s, r :: rs)

end CCC.Omm
