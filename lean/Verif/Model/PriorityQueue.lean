import Verif.Spec.PriorityQueue
/-
Model of the pairing heap priority queue, `src/priority_queue.c` and `ccc/impl/impl_priority_queue.h`.

An intrusive element (`struct ccc_pq_elem_`) is modelled together with the struct of the user it is part of; both have
one address, a natural number.  Memory is a partial map from addresses to such structs: reading or writing an address
that is not there, or NULL, is undefined behaviour, `none`.  `struct_base` and `elem_in` (src/priority_queue.c:310-320)
are therefore the identity, except in `push`, which applies `elem_in` to an element.
-/
namespace CCC.Pq
open CCC PrioQ

/-- `struct ccc_pq_elem_` (ccc/impl/impl_priority_queue.h:11-17) and the user's data around it. -/
structure Elem (α : Type) where
  val : α
  left : Slot
  next : Slot
  prev : Slot
  par : Slot

/-- `struct ccc_pq_`, ccc/impl/impl_priority_queue.h:20-30, and the memory; the fields that do not change are in `Cfg`. -/
structure Pq (α : Type) where
  mem : Nat → Option (Elem α)
  root : Slot
  sz : Nat

/-- The fields `cmp_`, `order_`, `alloc_` (NULL or not) and `pq_elem_offset_`. -/
structure Cfg (α : Type) where
  cmp : α → α → Cmp
  order : Cmp
  alloc : Bool
  off : Nat

variable {α : Type} (c : Cfg α)

/-- `ccc_impl_pq_init`, ccc/impl/impl_priority_queue.h:34-45. -/
def init (mem : Nat → Option (Elem α)) : Pq α := ⟨mem, none, 0⟩

/-- Write to a struct through a pointer. -/
def Pq.mod (s : Pq α) (p : Slot) (f : Elem α → Elem α) : Option (Pq α) := do
  let a ← p
  let e ← s.mem a
  some { s with mem := upd s.mem a (some (f e)) }

/-- `init_node`, src/priority_queue.c:322-327. -/
def initNode (s : Pq α) (e : Nat) : Option (Pq α) :=
  s.mod (some e) (fun x => { x with left := none, par := none, next := some e, prev := some e })

/-- `clear_node`, src/priority_queue.c:329-333. -/
def clearNode (s : Pq α) (e : Nat) : Option (Pq α) :=
  s.mod (some e) (fun x => { x with left := none, next := none, prev := none, par := none })

/-- `link_child`, src/priority_queue.c:403-424. -/
def linkChild (s : Pq α) (p ch : Nat) : Option (Pq α) := do
  let ep ← s.mem p
  let s ← (match ep.left with
    | some l => do
      let el ← s.mem l
      let s ← s.mod (some ch) (fun x => { x with next := el.next })
      let s ← s.mod (some ch) (fun x => { x with prev := some l })
      let el ← s.mem l
      let s ← s.mod el.next (fun x => { x with prev := some ch })
      s.mod (some l) (fun x => { x with next := some ch })
    | none => do
      let s ← s.mod (some ch) (fun x => { x with prev := some ch })
      s.mod (some ch) (fun x => { x with next := some ch }))
  let s ← s.mod (some p) (fun x => { x with left := some ch })
  s.mod (some ch) (fun x => { x with par := some p })

/-- `merge`, src/priority_queue.c:386-401; `cmp`, 301-308. -/
def merge (s : Pq α) (old new : Slot) : Option (Pq α × Slot) :=
  match old, new with
  | none, new => some (s, new)
  | some a, none => some (s, some a)
  | some a, some b =>
    if a = b then some (s, some a)
    else do
      let x ← s.mem a
      let y ← s.mem b
      if c.cmp y.val x.val = c.order then do
        let s ← linkChild s b a
        some (s, some b)
      else do
        let s ← linkChild s a b
        some (s, some a)

/-- `cut_child`, src/priority_queue.c:335-346. -/
def cutChild (s : Pq α) (ch : Nat) : Option (Pq α) := do
  let e ← s.mem ch
  let s ← s.mod e.next (fun x => { x with prev := e.prev })
  let e ← s.mem ch
  let s ← s.mod e.prev (fun x => { x with next := e.next })
  let e ← s.mem ch
  let s ← (match e.par with
    | none => some s
    | some p => do
      let ep ← s.mem p
      if ep.left = some ch then
        s.mod (some p) (fun x => { x with left := if e.next = some ch then none else e.next })
      else some s)
  s.mod (some ch) (fun x => { x with par := none })

/-- The loop of `delete_min`, src/priority_queue.c:369-377. -/
def pairLoop (s : Pq α) (eldest acc cur : Slot) : Option (Pq α × Slot × Slot) :=
  if cur = eldest then some (s, acc, cur)
  else do
    let a ← cur
    let e ← s.mem a
    if e.next = eldest then some (s, acc, cur)
    else do
      let n ← e.next
      let en ← s.mem n
      let nextCur := en.next
      let s ← s.mod (some n) (fun x => { x with prev := none, next := none })
      let s ← s.mod (some a) (fun x => { x with prev := none, next := none })
      let (s, m) ← merge c s (some a) (some n)
      let (s, acc) ← merge c s acc m
      pairLoop s eldest acc nextCur
partial_fixpoint

/-- `delete_min`, src/priority_queue.c:359-384. -/
def deleteMin (s : Pq α) (root : Nat) : Option (Pq α × Slot) := do
  let e ← s.mem root
  match e.left with
  | none => some (s, none)
  | some l => do
    let el ← s.mem l
    let eldest ← el.next
    let ee ← s.mem eldest
    let (s, acc, cur) ← pairLoop c s (some eldest) (some eldest) ee.next
    let (s, root) ← (if cur ≠ some eldest then merge c s acc cur else some (s, acc))
    let s ← s.mod root (fun x => { x with prev := root, next := root })
    let s ← s.mod root (fun x => { x with par := none })
    some (s, root)

/-- `delete_node`, src/priority_queue.c:348-357. -/
def deleteNode (s : Pq α) (e : Nat) : Option (Pq α × Slot) :=
  if s.root = some e then deleteMin c s e
  else do
    let s ← cutChild s e
    let (s, r) ← deleteMin c s e
    merge c s s.root r

/-- `ccc_pq_front`, src/priority_queue.c:35-43. -/
def front (s : Pq α) : Slot := s.root
/-- `ccc_pq_is_empty`, src/priority_queue.c:135-139. -/
def isEmpty (s : Pq α) : Bool := s.sz == 0
/-- `ccc_pq_size`, src/priority_queue.c:141-145. -/
def size (s : Pq α) : Nat := s.sz
/-- `ccc_pq_order`, src/priority_queue.c:214-218. -/
def order : Cmp := c.order

/-- `ccc_pq_push`, src/priority_queue.c:45-68.  `ans` is the answer of the allocation function: the address of a fresh
struct, or `none` for NULL.  After a successful allocation `elem_in` adds the offset of the handle within the struct to
the address of the handle; unless that offset is 0 the result is not the address of a handle. -/
def push (s : Pq α) (e : Nat) (ans : Slot) : Option (Pq α × Slot) := do
  let s ← initNode s e
  if c.alloc then
    match ans with
    | none => some (s, none)
    | some n => do
      let x ← s.mem e
      let s : Pq α := { s with mem := upd s.mem n (some x) }
      if c.off ≠ 0 then none
      else do
        let (s, r) ← merge c s s.root (some e)
        some ({ s with root := r, sz := s.sz + 1 }, some n)
  else do
    let (s, r) ← merge c s s.root (some e)
    some ({ s with root := r, sz := s.sz + 1 }, some e)

/-- `ccc_impl_pq_emplace`, ccc/impl/impl_priority_queue.h:53-75; `a1` and `a2` are the answers of the allocation function
to the macro and to the push.  `elem_in` is applied to the address of the struct here, as it should be. -/
def emplace (s : Pq α) (x : α) (a1 a2 : Slot) : Option (Pq α × Slot) :=
  if !c.alloc then some (s, none)
  else match a1 with
    | none => some (s, none)
    | some n => do
      let s : Pq α := { s with mem := upd s.mem n (some ⟨x, none, none, none, none⟩) }
      let (s, _) ← push c s n a2
      some (s, some n)

/-- The user's `free` of a struct, called through `alloc_`. -/
def free (s : Pq α) (e : Nat) : Pq α := { s with mem := upd s.mem e none }

/-- `ccc_pq_pop`, src/priority_queue.c:70-86. -/
def pop (s : Pq α) : Option (Pq α × Res) :=
  match s.root with
  | none => some (s, .inputErr)
  | some p => do
    let (s, r) ← deleteMin c s p
    let s : Pq α := { s with root := r, sz := s.sz - 1 }
    let s ← clearNode s p
    some (if c.alloc then free s p else s, .ok)

/-- `ccc_pq_extract`, src/priority_queue.c:88-99. -/
def extract (s : Pq α) (e : Nat) : Option (Pq α × Slot) :=
  if s.root = none then some (s, none)
  else do
    let x ← s.mem e
    if x.next = none ∨ x.prev = none then some (s, none)
    else do
      let (s, r) ← deleteNode c s e
      let s : Pq α := { s with root := r, sz := s.sz - 1 }
      let s ← clearNode s e
      some (s, some e)

/-- `ccc_pq_erase`, src/priority_queue.c:101-115. -/
def erase (s : Pq α) (e : Nat) : Option (Pq α × Res) :=
  if s.root = none then some (s, .inputErr)
  else do
    let x ← s.mem e
    if x.next = none ∨ x.prev = none then some (s, .inputErr)
    else do
      let (s, r) ← deleteNode c s e
      let s : Pq α := { s with root := r, sz := s.sz - 1 }
      some (if c.alloc then free s e else s, .ok)

/-- The loop of `ccc_pq_clear`, src/priority_queue.c:124-131; also returns what the destructor was called with. -/
def clearLoop (s : Pq α) (destroy : Bool) : Option (Pq α × List Nat) :=
  if isEmpty s then some (s, [])
  else do
    let d ← (if destroy then do let f ← front s; some [f] else some [])
    let (s, _) ← pop c s
    let (s, ds) ← clearLoop s destroy
    some (s, d ++ ds)
partial_fixpoint

/-- `ccc_pq_clear`, src/priority_queue.c:117-133. -/
def clear (s : Pq α) (destroy : Bool) : Option (Pq α × List Nat × Res) := do
  let (s, d) ← clearLoop c s destroy
  some (s, d, .ok)

/-- `update_fixup`, src/priority_queue.c:256-269. -/
def updateFixup (s : Pq α) (e : Nat) : Option (Pq α) := do
  let x ← s.mem e
  let beats ← (match x.par with
    | none => some false
    | some p => do
      let y ← s.mem p
      some (decide (c.cmp x.val y.val = c.order)))
  if beats then do
    let s ← cutChild s e
    let (s, r) ← merge c s s.root (some e)
    some { s with root := r }
  else do
    let (s, r) ← deleteNode c s e
    let s : Pq α := { s with root := r }
    let s ← initNode s e
    let (s, r) ← merge c s s.root (some e)
    some { s with root := r }

/-- The two ways of `increase_fixup` and `decrease_fixup`, src/priority_queue.c:271-299: `up` says whether the element
moves towards the front. -/
def fixup (s : Pq α) (e : Nat) (up : Bool) : Option (Pq α) := do
  let s ← (if up then cutChild s e
    else do
      let (s, r) ← deleteNode c s e
      initNode { s with root := r } e)
  let (s, r) ← merge c s s.root (some e)
  some { s with root := r }

/-- The check for a handle that is not in a queue and the user's function, common to the six calls below. -/
def change (s : Pq α) (e : Nat) (f : α → α) (fix : Pq α → Option (Pq α)) : Option (Pq α × Bool) := do
  let x ← s.mem e
  if x.next = none ∨ x.prev = none then some (s, false)
  else do
    let s ← s.mod (some e) (fun x => { x with val := f x.val })
    let s ← fix s
    some (s, true)

/-- `ccc_pq_update`, src/priority_queue.c:153-164, and `ccc_impl_pq_update_w`, ccc/impl/impl_priority_queue.h:77-90. -/
def update (s : Pq α) (e : Nat) (f : α → α) : Option (Pq α × Bool) := change s e f (updateFixup c · e)

/-- `ccc_pq_increase`, src/priority_queue.c:168-179, and `ccc_impl_pq_increase_w`,
ccc/impl/impl_priority_queue.h:92-106. -/
def increase (s : Pq α) (e : Nat) (f : α → α) : Option (Pq α × Bool) :=
  change s e f (fixup c · e (decide (c.order = .grt)))

/-- `ccc_pq_decrease`, src/priority_queue.c:183-194, and `ccc_impl_pq_decrease_w`,
ccc/impl/impl_priority_queue.h:108-122. -/
def decrease (s : Pq α) (e : Nat) (f : α → α) : Option (Pq α × Bool) :=
  change s e f (fixup c · e (decide (c.order = .les)))

/-- `traversal_size`, src/priority_queue.c:430-444, inside its loop: `head` is the first of the siblings. -/
def sizeLoop (s : Pq α) (head cur acc : Nat) : Option Nat := do
  let e ← s.mem cur
  let k ← (match e.left with
    | none => some 0
    | some l => sizeLoop s l l 0)
  let e ← s.mem cur
  let n ← e.next
  if n = head then some (acc + (1 + k)) else sizeLoop s head n (acc + (1 + k))
partial_fixpoint

/-- `traversal_size`, src/priority_queue.c:430-444. -/
def traversalSize (s : Pq α) (root : Slot) : Option Nat :=
  match root with
  | none => some 0
  | some r => sizeLoop s r r 0

/-- `has_valid_links`, src/priority_queue.c:446-489, inside its loop.  `child` is not NULL; `!cur` (461-464) holds for a
NULL sibling. -/
def linksLoop (s : Pq α) (parent : Slot) (child : Nat) (cur : Slot) : Option Bool :=
  match cur with
  | none => some false
  | some a => do
    let ch ← s.mem child
    let bad1 := parent ≠ none ∧ ch.par ≠ parent
    if bad1 then some false
    else do
      let bad2 ← (match parent with
        | none => some false
        | some p => do
          let ep ← s.mem p
          let cp ← ch.par
          let ec ← s.mem cp
          some (decide (ep.left ≠ ec.left)))
      if bad2 then some false
      else do
        let n ← ch.next
        let en ← s.mem n
        let bad3 ← (if en.prev ≠ some child then some true
          else do
            let p ← ch.prev
            let ep ← s.mem p
            some (decide (ep.next ≠ some child)))
        if bad3 then some false
        else do
          let x ← s.mem a
          let bad4 ← (match parent with
            | none => some false
            | some p => do
              let ep ← s.mem p
              some (decide (c.cmp ep.val x.val = if c.order = .les then .grt else .les)))
          if bad4 then some false
          else do
            let ok ← (match x.left with
              | none => some true
              | some l => linksLoop s (some a) l (some l))
            if !ok then some false
            else if x.next = some child then some true
            else linksLoop s parent child x.next
partial_fixpoint

/-- `has_valid_links`, src/priority_queue.c:446-489. -/
def hasValidLinks (s : Pq α) (parent child : Slot) : Option Bool :=
  match child with
  | none => some true
  | some ch => linksLoop c s parent ch (some ch)

/-- `ccc_pq_validate`, src/priority_queue.c:196-212. -/
def validate (s : Pq α) : Option Bool := do
  let bad ← (match s.root with
    | none => some false
    | some r => do
      let e ← s.mem r
      some e.par.isSome)
  if bad then some false
  else do
    let ok ← hasValidLinks c s none s.root
    if !ok then some false
    else do
      let n ← traversalSize s s.root
      some (n == s.sz)

/-! ### Histories -/

/-- One call of the interface, or something the user does with a struct outside the queue. -/
def step (s : Pq α) : Op α → Option (Pq α × Out)
  | .make e x l n p r => some ({ s with mem := upd s.mem e (some ⟨x, l, n, p, r⟩) }, .unit)
  | .drop e => some ({ s with mem := upd s.mem e none }, .unit)
  | .push e => do
    let (s, p) ← push c s e none
    some (s, .ptr p)
  | .pop => do
    let (s, r) ← pop c s
    some (s, .res r)
  | .extract e => do
    let (s, p) ← extract c s e
    some (s, .ptr p)
  | .erase e => do
    let (s, r) ← erase c s e
    some (s, .res r)
  | .update e f => do
    let (s, b) ← update c s e f
    some (s, .flag b)
  | .increase e f => do
    let (s, b) ← increase c s e f
    some (s, .flag b)
  | .decrease e f => do
    let (s, b) ← decrease c s e f
    some (s, .flag b)
  | .clear d => do
    let (s, _, r) ← clear c s d
    some (s, .res r)
  | .front => some (s, .ptr (front s))
  | .size => some (s, .num (size s))
  | .isEmpty => some (s, .flag (isEmpty s))
  | .validate => do
    let b ← validate c s
    some (s, .flag b)
  | .order => some (s, .ord (order c))

/-- A history. -/
def run (s : Pq α) : List (Op α) → Option (Pq α × List Out)
  | [] => some (s, [])
  | o :: os => do
    let (s, r) ← step c s o
    let (s, rs) ← run s os
    some (s, r :: rs)

end CCC.Pq
