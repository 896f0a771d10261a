import Verif.Model.Buffer
/-
Model of `src/flat_priority_queue.c` and the macros of `ccc/impl/impl_flat_priority_queue.h`: a binary heap in a
buffer whose first free slot is used as swap space.

Simplifications: NULL arguments are not modelled; element handles (`void *` into the buffer) are slot numbers.
A failed `assert` (debug) is modelled as `none`, like undefined behaviour.
-/
namespace CCC

/-- `struct ccc_fpq_`, ccc/impl/impl_flat_priority_queue.h:16-21: buffer, comparison callback and order. -/
structure Fpq (α : Type) where
  buf : Buf α
  cmp : α → α → Cmp
  order : Cmp

namespace Fpq
variable {α : Type}

/-- `at` + dereference, src/flat_priority_queue.c:435-441 (`assert(addr)`). -/
def load (q : Fpq α) (i : Nat) : Option α :=
  match q.buf.at_ i with
  | none => none
  | some k => q.buf.load k

/-- `wins`, src/flat_priority_queue.c:456-461. -/
def wins (q : Fpq α) (a b : α) : Bool := q.cmp a b = q.order

/-- `swap`, src/flat_priority_queue.c:426-431, through `ccc_buf_swap` (src/buffer.c:91-102) with the temporary
slot `tmp` inside the buffer; a NULL `tmp` or a rejected index trips the assertion. -/
def swap (q : Fpq α) (tmp : Slot) (i j : Nat) : Option (Fpq α) :=
  match tmp with
  | none => none
  | some t =>
    if i ≥ q.buf.cap ∨ j ≥ q.buf.cap ∨ j = i then none else do
      let x ← q.buf.load i
      let b ← q.buf.store t x
      let y ← b.load j
      let b ← b.store i y
      let x' ← b.load t
      let b ← b.store j x'
      pure { q with buf := b }

/-- `bubble_up`, src/flat_priority_queue.c:392-404. -/
def bubbleUp (q : Fpq α) (tmp : Slot) (i : Nat) : Option (Fpq α × Nat) :=
  if i = 0 then some (q, 0) else do
    let parent := (i - 1) / 2
    let x ← q.load i
    let y ← q.load parent
    if q.wins x y then
      let q ← q.swap tmp parent i
      bubbleUp q tmp parent
    else pure (q, i)
partial_fixpoint

/-- Choice of the child to compare with, src/flat_priority_queue.c:413-415. -/
def pickChild (q : Fpq α) (left : Nat) : Option Nat :=
  if left + 1 < q.buf.sz then do
    let r ← q.load (left + 1)
    let l ← q.load left
    pure (if q.wins r l then left + 1 else left)
  else some left

/-- `bubble_down`, src/flat_priority_queue.c:406-424. -/
def bubbleDown (q : Fpq α) (tmp : Slot) (i : Nat) : Option (Fpq α × Nat) :=
  if i * 2 + 1 < q.buf.sz then do
    let next ← q.pickChild (i * 2 + 1)
    let x ← q.load next
    let y ← q.load i
    if q.wins x y then
      let q ← q.swap tmp next i
      bubbleDown q tmp next
    else pure (q, i)
  else some (q, i)
partial_fixpoint

/-- The loop `for (i = n/2 + 1; i--;) bubble_down(i)`, src/flat_priority_queue.c:53-56 and 361-364. -/
def heapifyLoop (q : Fpq α) (tmp : Slot) : Nat → Option (Fpq α)
  | 0 => some q
  | i + 1 => do
    let (q, _) ← q.bubbleDown tmp i
    heapifyLoop q tmp i

/-- `ccc_fpq_heapify`, src/flat_priority_queue.c:33-58.  `xs` is the input array. -/
def heapify (q : Fpq α) (xs : List α) (ans : AllocAns α) : Option (Fpq α × Res) :=
  let n := xs.length
  let go (b : Buf α) : Option (Fpq α × Res) :=
    let b := (b.sizeSet n).1                                        -- 50
    if n > b.len then none else                                     -- memcpy bounds
    let b := { b with mem := fun j => match xs[j]? with | some x => x | none => b.mem j }   -- 51
    let q := { q with buf := b }
    (q.heapifyLoop (b.at_ n) (n / 2 + 1)).map fun q => (q, .ok)
  if n + 1 > q.buf.cap then
    let r := q.buf.alloc (n + 1) (q.buf.fn ans)
    if r.2 ≠ .ok then some ({ q with buf := r.1 }, r.2) else go r.1
  else go q.buf

/-- `ccc_impl_fpq_in_place_heapify`, src/flat_priority_queue.c:352-365 (used by `ccc_fpq_heapify_init`). -/
def inPlaceHeapify (q : Fpq α) (n : Nat) : Option (Fpq α) :=
  if q.buf.cap < n + 1 then some q
  else
    let q := { q with buf := (q.buf.sizeSet n).1 }
    q.heapifyLoop (q.buf.at_ n) (n / 2 + 1)

/-- Lines 76-96 of `ccc_fpq_push`, once there is room. -/
def pushRoom (q : Fpq α) (x : α) (ans : AllocAns α) : Option (Fpq α × Slot) :=
  match q.buf.allocBack ans with
  | (b, none) => some ({ q with buf := b }, none)
  | (b, some k) => do
    let b ← b.store k x                                             -- 81-84
    let q := { q with buf := b }
    if b.sz > 1 then
      let (q, i) ← q.bubbleUp (b.at_ b.sz) (b.sz - 1)
      pure (q, q.buf.at_ i)
    else pure (q, b.at_ 0)

/-- `ccc_fpq_push`, src/flat_priority_queue.c:60-97.  Two allocator answers: the doubling at 69-70 and the one
`ccc_buf_alloc_back` may ask for when the capacity was 0. -/
def push (q : Fpq α) (x : α) (ans ans' : AllocAns α) : Option (Fpq α × Slot) :=
  if q.buf.sz + 1 ≥ q.buf.cap then
    let r := q.buf.alloc (q.buf.cap * 2) (q.buf.fn ans)
    if r.2 ≠ .ok then some ({ q with buf := r.1 }, none)
    else pushRoom { q with buf := r.1 } x ans'
  else pushRoom q x ans'

/-- `ccc_fpq_pop`, src/flat_priority_queue.c:99-116. -/
def pop (q : Fpq α) : Option (Fpq α × Res) :=
  if q.buf.sz = 0 then some (q, .inputErr)
  else if q.buf.sz = 1 then some ({ q with buf := q.buf.popBack.1 }, .ok)
  else do
    let tmp := q.buf.at_ q.buf.sz
    let q ← q.swap tmp 0 (q.buf.sz - 1)
    let q := { q with buf := q.buf.popBack.1 }
    let (q, _) ← q.bubbleDown tmp 0
    pure (q, .ok)

/-- `ccc_fpq_erase`, src/flat_priority_queue.c:118-154; `e` is the slot of the element (`index_of`, asserted to be
below the size). -/
def erase (q : Fpq α) (e : Nat) : Option (Fpq α × Res) :=
  if q.buf.sz = 0 then some (q, .inputErr)
  else if q.buf.sz = 1 then some ({ q with buf := q.buf.popBack.1 }, .ok)
  else if e ≥ q.buf.sz then none                                    -- 452 assert
  else if e = q.buf.sz - 1 then some ({ q with buf := q.buf.popBack.1 }, .ok)
  else do
    let tmp := q.buf.at_ q.buf.sz
    let q ← q.swap tmp e (q.buf.sz - 1)
    let erased ← q.load (q.buf.sz - 1)
    let q := { q with buf := q.buf.popBack.1 }
    let moved ← q.load e
    let c := q.cmp moved erased
    if c = q.order then
      let (q, _) ← q.bubbleUp tmp e
      pure (q, .ok)
    else if c ≠ .eql then
      let (q, _) ← q.bubbleDown tmp e
      pure (q, .ok)
    else pure (q, .ok)

/-- `update_fixup`, src/flat_priority_queue.c:369-390. -/
def updateFixup (q : Fpq α) (i : Nat) : Option (Fpq α × Nat) :=
  let tmp := q.buf.at_ q.buf.sz
  if i ≥ q.buf.sz then none                                         -- 452 assert
  else if i = 0 then q.bubbleDown tmp 0
  else do
    let x ← q.load i
    let y ← q.load ((i - 1) / 2)
    let c := q.cmp x y
    if c = q.order then q.bubbleUp tmp i
    else if c ≠ .eql then q.bubbleDown tmp i
    else pure (q, i)

/-- `ccc_fpq_update`, src/flat_priority_queue.c:156-182 (`increase` and `decrease` are the same function); the
user's update function is `f`. -/
def update (q : Fpq α) (e : Nat) (f : α → α) : Option (Fpq α × Slot) :=
  if q.buf.sz = 0 then some (q, none)
  else do
    let x ← q.buf.load e
    let b ← q.buf.store e (f x)                                     -- 164
    let q := { q with buf := b }
    let (q, i) ← q.updateFixup e
    pure (q, q.buf.at_ i)

/-- `ccc_fpq_front`, src/flat_priority_queue.c:184-192. -/
def front (q : Fpq α) : Slot := if q.buf.sz = 0 then none else q.buf.at_ 0

/-- `ccc_fpq_size`, src/flat_priority_queue.c:211-215. -/
def size (q : Fpq α) : Nat := q.buf.sz

/-- `ccc_fpq_clear`, src/flat_priority_queue.c:269-285, with the list of elements given to the destructor. -/
def clear (q : Fpq α) : Fpq α × Res × List α :=
  let r := q.buf.sizeSet 0
  ({ q with buf := r.1 }, r.2, window q.buf.mem 0 q.buf.sz)

/-- `ccc_fpq_clear_and_free`, src/flat_priority_queue.c:287-304. -/
def clearAndFree (q : Fpq α) : Fpq α × Res :=
  let r := q.buf.alloc 0 (q.buf.fn none)
  ({ q with buf := r.1 }, r.2)

/-- The test `child < sz && wins(child, cur)` of `ccc_fpq_validate`, src/flat_priority_queue.c:326-333. -/
def childBad (q : Fpq α) (k : Nat) (cur : α) : Option Bool :=
  if k < q.buf.sz then (q.load k).map (q.wins · cur) else some false

/-- Loop of `ccc_fpq_validate`, src/flat_priority_queue.c:318-335, from index `i`. -/
def validateLoop (q : Fpq α) (i : Nat) : Option Bool :=
  let sz := q.buf.sz
  if i ≤ (sz - 2) / 2 then do
    let cur ← q.load i
    let badL ← q.childBad (i * 2 + 1) cur
    if badL then pure false else
    let badR ← q.childBad (i * 2 + 2) cur
    if badR then pure false else
    validateLoop q (i + 1)
  else some true
partial_fixpoint

/-- `ccc_fpq_validate`, src/flat_priority_queue.c:306-336. -/
def validate (q : Fpq α) : Option Bool := if q.buf.sz ≤ 1 then some true else q.validateLoop 0

/-- `ccc_fpq_copy`, src/flat_priority_queue.c:235-267; `fn` is the allocation argument. -/
def copy (dst src : Fpq α) (fn : Option (AllocAns α)) : Option (Fpq α × Res) :=
  if dst.buf.cap < src.buf.cap ∧ fn = none then some (dst, .inputErr)
  else
    -- 247-253: everything copied from src except memory, capacity and allocator of dst
    let b : Buf α := { dst.buf with sz := src.buf.sz }
    let d : Fpq α := { src with buf := b }
    let r := if b.cap < src.buf.cap then b.alloc src.buf.cap fn else (b, .ok)
    if r.2 ≠ .ok then some ({ d with buf := r.1 }, r.2)
    else if src.buf.cap > r.1.len ∨ src.buf.cap > src.buf.len then none        -- 264 memcpy bounds
    else some ({ d with buf := { r.1 with mem := blockWrite r.1.mem 0 src.buf.mem 0 src.buf.cap } }, .ok)

/-- `ccc_impl_fpq_emplace`, ccc/impl/impl_flat_priority_queue.h:53-88. -/
def emplace (q : Fpq α) (x : α) (ans ans' : AllocAns α) : Option (Fpq α × Slot) :=
  let r := q.buf.allocBack ans                                      -- 58
  let r' : Buf α × Slot :=
    if r.1.sz = r.1.cap then                                        -- 59-69
      let a := r.1.alloc (r.1.cap * 2) (r.1.fn ans')
      if a.2 = .ok then (a.1, a.1.back) else (a.1, none)
    else r
  match r'.2 with
  | none => some ({ q with buf := r'.1 }, none)
  | some k => do
    let b ← r'.1.store k x
    let q := { q with buf := b }
    if b.sz > 1 then
      let (q, i) ← q.bubbleUp (b.at_ b.sz) (b.sz - 1)
      pure (q, q.buf.at_ i)
    else pure (q, b.at_ 0)

end Fpq
end CCC
