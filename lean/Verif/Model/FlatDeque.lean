import Verif.Model.Buffer
import Verif.Model.BufferWord
/-
Model of `src/flat_double_ended_queue.c` and `ccc/impl/impl_flat_double_ended_queue.h`.

`none` is undefined behaviour: an access outside the allocation, a remainder by a zero capacity, a failed assertion or
the use of a pointer into freed memory.  Sizes and indices are natural numbers (additions that would exceed 2^64 are
not modelled) except where a subtraction can wrap, which is modelled with `BufWord.W`.  NULL container or element
arguments are not modelled: the caller passes valid pointers.
-/
namespace CCC

/-- `struct ccc_fdeq_`, ccc/impl/impl_flat_double_ended_queue.h:11-15. -/
structure Fdeq (α : Type) where
  buf : Buf α
  front : Nat

namespace Fdeq
variable {α : Type}

/-- `memcpy` of a user array to slot `a`. -/
def writeList (f : Nat → α) (a : Nat) (xs : List α) : Nat → α :=
  fun i => if a ≤ i then (xs[i - a]?).getD (f i) else f i

/-- `capacity - 1` in `size_t` arithmetic. -/
def capPred (cap : Nat) : Nat := if cap = 0 then BufWord.W - 1 else cap - 1

/-- `x % capacity`, undefined for capacity zero. -/
def modCap (d : Fdeq α) (x : Nat) : Option Nat := if d.buf.cap = 0 then none else some (x % d.buf.cap)

/-- `increment`, src/flat_double_ended_queue.c:679-683. -/
def increment (d : Fdeq α) (i : Nat) : Nat := if i = capPred d.buf.cap then 0 else i + 1
/-- `decrement`, src/flat_double_ended_queue.c:685-689. -/
def decrement (d : Fdeq α) (i : Nat) : Nat := if i ≠ 0 then i - 1 else capPred d.buf.cap
/-- `back_free_slot`, src/flat_double_ended_queue.c:691-696. -/
def backFreeSlot (d : Fdeq α) : Option Nat := d.modCap (d.front + d.buf.sz)
/-- `front_free_slot`, src/flat_double_ended_queue.c:698-702. -/
def frontFreeSlot (front cap : Nat) : Nat := if front ≠ 0 then front - 1 else capPred cap
/-- `last_elem_index`, src/flat_double_ended_queue.c:704-710 ("Assumes the queue is not empty"). -/
def lastElemIndex (d : Fdeq α) : Option Nat := d.modCap (d.front + (d.buf.sz - 1))
/-- `distance`, src/flat_double_ended_queue.c:647-653. -/
def distance (d : Fdeq α) (iter origin : Nat) : Nat :=
  if iter > origin then iter - origin else (d.buf.cap - origin) + iter
/-- `rdistance`, src/flat_double_ended_queue.c:655-661. -/
def rdistance (d : Fdeq α) (iter origin : Nat) : Nat :=
  if iter > origin then (d.buf.cap - iter) + origin else origin - iter
/-- `index_of`, src/flat_double_ended_queue.c:663-670: pointers are slots; the assertions bound them. -/
def indexOf (d : Fdeq α) (k : Nat) : Option Nat := if k < d.buf.cap then some k else none
/-- `at`, src/flat_double_ended_queue.c:672-677. -/
def atIdx (d : Fdeq α) (i : Nat) : Option Slot := (d.modCap (d.front + i)).map d.buf.at_

/-- Reading `n` slots from `a` stays inside the allocation. -/
def readOk (b : Buf α) (a n : Nat) : Prop := a + n ≤ b.len
instance (b : Buf α) (a n : Nat) : Decidable (readOk b a n) := inferInstanceAs (Decidable (_ ≤ _))

/-- The copy of the elements in front-to-back order to fresh memory `g`, lines 627-639 of `maybe_resize` and 285-295
of `ccc_fdeq_copy`. -/
def unrotate (d : Fdeq α) (g : Nat → α) : Option (Nat → α) :=
  let first := min d.buf.sz (d.buf.cap - d.front)
  if ¬ readOk d.buf d.front first then none else
  let g := blockWrite g 0 d.buf.mem d.front first
  if first < d.buf.sz then
    if ¬ readOk d.buf 0 (d.buf.sz - first) then none
    else some (blockWrite g first d.buf.mem 0 (d.buf.sz - first))
  else some g

/-- `maybe_resize`, src/flat_double_ended_queue.c:604-645. -/
def maybeResize (d : Fdeq α) (n : Nat) (ans : AllocAns α) : Option (Fdeq α × Res) :=
  if d.buf.sz + n < d.buf.cap then some (d, .ok)
  else if d.buf.hasAlloc = false then some (d, .noAlloc)
  else
    let newCap := if d.buf.cap ≠ 0 then (d.buf.cap + n) * 2 else 8
    match ans with
    | none => some (d, .memErr)
    | some junk => do
      let g ← (if d.buf.sz ≠ 0 then d.unrotate junk else some junk : Option (Nat → α))
      pure ({ buf := { d.buf with mem := g, len := newCap, cap := newCap }, front := 0 }, .ok)

/-- `alloc_front`, src/flat_double_ended_queue.c:415-431. -/
def allocFront (d : Fdeq α) (ans : AllocAns α) : Option (Fdeq α × Slot) := do
  let (d, r) ← d.maybeResize 0 ans
  if d.buf.hasAlloc = true ∧ r ≠ .ok then pure (d, none)
  else
    let d := { d with front := frontFreeSlot d.front d.buf.cap }
    let slot := d.buf.at_ d.front
    if r = .ok then pure ({ d with buf := (d.buf.sizePlus 1).1 }, slot) else pure (d, slot)

/-- `alloc_back`, src/flat_double_ended_queue.c:433-453. -/
def allocBack (d : Fdeq α) (ans : AllocAns α) : Option (Fdeq α × Slot) := do
  let (d, r) ← d.maybeResize 0 ans
  if d.buf.hasAlloc = true ∧ r ≠ .ok then pure (d, none)
  else
    let k ← d.backFreeSlot
    let slot := d.buf.at_ k
    if r = .ok then pure ({ d with buf := (d.buf.sizePlus 1).1 }, slot)
    else pure ({ d with front := d.increment d.front }, slot)

/-- The write through the returned pointer, lines 46-50 and 62-66. -/
def fill (d : Fdeq α) (slot : Slot) (x : α) : Option (Fdeq α × Slot) :=
  match slot with
  | none => some (d, none)
  | some k => (d.buf.store k x).map fun b => ({ d with buf := b }, some k)

/-- `ccc_fdeq_push_back`, src/flat_double_ended_queue.c:37-51. -/
def pushBack (d : Fdeq α) (x : α) (ans : AllocAns α) : Option (Fdeq α × Slot) := do
  let (d, s) ← d.allocBack ans
  d.fill s x

/-- `ccc_fdeq_push_front`, src/flat_double_ended_queue.c:53-67. -/
def pushFront (d : Fdeq α) (x : α) (ans : AllocAns α) : Option (Fdeq α × Slot) := do
  let (d, s) ← d.allocFront ans
  d.fill s x

/-- `ccc_impl_fdeq_emplace_back`, ccc/impl/impl_flat_double_ended_queue.h:30-44: the inner declaration shadows the
returned variable, which stays NULL. -/
def emplaceBack (d : Fdeq α) (x : α) (ans : AllocAns α) : Option (Fdeq α × Slot) :=
  (d.pushBack x ans).map fun r => (r.1, none)

/-- `ccc_impl_fdeq_emplace_front`, ccc/impl/impl_flat_double_ended_queue.h:46-60, likewise. -/
def emplaceFront (d : Fdeq α) (x : α) (ans : AllocAns α) : Option (Fdeq α × Slot) :=
  (d.pushFront x ans).map fun r => (r.1, none)

/-- `memcpy(ccc_buf_at(&fdeq->buf_, a), xs, …)`: outside the allocation it is undefined. -/
def putRange (b : Buf α) (a : Nat) (xs : List α) : Option (Buf α) :=
  if a + xs.length ≤ b.len then some { b with mem := writeList b.mem a xs } else none

/-- `push_back_range`, src/flat_double_ended_queue.c:455-493. -/
def pushBackRange (d : Fdeq α) (xs : List α) (ans : AllocAns α) : Option (Fdeq α × Res) := do
  let n := xs.length
  let (d, r) ← d.maybeResize n ans
  let cap := d.buf.cap
  if d.buf.hasAlloc = true ∧ r ≠ .ok then pure (d, .memErr)
  else if n ≥ cap then
    let b ← putRange d.buf 0 (xs.drop (n - cap))
    pure ({ buf := (b.sizeSet cap).1, front := 0 }, .ok)
  else
    let newSize := d.buf.sz + n
    let back ← d.backFreeSlot
    let chunk := min n (cap - back)
    let b ← putRange d.buf back (xs.take chunk)
    let b ← (if n - chunk ≠ 0 then putRange b ((back + chunk) % cap) (xs.drop chunk) else some b : Option (Buf α))
    let front := if newSize > cap then (d.front + (newSize - cap)) % cap else d.front
    pure ({ buf := (b.sizeSet (min cap newSize)).1, front }, .ok)

/-- `push_front_range`, src/flat_double_ended_queue.c:495-531. -/
def pushFrontRange (d : Fdeq α) (xs : List α) (ans : AllocAns α) : Option (Fdeq α × Res) := do
  let n := xs.length
  let (d, r) ← d.maybeResize n ans
  let cap := d.buf.cap
  if d.buf.hasAlloc = true ∧ r ≠ .ok then pure (d, .memErr)
  else if n ≥ cap then
    let b ← putRange d.buf 0 (xs.drop (n - cap))
    pure ({ buf := (b.sizeSet cap).1, front := 0 }, .ok)
  else
    let spaceAhead := frontFreeSlot d.front cap + 1
    let i := if n > spaceAhead then 0 else spaceAhead - n
    let chunk := min n spaceAhead
    let remainder := n - chunk
    let b ← putRange d.buf i (xs.drop (n - chunk))
    let b ← (if remainder ≠ 0 then putRange b (cap - remainder) (xs.take remainder) else some b : Option (Buf α))
    pure ({ buf := (b.sizeSet (min cap (d.buf.sz + n))).1
            front := if remainder ≠ 0 then cap - remainder else i }, .ok)

/-- `memmove` of `n` slots inside the buffer. -/
def moveRange (b : Buf α) (dst src n : Nat) : Option (Buf α) :=
  if dst + n ≤ b.len ∧ src + n ≤ b.len then some { b with mem := blockMove b.mem dst src n } else none

/-- `push_range`, src/flat_double_ended_queue.c:533-602.  `pos` is a slot of the array the queue has when it is called:
if `maybe_resize` replaces the array, the pointer dangles and line 554 uses it (undefined). -/
def pushRange (d : Fdeq α) (pos : Nat) (xs : List α) (ans : AllocAns α) : Option (Fdeq α × Slot) := do
  let n := xs.length
  let resized := ¬ d.buf.sz + n < d.buf.cap ∧ d.buf.hasAlloc = true
  let (d, r) ← d.maybeResize n ans
  if d.buf.hasAlloc = true ∧ r ≠ .ok then pure (d, none)
  else
    let cap := d.buf.cap
    let newSize := d.buf.sz + n
    if n ≥ cap then
      let b ← putRange d.buf 0 (xs.drop (n - cap))
      pure ({ buf := (b.sizeSet cap).1, front := 0 }, d.buf.at_ 0)
    else if resized then none
    else
      let pos ← d.indexOf pos
      let back ← d.backFreeSlot
      let toMove := if back > pos then back - pos else cap - pos + back
      let moveI := (pos + n) % cap
      let moveChunk := if moveI + toMove > cap then cap - moveI else toMove
      let moveChunk := if back < pos then min (cap - pos) moveChunk else min (back - pos) moveChunk
      let moveRemain := toMove - moveChunk
      let b ← moveRange d.buf moveI pos moveChunk
      let b ← (if moveRemain ≠ 0 then
        moveRange b ((moveI + moveChunk) % cap) ((pos + moveChunk) % cap) moveRemain else some b : Option (Buf α))
      let elemsChunk := min n (cap - pos)
      let b ← putRange b pos (xs.take elemsChunk)
      let b ← (if n - elemsChunk ≠ 0 then putRange b ((pos + elemsChunk) % cap) (xs.drop elemsChunk) else some b :
        Option (Buf α))
      let front :=
        if newSize > cap then
          let excess := newSize - cap
          if (d.front ≤ pos ∧ d.front + excess ≥ pos) ∨ (d.front + excess > cap ∧ d.front + excess - cap ≥ pos) then pos
          else (d.front + excess) % cap
        else d.front
      let b := (b.sizeSet (min cap newSize)).1
      pure ({ buf := b, front }, b.at_ pos)

/-- `ccc_fdeq_begin`, src/flat_double_ended_queue.c:191-199 (`ccc_fdeq_front`, 142-150, is the same code). -/
def begin (d : Fdeq α) : Slot := if d.buf.sz = 0 then none else d.buf.at_ d.front

/-- `ccc_fdeq_insert_range`, src/flat_double_ended_queue.c:91-115.  `ccc_fdeq_end` is NULL. -/
def insertRange (d : Fdeq α) (pos : Slot) (xs : List α) (ans : AllocAns α) : Option (Fdeq α × Slot) :=
  let n := xs.length
  if n = 0 then some (d, pos)
  else if pos = d.begin then do
    let (d, r) ← d.pushFrontRange xs ans
    if r ≠ .ok then pure (d, none) else pure (d, ← d.atIdx (n - 1))
  else match pos with
    | none => do
      let (d, r) ← d.pushBackRange xs ans
      if r ≠ .ok then pure (d, none)
      else pure (d, ← d.atIdx (if n ≤ d.buf.sz then d.buf.sz - n else BufWord.W + d.buf.sz - n))
    | some k => d.pushRange k xs ans

/-- `ccc_fdeq_pop_front`, src/flat_double_ended_queue.c:117-130. -/
def popFront (d : Fdeq α) : Fdeq α × Res :=
  if d.buf.isEmpty then (d, .inputErr)
  else
    let r := d.buf.sizeMinus 1
    ({ buf := r.1, front := d.increment d.front }, r.2)

/-- `ccc_fdeq_pop_back`, src/flat_double_ended_queue.c:132-140. -/
def popBack (d : Fdeq α) : Fdeq α × Res :=
  let r := d.buf.sizeMinus 1
  ({ d with buf := r.1 }, r.2)

/-- `ccc_fdeq_front`, src/flat_double_ended_queue.c:142-150. -/
def frontElem (d : Fdeq α) : Slot := if d.buf.sz = 0 then none else d.buf.at_ d.front

/-- `ccc_fdeq_back`, src/flat_double_ended_queue.c:152-160 (also `ccc_fdeq_rbegin`, 201-209). -/
def backElem (d : Fdeq α) : Option Slot :=
  if d.buf.sz = 0 then some none else (d.lastElemIndex).map d.buf.at_

/-- `ccc_fdeq_size`, src/flat_double_ended_queue.c:168-172. -/
def size (d : Fdeq α) : Nat := d.buf.sz
/-- `ccc_fdeq_is_empty`, src/flat_double_ended_queue.c:162-166. -/
def isEmpty (d : Fdeq α) : Bool := d.buf.sz = 0
/-- `ccc_fdeq_capacity`, src/flat_double_ended_queue.c:174-178. -/
def capacity (d : Fdeq α) : Nat := d.buf.cap

/-- `ccc_fdeq_at`, src/flat_double_ended_queue.c:180-189. -/
def at_ (d : Fdeq α) (i : Nat) : Slot :=
  if i ≥ d.buf.cap then none else d.buf.at_ ((d.front + i) % d.buf.cap)

/-- `ccc_fdeq_next`, src/flat_double_ended_queue.c:211-222. -/
def next (d : Fdeq α) (k : Nat) : Option Slot := do
  let k ← d.indexOf k
  let nx := d.increment k
  if nx = d.front ∨ d.distance nx d.front ≥ d.buf.sz then pure none else pure (d.buf.at_ nx)

/-- `ccc_fdeq_rnext`, src/flat_double_ended_queue.c:224-237. -/
def rnext (d : Fdeq α) (k : Nat) : Option Slot := do
  let k ← d.indexOf k
  let nx := d.decrement k
  let rb ← d.lastElemIndex
  if nx = rb ∨ d.rdistance nx rb ≥ d.buf.sz then pure none else pure (d.buf.at_ nx)

/-- `ccc_fdeq_copy`, src/flat_double_ended_queue.c:257-312; `fn` is the allocation argument. -/
def copy (dst src : Fdeq α) (fn : Option (AllocAns α)) : Option (Fdeq α × Res) :=
  if dst.buf.cap < src.buf.cap ∧ fn = none then some (dst, .inputErr)
  else
    let d : Fdeq α := { buf := { dst.buf with sz := src.buf.sz }, front := src.front }
    if src.buf.cap = 0 then some (d, .ok)
    else if d.buf.cap > src.buf.cap then do
      let g ← src.unrotate d.buf.mem
      if src.buf.sz > d.buf.len then none
      else pure ({ buf := { d.buf with mem := g }, front := 0 }, .ok)
    else
      let r := if d.buf.cap < src.buf.cap then d.buf.alloc src.buf.cap fn else (d.buf, .ok)
      if r.2 ≠ .ok then some ({ d with buf := r.1 }, r.2)
      else if src.buf.cap > r.1.len ∨ src.buf.cap > src.buf.len then none
      else some ({ d with buf := { r.1 with mem := blockWrite r.1.mem 0 src.buf.mem 0 src.buf.cap } }, .ok)

/-- The destructor loop, lines 327-332 and 349-354: slots given to the destructor from `i` until `back`. -/
def destroyLoop (d : Fdeq α) (back : Nat) (i : Nat) : Option (List Slot) :=
  if i = back then some []
  else do
    let rest ← destroyLoop d back (d.increment i)
    pure (d.buf.at_ i :: rest)
partial_fixpoint

/-- `ccc_fdeq_clear`, src/flat_double_ended_queue.c:314-334; also returns the slots given to the destructor. -/
def clear (d : Fdeq α) (destructor : Bool) : Option (Fdeq α × Res × List Slot) :=
  if destructor = false then
    let r := d.buf.sizeSet 0
    some ({ buf := r.1, front := 0 }, r.2, [])
  else do
    let back ← d.backFreeSlot
    let l ← d.destroyLoop back d.front
    pure (d, .ok, l)

/-- `ccc_fdeq_clear_and_free`, src/flat_double_ended_queue.c:336-356. -/
def clearAndFree (d : Fdeq α) (destructor : Bool) : Option (Fdeq α × Res × List Slot) :=
  if destructor = false then
    let b := { d.buf with sz := 0 }
    let r := b.alloc 0 (b.fn none)
    some ({ buf := r.1, front := 0 }, r.2, [])
  else do
    let back ← d.backFreeSlot
    let l ← d.destroyLoop back d.front
    let r := d.buf.alloc 0 (d.buf.fn none)
    pure ({ d with buf := r.1 }, r.2, l)

/-- First loop of `ccc_fdeq_validate`, src/flat_double_ended_queue.c:370-381: `none` in the result means `return false`. -/
def validateFwd (d : Fdeq α) (iter : Slot) (size : Nat) : Option (Option Nat) :=
  match iter with
  | none => some (some size)
  | some k => if size ≥ d.buf.sz then some none else do
    let it ← d.next k
    validateFwd d it (size + 1)
partial_fixpoint

/-- Second loop of `ccc_fdeq_validate`, src/flat_double_ended_queue.c:388-395. -/
def validateBwd (d : Fdeq α) (iter : Slot) (size : Nat) : Option (Option Nat) :=
  match iter with
  | none => some (some size)
  | some k => if size ≥ d.buf.sz then some none else do
    let it ← d.rnext k
    validateBwd d it (size + 1)
partial_fixpoint

/-- `ccc_fdeq_validate`, src/flat_double_ended_queue.c:358-397. -/
def validate (d : Fdeq α) : Option Bool :=
  if d.isEmpty then some true
  else if d.begin ≠ some d.front then some false                     -- 366
  else do
    let r ← d.validateFwd d.begin 0
    if r ≠ some d.buf.sz then pure false
    else
      let rb ← d.backElem
      let li ← d.lastElemIndex
      if rb ≠ some li then pure false
      else
        let r ← d.validateBwd rb 0
        pure (r == some d.buf.sz)

end Fdeq
end CCC
