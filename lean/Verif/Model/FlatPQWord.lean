import Verif.Model.FlatPQ
import Verif.Model.FlatDequeWord
/-
The flat priority queue once more, with `size_t` arithmetic modulo 2^64 where the source computes with `size_t`.  Memory
accesses, callbacks and simplifications are those of `Model/FlatPQ.lean`.
-/
namespace CCC.Buf
open CCC CCC.Word
variable {α : Type}

/-- `ccc_buf_alloc_back`, src/buffer.c:60-78. -/
def allocBackW (b : Buf α) (ans : AllocAns α) : Buf α × Slot :=
  if b.sz = b.cap then
    let r := if b.cap ≠ 0 then b.alloc (b.cap *ʷ 2) (b.fn ans) else b.alloc startCapacity (b.fn ans)
    if r.2 ≠ .ok then (r.1, none)
    else ({ r.1 with sz := r.1.sz +ʷ 1 }, some r.1.sz)
  else ({ b with sz := b.sz +ʷ 1 }, some b.sz)

/-- `ccc_buf_pop_back`, src/buffer.c:173-188. -/
def popBackW (b : Buf α) : Buf α × Res := if 1 > b.sz then (b, .inputErr) else ({ b with sz := b.sz -ʷ 1 }, .ok)

end CCC.Buf

namespace CCC.Fpq
open CCC CCC.Word
variable {α : Type}

/-- `bubble_up`, src/flat_priority_queue.c:392-404. -/
def bubbleUpW (q : Fpq α) (tmp : Slot) (i : Nat) : Option (Fpq α × Nat) :=
  if i = 0 then some (q, 0) else do
    let parent := (i -ʷ 1) / 2
    let x ← q.load i
    let y ← q.load parent
    if q.wins x y then
      let q ← q.swap tmp parent i
      bubbleUpW q tmp parent
    else pure (q, i)
partial_fixpoint

/-- Choice of the child to compare with, src/flat_priority_queue.c:413-415. -/
def pickChildW (q : Fpq α) (left : Nat) : Option Nat :=
  if left +ʷ 1 < q.buf.sz then do
    let r ← q.load (left +ʷ 1)
    let l ← q.load left
    pure (if q.wins r l then left +ʷ 1 else left)
  else some left

/-- `bubble_down`, src/flat_priority_queue.c:406-424. -/
def bubbleDownW (q : Fpq α) (tmp : Slot) (i : Nat) : Option (Fpq α × Nat) :=
  if i *ʷ 2 +ʷ 1 < q.buf.sz then do
    let next ← q.pickChildW (i *ʷ 2 +ʷ 1)
    let x ← q.load next
    let y ← q.load i
    if q.wins x y then
      let q ← q.swap tmp next i
      bubbleDownW q tmp next
    else pure (q, i)
  else some (q, i)
partial_fixpoint

/-- The loop `for (i = n/2 + 1; i--;) bubble_down(i)`, src/flat_priority_queue.c:53-56 and 361-364: `i` is tested and then
decremented. -/
def heapifyLoopW (q : Fpq α) (tmp : Slot) (i : Nat) : Option (Fpq α) :=
  if i = 0 then some q
  else do
    let (q, _) ← q.bubbleDownW tmp (i -ʷ 1)
    heapifyLoopW q tmp (i -ʷ 1)
partial_fixpoint

/-- `ccc_fpq_heapify`, src/flat_priority_queue.c:33-58. -/
def heapifyW (q : Fpq α) (xs : List α) (ans : AllocAns α) : Option (Fpq α × Res) :=
  let n := xs.length
  let go (b : Buf α) : Option (Fpq α × Res) :=
    let b := (b.sizeSet n).1
    if n > b.len then none else
    let b := { b with mem := fun j => match xs[j]? with | some x => x | none => b.mem j }
    let q := { q with buf := b }
    (q.heapifyLoopW (b.at_ n) (n / 2 +ʷ 1)).map fun q => (q, .ok)
  if n +ʷ 1 > q.buf.cap then
    let r := q.buf.alloc (n +ʷ 1) (q.buf.fn ans)
    if r.2 ≠ .ok then some ({ q with buf := r.1 }, r.2) else go r.1
  else go q.buf

/-- `ccc_impl_fpq_in_place_heapify`, src/flat_priority_queue.c:352-365. -/
def inPlaceHeapifyW (q : Fpq α) (n : Nat) : Option (Fpq α) :=
  if q.buf.cap < n +ʷ 1 then some q
  else
    let q := { q with buf := (q.buf.sizeSet n).1 }
    q.heapifyLoopW (q.buf.at_ n) (n / 2 +ʷ 1)

/-- Lines 76-96 of `ccc_fpq_push`. -/
def pushRoomW (q : Fpq α) (x : α) (ans : AllocAns α) : Option (Fpq α × Slot) :=
  match q.buf.allocBackW ans with
  | (b, none) => some ({ q with buf := b }, none)
  | (b, some k) => do
    let b ← b.store k x
    let q := { q with buf := b }
    if b.sz > 1 then
      let (q, i) ← q.bubbleUpW (b.at_ b.sz) (b.sz -ʷ 1)
      pure (q, q.buf.at_ i)
    else pure (q, b.at_ 0)

/-- `ccc_fpq_push`, src/flat_priority_queue.c:60-97. -/
def pushW (q : Fpq α) (x : α) (ans ans' : AllocAns α) : Option (Fpq α × Slot) :=
  if q.buf.sz +ʷ 1 ≥ q.buf.cap then
    let r := q.buf.alloc (q.buf.cap *ʷ 2) (q.buf.fn ans)
    if r.2 ≠ .ok then some ({ q with buf := r.1 }, none)
    else pushRoomW { q with buf := r.1 } x ans'
  else pushRoomW q x ans'

/-- `ccc_fpq_pop`, src/flat_priority_queue.c:99-116. -/
def popW (q : Fpq α) : Option (Fpq α × Res) :=
  if q.buf.sz = 0 then some (q, .inputErr)
  else if q.buf.sz = 1 then some ({ q with buf := q.buf.popBackW.1 }, .ok)
  else do
    let tmp := q.buf.at_ q.buf.sz
    let q ← q.swap tmp 0 (q.buf.sz -ʷ 1)
    let q := { q with buf := q.buf.popBackW.1 }
    let (q, _) ← q.bubbleDownW tmp 0
    pure (q, .ok)

/-- `ccc_fpq_erase`, src/flat_priority_queue.c:118-154. -/
def eraseW (q : Fpq α) (e : Nat) : Option (Fpq α × Res) :=
  if q.buf.sz = 0 then some (q, .inputErr)
  else if q.buf.sz = 1 then some ({ q with buf := q.buf.popBackW.1 }, .ok)
  else if e ≥ q.buf.sz then none
  else if e = q.buf.sz -ʷ 1 then some ({ q with buf := q.buf.popBackW.1 }, .ok)
  else do
    let tmp := q.buf.at_ q.buf.sz
    let q ← q.swap tmp e (q.buf.sz -ʷ 1)
    let erased ← q.load (q.buf.sz -ʷ 1)
    let q := { q with buf := q.buf.popBackW.1 }
    let moved ← q.load e
    let c := q.cmp moved erased
    if c = q.order then
      let (q, _) ← q.bubbleUpW tmp e
      pure (q, .ok)
    else if c ≠ .eql then
      let (q, _) ← q.bubbleDownW tmp e
      pure (q, .ok)
    else pure (q, .ok)

/-- `update_fixup`, src/flat_priority_queue.c:369-390. -/
def updateFixupW (q : Fpq α) (i : Nat) : Option (Fpq α × Nat) :=
  let tmp := q.buf.at_ q.buf.sz
  if i ≥ q.buf.sz then none
  else if i = 0 then q.bubbleDownW tmp 0
  else do
    let x ← q.load i
    let y ← q.load ((i -ʷ 1) / 2)
    let c := q.cmp x y
    if c = q.order then q.bubbleUpW tmp i
    else if c ≠ .eql then q.bubbleDownW tmp i
    else pure (q, i)

/-- `ccc_fpq_update`, `increase`, `decrease`, src/flat_priority_queue.c:156-182. -/
def updateW (q : Fpq α) (e : Nat) (f : α → α) : Option (Fpq α × Slot) :=
  if q.buf.sz = 0 then some (q, none)
  else do
    let x ← q.buf.load e
    let b ← q.buf.store e (f x)
    let q := { q with buf := b }
    let (q, i) ← q.updateFixupW e
    pure (q, q.buf.at_ i)

/-- Loop of `ccc_fpq_validate`, src/flat_priority_queue.c:318-335. -/
def validateLoopW (q : Fpq α) (i : Nat) : Option Bool :=
  let sz := q.buf.sz
  if i ≤ (sz -ʷ 2) / 2 then do
    let cur ← q.load i
    let badL ← q.childBad (i *ʷ 2 +ʷ 1) cur
    if badL then pure false else
    let badR ← q.childBad (i *ʷ 2 +ʷ 2) cur
    if badR then pure false else
    validateLoopW q (i +ʷ 1)
  else some true
partial_fixpoint

/-- `ccc_fpq_validate`, src/flat_priority_queue.c:306-336. -/
def validateW (q : Fpq α) : Option Bool := if q.buf.sz ≤ 1 then some true else q.validateLoopW 0

end CCC.Fpq
