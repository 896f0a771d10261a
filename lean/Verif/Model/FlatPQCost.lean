import Verif.Model.FlatPQ
import Verif.Model.Count
/-
The functions of `Verif/Model/FlatPQ.lean` with their work counted: every call of the user's comparison function, every
copy of an element, and, when the buffer is moved to larger memory, one copy for each of its slots.  They are the same
functions, statement for statement.
-/
namespace CCC

namespace Fpq
variable {α : Type}

/-- As `wins`, src/flat_priority_queue.c:456-461: one comparison. -/
def winsN (q : Fpq α) (a b : α) : Count Bool := work 1 (some (q.wins a b))

/-- A call of the user's comparison function. -/
def cmpN (q : Fpq α) (a b : α) : Count Cmp := work 1 (some (q.cmp a b))

/-- As `Buf.store`: one copy. -/
def storeN (b : Buf α) (i : Nat) (x : α) : Count (Buf α) := work 1 (b.store i x)

/-- As `swap`, src/flat_priority_queue.c:426-431: three copies. -/
def swapN (q : Fpq α) (tmp : Slot) (i j : Nat) : Count (Fpq α) :=
  match tmp with
  | none => liftM (m := Option) none
  | some t =>
    if i ≥ q.buf.cap ∨ j ≥ q.buf.cap ∨ j = i then liftM (m := Option) none else do
      let x ← q.buf.load i
      let b ← storeN q.buf t x
      let y ← b.load j
      let b ← storeN b i y
      let x' ← b.load t
      let b ← storeN b j x'
      pure { q with buf := b }

/-- As `bubbleUp`, src/flat_priority_queue.c:392-404. -/
def bubbleUpN (q : Fpq α) (tmp : Slot) (i : Nat) : Count (Fpq α × Nat) :=
  if i = 0 then pure (q, 0) else do
    let parent := (i - 1) / 2
    let x ← q.load i
    let y ← q.load parent
    let w ← q.winsN x y
    if w then
      let q ← q.swapN tmp parent i
      bubbleUpN q tmp parent
    else pure (q, i)
partial_fixpoint

/-- As `pickChild`, src/flat_priority_queue.c:413-415. -/
def pickChildN (q : Fpq α) (left : Nat) : Count Nat :=
  if left + 1 < q.buf.sz then do
    let r ← q.load (left + 1)
    let l ← q.load left
    let w ← q.winsN r l
    pure (if w then left + 1 else left)
  else pure left

/-- As `bubbleDown`, src/flat_priority_queue.c:406-424. -/
def bubbleDownN (q : Fpq α) (tmp : Slot) (i : Nat) : Count (Fpq α × Nat) :=
  if i * 2 + 1 < q.buf.sz then do
    let next ← q.pickChildN (i * 2 + 1)
    let x ← q.load next
    let y ← q.load i
    let w ← q.winsN x y
    if w then
      let q ← q.swapN tmp next i
      bubbleDownN q tmp next
    else pure (q, i)
  else pure (q, i)
partial_fixpoint

/-- As `heapifyLoop`, src/flat_priority_queue.c:53-56 and 361-364. -/
def heapifyLoopN (q : Fpq α) (tmp : Slot) : Nat → Count (Fpq α)
  | 0 => pure q
  | i + 1 => do
    let (q, _) ← q.bubbleDownN tmp i
    heapifyLoopN q tmp i

/-- As `Buf.alloc`, src/buffer.c:19-36; moving to new memory copies the old slots. -/
def allocN (b : Buf α) (capacity : Nat) (f : Option (AllocAns α)) : Count (Buf α × Res) :=
  let r := b.alloc capacity f
  work (if r.1.cap = b.cap then 0 else b.cap) (some r)

/-- As `Buf.allocBack`, src/buffer.c:60-78. -/
def allocBackN (b : Buf α) (ans : AllocAns α) : Count (Buf α × Slot) :=
  let r := b.allocBack ans
  work (if r.1.cap = b.cap then 0 else b.cap) (some r)

/-- As `heapify`, src/flat_priority_queue.c:33-58; the `memcpy` at 51 copies the whole input. -/
def heapifyN (q : Fpq α) (xs : List α) (ans : AllocAns α) : Count (Fpq α × Res) :=
  let n := xs.length
  let go (b : Buf α) : Count (Fpq α × Res) := do
    let b := (b.sizeSet n).1
    if n > b.len then liftM (m := Option) none else
    let b ← work n (some ({ b with mem := fun j => match xs[j]? with | some x => x | none => b.mem j } : Buf α))
    let q := { q with buf := b }
    let q ← q.heapifyLoopN (b.at_ n) (n / 2 + 1)
    pure (q, .ok)
  if n + 1 > q.buf.cap then do
    let r ← allocN q.buf (n + 1) (q.buf.fn ans)
    if r.2 ≠ .ok then pure ({ q with buf := r.1 }, r.2) else go r.1
  else go q.buf

/-- As `inPlaceHeapify`, src/flat_priority_queue.c:352-365. -/
def inPlaceHeapifyN (q : Fpq α) (n : Nat) : Count (Fpq α) :=
  if q.buf.cap < n + 1 then pure q
  else
    let q := { q with buf := (q.buf.sizeSet n).1 }
    q.heapifyLoopN (q.buf.at_ n) (n / 2 + 1)

/-- As `pushRoom`, src/flat_priority_queue.c:76-96. -/
def pushRoomN (q : Fpq α) (x : α) (ans : AllocAns α) : Count (Fpq α × Slot) := do
  let r ← allocBackN q.buf ans
  match r with
  | (b, none) => pure ({ q with buf := b }, none)
  | (b, some k) => do
    let b ← storeN b k x
    let q := { q with buf := b }
    if b.sz > 1 then
      let (q, i) ← q.bubbleUpN (b.at_ b.sz) (b.sz - 1)
      pure (q, q.buf.at_ i)
    else pure (q, b.at_ 0)

/-- As `push`, src/flat_priority_queue.c:60-97. -/
def pushN (q : Fpq α) (x : α) (ans ans' : AllocAns α) : Count (Fpq α × Slot) :=
  if q.buf.sz + 1 ≥ q.buf.cap then do
    let r ← allocN q.buf (q.buf.cap * 2) (q.buf.fn ans)
    if r.2 ≠ .ok then pure ({ q with buf := r.1 }, none)
    else pushRoomN { q with buf := r.1 } x ans'
  else pushRoomN q x ans'

/-- As `pop`, src/flat_priority_queue.c:99-116. -/
def popN (q : Fpq α) : Count (Fpq α × Res) :=
  if q.buf.sz = 0 then pure (q, .inputErr)
  else if q.buf.sz = 1 then pure ({ q with buf := q.buf.popBack.1 }, .ok)
  else do
    let tmp := q.buf.at_ q.buf.sz
    let q ← q.swapN tmp 0 (q.buf.sz - 1)
    let q := { q with buf := q.buf.popBack.1 }
    let (q, _) ← q.bubbleDownN tmp 0
    pure (q, .ok)

/-- As `erase`, src/flat_priority_queue.c:118-154. -/
def eraseN (q : Fpq α) (e : Nat) : Count (Fpq α × Res) :=
  if q.buf.sz = 0 then pure (q, .inputErr)
  else if q.buf.sz = 1 then pure ({ q with buf := q.buf.popBack.1 }, .ok)
  else if e ≥ q.buf.sz then liftM (m := Option) none
  else if e = q.buf.sz - 1 then pure ({ q with buf := q.buf.popBack.1 }, .ok)
  else do
    let tmp := q.buf.at_ q.buf.sz
    let q ← q.swapN tmp e (q.buf.sz - 1)
    let erased ← q.load (q.buf.sz - 1)
    let q := { q with buf := q.buf.popBack.1 }
    let moved ← q.load e
    let c ← q.cmpN moved erased
    if c = q.order then
      let (q, _) ← q.bubbleUpN tmp e
      pure (q, .ok)
    else if c ≠ .eql then
      let (q, _) ← q.bubbleDownN tmp e
      pure (q, .ok)
    else pure (q, .ok)

/-- As `updateFixup`, src/flat_priority_queue.c:369-390. -/
def updateFixupN (q : Fpq α) (i : Nat) : Count (Fpq α × Nat) :=
  let tmp := q.buf.at_ q.buf.sz
  if i ≥ q.buf.sz then liftM (m := Option) none
  else if i = 0 then q.bubbleDownN tmp 0
  else do
    let x ← q.load i
    let y ← q.load ((i - 1) / 2)
    let c ← q.cmpN x y
    if c = q.order then q.bubbleUpN tmp i
    else if c ≠ .eql then q.bubbleDownN tmp i
    else pure (q, i)

/-- As `update`, src/flat_priority_queue.c:156-182; the user's update counts as one copy. -/
def updateN (q : Fpq α) (e : Nat) (f : α → α) : Count (Fpq α × Slot) :=
  if q.buf.sz = 0 then pure (q, none)
  else do
    let x ← q.buf.load e
    let b ← storeN q.buf e (f x)
    let q := { q with buf := b }
    let (q, i) ← q.updateFixupN e
    pure (q, q.buf.at_ i)

end Fpq
end CCC
