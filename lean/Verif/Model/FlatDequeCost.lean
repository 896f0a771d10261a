import Verif.Model.FlatDeque
import Verif.Model.Count
/-
The growing calls of `Verif/Model/Buffer.lean` and the calls of `Verif/Model/FlatDeque.lean` with the copied elements
counted: every element written by `memcpy`, `memmove` or an assignment is one copy, and when a buffer is moved to larger
memory by the allocation function every old slot is.  They are the same functions, statement for statement.
-/
namespace CCC

namespace Buf
variable {α : Type}

/-- As `Buf.alloc`, src/buffer.c:16-36: the allocation function copies the old slots (or the new ones, if they are
fewer) to the memory it answers with. -/
def allocN (b : Buf α) (capacity : Nat) (f : Option (AllocAns α)) : Count (Buf α × Res) :=
  match f with
  | none => pure (b, .noAlloc)
  | some ans =>
    if capacity = 0 then pure ({ b with len := 0, cap := 0 }, .ok)
    else match ans with
      | none => pure (b, .memErr)
      | some junk =>
        work (min b.len capacity) (some ({ b with mem := fun i => if i < b.len then b.mem i else junk i
                                                  len := capacity, cap := capacity }, .ok))

/-- As `Buf.allocBack`, src/buffer.c:60-78. -/
def allocBackN (b : Buf α) (ans : AllocAns α) : Count (Buf α × Slot) :=
  if b.sz = b.cap then do
    let r ← if b.cap ≠ 0 then b.allocN (b.cap * 2) (b.fn ans) else b.allocN startCapacity (b.fn ans)
    if r.2 ≠ .ok then pure (r.1, none)
    else pure ({ r.1 with sz := r.1.sz + 1 }, some r.1.sz)
  else pure ({ b with sz := b.sz + 1 }, some b.sz)

/-- As `Buf.store`: one copy. -/
def storeN (b : Buf α) (i : Nat) (x : α) : Count (Buf α) := work 1 (b.store i x)

/-- As `Buf.pushBack`, src/buffer.c:80-89. -/
def pushBackN (b : Buf α) (x : α) (ans : AllocAns α) : Count (Buf α × Slot) := do
  match ← b.allocBackN ans with
  | (b', none) => pure (b', none)
  | (b', some i) => do
    let b'' ← b'.storeN i x
    pure (b'', some i)

/-- As `Buf.emplaceBack`, ccc/impl/impl_buffer.h:54-66. -/
def emplaceBackN (b : Buf α) (x : α) (ans : AllocAns α) : Count (Buf α × Slot) := do
  match ← b.allocBackN ans with
  | (b', none) => pure (b', none)
  | (b', some i) => do
    let b'' ← b'.storeN i x
    pure (b'', some i)

end Buf

namespace Fdeq
variable {α : Type}

/-- As `unrotate`, src/flat_double_ended_queue.c:627-639: two `memcpy`s. -/
def unrotateN (d : Fdeq α) (g : Nat → α) : Count (Nat → α) :=
  let first := min d.buf.sz (d.buf.cap - d.front)
  if ¬ readOk d.buf d.front first then liftM (m := Option) none else do
  let g ← work first (some (blockWrite g 0 d.buf.mem d.front first))
  if first < d.buf.sz then
    if ¬ readOk d.buf 0 (d.buf.sz - first) then liftM (m := Option) none
    else work (d.buf.sz - first) (some (blockWrite g first d.buf.mem 0 (d.buf.sz - first)))
  else pure g

/-- As `maybeResize`, src/flat_double_ended_queue.c:604-645. -/
def maybeResizeN (d : Fdeq α) (n : Nat) (ans : AllocAns α) : Count (Fdeq α × Res) :=
  if d.buf.sz + n < d.buf.cap then pure (d, .ok)
  else if d.buf.hasAlloc = false then pure (d, .noAlloc)
  else
    let newCap := if d.buf.cap ≠ 0 then (d.buf.cap + n) * 2 else 8
    match ans with
    | none => pure (d, .memErr)
    | some junk => do
      let g ← (if d.buf.sz ≠ 0 then d.unrotateN junk else pure junk : Count (Nat → α))
      pure ({ buf := { d.buf with mem := g, len := newCap, cap := newCap }, front := 0 }, .ok)

/-- As `allocFront`, src/flat_double_ended_queue.c:415-431. -/
def allocFrontN (d : Fdeq α) (ans : AllocAns α) : Count (Fdeq α × Slot) := do
  let (d, r) ← d.maybeResizeN 0 ans
  if d.buf.hasAlloc = true ∧ r ≠ .ok then pure (d, none)
  else
    let d := { d with front := frontFreeSlot d.front d.buf.cap }
    let slot := d.buf.at_ d.front
    if r = .ok then pure ({ d with buf := (d.buf.sizePlus 1).1 }, slot) else pure (d, slot)

/-- As `allocBack`, src/flat_double_ended_queue.c:433-453. -/
def allocBackN (d : Fdeq α) (ans : AllocAns α) : Count (Fdeq α × Slot) := do
  let (d, r) ← d.maybeResizeN 0 ans
  if d.buf.hasAlloc = true ∧ r ≠ .ok then pure (d, none)
  else
    let k ← d.backFreeSlot
    let slot := d.buf.at_ k
    if r = .ok then pure ({ d with buf := (d.buf.sizePlus 1).1 }, slot)
    else pure ({ d with front := d.increment d.front }, slot)

/-- As `fill`, lines 46-50 and 62-66. -/
def fillN (d : Fdeq α) (slot : Slot) (x : α) : Count (Fdeq α × Slot) :=
  match slot with
  | none => pure (d, none)
  | some k => do
    let b ← d.buf.storeN k x
    pure ({ d with buf := b }, some k)

/-- As `pushBack`, src/flat_double_ended_queue.c:37-51. -/
def pushBackN (d : Fdeq α) (x : α) (ans : AllocAns α) : Count (Fdeq α × Slot) := do
  let (d, s) ← d.allocBackN ans
  d.fillN s x

/-- As `pushFront`, src/flat_double_ended_queue.c:53-67. -/
def pushFrontN (d : Fdeq α) (x : α) (ans : AllocAns α) : Count (Fdeq α × Slot) := do
  let (d, s) ← d.allocFrontN ans
  d.fillN s x

/-- As `putRange`: one copy for each element. -/
def putRangeN (b : Buf α) (a : Nat) (xs : List α) : Count (Buf α) := work xs.length (putRange b a xs)

/-- As `pushBackRange`, src/flat_double_ended_queue.c:455-493. -/
def pushBackRangeN (d : Fdeq α) (xs : List α) (ans : AllocAns α) : Count (Fdeq α × Res) := do
  let n := xs.length
  let (d, r) ← d.maybeResizeN n ans
  let cap := d.buf.cap
  if d.buf.hasAlloc = true ∧ r ≠ .ok then pure (d, .memErr)
  else if n ≥ cap then
    let b ← putRangeN d.buf 0 (xs.drop (n - cap))
    pure ({ buf := (b.sizeSet cap).1, front := 0 }, .ok)
  else
    let newSize := d.buf.sz + n
    let back ← d.backFreeSlot
    let chunk := min n (cap - back)
    let b ← putRangeN d.buf back (xs.take chunk)
    let b ← (if n - chunk ≠ 0 then putRangeN b ((back + chunk) % cap) (xs.drop chunk) else pure b : Count (Buf α))
    let front := if newSize > cap then (d.front + (newSize - cap)) % cap else d.front
    pure ({ buf := (b.sizeSet (min cap newSize)).1, front }, .ok)

/-- As `pushFrontRange`, src/flat_double_ended_queue.c:495-531. -/
def pushFrontRangeN (d : Fdeq α) (xs : List α) (ans : AllocAns α) : Count (Fdeq α × Res) := do
  let n := xs.length
  let (d, r) ← d.maybeResizeN n ans
  let cap := d.buf.cap
  if d.buf.hasAlloc = true ∧ r ≠ .ok then pure (d, .memErr)
  else if n ≥ cap then
    let b ← putRangeN d.buf 0 (xs.drop (n - cap))
    pure ({ buf := (b.sizeSet cap).1, front := 0 }, .ok)
  else
    let spaceAhead := frontFreeSlot d.front cap + 1
    let i := if n > spaceAhead then 0 else spaceAhead - n
    let chunk := min n spaceAhead
    let remainder := n - chunk
    let b ← putRangeN d.buf i (xs.drop (n - chunk))
    let b ← (if remainder ≠ 0 then putRangeN b (cap - remainder) (xs.take remainder) else pure b : Count (Buf α))
    pure ({ buf := (b.sizeSet (min cap (d.buf.sz + n))).1
            front := if remainder ≠ 0 then cap - remainder else i }, .ok)

/-- As `moveRange`: one copy for each slot. -/
def moveRangeN (b : Buf α) (dst src n : Nat) : Count (Buf α) := work n (moveRange b dst src n)

/-- As `pushRange`, src/flat_double_ended_queue.c:533-602. -/
def pushRangeN (d : Fdeq α) (pos : Nat) (xs : List α) (ans : AllocAns α) : Count (Fdeq α × Slot) := do
  let n := xs.length
  let resized := ¬ d.buf.sz + n < d.buf.cap ∧ d.buf.hasAlloc = true
  let (d, r) ← d.maybeResizeN n ans
  if d.buf.hasAlloc = true ∧ r ≠ .ok then pure (d, none)
  else
    let cap := d.buf.cap
    let newSize := d.buf.sz + n
    if n ≥ cap then
      let b ← putRangeN d.buf 0 (xs.drop (n - cap))
      pure ({ buf := (b.sizeSet cap).1, front := 0 }, d.buf.at_ 0)
    else if resized then liftM (m := Option) none
    else
      let pos ← d.indexOf pos
      let back ← d.backFreeSlot
      let toMove := if back > pos then back - pos else cap - pos + back
      let moveI := (pos + n) % cap
      let moveChunk := if moveI + toMove > cap then cap - moveI else toMove
      let moveChunk := if back < pos then min (cap - pos) moveChunk else min (back - pos) moveChunk
      let moveRemain := toMove - moveChunk
      let b ← moveRangeN d.buf moveI pos moveChunk
      let b ← (if moveRemain ≠ 0 then
        moveRangeN b ((moveI + moveChunk) % cap) ((pos + moveChunk) % cap) moveRemain else pure b : Count (Buf α))
      let elemsChunk := min n (cap - pos)
      let b ← putRangeN b pos (xs.take elemsChunk)
      let b ← (if n - elemsChunk ≠ 0 then putRangeN b ((pos + elemsChunk) % cap) (xs.drop elemsChunk) else pure b :
        Count (Buf α))
      let front :=
        if newSize > cap then
          let excess := newSize - cap
          if (d.front ≤ pos ∧ d.front + excess ≥ pos) ∨ (d.front + excess > cap ∧ d.front + excess - cap ≥ pos) then pos
          else (d.front + excess) % cap
        else d.front
      let b := (b.sizeSet (min cap newSize)).1
      pure ({ buf := b, front }, b.at_ pos)

/-- As `insertRange`, src/flat_double_ended_queue.c:91-115. -/
def insertRangeN (d : Fdeq α) (pos : Slot) (xs : List α) (ans : AllocAns α) : Count (Fdeq α × Slot) :=
  let n := xs.length
  if n = 0 then pure (d, pos)
  else if pos = d.begin then do
    let (d, r) ← d.pushFrontRangeN xs ans
    if r ≠ .ok then pure (d, none) else pure (d, ← d.atIdx (n - 1))
  else match pos with
    | none => do
      let (d, r) ← d.pushBackRangeN xs ans
      if r ≠ .ok then pure (d, none)
      else pure (d, ← d.atIdx (if n ≤ d.buf.sz then d.buf.sz - n else BufWord.W + d.buf.sz - n))
    | some k => d.pushRangeN k xs ans

end Fdeq
end CCC
