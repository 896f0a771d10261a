import Verif.Spec.FlatLedger
import Verif.Model.FlatPQ
import Verif.Model.FlatDeque
/-
The calls of the buffer, the double-ended queue and the flat priority queue that call the user's allocation function, with
these calls and the field `mem_` of the buffer written down.  A program in `Fl` is a program in `Option` with a register
`mem`, the field `mem_` of the container's buffer, and a list of the calls of the allocation function.  The functions are those
of `Verif/Model/Buffer.lean`, `Verif/Model/FlatDeque.lean` and `Verif/Model/FlatPQ.lean`, statement for statement; what does not
call the allocation function is taken from there.

The allocation function that is passed to `ccc_buf_alloc` and to the copy functions is taken to be the container's own.
-/
namespace CCC
namespace Flat

/-- The field `mem_`, the number of blocks granted so far, and the calls of the allocation function. -/
structure Mem where
  mem : Slot
  next : Nat
  log : List Ev

/-- A computation that may fail and that calls the allocation function. -/
abbrev Fl (β : Type) := StateT Mem Option β

/-- Read `mem_`. -/
def getMem : Fl Slot := fun h => some (h.mem, h)
/-- Write `mem_`. -/
def setMem (p : Slot) : Fl Unit := fun h => some ((), { h with mem := p })

/-- `alloc_(old, size * elem_sz_, aux_)`; whether a request is granted is in the user's hands. -/
def request (old : Slot) (size : Nat) (granted : Bool) : Fl Slot := fun h =>
  if size = 0 then some (none, { h with log := h.log ++ [.freed old] })
  else if granted then some (some h.next, { h with next := h.next + 1, log := h.log ++ [.got old h.next size] })
  else some (none, { h with log := h.log ++ [.refused old size] })

end Flat
open Flat

namespace Buf
variable {α : Type}

/-- `ccc_buf_alloc`, src/buffer.c:16-36. -/
def allocM (b : Buf α) (capacity : Nat) (f : Option (AllocAns α)) : Fl (Buf α × Res) :=
  match f with
  | none => pure (b, .noAlloc)                                         -- 24-27
  | some ans => do
    let newMem ← request (← getMem) capacity ans.isSome                -- 28
    if capacity ≠ 0 ∧ newMem = none then pure (b.alloc capacity f)     -- 29-32
    else do
      setMem newMem                                                    -- 33
      pure (b.alloc capacity f)                                        -- 34-35

/-- `ccc_buf_alloc_back`, src/buffer.c:60-78. -/
def allocBackM (b : Buf α) (ans : AllocAns α) : Fl (Buf α × Slot) :=
  if b.sz = b.cap then do
    let r ← if b.cap ≠ 0 then b.allocM (b.cap * 2) (b.fn ans) else b.allocM startCapacity (b.fn ans)
    if r.2 ≠ .ok then pure (r.1, none)
    else pure ({ r.1 with sz := r.1.sz + 1 }, some r.1.sz)
  else pure ({ b with sz := b.sz + 1 }, some b.sz)

/-- `ccc_buf_push_back`, src/buffer.c:80-89; `ccc_impl_buf_emplace_back`, ccc/impl/impl_buffer.h:54-66, has the same effect. -/
def pushBackM (b : Buf α) (x : α) (ans : AllocAns α) : Fl (Buf α × Slot) := do
  match ← b.allocBackM ans with
  | (b', none) => pure (b', none)
  | (b', some i) => liftM ((b'.store i x).map fun b'' => (b'', some i))

/-- `ccc_buf_insert`, src/buffer.c:157-171. -/
def insertM (b : Buf α) (i : Nat) (x : α) (ans : AllocAns α) : Fl (Buf α × Slot) :=
  if b.len = 0 ∨ i > b.sz then pure (b, none)
  else if i = b.sz then b.pushBackM x ans
  else liftM (b.insert i x ans)

/-- One call of the interface. -/
def stepM (b : Buf α) : Op α → Fl (Buf α × Out)
  | .alloc c f => do
    let r ← b.allocM c f
    pure (r.1, .res r.2)
  | .pushBack x ans => do
    let r ← b.pushBackM x ans
    pure (r.1, .slot r.2)
  | .allocBack ans => do
    let r ← b.allocBackM ans
    pure (r.1, .slot r.2)
  | .insert i x ans => do
    let r ← b.insertM i x ans
    pure (r.1, .slot r.2)
  | .emplaceBack x ans => do
    let r ← b.pushBackM x ans
    pure (r.1, .slot r.2)
  | op => liftM (b.step op)

end Buf

namespace Fdeq
variable {α : Type}

/-- `maybe_resize`, src/flat_double_ended_queue.c:604-645. -/
def maybeResizeM (d : Fdeq α) (n : Nat) (ans : AllocAns α) : Fl (Fdeq α × Res) :=
  if d.buf.sz + n < d.buf.cap then pure (d, .ok)
  else if d.buf.hasAlloc = false then pure (d, .noAlloc)
  else do
    let newCap := if d.buf.cap ≠ 0 then (d.buf.cap + n) * 2 else 8
    let newMem ← request none newCap ans.isSome                        -- 621
    match newMem, ans with
    | some p, some junk => do
      let g ← liftM (if d.buf.sz ≠ 0 then d.unrotate junk else some junk : Option (Nat → α))
      let (b, _) ← d.buf.allocM 0 (d.buf.fn none)                      -- 640
      setMem (some p)                                                  -- 641
      pure ({ buf := { b with mem := g, len := newCap, cap := newCap }, front := 0 }, .ok)
    | _, _ => pure (d, .memErr)

/-- `alloc_front`, src/flat_double_ended_queue.c:415-431. -/
def allocFrontM (d : Fdeq α) (ans : AllocAns α) : Fl (Fdeq α × Slot) := do
  let (d, r) ← d.maybeResizeM 0 ans
  if d.buf.hasAlloc = true ∧ r ≠ .ok then pure (d, none)
  else
    let d := { d with front := frontFreeSlot d.front d.buf.cap }
    let slot := d.buf.at_ d.front
    if r = .ok then pure ({ d with buf := (d.buf.sizePlus 1).1 }, slot) else pure (d, slot)

/-- `alloc_back`, src/flat_double_ended_queue.c:433-453. -/
def allocBackM (d : Fdeq α) (ans : AllocAns α) : Fl (Fdeq α × Slot) := do
  let (d, r) ← d.maybeResizeM 0 ans
  if d.buf.hasAlloc = true ∧ r ≠ .ok then pure (d, none)
  else do
    let k ← liftM d.backFreeSlot
    let slot := d.buf.at_ k
    if r = .ok then pure ({ d with buf := (d.buf.sizePlus 1).1 }, slot)
    else pure ({ d with front := d.increment d.front }, slot)

/-- `ccc_fdeq_push_back`, src/flat_double_ended_queue.c:37-51. -/
def pushBackM (d : Fdeq α) (x : α) (ans : AllocAns α) : Fl (Fdeq α × Slot) := do
  let (d, s) ← d.allocBackM ans
  liftM (d.fill s x)

/-- `ccc_fdeq_push_front`, src/flat_double_ended_queue.c:53-67. -/
def pushFrontM (d : Fdeq α) (x : α) (ans : AllocAns α) : Fl (Fdeq α × Slot) := do
  let (d, s) ← d.allocFrontM ans
  liftM (d.fill s x)

/-- `ccc_impl_fdeq_emplace_back`, ccc/impl/impl_flat_double_ended_queue.h:30-44. -/
def emplaceBackM (d : Fdeq α) (x : α) (ans : AllocAns α) : Fl (Fdeq α × Slot) := do
  let r ← d.pushBackM x ans
  pure (r.1, none)

/-- `ccc_impl_fdeq_emplace_front`, ccc/impl/impl_flat_double_ended_queue.h:46-60. -/
def emplaceFrontM (d : Fdeq α) (x : α) (ans : AllocAns α) : Fl (Fdeq α × Slot) := do
  let r ← d.pushFrontM x ans
  pure (r.1, none)

/-- `push_back_range`, src/flat_double_ended_queue.c:455-493. -/
def pushBackRangeM (d : Fdeq α) (xs : List α) (ans : AllocAns α) : Fl (Fdeq α × Res) := do
  let n := xs.length
  let (d, r) ← d.maybeResizeM n ans
  liftM (n := Fl) (do
      let cap := d.buf.cap
      if d.buf.hasAlloc = true ∧ r ≠ .ok then pure (d, .memErr)
      else if n ≥ cap then
        let b ← putRange d.buf 0 (xs.drop (n - cap))
        pure ({ buf := (b.sizeSet cap).1, front := 0 }, .ok)
      else
        let newSize := d.buf.sz + n
        let back ← d.backFreeSlot
        let chunk := min n (cap - back)
        let b ← putRange d.buf back (xs.take chunk)
        let b ← (if n - chunk ≠ 0 then putRange b ((back + chunk) % cap) (xs.drop chunk) else some b : Option (Buf α))
        let front := if newSize > cap then (d.front + (newSize - cap)) % cap else d.front
        pure ({ buf := (b.sizeSet (min cap newSize)).1, front }, .ok) : Option (Fdeq α × Res))

/-- `push_front_range`, src/flat_double_ended_queue.c:495-531. -/
def pushFrontRangeM (d : Fdeq α) (xs : List α) (ans : AllocAns α) : Fl (Fdeq α × Res) := do
  let n := xs.length
  let (d, r) ← d.maybeResizeM n ans
  liftM (n := Fl) (do
      let cap := d.buf.cap
      if d.buf.hasAlloc = true ∧ r ≠ .ok then pure (d, .memErr)
      else if n ≥ cap then
        let b ← putRange d.buf 0 (xs.drop (n - cap))
        pure ({ buf := (b.sizeSet cap).1, front := 0 }, .ok)
      else
        let spaceAhead := frontFreeSlot d.front cap + 1
        let i := if n > spaceAhead then 0 else spaceAhead - n
        let chunk := min n spaceAhead
        let remainder := n - chunk
        let b ← putRange d.buf i (xs.drop (n - chunk))
        let b ← (if remainder ≠ 0 then putRange b (cap - remainder) (xs.take remainder) else some b : Option (Buf α))
        pure ({ buf := (b.sizeSet (min cap (d.buf.sz + n))).1
                front := if remainder ≠ 0 then cap - remainder else i }, .ok) : Option (Fdeq α × Res))

/-- `push_range`, src/flat_double_ended_queue.c:533-602.  `pos` is a slot of the array the queue has when it is called:
if `maybe_resize` replaces the array, the pointer dangles and line 554 uses it (undefined). -/
def pushRangeM (d : Fdeq α) (pos : Nat) (xs : List α) (ans : AllocAns α) : Fl (Fdeq α × Slot) := do
  let n := xs.length
  let resized := ¬ d.buf.sz + n < d.buf.cap ∧ d.buf.hasAlloc = true
  let (d, r) ← d.maybeResizeM n ans
  liftM (n := Fl) (do
      if d.buf.hasAlloc = true ∧ r ≠ .ok then pure (d, none)
      else
        let cap := d.buf.cap
        let newSize := d.buf.sz + n
        if n ≥ cap then
          let b ← putRange d.buf 0 (xs.drop (n - cap))
          pure ({ buf := (b.sizeSet cap).1, front := 0 }, d.buf.at_ 0)
        else if resized then none
        else
          let pos ← d.indexOf pos
          let back ← d.backFreeSlot
          let toMove := if back > pos then back - pos else cap - pos + back
          let moveI := (pos + n) % cap
          let moveChunk := if moveI + toMove > cap then cap - moveI else toMove
          let moveChunk := if back < pos then min (cap - pos) moveChunk else min (back - pos) moveChunk
          let moveRemain := toMove - moveChunk
          let b ← moveRange d.buf moveI pos moveChunk
          let b ← (if moveRemain ≠ 0 then
            moveRange b ((moveI + moveChunk) % cap) ((pos + moveChunk) % cap) moveRemain else some b : Option (Buf α))
          let elemsChunk := min n (cap - pos)
          let b ← putRange b pos (xs.take elemsChunk)
          let b ← (if n - elemsChunk ≠ 0 then putRange b ((pos + elemsChunk) % cap) (xs.drop elemsChunk) else some b :
            Option (Buf α))
          let front :=
            if newSize > cap then
              let excess := newSize - cap
              if (d.front ≤ pos ∧ d.front + excess ≥ pos) ∨ (d.front + excess > cap ∧ d.front + excess - cap ≥ pos) then pos
              else (d.front + excess) % cap
            else d.front
          let b := (b.sizeSet (min cap newSize)).1
          pure ({ buf := b, front }, b.at_ pos) : Option (Fdeq α × Slot))

/-- `ccc_fdeq_insert_range`, src/flat_double_ended_queue.c:91-115. -/
def insertRangeM (d : Fdeq α) (pos : Slot) (xs : List α) (ans : AllocAns α) : Fl (Fdeq α × Slot) :=
  let n := xs.length
  if n = 0 then pure (d, pos)
  else if pos = d.begin then do
    let (d, r) ← d.pushFrontRangeM xs ans
    liftM (n := Fl) (if r ≠ .ok then some (d, none) else do pure (d, ← d.atIdx (n - 1)) : Option (Fdeq α × Slot))
  else match pos with
    | none => do
      let (d, r) ← d.pushBackRangeM xs ans
      liftM (n := Fl) (if r ≠ .ok then some (d, none)
        else do pure (d, ← d.atIdx (if n ≤ d.buf.sz then d.buf.sz - n else BufWord.W + d.buf.sz - n)) :
        Option (Fdeq α × Slot))
    | some k => d.pushRangeM k xs ans

/-- `ccc_fdeq_copy`, src/flat_double_ended_queue.c:257-312; `srcMem` is `src->buf_.mem_`. -/
def copyM (dst src : Fdeq α) (srcMem : Slot) (fn : Option (AllocAns α)) : Fl (Fdeq α × Res) :=
  if dst.buf.cap < src.buf.cap ∧ fn = none then pure (dst, .inputErr)
  else do
    let dstMem ← getMem                                                -- 271
    setMem srcMem                                                      -- 274
    setMem dstMem                                                      -- 275
    let d : Fdeq α := { buf := { dst.buf with sz := src.buf.sz }, front := src.front }
    if src.buf.cap = 0 then pure (d, .ok)
    else if d.buf.cap > src.buf.cap then liftM (dst.copy src fn)
    else do
      let r ← if d.buf.cap < src.buf.cap then d.buf.allocM src.buf.cap fn else pure (d.buf, .ok)
      if r.2 ≠ .ok then pure ({ d with buf := r.1 }, r.2)
      else liftM (n := Fl) (if src.buf.cap > r.1.len ∨ src.buf.cap > src.buf.len then none
        else some ({ d with buf := { r.1 with mem := blockWrite r.1.mem 0 src.buf.mem 0 src.buf.cap } }, Res.ok) :
        Option (Fdeq α × Res))

/-- `ccc_fdeq_clear_and_free`, src/flat_double_ended_queue.c:336-356. -/
def clearAndFreeM (d : Fdeq α) (destructor : Bool) : Fl (Fdeq α × Res × List Slot) :=
  if destructor = false then do
    let b := { d.buf with sz := 0 }
    let r ← b.allocM 0 (b.fn none)
    pure ({ buf := r.1, front := 0 }, r.2, [])
  else do
    let back ← liftM d.backFreeSlot
    let l ← liftM (d.destroyLoop back d.front)
    let r ← d.buf.allocM 0 (d.buf.fn none)
    pure ({ d with buf := r.1 }, r.2, l)

end Fdeq

namespace Fpq
variable {α : Type}

/-- `ccc_fpq_heapify`, src/flat_priority_queue.c:33-58. -/
def heapifyM (q : Fpq α) (xs : List α) (ans : AllocAns α) : Fl (Fpq α × Res) :=
  let n := xs.length
  let go (b : Buf α) : Option (Fpq α × Res) :=
    let b := (b.sizeSet n).1
    if n > b.len then none else
    let b := { b with mem := fun j => match xs[j]? with | some x => x | none => b.mem j }
    let q := { q with buf := b }
    (q.heapifyLoop (b.at_ n) (n / 2 + 1)).map fun q => (q, .ok)
  if n + 1 > q.buf.cap then do
    let r ← q.buf.allocM (n + 1) (q.buf.fn ans)
    if r.2 ≠ .ok then pure ({ q with buf := r.1 }, r.2) else liftM (go r.1)
  else liftM (go q.buf)

/-- Lines 76-96 of `ccc_fpq_push`, once there is room. -/
def pushRoomM (q : Fpq α) (x : α) (ans : AllocAns α) : Fl (Fpq α × Slot) := do
  match ← q.buf.allocBackM ans with
  | (b, none) => pure ({ q with buf := b }, none)
  | (b, some k) => liftM (n := Fl) (do
    let b ← b.store k x
    let q := { q with buf := b }
    if b.sz > 1 then
      let (q, i) ← q.bubbleUp (b.at_ b.sz) (b.sz - 1)
      pure (q, q.buf.at_ i)
    else pure (q, b.at_ 0) : Option (Fpq α × Slot))

/-- `ccc_fpq_push`, src/flat_priority_queue.c:60-97. -/
def pushM (q : Fpq α) (x : α) (ans ans' : AllocAns α) : Fl (Fpq α × Slot) :=
  if q.buf.sz + 1 ≥ q.buf.cap then do
    let r ← q.buf.allocM (q.buf.cap * 2) (q.buf.fn ans)
    if r.2 ≠ .ok then pure ({ q with buf := r.1 }, none)
    else pushRoomM { q with buf := r.1 } x ans'
  else pushRoomM q x ans'

/-- `ccc_fpq_clear_and_free`, src/flat_priority_queue.c:287-304. -/
def clearAndFreeM (q : Fpq α) : Fl (Fpq α × Res) := do
  let r ← q.buf.allocM 0 (q.buf.fn none)
  pure ({ q with buf := r.1 }, r.2)

/-- `ccc_fpq_copy`, src/flat_priority_queue.c:235-267; `srcMem` is `src->buf_.mem_`. -/
def copyM (dst src : Fpq α) (srcMem : Slot) (fn : Option (AllocAns α)) : Fl (Fpq α × Res) :=
  if dst.buf.cap < src.buf.cap ∧ fn = none then pure (dst, .inputErr)
  else do
    let dstMem ← getMem                                                -- 247
    setMem srcMem                                                      -- 250
    setMem dstMem                                                      -- 251
    let b : Buf α := { dst.buf with sz := src.buf.sz }
    let d : Fpq α := { src with buf := b }
    let r ← if b.cap < src.buf.cap then b.allocM src.buf.cap fn else pure (b, .ok)
    if r.2 ≠ .ok then pure ({ d with buf := r.1 }, r.2)
    else liftM (n := Fl) (if src.buf.cap > r.1.len ∨ src.buf.cap > src.buf.len then none
      else some ({ d with buf := { r.1 with mem := blockWrite r.1.mem 0 src.buf.mem 0 src.buf.cap } }, Res.ok) :
      Option (Fpq α × Res))

/-- `ccc_impl_fpq_emplace`, ccc/impl/impl_flat_priority_queue.h:53-88. -/
def emplaceM (q : Fpq α) (x : α) (ans ans' : AllocAns α) : Fl (Fpq α × Slot) := do
  let r ← q.buf.allocBackM ans
  let r' ← if r.1.sz = r.1.cap then do
      let a ← r.1.allocM (r.1.cap * 2) (r.1.fn ans')
      if a.2 = .ok then pure (a.1, a.1.back) else pure (a.1, none)
    else pure r
  match r'.2 with
  | none => pure ({ q with buf := r'.1 }, none)
  | some k => liftM (n := Fl) (do
    let b ← r'.1.store k x
    let q := { q with buf := b }
    if b.sz > 1 then
      let (q, i) ← q.bubbleUp (b.at_ b.sz) (b.sz - 1)
      pure (q, q.buf.at_ i)
    else pure (q, b.at_ 0) : Option (Fpq α × Slot))

end Fpq
end CCC
