import Verif.Model.FlatDeque
/-
The flat double ended queue once more, with `size_t` arithmetic: every `+`, `-`, `*` of the source is the operation modulo
2^64, written here where the source has it.  The data structure is that of `Model/FlatDeque.lean`; memory accesses, the
allocator and the simplifications are as there.
-/
namespace CCC.Word

/-- `a + b` of two `size_t`. -/
def add (a b : Nat) : Nat := (a + b) % 2 ^ 64
/-- `a - b` of two `size_t`. -/
def sub (a b : Nat) : Nat := (a + (2 ^ 64 - b)) % 2 ^ 64
/-- `a * b` of two `size_t`. -/
def mul (a b : Nat) : Nat := (a * b) % 2 ^ 64

@[inherit_doc] scoped infixl:65 " +ʷ " => add
@[inherit_doc] scoped infixl:65 " -ʷ " => sub
@[inherit_doc] scoped infixl:70 " *ʷ " => mul

end CCC.Word

namespace CCC.Fdeq
open CCC CCC.Word
variable {α : Type}

/-- `ccc_buf_size_plus`, src/buffer.c:306-321. -/
def sizePlusW (b : Buf α) (n : Nat) : Buf α × Res :=
  if b.sz +ʷ n > b.cap then ({ b with sz := b.cap }, .inputErr) else ({ b with sz := b.sz +ʷ n }, .ok)
/-- `ccc_buf_size_minus`, src/buffer.c:323-337. -/
def sizeMinusW (b : Buf α) (n : Nat) : Buf α × Res :=
  if n > b.sz then ({ b with sz := 0 }, .inputErr) else ({ b with sz := b.sz -ʷ n }, .ok)

/-- `increment`, src/flat_double_ended_queue.c:679-683. -/
def incrementW (d : Fdeq α) (i : Nat) : Nat := if i = d.buf.cap -ʷ 1 then 0 else i +ʷ 1
/-- `decrement`, src/flat_double_ended_queue.c:685-689. -/
def decrementW (d : Fdeq α) (i : Nat) : Nat := if i ≠ 0 then i -ʷ 1 else d.buf.cap -ʷ 1
/-- `back_free_slot`, src/flat_double_ended_queue.c:691-696. -/
def backFreeSlotW (d : Fdeq α) : Option Nat := d.modCap (d.front +ʷ d.buf.sz)
/-- `front_free_slot`, src/flat_double_ended_queue.c:698-702. -/
def frontFreeSlotW (front cap : Nat) : Nat := if front ≠ 0 then front -ʷ 1 else cap -ʷ 1
/-- `last_elem_index`, src/flat_double_ended_queue.c:704-710. -/
def lastElemIndexW (d : Fdeq α) : Option Nat := d.modCap (d.front +ʷ (d.buf.sz -ʷ 1))
/-- `distance`, src/flat_double_ended_queue.c:647-653. -/
def distanceW (d : Fdeq α) (iter origin : Nat) : Nat :=
  if iter > origin then iter -ʷ origin else (d.buf.cap -ʷ origin) +ʷ iter
/-- `rdistance`, src/flat_double_ended_queue.c:655-661. -/
def rdistanceW (d : Fdeq α) (iter origin : Nat) : Nat :=
  if iter > origin then (d.buf.cap -ʷ iter) +ʷ origin else origin -ʷ iter
/-- `at`, src/flat_double_ended_queue.c:672-677. -/
def atIdxW (d : Fdeq α) (i : Nat) : Option Slot := (d.modCap (d.front +ʷ i)).map d.buf.at_

/-- Lines 627-639 of `maybe_resize` and 285-295 of `ccc_fdeq_copy`. -/
def unrotateW (d : Fdeq α) (g : Nat → α) : Option (Nat → α) :=
  let first := min d.buf.sz (d.buf.cap -ʷ d.front)
  if ¬ readOk d.buf d.front first then none else
  let g := blockWrite g 0 d.buf.mem d.front first
  if first < d.buf.sz then
    if ¬ readOk d.buf 0 (d.buf.sz -ʷ first) then none
    else some (blockWrite g first d.buf.mem 0 (d.buf.sz -ʷ first))
  else some g

/-- `maybe_resize`, src/flat_double_ended_queue.c:604-645. -/
def maybeResizeW (d : Fdeq α) (n : Nat) (ans : AllocAns α) : Option (Fdeq α × Res) :=
  if d.buf.sz +ʷ n < d.buf.cap then some (d, .ok)
  else if d.buf.hasAlloc = false then some (d, .noAlloc)
  else
    let newCap := if d.buf.cap ≠ 0 then (d.buf.cap +ʷ n) *ʷ 2 else 8
    match ans with
    | none => some (d, .memErr)
    | some junk => do
      let g ← (if d.buf.sz ≠ 0 then d.unrotateW junk else some junk : Option (Nat → α))
      pure ({ buf := { d.buf with mem := g, len := newCap, cap := newCap }, front := 0 }, .ok)

/-- `alloc_front`, src/flat_double_ended_queue.c:415-431. -/
def allocFrontW (d : Fdeq α) (ans : AllocAns α) : Option (Fdeq α × Slot) := do
  let (d, r) ← d.maybeResizeW 0 ans
  if d.buf.hasAlloc = true ∧ r ≠ .ok then pure (d, none)
  else
    let d := { d with front := frontFreeSlotW d.front d.buf.cap }
    let slot := d.buf.at_ d.front
    if r = .ok then pure ({ d with buf := (sizePlusW d.buf 1).1 }, slot) else pure (d, slot)

/-- `alloc_back`, src/flat_double_ended_queue.c:433-453. -/
def allocBackW (d : Fdeq α) (ans : AllocAns α) : Option (Fdeq α × Slot) := do
  let (d, r) ← d.maybeResizeW 0 ans
  if d.buf.hasAlloc = true ∧ r ≠ .ok then pure (d, none)
  else
    let k ← d.backFreeSlotW
    let slot := d.buf.at_ k
    if r = .ok then pure ({ d with buf := (sizePlusW d.buf 1).1 }, slot)
    else pure ({ d with front := d.incrementW d.front }, slot)

/-- `ccc_fdeq_push_back`, src/flat_double_ended_queue.c:37-51. -/
def pushBackW (d : Fdeq α) (x : α) (ans : AllocAns α) : Option (Fdeq α × Slot) := do
  let (d, s) ← d.allocBackW ans
  d.fill s x

/-- `ccc_fdeq_push_front`, src/flat_double_ended_queue.c:53-67. -/
def pushFrontW (d : Fdeq α) (x : α) (ans : AllocAns α) : Option (Fdeq α × Slot) := do
  let (d, s) ← d.allocFrontW ans
  d.fill s x

/-- `push_back_range`, src/flat_double_ended_queue.c:455-493. -/
def pushBackRangeW (d : Fdeq α) (xs : List α) (ans : AllocAns α) : Option (Fdeq α × Res) := do
  let n := xs.length
  let (d, r) ← d.maybeResizeW n ans
  let cap := d.buf.cap
  if d.buf.hasAlloc = true ∧ r ≠ .ok then pure (d, .memErr)
  else if n ≥ cap then
    let b ← putRange d.buf 0 (xs.drop (n -ʷ cap))
    pure ({ buf := (b.sizeSet cap).1, front := 0 }, .ok)
  else
    let newSize := d.buf.sz +ʷ n
    let back ← d.backFreeSlotW
    let chunk := min n (cap -ʷ back)
    let b ← putRange d.buf back (xs.take chunk)
    let b ← (if n -ʷ chunk ≠ 0 then putRange b ((back +ʷ chunk) % cap) (xs.drop chunk) else some b : Option (Buf α))
    let front := if newSize > cap then (d.front +ʷ (newSize -ʷ cap)) % cap else d.front
    pure ({ buf := (b.sizeSet (min cap newSize)).1, front }, .ok)

/-- `push_front_range`, src/flat_double_ended_queue.c:495-531. -/
def pushFrontRangeW (d : Fdeq α) (xs : List α) (ans : AllocAns α) : Option (Fdeq α × Res) := do
  let n := xs.length
  let (d, r) ← d.maybeResizeW n ans
  let cap := d.buf.cap
  if d.buf.hasAlloc = true ∧ r ≠ .ok then pure (d, .memErr)
  else if n ≥ cap then
    let b ← putRange d.buf 0 (xs.drop (n -ʷ cap))
    pure ({ buf := (b.sizeSet cap).1, front := 0 }, .ok)
  else
    let spaceAhead := frontFreeSlotW d.front cap +ʷ 1
    let i := if n > spaceAhead then 0 else spaceAhead -ʷ n
    let chunk := min n spaceAhead
    let remainder := n -ʷ chunk
    let b ← putRange d.buf i (xs.drop (n -ʷ chunk))
    let b ← (if remainder ≠ 0 then putRange b (cap -ʷ remainder) (xs.take remainder) else some b : Option (Buf α))
    pure ({ buf := (b.sizeSet (min cap (d.buf.sz +ʷ n))).1
            front := if remainder ≠ 0 then cap -ʷ remainder else i }, .ok)

/-- `push_range`, src/flat_double_ended_queue.c:533-602. -/
def pushRangeW (d : Fdeq α) (pos : Nat) (xs : List α) (ans : AllocAns α) : Option (Fdeq α × Slot) := do
  let n := xs.length
  let resized := ¬ d.buf.sz +ʷ n < d.buf.cap ∧ d.buf.hasAlloc = true
  let (d, r) ← d.maybeResizeW n ans
  if d.buf.hasAlloc = true ∧ r ≠ .ok then pure (d, none)
  else
    let cap := d.buf.cap
    let newSize := d.buf.sz +ʷ n
    if n ≥ cap then
      let b ← putRange d.buf 0 (xs.drop (n -ʷ cap))
      pure ({ buf := (b.sizeSet cap).1, front := 0 }, d.buf.at_ 0)
    else if resized then none
    else
      let pos ← d.indexOf pos
      let back ← d.backFreeSlotW
      let toMove := if back > pos then back -ʷ pos else cap -ʷ pos +ʷ back
      let moveI := (pos +ʷ n) % cap
      let moveChunk := if moveI +ʷ toMove > cap then cap -ʷ moveI else toMove
      let moveChunk := if back < pos then min (cap -ʷ pos) moveChunk else min (back -ʷ pos) moveChunk
      let moveRemain := toMove -ʷ moveChunk
      let b ← moveRange d.buf moveI pos moveChunk
      let b ← (if moveRemain ≠ 0 then
        moveRange b ((moveI +ʷ moveChunk) % cap) ((pos +ʷ moveChunk) % cap) moveRemain else some b : Option (Buf α))
      let elemsChunk := min n (cap -ʷ pos)
      let b ← putRange b pos (xs.take elemsChunk)
      let b ← (if n -ʷ elemsChunk ≠ 0 then putRange b ((pos +ʷ elemsChunk) % cap) (xs.drop elemsChunk) else some b :
        Option (Buf α))
      let front :=
        if newSize > cap then
          let excess := newSize -ʷ cap
          if (d.front ≤ pos ∧ d.front +ʷ excess ≥ pos) ∨ (d.front +ʷ excess > cap ∧ d.front +ʷ excess -ʷ cap ≥ pos) then pos
          else (d.front +ʷ excess) % cap
        else d.front
      let b := (b.sizeSet (min cap newSize)).1
      pure ({ buf := b, front }, b.at_ pos)

/-- `ccc_fdeq_insert_range`, src/flat_double_ended_queue.c:91-115. -/
def insertRangeW (d : Fdeq α) (pos : Slot) (xs : List α) (ans : AllocAns α) : Option (Fdeq α × Slot) :=
  let n := xs.length
  if n = 0 then some (d, pos)
  else if pos = d.begin then do
    let (d, r) ← d.pushFrontRangeW xs ans
    if r ≠ .ok then pure (d, none) else pure (d, ← d.atIdxW (n -ʷ 1))
  else match pos with
    | none => do
      let (d, r) ← d.pushBackRangeW xs ans
      if r ≠ .ok then pure (d, none)
      else pure (d, ← d.atIdxW (d.buf.sz -ʷ n))
    | some k => d.pushRangeW k xs ans

/-- `ccc_fdeq_pop_front`, src/flat_double_ended_queue.c:117-130. -/
def popFrontW (d : Fdeq α) : Fdeq α × Res :=
  if d.buf.isEmpty then (d, .inputErr)
  else
    let r := sizeMinusW d.buf 1
    ({ buf := r.1, front := d.incrementW d.front }, r.2)

/-- `ccc_fdeq_pop_back`, src/flat_double_ended_queue.c:132-140. -/
def popBackW (d : Fdeq α) : Fdeq α × Res :=
  let r := sizeMinusW d.buf 1
  ({ d with buf := r.1 }, r.2)

/-- `ccc_fdeq_back` and `ccc_fdeq_rbegin`, src/flat_double_ended_queue.c:152-160, 201-209. -/
def backElemW (d : Fdeq α) : Option Slot :=
  if d.buf.sz = 0 then some none else (d.lastElemIndexW).map d.buf.at_

/-- `ccc_fdeq_at`, src/flat_double_ended_queue.c:180-189. -/
def at_W (d : Fdeq α) (i : Nat) : Slot :=
  if i ≥ d.buf.cap then none else d.buf.at_ ((d.front +ʷ i) % d.buf.cap)

/-- `ccc_fdeq_next`, src/flat_double_ended_queue.c:211-222. -/
def nextW (d : Fdeq α) (k : Nat) : Option Slot := do
  let k ← d.indexOf k
  let nx := d.incrementW k
  if nx = d.front ∨ d.distanceW nx d.front ≥ d.buf.sz then pure none else pure (d.buf.at_ nx)

/-- `ccc_fdeq_rnext`, src/flat_double_ended_queue.c:224-237. -/
def rnextW (d : Fdeq α) (k : Nat) : Option Slot := do
  let k ← d.indexOf k
  let nx := d.decrementW k
  let rb ← d.lastElemIndexW
  if nx = rb ∨ d.rdistanceW nx rb ≥ d.buf.sz then pure none else pure (d.buf.at_ nx)

/-- `ccc_fdeq_copy`, src/flat_double_ended_queue.c:257-312. -/
def copyW (dst src : Fdeq α) (fn : Option (AllocAns α)) : Option (Fdeq α × Res) :=
  if dst.buf.cap < src.buf.cap ∧ fn = none then some (dst, .inputErr)
  else
    let d : Fdeq α := { buf := { dst.buf with sz := src.buf.sz }, front := src.front }
    if src.buf.cap = 0 then some (d, .ok)
    else if d.buf.cap > src.buf.cap then do
      let g ← src.unrotateW d.buf.mem
      if src.buf.sz > d.buf.len then none
      else pure ({ buf := { d.buf with mem := g }, front := 0 }, .ok)
    else
      let r := if d.buf.cap < src.buf.cap then d.buf.alloc src.buf.cap fn else (d.buf, .ok)
      if r.2 ≠ .ok then some ({ d with buf := r.1 }, r.2)
      else if src.buf.cap > r.1.len ∨ src.buf.cap > src.buf.len then none
      else some ({ d with buf := { r.1 with mem := blockWrite r.1.mem 0 src.buf.mem 0 src.buf.cap } }, .ok)

/-- The destructor loop of `ccc_fdeq_clear`, src/flat_double_ended_queue.c:327-332. -/
def destroyLoopW (d : Fdeq α) (back : Nat) (i : Nat) : Option (List Slot) :=
  if i = back then some []
  else do
    let rest ← destroyLoopW d back (d.incrementW i)
    pure (d.buf.at_ i :: rest)
partial_fixpoint

/-- `ccc_fdeq_clear`, src/flat_double_ended_queue.c:314-334. -/
def clearW (d : Fdeq α) (destructor : Bool) : Option (Fdeq α × Res × List Slot) :=
  if destructor = false then
    let r := d.buf.sizeSet 0
    some ({ buf := r.1, front := 0 }, r.2, [])
  else do
    let back ← d.backFreeSlotW
    let l ← d.destroyLoopW back d.front
    pure (d, .ok, l)

end CCC.Fdeq
