import Verif.Model.Types
/-
Model of `src/buffer.c`.

A buffer is an array of element slots.  Simplifications: one element = one slot (byte offsets are multiples of
`elem_sz_`); a NULL `ccc_buffer *` argument is not modelled (each function returns immediately on it); `size_t`
is `Nat` here, and `Verif/Model/BufferWord.lean` repeats the arithmetic modulo 2^64.
-/
namespace CCC

/-- `struct ccc_buf_`, ccc/impl/impl_buffer.h:12-20.
`len` is the number of slots really allocated at `mem_` (0 when `mem_` is NULL); `cap` is the field `capacity_`.
`hasAlloc` says whether `alloc_` is non-NULL.  Slots at or beyond `sz` hold arbitrary values. -/
structure Buf (α : Type) where
  mem : Nat → α
  len : Nat
  sz : Nat
  cap : Nat
  hasAlloc : Bool

namespace Buf
variable {α : Type}

/-- The allocation function used by internal growth: `buf->alloc_`, NULL (`none`) or answering `ans`. -/
def fn (b : Buf α) (ans : AllocAns α) : Option (AllocAns α) := if b.hasAlloc then some ans else none

/-- Reading/writing through a computed address: undefined behaviour (`none`) outside the allocation. -/
def load (b : Buf α) (i : Nat) : Option α := if i < b.len then some (b.mem i) else none
def store (b : Buf α) (i : Nat) (x : α) : Option (Buf α) :=
  if i < b.len then some { b with mem := upd b.mem i x } else none

/-- `ccc_buf_alloc`, src/buffer.c:16-36.  The allocator gets the old block and answers with a block of
`capacity` slots whose common prefix is preserved (realloc contract, ccc/types.h:163-208). -/
def alloc (b : Buf α) (capacity : Nat) (f : Option (AllocAns α)) : Buf α × Res :=
  match f with
  | none => (b, .noAlloc)                                   -- 24-27
  | some ans =>
    if capacity = 0 then ({ b with len := 0, cap := 0 }, .ok)   -- freed, 33-35
    else match ans with
      | none => (b, .memErr)                                -- 29-32
      | some junk =>
        ({ b with mem := fun i => if i < b.len then b.mem i else junk i
                  len := capacity, cap := capacity }, .ok)  -- 33-35

/-- `ccc_buf_at`, src/buffer.c:38-46. -/
def at_ (b : Buf α) (i : Nat) : Slot := if i ≥ b.cap then none else some i

/-- `ccc_buf_back`, src/buffer.c:48-52: `sz_ - 1` wraps to `SIZE_MAX` for an empty buffer, which is never a
valid index, so the answer is NULL. -/
def back (b : Buf α) : Slot := if b.sz = 0 then none else b.at_ (b.sz - 1)

/-- `ccc_buf_front`, src/buffer.c:54-58. -/
def front (b : Buf α) : Slot := b.at_ 0

/-- `start_capacity`, src/buffer.c:8. -/
def startCapacity : Nat := 8

/-- `ccc_buf_alloc_back`, src/buffer.c:60-78.  Note that growth is attempted only when `sz_ == capacity_`. -/
def allocBack (b : Buf α) (ans : AllocAns α) : Buf α × Slot :=
  if b.sz = b.cap then
    let r := if b.cap ≠ 0 then b.alloc (b.cap * 2) (b.fn ans) else b.alloc startCapacity (b.fn ans)
    if r.2 ≠ .ok then (r.1, none)
    else ({ r.1 with sz := r.1.sz + 1 }, some r.1.sz)
  else ({ b with sz := b.sz + 1 }, some b.sz)

/-- `ccc_buf_push_back`, src/buffer.c:80-89. -/
def pushBack (b : Buf α) (x : α) (ans : AllocAns α) : Option (Buf α × Slot) :=
  match b.allocBack ans with
  | (b', none) => some (b', none)
  | (b', some i) => (b'.store i x).map fun b'' => (b'', some i)

/-- `ccc_buf_swap`, src/buffer.c:91-102 (with a non-NULL `tmp`). -/
def swap (b : Buf α) (i j : Nat) : Option (Buf α × Res) :=
  if i ≥ b.cap ∨ j ≥ b.cap ∨ j = i then some (b, .inputErr) else do
    let tmp ← b.load i
    let y ← b.load j
    let b ← b.store i y
    let b ← b.store j tmp
    pure (b, .ok)

/-- `ccc_buf_copy`, src/buffer.c:104-116. -/
def copy (b : Buf α) (dst src : Nat) : Option (Buf α × Slot) :=
  if dst ≥ b.cap ∨ src ≥ b.cap then some (b, none)
  else if dst = src then some (b, some dst)
  else do
    let y ← b.load src
    let b ← b.store dst y
    pure (b, some dst)

/-- `ccc_buf_write`, src/buffer.c:118-132, for data outside the buffer (`data != pos`). -/
def write (b : Buf α) (i : Nat) (x : α) : Option (Buf α × Res) :=
  if b.len = 0 then some (b, .inputErr)
  else match b.at_ i with
    | none => some (b, .inputErr)
    | some k => (b.store k x).map fun b' => (b', .ok)

/-- `ccc_buf_erase`, src/buffer.c:134-155.  Lines 151-152 call `memcpy` on the ranges `[i, i+n)` and
`[i+1, i+1+n)`; for `n ≥ 2` they overlap, which the C standard leaves undefined.  `lax = false` is the standard
(undefined), `lax = true` a C library whose `memcpy` happens to behave like `memmove`. -/
def erase (lax : Bool) (b : Buf α) (i : Nat) : Option (Buf α × Res) :=
  if b.sz = 0 ∨ i ≥ b.sz then some (b, .inputErr)
  else if b.sz = 1 then some ({ b with sz := 0 }, .ok)
  else if i = b.sz - 1 then some ({ b with sz := b.sz - 1 }, .ok)
  else
    let n := b.sz - (i + 1)
    if i + 1 + n > b.len then none                       -- out of bounds
    else if 2 ≤ n ∧ lax = false then none                -- overlapping memcpy
    else some ({ b with mem := blockMove b.mem i (i + 1) n, sz := b.sz - 1 }, .ok)

/-- `ccc_buf_insert`, src/buffer.c:157-171.  The shift is not preceded by any capacity check, and the inserted
datum is never written to slot `i`. -/
def insert (b : Buf α) (i : Nat) (x : α) (ans : AllocAns α) : Option (Buf α × Slot) :=
  if b.len = 0 ∨ i > b.sz then some (b, none)
  else if i = b.sz then b.pushBack x ans
  else if b.sz + 1 > b.len then none                     -- memmove writes slot `sz`, out of bounds
  else some ({ b with mem := blockMove b.mem (i + 1) i (b.sz - i), sz := b.sz + 1 }, some i)

/-- `ccc_buf_pop_back_n`, src/buffer.c:173-182. -/
def popBackN (b : Buf α) (n : Nat) : Buf α × Res :=
  if n > b.sz then (b, .inputErr) else ({ b with sz := b.sz - n }, .ok)

/-- `ccc_buf_pop_back`, src/buffer.c:184-188. -/
def popBack (b : Buf α) : Buf α × Res := b.popBackN 1

/-- `ccc_buf_full`, src/buffer.c:208-212. -/
def full (b : Buf α) : Bool := b.sz = b.cap
/-- `ccc_buf_is_empty`, src/buffer.c:214-218. -/
def isEmpty (b : Buf α) : Bool := b.sz = 0

/-! Iterators are signed slot offsets from `mem_`; `none` is NULL (`mem_ == NULL`). -/

/-- `ccc_buf_begin`, src/buffer.c:220-224. -/
def begin (b : Buf α) : Option Int := if b.len = 0 then none else some 0
/-- `ccc_buf_end`, src/buffer.c:264-272. -/
def end_ (b : Buf α) : Option Int := if b.len = 0 then none else some b.sz
/-- `ccc_buf_capacity_end`, src/buffer.c:284-292. -/
def capacityEnd (b : Buf α) : Option Int := if b.len = 0 then none else some b.cap
/-- `ccc_buf_next`, src/buffer.c:236-248. -/
def next (b : Buf α) (iter : Int) : Option Int :=
  if b.len = 0 then none else if iter ≥ b.cap then b.end_ else some (iter + 1)
/-- `ccc_buf_rbegin`, src/buffer.c:226-234: the same address as `ccc_buf_end`. -/
def rbegin (b : Buf α) : Option Int := if b.len = 0 then none else some b.sz
/-- `ccc_buf_rend`, src/buffer.c:274-282. -/
def rend (b : Buf α) : Option Int := if b.len = 0 then none else some (-1)
/-- `ccc_buf_rnext`, src/buffer.c:250-262. -/
def rnext (b : Buf α) (iter : Int) : Option Int :=
  if b.len = 0 then none else if iter ≤ -1 then b.rend else some (iter - 1)

/-- `ccc_buf_i`, src/buffer.c:294-304. -/
def idx (b : Buf α) (iter : Int) : Int :=
  if b.len = 0 ∨ iter < 0 ∨ iter ≥ b.cap then -1 else iter

/-- `ccc_buf_size_plus`, src/buffer.c:306-321 (no wrap-around; see `BufferWord`). -/
def sizePlus (b : Buf α) (n : Nat) : Buf α × Res :=
  if b.sz + n > b.cap then ({ b with sz := b.cap }, .inputErr) else ({ b with sz := b.sz + n }, .ok)
/-- `ccc_buf_size_minus`, src/buffer.c:323-337. -/
def sizeMinus (b : Buf α) (n : Nat) : Buf α × Res :=
  if n > b.sz then ({ b with sz := 0 }, .inputErr) else ({ b with sz := b.sz - n }, .ok)
/-- `ccc_buf_size_set`, src/buffer.c:339-353. -/
def sizeSet (b : Buf α) (n : Nat) : Buf α × Res :=
  if n > b.cap then ({ b with sz := b.cap }, .inputErr) else ({ b with sz := n }, .ok)

/-- `ccc_impl_buf_emplace`, ccc/impl/impl_buffer.h:39-52 (the assertion on the element size holds): the value is written to a
slot below the capacity. -/
def emplace (b : Buf α) (i : Nat) (x : α) : Option (Buf α × Slot) :=
  match b.at_ i with
  | none => some (b, none)
  | some k => (b.store k x).map fun b' => (b', some k)

/-- `ccc_impl_buf_emplace_back`, ccc/impl/impl_buffer.h:54-66. -/
def emplaceBack (b : Buf α) (x : α) (ans : AllocAns α) : Option (Buf α × Slot) :=
  match b.allocBack ans with
  | (b', none) => some (b', none)
  | (b', some i) => (b'.store i x).map fun b'' => (b'', some i)

/-- One call of the public buffer interface, with the allocator's answer where it may be asked. -/
inductive Op (α : Type) where
  | alloc (capacity : Nat) (f : Option (AllocAns α))
  | pushBack (x : α) (ans : AllocAns α)
  | allocBack (ans : AllocAns α)
  | popBack
  | popBackN (n : Nat)
  | swap (i j : Nat)
  | copy (dst src : Nat)
  | write (i : Nat) (x : α)
  | erase (lax : Bool) (i : Nat)
  | insert (i : Nat) (x : α) (ans : AllocAns α)
  | sizePlus (n : Nat)
  | sizeMinus (n : Nat)
  | sizeSet (n : Nat)
  | emplace (i : Nat) (x : α)
  | emplaceBack (x : α) (ans : AllocAns α)

/-- What a call returns. -/
inductive Out where
  | res (r : Res)
  | slot (s : Slot)
deriving DecidableEq, Repr

/-- Execute one call. -/
def step (b : Buf α) : Op α → Option (Buf α × Out)
  | .alloc c f => let r := b.alloc c f; some (r.1, .res r.2)
  | .pushBack x ans => (b.pushBack x ans).map fun r => (r.1, .slot r.2)
  | .allocBack ans => let r := b.allocBack ans; some (r.1, .slot r.2)
  | .popBack => let r := b.popBack; some (r.1, .res r.2)
  | .popBackN n => let r := b.popBackN n; some (r.1, .res r.2)
  | .swap i j => (b.swap i j).map fun r => (r.1, .res r.2)
  | .copy d s => (b.copy d s).map fun r => (r.1, .slot r.2)
  | .write i x => (b.write i x).map fun r => (r.1, .res r.2)
  | .erase lax i => (b.erase lax i).map fun r => (r.1, .res r.2)
  | .insert i x ans => (b.insert i x ans).map fun r => (r.1, .slot r.2)
  | .sizePlus n => let r := b.sizePlus n; some (r.1, .res r.2)
  | .sizeMinus n => let r := b.sizeMinus n; some (r.1, .res r.2)
  | .sizeSet n => let r := b.sizeSet n; some (r.1, .res r.2)
  | .emplace i x => (b.emplace i x).map fun r => (r.1, .slot r.2)
  | .emplaceBack x ans => (b.emplaceBack x ans).map fun r => (r.1, .slot r.2)

/-- Execute a history of calls; `none` as soon as one call is undefined. -/
def run (b : Buf α) : List (Op α) → Option (Buf α)
  | [] => some b
  | op :: ops => match b.step op with
    | none => none
    | some (b', _) => run b' ops

/-- `ccc_impl_buf_init`, ccc/impl/impl_buffer.h:27-35: user memory of `cap` slots (or NULL and 0). -/
def init (mem : Nat → α) (cap : Nat) (hasAlloc : Bool) (sz : Nat := 0) : Buf α :=
  { mem, len := cap, sz, cap, hasAlloc }

end Buf
end CCC
