import Verif.Model.Buffer
/-
Machine-word version of the arithmetic in `src/buffer.c`: `size_t` values are naturals below 2^64 and every
`+`, `*` wraps modulo 2^64.
-/
namespace CCC.BufWord

/-- `SIZE_MAX + 1` on the 64-bit targets of the library. -/
def W : Nat := 2 ^ 64

/-- `ccc_buf_size_plus`, src/buffer.c:306-321: returns the new `sz_` and the result. -/
def sizePlusW (sz cap n : Nat) : Nat × Res :=
  let newSz := (sz + n) % W                              -- 313
  if newSz > cap then (cap, .inputErr) else (newSz, .ok)

/-- `ccc_buf_size_minus`, src/buffer.c:323-337. -/
def sizeMinusW (sz n : Nat) : Nat × Res :=
  if n > sz then (0, .inputErr) else ((sz + (W - n)) % W, .ok)

/-- `ccc_buf_size_set`, src/buffer.c:339-353. -/
def sizeSetW (cap n : Nat) : Nat × Res :=
  if n > cap then (cap, .inputErr) else (n, .ok)

/-- Outcome of a growth request: the new `capacity_` and the number of bytes really requested. -/
structure Grow where
  cap : Nat
  bytes : Nat
deriving DecidableEq, Repr

/-- `ccc_buf_alloc`, src/buffer.c:28: `buf->elem_sz_ * capacity` wraps. -/
def allocRequest (elemSz capacity : Nat) : Grow := ⟨capacity, (elemSz * capacity) % W⟩

/-- Growth step of `ccc_buf_alloc_back`, src/buffer.c:67-71. -/
def growRequest (elemSz cap : Nat) : Grow :=
  if cap ≠ 0 then allocRequest elemSz ((cap * 2) % W) else allocRequest elemSz Buf.startCapacity

/-- The slots of the new capacity all lie inside the block that was requested. -/
def Grow.Covers (elemSz : Nat) (g : Grow) : Prop := elemSz * g.cap ≤ g.bytes

instance (e : Nat) (g : Grow) : Decidable (g.Covers e) := inferInstanceAs (Decidable (_ ≤ _))

end CCC.BufWord
