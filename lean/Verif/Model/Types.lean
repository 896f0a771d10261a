/-
Model of `src/types.c`, `ccc/types.h`, `ccc/impl/impl_types.h`: result codes, comparison results and entry
statuses shared by every container.
-/
namespace CCC

/-- `ccc_result`, ccc/types.h:60-72. -/
inductive Res where
  | ok | noAlloc | memErr | inputErr
deriving DecidableEq, Repr

/-- `ccc_threeway_cmp`, ccc/types.h:79-89 (`CCC_LES`, `CCC_EQL`, `CCC_GRT`, `CCC_CMP_ERR`). -/
inductive Cmp where
  | les | eql | grt | err
deriving DecidableEq, Repr

/-- Answer of one call of the user's allocation function (`ccc_alloc_fn`, ccc/types.h:163-208):
`none` is the returned NULL of a refused request; `some junk` is success, where `junk` gives the arbitrary
contents of the fresh slots. -/
abbrev AllocAns (α : Type) := Option (Nat → α)

/-- `void *` returned by a flat container: a slot number, `none` for NULL. -/
abbrev Slot := Option Nat

/-! Entry statuses, ccc/impl/impl_types.h:9-18 (`enum ccc_entry_status_`): a bit set. -/
namespace Stat
def vacant : Nat := 0
def occupied : Nat := 1
def insertError : Nat := 2
def searchError : Nat := 4
def deleteError : Nat := 8
def inputError : Nat := 16
def noUnwrap : Nat := 32
/-- Test one bit: `stats & flag` in a boolean context. -/
def has (stats flag : Nat) : Bool := stats &&& flag != 0
end Stat

/-- `ccc_entry`, ccc/types.h:43 and `struct ccc_ent_`, ccc/impl/impl_types.h:21-25. -/
structure Ent where
  e : Slot
  stats : Nat
deriving DecidableEq, Repr

namespace Ent
/-- `ccc_entry_occupied`, src/types.c:22-26.  `none` is a NULL entry pointer (also below). -/
def isOccupied (e : Option Ent) : Bool := match e with | some e => Stat.has e.stats Stat.occupied | none => false
/-- `ccc_entry_insert_error`, src/types.c:28-32. -/
def isInsertError (e : Option Ent) : Bool :=
  match e with | some e => Stat.has e.stats Stat.insertError | none => false
/-- `ccc_entry_input_error`, src/types.c:34-38. -/
def isInputError (e : Option Ent) : Bool :=
  match e with | some e => Stat.has e.stats Stat.inputError | none => false
/-- `ccc_entry_unwrap`, src/types.c:40-48. -/
def unwrap (e : Option Ent) : Slot :=
  match e with | some e => if Stat.has e.stats Stat.noUnwrap then none else e.e | none => none
/-- `ccc_get_entry_status`, src/types.c:84-92. -/
def status (e : Option Ent) : Nat := match e with | some e => e.stats | none => Stat.inputError
end Ent

/-- Write one slot. -/
def upd {α : Type} (f : Nat → α) (i : Nat) (x : α) : Nat → α := fun j => if j = i then x else f j

@[simp] theorem upd_same {α : Type} (f : Nat → α) (i : Nat) (x : α) : upd f i x i = x := by simp [upd]
theorem upd_ne {α : Type} (f : Nat → α) {i j : Nat} (x : α) (h : j ≠ i) : upd f i x j = f j := by
  simp [upd, h]
theorem upd_apply {α : Type} (f : Nat → α) (i j : Nat) (x : α) :
    upd f i x j = if j = i then x else f j := rfl

/-- `memmove`/non-overlapping `memcpy` of `n` slots from `src` to `dst` inside one array. -/
def blockMove {α : Type} (f : Nat → α) (dst src n : Nat) : Nat → α :=
  fun j => if dst ≤ j ∧ j < dst + n then f (src + (j - dst)) else f j

/-- `memcpy` of `n` slots of an external array `g` starting at `off` to `dst`. -/
def blockWrite {α : Type} (f : Nat → α) (dst : Nat) (g : Nat → α) (off n : Nat) : Nat → α :=
  fun j => if dst ≤ j ∧ j < dst + n then g (off + (j - dst)) else f j

/-- The elements `f a, f (a+1), …, f (a+n-1)` as a list. -/
def window {α : Type} (f : Nat → α) (a n : Nat) : List α := (List.range n).map (fun i => f (a + i))

end CCC
