import Verif.Model.Types
/-
The link fields of binary search tree nodes, shared by the models of `ordered_map.c`, `flat_ordered_map.c`,
`realtime_ordered_map.c` and `flat_realtime_ordered_map.c`.

An address is a `Nat`.  In the pointer based maps an address stands for the location of a user's intrusive
element; in the flat maps it is the index of a buffer slot.  Address `0` is the sentinel in both: the field `end_`
inside the map structure (ccc/impl/impl_realtime_ordered_map.h:18-32, ccc/impl/impl_ordered_map.h) or slot 0 of
the buffer (ccc/impl/impl_flat_realtime_ordered_map.h:30-39).
-/
namespace CCC

/-- Link fields of every element plus the root pointer.  `struct ccc_romap_elem_`
(ccc/impl/impl_realtime_ordered_map.h:13-17), `struct ccc_fromap_elem_`
(ccc/impl/impl_flat_realtime_ordered_map.h:13-29).  `br a false` is `branch_[L]`, `br a true` is `branch_[R]`.
`live a` says that the address may be dereferenced as an element of this map; every access checks it.
Simplification: after an element is removed the C code writes NULL into its links, the model instead makes the
address not live, so that any later use of it as an element is undefined behaviour. -/
structure Links where
  br : Nat → Bool → Nat
  par : Nat → Nat
  parity : Nat → Bool
  live : Nat → Bool
  root : Nat

/-- `assert(b)`: a failing assertion is undefined behaviour. -/
def req (b : Bool) : Option Unit := if b then some () else none

namespace Links

/-- Read `a->branch_[d]`. -/
def getBr (t : Links) (a : Nat) (d : Bool) : Option Nat := if t.live a then some (t.br a d) else none
/-- Read `a->parent_`. -/
def getPar (t : Links) (a : Nat) : Option Nat := if t.live a then some (t.par a) else none
/-- Read `a->parity_`. -/
def getParity (t : Links) (a : Nat) : Option Bool := if t.live a then some (t.parity a) else none
/-- Write `a->branch_[d] = v`. -/
def setBr (t : Links) (a : Nat) (d : Bool) (v : Nat) : Option Links :=
  if t.live a then some { t with br := fun b e => if b = a ∧ e = d then v else t.br b e } else none
/-- Write `a->parent_ = v`. -/
def setPar (t : Links) (a : Nat) (v : Nat) : Option Links :=
  if t.live a then some { t with par := upd t.par a v } else none
/-- Write `a->parity_ = v`. -/
def setParity (t : Links) (a : Nat) (v : Bool) : Option Links :=
  if t.live a then some { t with parity := upd t.parity a v } else none
/-- Write the map's `root_` field. -/
def setRoot (t : Links) (v : Nat) : Links := { t with root := v }

/-- Make the link that led to `old` from its parent `p` lead to `new`: the root field when `p` is the sentinel,
else the branch of `p` that holds `old`.  src/realtime_ordered_map.c:999-1007 (rotate), 1034-1042
(double_rotate), 966-975 (transplant); src/flat_realtime_ordered_map.c:1155-1163, 1190-1198, 1016-1024. -/
def relink (t : Links) (p old new : Nat) : Option Links :=
  if p = 0 then some (t.setRoot new)
  else do
    let r ← t.getBr p true
    t.setBr p (r == old) new

end Links
end CCC
