import Verif.Model.Count
import Verif.Model.Splay
/-
The functions of `Verif/Model/Splay.lean` with the comparisons counted.
-/
namespace CCC.Splay
open CCC Links

/-- The loop of `splay`: om 743-770; fom 772-799. -/
def splayLoopN (t : Links) (c : Nat → Option Cmp) (lr : Bool → Nat) (root : Nat) :
    Count (Links × (Bool → Nat) × Nat) := do
  let rc ← cnt c root
  if rc = .eql then pure (t, lr, root) else
  let dir := decide (rc = .grt)
  let child ← t.getBr root dir
  if child = 0 then pure (t, lr, root) else
  let cc ← cnt c child
  if cc ≠ .eql ∧ dir = decide (cc = .grt) then do
    let b ← t.getBr child (!dir)
    let t ← link t root dir b
    let t ← link t child (!dir) root
    let nx ← t.getBr child dir
    if nx = 0 then pure (t, lr, child)
    else do
      let t ← link t (lr (!dir)) dir child
      let nx ← t.getBr child dir
      splayLoopN t c (fun b => if b = !dir then child else lr b) nx
  else do
    let t ← link t (lr (!dir)) dir root
    let nx ← t.getBr root dir
    splayLoopN t c (fun b => if b = !dir then root else lr b) nx
partial_fixpoint

/-- `splay`: om 734-778; fom 762-807. -/
def splayN (t : Links) (c : Nat → Option Cmp) (root : Nat) : Count (Links × Nat) := do
  let t ← t.setBr 0 false 0
  let t ← t.setBr 0 true 0
  let t ← t.setPar 0 0
  let (t, lr, root) ← splayLoopN t c (fun _ => 0) root
  let a ← t.getBr root false
  let t ← link t (lr false) true a
  let b ← t.getBr root true
  let t ← link t (lr true) false b
  let x ← t.getBr 0 true
  let t ← link t root false x
  let y ← t.getBr 0 false
  let t ← link t root true y
  let t := t.setRoot root
  let t ← link t 0 false root
  pure (t, root)

/-- `remove_from_tree`: om 718-732; fom 718-733. -/
def removeFromTreeN (t : Links) (c : Nat → Option Cmp) (ret : Nat) : Count Links := do
  let l ← t.getBr ret false
  if l = 0 then do
    let r ← t.getBr ret true
    link (t.setRoot r) 0 false r
  else do
    let (t, root) ← splayN t c l
    let t := t.setRoot root
    let r ← t.getBr ret true
    link t root true r

/-- `equal_range` after its emptiness check: om 592-602; fom 598-608. -/
def equalRangeN (t : Links) (cb ce : Nat → Option Cmp) (trav : Bool) : Count (Links × Nat × Nat) := do
  let (t, b) ← splayN t cb t.root
  let q ← cnt cb b
  let b ← (if q = (if trav then Cmp.grt else Cmp.les) then Wavl.next t b trav else some b : Option Nat)
  let (t, e) ← splayN t ce t.root
  let q ← cnt ce e
  let e ← (if q ≠ (if trav then Cmp.les else Cmp.grt) then Wavl.next t e trav else some e : Option Nat)
  pure (t, b, e)

end CCC.Splay
