import Verif.Model.Wavl
/-
Model of the top-down splay tree code, which appears twice in the library with the same statements in the same order:
`src/ordered_map.c` over pointers (below "om") and `src/flat_ordered_map.c` over buffer indices (below "fom").  Each
definition cites both.  Iteration (`min`, `max`, `next`) has the same statements as in the WAVL maps and is taken from
`Verif/Model/Wavl.lean`.

`c a` is the user's comparison of the sought key with the element at `a`; it is `none` where calling the user's
function would read something that is not an element.
-/
namespace CCC.Splay
open CCC Links

/-- `link_trees`: om 812-818; fom 809-815. -/
def link (t : Links) (parent : Nat) (dir : Bool) (subtree : Nat) : Option Links := do
  let t ← t.setBr parent dir subtree
  t.setPar subtree parent

/-- The loop of `splay`: om 743-770; fom 772-799.  `lr false` is `l_r_subtrees[L]`. -/
def splayLoop (t : Links) (c : Nat → Option Cmp) (lr : Bool → Nat) (root : Nat) :
    Option (Links × (Bool → Nat) × Nat) := do
  let rc ← c root
  if rc = .eql then some (t, lr, root) else
  let dir := decide (rc = .grt)
  let child ← t.getBr root dir
  if child = 0 then some (t, lr, root) else
  let cc ← c child
  if cc ≠ .eql ∧ dir = decide (cc = .grt) then do
    let b ← t.getBr child (!dir)
    let t ← link t root dir b
    let t ← link t child (!dir) root
    let nx ← t.getBr child dir
    if nx = 0 then some (t, lr, child)
    else do
      let t ← link t (lr (!dir)) dir child
      let nx ← t.getBr child dir
      splayLoop t c (fun b => if b = !dir then child else lr b) nx
  else do
    let t ← link t (lr (!dir)) dir root
    let nx ← t.getBr root dir
    splayLoop t c (fun b => if b = !dir then root else lr b) nx
partial_fixpoint

/-- `splay`: om 734-778; fom 762-807.  Returns the new root. -/
def splay (t : Links) (c : Nat → Option Cmp) (root : Nat) : Option (Links × Nat) := do
  let t ← t.setBr 0 false 0
  let t ← t.setBr 0 true 0
  let t ← t.setPar 0 0
  let (t, lr, root) ← splayLoop t c (fun _ => 0) root
  let a ← t.getBr root false
  let t ← link t (lr false) true a
  let b ← t.getBr root true
  let t ← link t (lr true) false b
  let x ← t.getBr 0 true
  let t ← link t root false x
  let y ← t.getBr 0 false
  let t ← link t root true y
  let t := t.setRoot root
  let t ← link t 0 false root
  some (t, root)

/-- `connect_new_root`: om 685-697; fom 735-747. -/
def connectNewRoot (t : Links) (new : Nat) (res : Cmp) : Option Links := do
  let lk := decide (res = .grt)
  let b ← t.getBr t.root lk
  let t ← link t new lk b
  let t ← link t new (!lk) t.root
  let t ← t.setBr t.root lk 0
  let t := t.setRoot new
  link t 0 false t.root

/-- `remove_from_tree`: om 718-732; fom 718-733.  `c` compares the removed element's key. -/
def removeFromTree (t : Links) (c : Nat → Option Cmp) (ret : Nat) : Option Links := do
  let l ← t.getBr ret false
  if l = 0 then do
    let r ← t.getBr ret true
    link (t.setRoot r) 0 false r
  else do
    let (t, root) ← splay t c l
    let t := t.setRoot root
    let r ← t.getBr ret true
    link t root true r

/-- `init_node`: om 514-520; fom 876-881. -/
def initNode (t : Links) (e : Nat) : Option Links := do
  let t ← t.setBr e false 0
  let t ← t.setBr e true 0
  t.setPar e 0

/-- `equal_range` after its emptiness check: om 592-602; fom 598-608.  `cb`/`ce` compare the two keys with elements. -/
def equalRange (t : Links) (cb ce : Nat → Option Cmp) (trav : Bool) : Option (Links × Nat × Nat) := do
  let (t, b) ← splay t cb t.root
  let q ← cb b
  let b ← (if q = (if trav then Cmp.grt else Cmp.les) then Wavl.next t b trav else some b)
  let (t, e) ← splay t ce t.root
  let q ← ce e
  let e ← (if q ≠ (if trav then Cmp.les else Cmp.grt) then Wavl.next t e trav else some e)
  some (t, b, e)

end CCC.Splay
