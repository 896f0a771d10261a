import Verif.Model.Links
/-
Model of the WAVL tree code, which appears twice in the library, once over pointers and once over buffer
indices: `src/realtime_ordered_map.c` (below "rom") and `src/flat_realtime_ordered_map.c` (below "frm").  The two
versions have the same statements in the same order.  Each definition cites both.
-/
namespace CCC.Wavl
open CCC Links

/-- `is_0_child` / `is_2_child`: rom 1059-1065, 1083-1089; frm 1215-1220, 1237-1242.  The two C functions have the
same body: equal parities. -/
def is2child (t : Links) (p x : Nat) : Option Bool :=
  if p = 0 then some false else do
    let a ← t.getParity p
    let b ← t.getParity x
    some (a == b)

/-- `is_1_child` / `is_3_child`: rom 1071-1077, 1095-1101; frm 1226-1231, 1248-1253.  Different parities. -/
def is1child (t : Links) (p x : Nat) : Option Bool :=
  if p = 0 then some false else do
    let a ← t.getParity p
    let b ← t.getParity x
    some (a != b)

/-- `is_01_parent`: rom 1108-1118; frm 1260-1268. -/
def is01parent (t : Links) (x p y : Nat) : Option Bool := do
  req (p != 0)
  let a ← t.getParity x
  let b ← t.getParity p
  let c ← t.getParity y
  some ((!a && !b && c) || (a && b && !c))

/-- `is_11_parent`: rom 1125-1135; frm 1275-1283. -/
def is11parent (t : Links) (x p y : Nat) : Option Bool := do
  req (p != 0)
  let a ← t.getParity x
  let b ← t.getParity p
  let c ← t.getParity y
  some ((!a && b && !c) || (a && !b && c))

/-- `is_02_parent` / `is_22_parent`: rom 1142-1151, 1162-1171; frm 1290-1297, 1308-1315.  Same body. -/
def is22parent (t : Links) (x p y : Nat) : Option Bool := do
  req (p != 0)
  let a ← t.getParity x
  let b ← t.getParity p
  let c ← t.getParity y
  some ((a == b) && (b == c))

/-- `promote` and `demote`: rom 1173-1186; frm 1317-1330.  `double_promote` and `double_demote` (rom 1188-1194) do
nothing. -/
def promote (t : Links) (x : Nat) : Option Links :=
  if x ≠ 0 then do
    let b ← t.getParity x
    t.setParity x (!b)
  else some t

/-- `is_leaf`: rom 1196-1201; frm 1340-1344. -/
def isLeaf (t : Links) (x : Nat) : Option Bool := do
  let l ← t.getBr x false
  if l = 0 then do
    let r ← t.getBr x true
    some (r == 0)
  else some false

/-- `sibling_of`: rom 1203-1210; frm 1346-1353. -/
def siblingOf (t : Links) (x : Nat) : Option Nat := do
  let p ← t.getPar x
  req (p != 0)
  let l ← t.getBr p false
  t.getBr p (l == x)

/-- `rotate`: rom 992-1012; frm 1146-1168. -/
def rotate (t : Links) (z x y : Nat) (dir : Bool) : Option Links := do
  req (z != 0)
  let p ← t.getPar z
  let t ← t.setPar x p
  let t ← t.relink p z x
  let t ← t.setBr x dir z
  let t ← t.setPar z x
  let t ← t.setBr z (!dir) y
  t.setPar y z

/-- `double_rotate`: rom 1025-1053; frm 1181-1209. -/
def doubleRotate (t : Links) (z x y : Nat) (dir : Bool) : Option Links := do
  req (z != 0)
  req (x != 0)
  req (y != 0)
  let p ← t.getPar z
  let t ← t.setPar y p
  let t ← t.relink p z y
  let b ← t.getBr y dir
  let t ← t.setBr x (!dir) b
  let t ← t.setPar b x
  let t ← t.setBr y dir x
  let t ← t.setPar x y
  let c ← t.getBr y (!dir)
  let t ← t.setBr z dir c
  let t ← t.setPar c z
  let t ← t.setBr y (!dir) z
  t.setPar z y

/-- `insert_fixup` after its promotion loop: rom 800-820; frm 923-943. -/
def insertTail (t : Links) (z x : Nat) : Option Links := do
  let s ← siblingOf t x
  let two ← is22parent t x z s
  if !two then some t else
  req (x != 0)
  let zero ← is2child t z x
  req zero
  let r ← t.getBr z true
  let d := (r == x)
  let y ← t.getBr x (!d)
  let single ← (if y = 0 then some true else is2child t z y)
  if single then
    let t ← rotate t z x y (!d)
    promote t z
  else
    let one ← is1child t z y
    req one
    let t ← doubleRotate t z x y d
    let t ← promote t y
    let t ← promote t x
    promote t z

/-- `insert_fixup`: rom 785-821; frm 909-944.  The C parameter `x` is overwritten before its first use. -/
def insertFixup (t : Links) (z : Nat) : Option Links := do
  let t ← promote t z
  let x := z
  let z ← t.getPar x
  if z = 0 then some t else
  let s ← siblingOf t x
  let zo ← is01parent t x z s
  if zo then insertFixup t z else insertTail t z x
partial_fixpoint

/-- The last branch of the loop of `rebalance_3_child` (one or two rotations, then return): rom 907-953;
frm 1051-1098. -/
def rebalanceRotate (t : Links) (z x y : Nat) : Option Links := do
  let three ← is1child t z x
  req three
  let r ← t.getBr z true
  let d := (r == x)
  let w ← t.getBr y (!d)
  let one ← is1child t y w
  if one then
    let v ← t.getBr y d
    let t ← rotate t z y v d
    let t ← promote t y
    let t ← promote t z
    let leaf ← isLeaf t z
    if leaf then promote t z else some t
  else
    let v ← t.getBr y d
    let two ← is2child t y w
    req two
    let one ← is1child t y v
    req one
    let t ← doubleRotate t z y v (!d)
    let t ← promote t y
    let zleaf ← isLeaf t z
    let zl ← t.getBr z false
    let zr ← t.getBr z true
    let z11 ← (if !zleaf then is11parent t zl z zr else some false)
    if z11 then promote t z else
    let yleaf ← isLeaf t y
    let yl ← t.getBr y false
    let yr ← t.getBr y true
    let y11 ← (if !yleaf then is11parent t yl y yr else some false)
    if y11 then promote t y else some t

/-- `rebalance_3_child`: rom 889-958; frm 1034-1102. -/
def rebalance3child (t : Links) (z x : Nat) : Option Links := do
  req (z != 0)
  let pp ← t.getPar z
  let l ← t.getBr z false
  let y ← t.getBr z (l == x)
  let made3 ← is2child t pp z
  let two ← is2child t z y
  if two then
    let t ← promote t z
    if pp ≠ 0 ∧ made3 = true then rebalance3child t pp z else some t
  else
    let yl ← t.getBr y false
    let yr ← t.getBr y true
    let twotwo ← is22parent t yl y yr
    if twotwo then
      let t ← promote t z
      let t ← promote t y
      if pp ≠ 0 ∧ made3 = true then rebalance3child t pp z else some t
    else rebalanceRotate t z x y
partial_fixpoint

/-- `transplant`: rom 960-981; frm 1009-1032. -/
def transplant (t : Links) (rm rep : Nat) : Option Links := do
  req (rm != 0)
  req (rep != 0)
  let p ← t.getPar rm
  let t ← t.setPar rep p
  let p ← t.getPar rm
  let t ← t.relink p rm rep
  let r ← t.getBr rm true
  let t ← t.setPar r rep
  let l ← t.getBr rm false
  let t ← t.setPar l rep
  let r ← t.getBr rm true
  let t ← t.setBr rep true r
  let l ← t.getBr rm false
  let t ← t.setBr rep false l
  let b ← t.getParity rm
  t.setParity rep b

/-- The loop of `min_max_from`: rom 581-583; frm 776-778. -/
def minMaxLoop (t : Links) (s : Nat) (dir : Bool) : Option Nat := do
  let b ← t.getBr s dir
  if b = 0 then some s else minMaxLoop t b dir
partial_fixpoint

/-- `min_max_from`: rom 574-585; frm 769-780. -/
def minMaxFrom (t : Links) (s : Nat) (dir : Bool) : Option Nat :=
  if s = 0 then some s else minMaxLoop t s dir

/-- First half of `remove_fixup`: unlink the removed element, giving the parent `p_of_xy` and child `x` at the
place where a node disappeared and whether that node was a 2-child: rom 826-860; frm 949-981. -/
def removeUnlink (t : Links) (rm : Nat) : Option (Links × Nat × Nat × Bool) := do
  let l ← t.getBr rm false
  let r ← t.getBr rm true
  if l = 0 ∨ r = 0 then
    let y := rm
    let p ← t.getPar y
    let l ← t.getBr y false
    let x ← t.getBr y (l == 0)
    let t ← t.setPar x p
    let t := if p = 0 then t.setRoot x else t
    let two ← is2child t p y
    let r ← t.getBr p true
    let t ← t.setBr p (r == y) x
    some (t, p, x, two)
  else
    let y ← minMaxFrom t r false
    let p ← t.getPar y
    let l ← t.getBr y false
    let x ← t.getBr y (l == 0)
    let t ← t.setPar x p
    req (p != 0)
    let two ← is2child t p y
    let r ← t.getBr p true
    let t ← t.setBr p (r == y) x
    let t ← transplant t rm y
    let p := if rm = p then y else p
    some (t, p, x, two)

/-- Second half of `remove_fixup`: restore the rank rule: rom 862-882; frm 983-1004. -/
def removeRebalance (t : Links) (p x : Nat) (two : Bool) : Option Links :=
  if p ≠ 0 then do
    let t ← (if two then rebalance3child t p x
      else do
        let l ← t.getBr p false
        let r ← t.getBr p true
        if x = 0 ∧ l = r then do
          let pp ← t.getPar p
          let three ← is2child t pp p
          let t ← promote t p
          if three then do
            let pp ← t.getPar p
            rebalance3child t pp p
          else some t
        else some t)
    let leaf ← isLeaf t p
    let b ← t.getParity p
    req (!leaf || !b)
    some t
  else some t

/-- The tree part of `remove_fixup`: rom 823-887 up to the clearing of the removed node's links; frm 946-1007 up to
`swap_and_pop`. -/
def removeLinks (t : Links) (rm : Nat) : Option Links := do
  let (t, p, x, two) ← removeUnlink t rm
  removeRebalance t p x two

/-- Result of `find`: rom 656-674; frm 700-717.  `.1` is `last_cmp_`; `.2` is `found_` for `CCC_EQL`, otherwise the
`parent_` member of the union. -/
abbrev Query := Cmp × Nat

/-- The loop of `find`; `c a` is the comparison of the sought key with the element at `a`. -/
def findLoop (t : Links) (c : Nat → Cmp) (parent cur : Nat) (last : Cmp) : Option Query :=
  if cur = 0 then some (last, parent)
  else if !t.live cur then none
  else
    let last := c cur
    if last = .eql then some (last, cur)
    else do
      let nxt ← t.getBr cur (decide (last = .grt))
      findLoop t c cur nxt last
partial_fixpoint

/-- `find`: rom 656-674; frm 700-717. -/
def find (t : Links) (c : Nat → Cmp) : Option Query := findLoop t c 0 t.root .err

/-- The climbing loop of `next`: rom 694-697; frm 738-741. -/
def climb (t : Links) (n : Nat) (trav : Bool) : Option Nat := do
  let p ← t.getPar n
  if p = 0 then some p else
  let b ← t.getBr p (!trav)
  if b = n then some p else climb t p trav
partial_fixpoint

/-- `next`: rom 676-698; frm 719-742.  NULL and the sentinel are both `0`. -/
def next (t : Links) (n : Nat) (trav : Bool) : Option Nat :=
  if n = 0 then some 0 else do
    let rp ← t.getPar t.root
    req (rp == 0)
    let b ← t.getBr n trav
    if b ≠ 0 then minMaxLoop t b (!trav) else climb t n trav

/-- `equal_range` after its emptiness check: rom 707-722; frm 751-766.  `cb`/`ce` compare the two keys with
elements.  Results are elements, `0` for the end.  `trav = true` is the ascending range. -/
def equalRange (t : Links) (cb ce : Nat → Cmp) (trav : Bool) : Option (Nat × Nat) := do
  let b ← find t cb
  let b ← (if b.1 = (if trav then Cmp.grt else Cmp.les) then next t b.2 trav else some b.2)
  let e ← find t ce
  let e ← (if e.1 ≠ (if trav then Cmp.les else Cmp.grt) then next t e.2 trav else some e.2)
  some (b, e)

/-- `init_node`: rom 725-732; frm 808-814. -/
def initNode (t : Links) (e : Nat) : Option Links := do
  let t ← t.setBr e false 0
  let t ← t.setBr e true 0
  let t ← t.setPar e 0
  t.setParity e false

/-- `insert` of an initialised node below `parent`, for a non-empty tree: rom 623-632; frm 663-674. -/
def insertBelow (t : Links) (parent : Nat) (last : Cmp) (e : Nat) : Option Links := do
  req (last == .grt || last == .les)
  let l ← t.getBr parent false
  let r ← t.getBr parent true
  let brk := decide (l = 0 ∧ r = 0)
  let t ← t.setBr parent (decide (last = .grt)) e
  let t ← t.setPar e parent
  if brk then insertFixup t parent else some t

end CCC.Wavl
