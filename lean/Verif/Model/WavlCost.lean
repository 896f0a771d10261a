import Verif.Model.Count
import Verif.Model.Wavl
/-
The functions of `Verif/Model/Wavl.lean` with every access to an element counted: every read and every write of one of its
link or parity fields and every comparison with its key.  They are the same functions, statement for statement.  What
they do between two accesses, and the tests of `assert`, take constant time and are not counted.
-/
namespace CCC

namespace Links

/-- As `getBr`. -/
def getBrN (t : Links) (a : Nat) (d : Bool) : Count Nat := acc (t.getBr a d)
/-- As `getPar`. -/
def getParN (t : Links) (a : Nat) : Count Nat := acc (t.getPar a)
/-- As `getParity`. -/
def getParityN (t : Links) (a : Nat) : Count Bool := acc (t.getParity a)
/-- As `setBr`. -/
def setBrN (t : Links) (a : Nat) (d : Bool) (v : Nat) : Count Links := acc (t.setBr a d v)
/-- As `setPar`. -/
def setParN (t : Links) (a : Nat) (v : Nat) : Count Links := acc (t.setPar a v)
/-- As `setParity`. -/
def setParityN (t : Links) (a : Nat) (v : Bool) : Count Links := acc (t.setParity a v)
/-- As `relink`. -/
def relinkN (t : Links) (p old new : Nat) : Count Links :=
  if p = 0 then pure (t.setRoot new)
  else do
    let r ← t.getBrN p true
    t.setBrN p (r == old) new

end Links

namespace Wavl
open CCC Links

/-- As `is2child`: rom 1059-1065, 1083-1089; frm 1215-1220, 1237-1242. -/
def is2childN (t : Links) (p x : Nat) : Count Bool :=
  if p = 0 then pure false else do
    let a ← t.getParityN p
    let b ← t.getParityN x
    pure (a == b)

/-- As `is1child`: rom 1071-1077, 1095-1101; frm 1226-1231, 1248-1253. -/
def is1childN (t : Links) (p x : Nat) : Count Bool :=
  if p = 0 then pure false else do
    let a ← t.getParityN p
    let b ← t.getParityN x
    pure (a != b)

/-- As `is01parent`: rom 1108-1118; frm 1260-1268. -/
def is01parentN (t : Links) (x p y : Nat) : Count Bool := do
  req (p != 0)
  let a ← t.getParityN x
  let b ← t.getParityN p
  let c ← t.getParityN y
  pure ((!a && !b && c) || (a && b && !c))

/-- As `is11parent`: rom 1125-1135; frm 1275-1283. -/
def is11parentN (t : Links) (x p y : Nat) : Count Bool := do
  req (p != 0)
  let a ← t.getParityN x
  let b ← t.getParityN p
  let c ← t.getParityN y
  pure ((!a && b && !c) || (a && !b && c))

/-- As `is22parent`: rom 1142-1151, 1162-1171; frm 1290-1297, 1308-1315. -/
def is22parentN (t : Links) (x p y : Nat) : Count Bool := do
  req (p != 0)
  let a ← t.getParityN x
  let b ← t.getParityN p
  let c ← t.getParityN y
  pure ((a == b) && (b == c))

/-- As `promote`: rom 1173-1186; frm 1317-1330; rom 1188-1194. -/
def promoteN (t : Links) (x : Nat) : Count Links :=
  if x ≠ 0 then do
    let b ← t.getParityN x
    t.setParityN x (!b)
  else pure t

/-- As `isLeaf`: rom 1196-1201; frm 1340-1344. -/
def isLeafN (t : Links) (x : Nat) : Count Bool := do
  let l ← t.getBrN x false
  if l = 0 then do
    let r ← t.getBrN x true
    pure (r == 0)
  else pure false

/-- As `siblingOf`: rom 1203-1210; frm 1346-1353. -/
def siblingOfN (t : Links) (x : Nat) : Count Nat := do
  let p ← t.getParN x
  req (p != 0)
  let l ← t.getBrN p false
  t.getBrN p (l == x)

/-- As `rotate`: rom 992-1012; frm 1146-1168. -/
def rotateN (t : Links) (z x y : Nat) (dir : Bool) : Count Links := do
  req (z != 0)
  let p ← t.getParN z
  let t ← t.setParN x p
  let t ← t.relinkN p z x
  let t ← t.setBrN x dir z
  let t ← t.setParN z x
  let t ← t.setBrN z (!dir) y
  t.setParN y z

/-- As `doubleRotate`: rom 1025-1053; frm 1181-1209. -/
def doubleRotateN (t : Links) (z x y : Nat) (dir : Bool) : Count Links := do
  req (z != 0)
  req (x != 0)
  req (y != 0)
  let p ← t.getParN z
  let t ← t.setParN y p
  let t ← t.relinkN p z y
  let b ← t.getBrN y dir
  let t ← t.setBrN x (!dir) b
  let t ← t.setParN b x
  let t ← t.setBrN y dir x
  let t ← t.setParN x y
  let c ← t.getBrN y (!dir)
  let t ← t.setBrN z dir c
  let t ← t.setParN c z
  let t ← t.setBrN y (!dir) z
  t.setParN z y

/-- As `insertTail`: rom 800-820; frm 923-943. -/
def insertTailN (t : Links) (z x : Nat) : Count Links := do
  let s ← siblingOfN t x
  let two ← is22parentN t x z s
  if !two then pure t else
  req (x != 0)
  let zero ← is2childN t z x
  req zero
  let r ← t.getBrN z true
  let d := (r == x)
  let y ← t.getBrN x (!d)
  let single ← (if y = 0 then pure true else is2childN t z y)
  if single then
    let t ← rotateN t z x y (!d)
    promoteN t z
  else
    let one ← is1childN t z y
    req one
    let t ← doubleRotateN t z x y d
    let t ← promoteN t y
    let t ← promoteN t x
    promoteN t z

/-- As `insertFixup`: rom 785-821; frm 909-944. -/
def insertFixupN (t : Links) (z : Nat) : Count Links := do
  let t ← promoteN t z
  let x := z
  let z ← t.getParN x
  if z = 0 then pure t else
  let s ← siblingOfN t x
  let zo ← is01parentN t x z s
  if zo then insertFixupN t z else insertTailN t z x
partial_fixpoint

/-- As `rebalanceRotate`: rom 907-953; frm 1051-1098. -/
def rebalanceRotateN (t : Links) (z x y : Nat) : Count Links := do
  let three ← is1childN t z x
  req three
  let r ← t.getBrN z true
  let d := (r == x)
  let w ← t.getBrN y (!d)
  let one ← is1childN t y w
  if one then
    let v ← t.getBrN y d
    let t ← rotateN t z y v d
    let t ← promoteN t y
    let t ← promoteN t z
    let leaf ← isLeafN t z
    if leaf then promoteN t z else pure t
  else
    let v ← t.getBrN y d
    let two ← is2childN t y w
    req two
    let one ← is1childN t y v
    req one
    let t ← doubleRotateN t z y v (!d)
    let t ← promoteN t y
    let zleaf ← isLeafN t z
    let zl ← t.getBrN z false
    let zr ← t.getBrN z true
    let z11 ← (if !zleaf then is11parentN t zl z zr else pure false)
    if z11 then promoteN t z else
    let yleaf ← isLeafN t y
    let yl ← t.getBrN y false
    let yr ← t.getBrN y true
    let y11 ← (if !yleaf then is11parentN t yl y yr else pure false)
    if y11 then promoteN t y else pure t

/-- As `rebalance3child`: rom 889-958; frm 1034-1102. -/
def rebalance3childN (t : Links) (z x : Nat) : Count Links := do
  req (z != 0)
  let pp ← t.getParN z
  let l ← t.getBrN z false
  let y ← t.getBrN z (l == x)
  let made3 ← is2childN t pp z
  let two ← is2childN t z y
  if two then
    let t ← promoteN t z
    if pp ≠ 0 ∧ made3 = true then rebalance3childN t pp z else pure t
  else
    let yl ← t.getBrN y false
    let yr ← t.getBrN y true
    let twotwo ← is22parentN t yl y yr
    if twotwo then
      let t ← promoteN t z
      let t ← promoteN t y
      if pp ≠ 0 ∧ made3 = true then rebalance3childN t pp z else pure t
    else rebalanceRotateN t z x y
partial_fixpoint

/-- As `transplant`: rom 960-981; frm 1009-1032. -/
def transplantN (t : Links) (rm rep : Nat) : Count Links := do
  req (rm != 0)
  req (rep != 0)
  let p ← t.getParN rm
  let t ← t.setParN rep p
  let p ← t.getParN rm
  let t ← t.relinkN p rm rep
  let r ← t.getBrN rm true
  let t ← t.setParN r rep
  let l ← t.getBrN rm false
  let t ← t.setParN l rep
  let r ← t.getBrN rm true
  let t ← t.setBrN rep true r
  let l ← t.getBrN rm false
  let t ← t.setBrN rep false l
  let b ← t.getParityN rm
  t.setParityN rep b

/-- As `minMaxLoop`: rom 581-583; frm 776-778. -/
def minMaxLoopN (t : Links) (s : Nat) (dir : Bool) : Count Nat := do
  let b ← t.getBrN s dir
  if b = 0 then pure s else minMaxLoopN t b dir
partial_fixpoint

/-- As `minMaxFrom`: rom 574-585; frm 769-780. -/
def minMaxFromN (t : Links) (s : Nat) (dir : Bool) : Count Nat :=
  if s = 0 then pure s else minMaxLoopN t s dir

/-- As `removeUnlink`: rom 826-860; frm 949-981. -/
def removeUnlinkN (t : Links) (rm : Nat) : Count (Links × Nat × Nat × Bool) := do
  let l ← t.getBrN rm false
  let r ← t.getBrN rm true
  if l = 0 ∨ r = 0 then
    let y := rm
    let p ← t.getParN y
    let l ← t.getBrN y false
    let x ← t.getBrN y (l == 0)
    let t ← t.setParN x p
    let t := if p = 0 then t.setRoot x else t
    let two ← is2childN t p y
    let r ← t.getBrN p true
    let t ← t.setBrN p (r == y) x
    pure (t, p, x, two)
  else
    let y ← minMaxFromN t r false
    let p ← t.getParN y
    let l ← t.getBrN y false
    let x ← t.getBrN y (l == 0)
    let t ← t.setParN x p
    req (p != 0)
    let two ← is2childN t p y
    let r ← t.getBrN p true
    let t ← t.setBrN p (r == y) x
    let t ← transplantN t rm y
    let p := if rm = p then y else p
    pure (t, p, x, two)

/-- As `removeRebalance`: rom 862-882; frm 983-1004. -/
def removeRebalanceN (t : Links) (p x : Nat) (two : Bool) : Count Links :=
  if p ≠ 0 then do
    let t ← (if two then rebalance3childN t p x
      else do
        let l ← t.getBrN p false
        let r ← t.getBrN p true
        if x = 0 ∧ l = r then do
          let pp ← t.getParN p
          let three ← is2childN t pp p
          let t ← promoteN t p
          if three then do
            let pp ← t.getParN p
            rebalance3childN t pp p
          else pure t
        else pure t)
    let leaf ← isLeafN t p
    let b ← t.getParityN p
    req (!leaf || !b)
    pure t
  else pure t

/-- As `removeLinks`: rom 823-887; frm 946-1007. -/
def removeLinksN (t : Links) (rm : Nat) : Count Links := do
  let (t, p, x, two) ← removeUnlinkN t rm
  removeRebalanceN t p x two

/-- As `findLoop`. -/
def findLoopN (t : Links) (c : Nat → Cmp) (parent cur : Nat) (last : Cmp) : Count Query :=
  if cur = 0 then pure (last, parent)
  else do
    let last ← acc (if t.live cur then some (c cur) else none)
    if last = .eql then pure (last, cur)
    else do
      let nxt ← t.getBrN cur (decide (last = .grt))
      findLoopN t c cur nxt last
partial_fixpoint

/-- As `find`: rom 656-674; frm 700-717. -/
def findN (t : Links) (c : Nat → Cmp) : Count Query := findLoopN t c 0 t.root .err

/-- As `climb`: rom 694-697; frm 738-741. -/
def climbN (t : Links) (n : Nat) (trav : Bool) : Count Nat := do
  let p ← t.getParN n
  if p = 0 then pure p else
  let b ← t.getBrN p (!trav)
  if b = n then pure p else climbN t p trav
partial_fixpoint

/-- As `next`: rom 676-698; frm 719-742. -/
def nextN (t : Links) (n : Nat) (trav : Bool) : Count Nat :=
  if n = 0 then pure 0 else do
    let rp ← t.getParN t.root
    req (rp == 0)
    let b ← t.getBrN n trav
    if b ≠ 0 then minMaxLoopN t b (!trav) else climbN t n trav

/-- As `equalRange`: rom 707-722; frm 751-766. -/
def equalRangeN (t : Links) (cb ce : Nat → Cmp) (trav : Bool) : Count (Nat × Nat) := do
  let b ← findN t cb
  let b ← (if b.1 = (if trav then Cmp.grt else Cmp.les) then nextN t b.2 trav else pure b.2)
  let e ← findN t ce
  let e ← (if e.1 ≠ (if trav then Cmp.les else Cmp.grt) then nextN t e.2 trav else pure e.2)
  pure (b, e)

/-- As `initNode`: rom 725-732; frm 808-814. -/
def initNodeN (t : Links) (e : Nat) : Count Links := do
  let t ← t.setBrN e false 0
  let t ← t.setBrN e true 0
  let t ← t.setParN e 0
  t.setParityN e false

/-- As `insertBelow`: rom 623-632; frm 663-674. -/
def insertBelowN (t : Links) (parent : Nat) (last : Cmp) (e : Nat) : Count Links := do
  req (last == .grt || last == .les)
  let l ← t.getBrN parent false
  let r ← t.getBrN parent true
  let brk := decide (l = 0 ∧ r = 0)
  let t ← t.setBrN parent (decide (last = .grt)) e
  let t ← t.setParN e parent
  if brk then insertFixupN t parent else pure t

end Wavl
end CCC
