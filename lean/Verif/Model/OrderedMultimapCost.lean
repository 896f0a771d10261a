import Verif.Model.Count
import Verif.Model.OrderedMultimap
/-
The functions of `Verif/Model/OrderedMultimap.lean` that compare, with the comparisons counted.  They are the same functions,
statement for statement.  The comparisons that look at nothing (`force`) are counted like the user's.  `validate`, a
function for tests that visits the whole tree, is not counted.
-/
namespace CCC.Omm
open CCC PtrMap MultiSpec

variable {α κ : Type}

/-- As `splayLoop`, src/ordered_multimap.c:1096-1123. -/
def splayLoopN (s : Omm α) (c : Nat → Option Cmp) (lr : Bool → Nat) (root : Nat) :
    Count (Omm α × (Bool → Nat) × Nat) := do
  let rc ← cnt c root
  if rc = .eql then pure (s, lr, root) else
  let dir := decide (rc = .grt)
  let child ← branch s root dir
  if child = 0 then pure (s, lr, root) else
  let cc ← cnt c child
  if cc ≠ .eql ∧ dir = decide (cc = .grt) then do
    let b ← branch s child (!dir)
    let s ← link s root dir b
    let s ← link s child (!dir) root
    let nx ← branch s child dir
    if nx = 0 then pure (s, lr, child)
    else do
      let s ← link s (lr (!dir)) dir child
      let nx ← branch s child dir
      splayLoopN s c (fun b => if b = !dir then child else lr b) nx
  else do
    let s ← link s (lr (!dir)) dir root
    let nx ← branch s root dir
    splayLoopN s c (fun b => if b = !dir then root else lr b) nx
partial_fixpoint

/-- As `splay`, src/ordered_multimap.c:1087-1131. -/
def splayN (s : Omm α) (c : Nat → Option Cmp) (root : Nat) : Count (Omm α × Nat) := do
  let s ← setBr s 0 false (some 0)
  let s ← setBr s 0 true (some 0)
  let s ← setPar s 0 (some 0)
  let (s, lr, root) ← splayLoopN s c (fun _ => 0) root
  let a ← branch s root false
  let s ← link s (lr false) true a
  let b ← branch s root true
  let s ← link s (lr true) false b
  let x ← branch s 0 true
  let s ← link s root false x
  let y ← branch s 0 false
  let s ← link s root true y
  let s := { s with root := root }
  let s ← link s 0 false root
  pure (s, root)

variable (cmp : κ → κ → Cmp) (key : α → κ)

/-- As `splayTo`. -/
def splayToN (s : Omm α) (k : κ) : Count (Omm α × Cmp) := do
  let (s, r) ← splayN s (cmpAt cmp key s k) s.root
  let s := { s with root := r }
  let q ← cnt (cmpAt cmp key s k) s.root
  pure (s, q)

/-- As `find`, src/ordered_multimap.c:642-652. -/
def findN (s : Omm α) (k : κ) : Count (Omm α × Slot) :=
  if s.root = 0 then pure (s, none)
  else do
    let (s, q) ← splayToN cmp key s k
    pure (s, if q = .eql then some s.root else none)

/-- As `contains`, src/ordered_multimap.c:826-831. -/
def containsN (s : Omm α) (k : κ) : Count (Omm α × Bool) := do
  let (s, q) ← splayToN cmp key s k
  pure (s, q == .eql)

/-- As `insertNode`, src/ordered_multimap.c:833-857. -/
def insertNodeN (s : Omm α) (n : Nat) : Count (Omm α × Ent) := do
  let s ← initNode s n
  if isEmpty s then pure ({ s with root := n, sz := 1 }, ⟨some n, Stat.vacant⟩)
  else do
    let s := { s with sz := s.sz + 1 }
    let (s, q) ← splayToN cmp key s (key (s.val n))
    if q = .eql then do
      let s ← addDuplicate s s.root n 0
      pure (s, ⟨some n, Stat.occupied⟩)
    else do
      let s ← connectNewRoot s n q
      pure (s, ⟨some n, Stat.vacant⟩)

/-- As `popFrontDup`, src/ordered_multimap.c:1034-1069. -/
def popFrontDupN (s : Omm α) (old : Nat) (k : κ) : Count (Omm α × Nat) := do
  let repl ← parent s old
  let par ← parent s repl
  let s ← (if old = s.root then pure { s with root := repl }
    else do
      let q ← cnt (cmpAt cmp key s k) par
      setBr s par (decide (q = .grt)) (some repl))
  let newHead ← branch s repl true
  let tail ← branch s repl false
  let q ← getBr s newHead true
  let alone := q == some newHead
  let s ← setBr s newHead false (some tail)
  let s ← setPar s newHead (some par)
  let s ← setBr s tail true (some newHead)
  let l ← getBr s old false
  let s ← setBr s repl false l
  let r ← getBr s old true
  let s ← setBr s repl true r
  let s ← setPar s repl (some newHead)
  let l ← branch s repl false
  let s ← link s repl false l
  let r ← branch s repl true
  let s ← link s repl true r
  let s ← (if alone then setPar s repl (some par) else some s : Option (Omm α))
  pure (s, old)

/-- As `removeFromTree`, src/ordered_multimap.c:1071-1085. -/
def removeFromTreeN (s : Omm α) (ret : Nat) : Count (Omm α × Nat) := do
  let l ← branch s ret false
  if l = 0 then do
    let r ← branch s ret true
    let s := { s with root := r }
    let s ← link s 0 false s.root
    pure (s, ret)
  else do
    let (s, r) ← splayN s (cmpAt cmp key s (key (s.val ret))) l
    let s := { s with root := r }
    let b ← branch s ret true
    let s ← link s s.root true b
    pure (s, ret)

/-- As `takeRoot`, src/ordered_multimap.c:917-926. -/
def takeRootN (s : Omm α) (ret : Nat) : Count (Omm α × Slot) := do
  let d ← hasDups s ret
  let (s, ret) ← (if d then popFrontDupN cmp key s ret (key (s.val ret)) else removeFromTreeN cmp key s ret)
  let s ← clearNode s ret
  pure (s, some ret)

/-- As `erase`, src/ordered_multimap.c:900-927. -/
def eraseN (s : Omm α) (k : κ) : Count (Omm α × Slot) :=
  if isEmpty s then pure (s, none)
  else do
    let (s, ret) ← splayN s (cmpAt cmp key s k) s.root
    let q ← cnt (cmpAt cmp key s k) ret
    if q ≠ .eql then pure (s, none) else takeRootN cmp key { s with sz := s.sz - 1 } ret

/-- As `eraseMaxOrMin`, src/ordered_multimap.c:935-959. -/
def eraseMaxOrMinN (s : Omm α) (q : Cmp) : Count (Omm α × Slot) :=
  if isEmpty s then pure (s, none)
  else do
    let s := { s with sz := s.sz - 1 }
    let (s, ret) ← splayN s (force q) s.root
    takeRootN cmp key s ret

/-- As `popDupNode`, src/ordered_multimap.c:1009-1032. -/
def popDupNodeN (s : Omm α) (dup splayed : Nat) : Count (Omm α × Nat) :=
  if dup = splayed then popFrontDupN cmp key s splayed (key (s.val splayed))
  else do
    let n ← getBr s dup true
    if n = some dup then do
      let s ← setPar s splayed (some 0)
      pure (s, dup)
    else do
      let n ← branch s dup true
      let p ← branch s dup false
      let s ← setBr s p true (some n)
      let s ← setBr s n false (some p)
      let par ← getPar s dup
      let s ← setPar s n par
      let s ← setPar s splayed (some n)
      pure (s, dup)

/-- As `eraseNode`, src/ordered_multimap.c:966-1007. -/
def eraseNodeN (s : Omm α) (node : Nat) : Count (Omm α × Slot) := do
  let l ← getBr s node false
  let r ← getBr s node true
  if r = none ∨ l = none then pure (s, none)
  else if isEmpty s then pure (s, none)
  else do
    let s := { s with sz := s.sz - 1 }
    let p ← getPar s node
    if p = none then do
      let p ← branch s node false
      let n ← branch s node true
      let np ← getBr s n false
      let pn ← getBr s p true
      if np = some node ∧ pn = some node then do                        -- 984-986 assert
        let s ← setBr s p true (some n)
        let s ← setBr s n false (some p)
        pure (s, some node)
      else (none : Option _)
    else do
      let k := key (s.val node)
      let (s, ret) ← splayN s (cmpAt cmp key s k) s.root
      let q ← cnt (cmpAt cmp key s k) ret
      if q ≠ .eql then pure (s, none)
      else do
        let d ← hasDups s ret
        let (s, ret) ← (if d then popDupNodeN cmp key s node ret else removeFromTreeN cmp key s ret)
        let s ← clearNode s ret
        pure (s, some ret)

/-- As `insert`, src/ordered_multimap.c:205-227. -/
def insertN (s : Omm α) (h : Nat) (ans : Slot) : Count (Omm α × Ent) :=
  if s.alloc then
    match ans with
    | none => pure (s, ⟨none, Stat.insertError⟩)
    | some n => insertNodeN cmp key (allocCopy s n h) n
  else insertNodeN cmp key s h

/-- As `tryInsert`, src/ordered_multimap.c:229-244. -/
def tryInsertN (s : Omm α) (h : Nat) : Count (Omm α × Ent) := do
  let (s, f) ← findN cmp key s (key (s.val h))
  if f.isSome then pure (s, ⟨f, Stat.occupied⟩) else insertNodeN cmp key s h

/-- As `insertOrAssign`, src/ordered_multimap.c:246-265. -/
def insertOrAssignN (s : Omm α) (h : Nat) : Count (Omm α × Ent) := do
  let (s, f) ← findN cmp key s (key (s.val h))
  match f with
  | some a =>
    let s := { s with br := fun b e => if b = h then s.br a e else s.br b e, par := upd s.par h (s.par a) }
    if s.root = 0 then (none : Option _)                                             -- 259 assert
    else
      pure ({ s with br := fun b e => if b = a then s.br h e else s.br b e, par := upd s.par a (s.par h),
                     val := upd s.val a (s.val h) }, ⟨some a, Stat.occupied⟩)
  | none => insertNodeN cmp key s h

/-- As `remove`, src/ordered_multimap.c:267-289. -/
def removeN (s : Omm α) (h : Nat) : Count (Omm α × Ent) := do
  let (s, n) ← eraseN cmp key s (key (s.val h))
  match n with
  | none => pure (s, ⟨none, Stat.vacant⟩)
  | some n =>
    if s.alloc then do
      let s := { s with val := upd s.val h (s.val n), br := fun b e => if b = h then s.br n e else s.br b e,
                        par := upd s.par h (s.par n) }
      let s ← free s n
      pure (s, ⟨some h, Stat.occupied⟩)
    else pure (s, ⟨some n, Stat.occupied⟩)

/-- As `entry`, src/ordered_multimap.c:629-640. -/
def entryN (s : Omm α) (k : κ) : Count (Omm α × Ent) := do
  let (s, f) ← findN cmp key s k
  if f.isSome then pure (s, ⟨f, Stat.occupied⟩) else pure (s, ⟨none, Stat.vacant⟩)

/-- As `insertEntry`, src/ordered_multimap.c:151-160. -/
def insertEntryN (s : Omm α) (h : Nat) : Count (Omm α × Slot) := do
  let (s, e) ← insertNodeN cmp key s h
  pure (s, e.e)

/-- As `orInsert`, src/ordered_multimap.c:162-174. -/
def orInsertN (s : Omm α) (e : Ent) (h : Nat) : Count (Omm α × Slot) :=
  if Stat.has e.stats Stat.occupied then pure (s, e.e) else insertEntryN cmp key s h

/-- As `removeEntry`, src/ordered_multimap.c:291-311. -/
def removeEntryN (s : Omm α) (e : Ent) : Count (Omm α × Ent) :=
  if e.stats = Stat.occupied then do
    let a ← e.e
    let (s, p) ← eraseN cmp key s (key (s.val a))
    let n ← p
    if s.alloc then do
      let s ← free s n
      pure (s, ⟨none, Stat.occupied⟩)
    else pure (s, ⟨some n, Stat.occupied⟩)
  else pure (s, ⟨none, Stat.vacant⟩)

/-- As `insertKeyVal`, ccc/impl/impl_ordered_multimap.h:56-67. -/
def insertKeyValN (s : Omm α) (x : α) (ans : Slot) : Count (Omm α × Slot) :=
  match newMem s x ans with
  | (s, none) => pure (s, none)
  | (s, some n) => insertEntryN cmp key s n

/-- As `orInsertW`, ccc/impl/impl_ordered_multimap.h:114-134. -/
def orInsertWN (s : Omm α) (e : Ent) (x : α) (ans : Slot) : Count (Omm α × Slot) :=
  if e.stats = Stat.occupied then pure (s, e.e) else insertKeyValN cmp key s x ans

/-- As `insertEntryW`, ccc/impl/impl_ordered_multimap.h:136-148. -/
def insertEntryWN (s : Omm α) (x : α) (ans : Slot) : Count (Omm α × Slot) := insertKeyValN cmp key s x ans

/-- As `insertAndCopyKey`, ccc/impl/impl_ordered_multimap.h:69-89. -/
def insertAndCopyKeyN (s : Omm α) (x : α) (ans : Slot) : Count (Omm α × Ent) := do
  let (s, n) ← insertKeyValN cmp key s x ans
  pure (s, ⟨n, Stat.insertError⟩)

/-- As `tryInsertW`, ccc/impl/impl_ordered_multimap.h:150-173. -/
def tryInsertWN (s : Omm α) (k : κ) (x : α) (ans : Slot) : Count (Omm α × Ent) := do
  let (s, e) ← entryN cmp key s k
  if !Stat.has e.stats Stat.occupied then insertAndCopyKeyN cmp key s x ans
  else if e.stats = Stat.occupied then pure (s, e)
  else pure (s, ⟨none, Stat.inputError⟩)

/-- As `insertOrAssignW`, ccc/impl/impl_ordered_multimap.h:175-211. -/
def insertOrAssignWN (s : Omm α) (k : κ) (x : α) (ans : Slot) : Count (Omm α × Ent) := do
  let (s, e) ← entryN cmp key s k
  if !Stat.has e.stats Stat.occupied then insertAndCopyKeyN cmp key s x ans
  else if e.stats = Stat.occupied then do
    let a ← e.e
    pure ({ s with val := upd s.val a x }, e)
  else pure (s, ⟨none, Stat.inputError⟩)

/-- As `maxMin`, src/ordered_multimap.c:313-343. -/
def maxMinN (s : Omm α) (q : Cmp) : Count (Omm α × Slot) := do
  let (s, n) ← splayN s (force q) s.root
  pure (s, some n)

/-- As `update`, src/ordered_multimap.c:438-472. -/
def updateN (s : Omm α) (a : Nat) (f : α → α) : Count (Omm α × Bool) := do
  let l ← getBr s a false
  let r ← getBr s a true
  if l = none ∨ r = none then pure (s, false)
  else do
    let (s, e) ← eraseNodeN cmp key s a
    match e with
    | none => pure (s, false)
    | some e => do
      let s := { s with val := upd s.val e (f (s.val e)) }
      let (s, _) ← insertNodeN cmp key s a
      pure (s, true)

/-- As `popMax`, src/ordered_multimap.c:484-501. -/
def popMaxN (s : Omm α) : Count (Omm α × Res) := do
  let (s, n) ← eraseMaxOrMinN cmp key s .grt
  match n with
  | none => pure (s, .inputErr)
  | some n =>
    if s.alloc then do
      let s ← free s n
      pure (s, .ok)
    else pure (s, .ok)

/-- As `popMin`, src/ordered_multimap.c:503-520. -/
def popMinN (s : Omm α) : Count (Omm α × Res) := do
  let (s, n) ← eraseMaxOrMinN cmp key s .les
  match n with
  | none => pure (s, .inputErr)
  | some n =>
    if s.alloc then
      if s.off = 0 then do
        let s ← free s n
        pure (s, .ok)
      else (none : Option _)
    else pure (s, .ok)

/-- As `equalRange`, src/ordered_multimap.c:796-824. -/
def equalRangeN (s : Omm α) (b e : κ) (trav : Bool) : Count (Omm α × Slot × Slot) :=
  if s.sz = 0 then pure (s, none, none)
  else do
    let (s, x) ← splayN s (cmpAt cmp key s b) s.root
    let q ← cnt (cmpAt cmp key s b) x
    let x ← (if q = (if trav then Cmp.grt else Cmp.les) then nextTree s x trav else some x : Option Nat)
    let (s, y) ← splayN s (cmpAt cmp key s e) s.root
    let q ← cnt (cmpAt cmp key s e) y
    let y ← (if q ≠ (if trav then Cmp.les else Cmp.grt) then nextTree s y trav else some y : Option Nat)
    pure (s, toUser x, toUser y)

/-- As `clearLoop`, src/ordered_multimap.c:576-588. -/
def clearLoopN (s : Omm α) (acc : List (Nat × α)) : Count (Omm α × List (Nat × α)) :=
  if isEmpty s then pure (s, acc)
  else do
    let (s, p) ← eraseMaxOrMinN cmp key s .les
    let r ← p
    let x := s.val r
    let s ← (if s.alloc then free s r else some s : Option (Omm α))
    clearLoopN s (acc ++ [(r, x)])
partial_fixpoint

/-- As `clear`, src/ordered_multimap.c:568-590. -/
def clearN (s : Omm α) : Count (Omm α × List (Nat × α) × Res) := do
  let (s, d) ← clearLoopN cmp key s []
  pure (s, d, .ok)

/-- As `step`. -/
def stepN (s : Omm α) : MultiSpec.Op α κ → Count (Omm α × Out α)
  | .insert h x ans => do
    let (s, e) ← insertN cmp key (put s h x) h ans
    pure (s, .ent e.stats (view s (unwrap e)))
  | .tryInsert h x _ => do
    let (s, e) ← tryInsertN cmp key (put s h x) h
    pure (s, .ent e.stats (view s (unwrap e)))
  | .insertOrAssign h x _ => do
    let (s, e) ← insertOrAssignN cmp key (put s h x) h
    pure (s, .ent e.stats (view s (unwrap e)))
  | .remove h x => do
    let (s, e) ← removeN cmp key (put s h x) h
    pure (s, .ent e.stats (view s (unwrap e)))
  | .orInsert k h x _ => do
    let (s, e) ← entryN cmp key (put s h x) k
    let (s, p) ← orInsertN cmp key s e h
    pure (s, .ptr (view s p))
  | .insertEntry k h x _ => do
    let (s, _) ← entryN cmp key (put s h x) k
    let (s, p) ← insertEntryN cmp key s h
    pure (s, .ptr (view s p))
  | .removeEntry k => do
    let (s, e) ← entryN cmp key s k
    let (s, e) ← removeEntryN cmp key s e
    pure (s, .ent e.stats (view s (unwrap e)))
  | .andModify k f => do
    let (s, e) ← entryN cmp key s k
    let s ← andModify s e f
    pure (s, .ptr (view s (unwrap e)))
  | .occupied k => do
    let (s, e) ← entryN cmp key s k
    pure (s, .flag (occupied e))
  | .orInsertW k x ans => do
    let (s, e) ← entryN cmp key s k
    let (s, p) ← orInsertWN cmp key s e x ans
    pure (s, .ptr (view s p))
  | .insertEntryW k x ans => do
    let (s, _) ← entryN cmp key s k
    let (s, p) ← insertEntryWN cmp key s x ans
    pure (s, .ptr (view s p))
  | .tryInsertW k x ans => do
    let (s, e) ← tryInsertWN cmp key s k x ans
    pure (s, .ptr (view s (unwrap e)))
  | .insertOrAssignW k x ans => do
    let (s, e) ← insertOrAssignWN cmp key s k x ans
    pure (s, .ptr (view s (unwrap e)))
  | .contains k => do
    let (s, b) ← containsN cmp key s k
    pure (s, .flag b)
  | .get k => do
    let (s, p) ← findN cmp key s k
    pure (s, .ptr (view s p))
  | .max => do
    let (s, p) ← maxMinN s .grt
    pure (s, .ptr (view s p))
  | .min => do
    let (s, p) ← maxMinN s .les
    pure (s, .ptr (view s p))
  | .popMax => do
    let (s, r) ← popMaxN cmp key s
    pure (s, .result r)
  | .popMin => do
    let (s, r) ← popMinN cmp key s
    pure (s, .result r)
  | .extract a => do
    let (s, p) ← eraseNodeN cmp key s a
    pure (s, .ptr (view s p))
  | .update a f => do
    let (s, b) ← updateN cmp key s a f
    pure (s, .flag b)
  | .begin => do
    let p ← begin_ s
    pure (s, .ptr (view s p))
  | .rbegin => do
    let p ← rbegin s
    pure (s, .ptr (view s p))
  | .next a => do
    let p ← next s a false
    pure (s, .ptr (view s p))
  | .rnext a => do
    let p ← next s a true
    pure (s, .ptr (view s p))
  | .equalRange b e => do
    let (s, x, y) ← equalRangeN cmp key s b e false
    pure (s, .range (view s x) (view s y))
  | .equalRrange b e => do
    let (s, x, y) ← equalRangeN cmp key s b e true
    pure (s, .range (view s x) (view s y))
  | .size => pure (s, .num (size s))
  | .isEmpty => pure (s, .flag (isEmpty s))
  | .validate => do
    let b ← validate cmp key s
    pure (s, .flag b)
  | .clear => do
    let (s, _, r) ← clearN cmp key s
    pure (s, .result r)
  | .drop a => pure ({ s with live := upd s.live a false, own := upd s.own a false }, .flag true)

/-- As `run`. -/
def runN (s : Omm α) : List (MultiSpec.Op α κ) → Count (Omm α × List (Out α))
  | [] => pure (s, [])
  | o :: os => do
    let (s, r) ← stepN cmp key s o
    let (s, rs) ← runN s os
    pure (s, r :: rs)

end CCC.Omm
