import Verif.Model.FlatOrderedMap
import Verif.Model.SplayCost
/-
The functions of `Verif/Model/FlatOrderedMap.lean` that call the user's comparison function, with the calls counted.  They
are the same functions, statement for statement.  `validate`, a function for tests that visits the whole tree, is not
counted.
-/
namespace CCC.Fom
open CCC Splay
open CCC.Frm (Frm Junk inUse setSize growTo bufAllocBack setVal copyLinks copySlot sizeSet destroyLoop asRom view)

variable {α κ : Type} (cmp : κ → κ → Cmp) (key : α → κ)

/-- As `splayTo`. -/
def splayToN (s : Fom α) (k : κ) : Count (Fom α × Cmp) := do
  let (t, r) ← splayN s.t (cmpAt cmp key s k) s.t.root
  let s := { s with t := t.setRoot r }
  let q ← cnt (cmpAt cmp key s k) s.t.root
  pure (s, q)

/-- As `find`, src/flat_ordered_map.c:749-760. -/
def findN (s : Fom α) (k : κ) : Count (Fom α × Slot) :=
  if s.t.root = 0 then pure (s, none)
  else do
    let (s, q) ← splayToN cmp key s k
    pure (s, if q = .eql then some s.t.root else none)

/-- As `contains`, src/flat_ordered_map.c:99-108. -/
def containsN (s : Fom α) (k : κ) : Count (Fom α × Bool) := do
  let (s, q) ← splayToN cmp key s k
  pure (s, q == .eql)

/-- As `get`, src/flat_ordered_map.c:110-118. -/
def getN (s : Fom α) (k : κ) : Count (Fom α × Slot) := findN cmp key s k

/-- As `insertNode`, src/flat_ordered_map.c:649-667. -/
def insertNodeN (s : Fom α) (n : Nat) : Count (Fom α × Slot) := do
  let t ← initNode s.t n
  let s := { s with t := t }
  if s.sz = 2 then pure ({ s with t := s.t.setRoot n }, some n)
  else do
    let (s, rc) ← splayToN cmp key s (key (s.val n))
    if rc = .eql then pure (s, none)
    else do
      let t ← connectNewRoot s.t n rc
      pure ({ s with t := t }, some n)

/-- As `maybeAllocInsert`, src/flat_ordered_map.c:634-647. -/
def maybeAllocInsertN (s : Fom α) (x : α) (ans : Option (Junk α)) : Count (Fom α × Slot) :=
  match allocBack s ans with
  | (s, none) => pure (s, none)
  | (s, some _) => do
    let node := s.sz - 1
    let s ← setVal s node x
    insertNodeN cmp key s node

/-- As `erase`, src/flat_ordered_map.c:669-685. -/
def eraseN (s : Fom α) (k : κ) : Count (Fom α × Slot) :=
  if isEmpty s then pure (s, none)
  else do
    let (t, ret) ← splayN s.t (cmpAt cmp key s k) s.t.root
    let s := { s with t := t }
    let q ← cnt (cmpAt cmp key s k) ret
    if q ≠ .eql then pure (s, none)
    else do
      let t ← removeFromTreeN s.t (cmpAt cmp key s (key (s.val ret))) ret
      let s ← swapAndPop { s with t := t } ret
      pure (s, some s.sz)

/-- As `insert`, src/flat_ordered_map.c:197-222. -/
def insertN (s : Fom α) (x : α) (ans : Option (Junk α)) : Count (Fom α × Ent × α) := do
  let (s, f) ← findN cmp key s (key x)
  if f.isSome then do
    let r := s.t.root
    req (r != 0)
    let t ← copyLinks s.t 0 r
    let s := { s with t := t }
    let s ← setVal s 0 x
    let old := s.val r
    let s ← setVal s r (s.val 0)
    pure (s, ⟨some r, Stat.occupied⟩, old)
  else do
    let (s, i) ← maybeAllocInsertN cmp key s x ans
    match i with
    | none => pure (s, ⟨none, Stat.insertError⟩, x)
    | some _ => pure (s, ⟨none, Stat.vacant⟩, x)

/-- As `tryInsert`, src/flat_ordered_map.c:224-244. -/
def tryInsertN (s : Fom α) (x : α) (ans : Option (Junk α)) : Count (Fom α × Ent) := do
  let (s, f) ← findN cmp key s (key x)
  match f with
  | some a => do
    req (s.t.root != 0)
    pure (s, ⟨some a, Stat.occupied⟩)
  | none => do
    let (s, i) ← maybeAllocInsertN cmp key s x ans
    match i with
    | none => pure (s, ⟨none, Stat.insertError⟩)
    | some n => pure (s, ⟨some n, Stat.vacant⟩)

/-- As `insertOrAssign`, src/flat_ordered_map.c:246-269. -/
def insertOrAssignN (s : Fom α) (x : α) (ans : Option (Junk α)) : Count (Fom α × Ent) := do
  let (s, f) ← findN cmp key s (key x)
  match f with
  | some a => do
    req (s.t.root != 0)
    let s ← setVal s a x
    pure (s, ⟨some a, Stat.occupied⟩)
  | none => do
    let (s, i) ← maybeAllocInsertN cmp key s x ans
    match i with
    | none => pure (s, ⟨none, Stat.insertError⟩)
    | some n => pure (s, ⟨some n, Stat.vacant⟩)

/-- As `remove`, src/flat_ordered_map.c:271-285. -/
def removeN (s : Fom α) (x : α) : Count (Fom α × Ent) := do
  let (s, n) ← eraseN cmp key s (key x)
  match n with
  | none => pure (s, ⟨none, Stat.vacant⟩)
  | some n => pure (s, ⟨some n, Stat.occupied⟩)

/-- As `entry`, src/flat_ordered_map.c:615-632. -/
def entryN (s : Fom α) (k : κ) : Count (Fom α × FEnt) := do
  let (s, f) ← findN cmp key s k
  match f with
  | some a => pure (s, ⟨a, Stat.occupied⟩)
  | none => pure (s, ⟨0, Stat.vacant⟩)

/-- As `insertEntry`, src/flat_ordered_map.c:130-146. -/
def insertEntryN (s : Fom α) (e : FEnt) (x : α) (ans : Option (Junk α)) : Count (Fom α × Slot) :=
  if e.stats = Stat.occupied then do
    let s ← setVal s e.i x
    pure (s, some e.i)
  else maybeAllocInsertN cmp key s x ans

/-- As `orInsert`, src/flat_ordered_map.c:183-195. -/
def orInsertN (s : Fom α) (e : FEnt) (x : α) (ans : Option (Junk α)) : Count (Fom α × Slot) :=
  if Stat.has e.stats Stat.occupied then pure (s, some e.i) else maybeAllocInsertN cmp key s x ans

/-- As `removeEntry`, src/flat_ordered_map.c:287-302. -/
def removeEntryN (s : Fom α) (e : FEnt) : Count (Fom α × Ent) :=
  if e.stats = Stat.occupied then do
    let (s, p) ← eraseN cmp key s (key (s.val e.i))
    let n ← p
    pure (s, ⟨some n, Stat.occupied⟩)
  else pure (s, ⟨none, Stat.vacant⟩)

/-- As `orInsertW`, ccc/impl/impl_flat_ordered_map.h:91-119. -/
def orInsertWN (s : Fom α) (e : FEnt) (x : α) (ans : Option (Junk α)) : Count (Fom α × Slot) :=
  if e.stats = Stat.occupied then pure (s, if e.i ≥ s.cap then none else some e.i)
  else
    match allocBack s ans with
    | (s, none) => pure (s, none)
    | (s, some a) => do
      let s ← setVal s a x
      let (s, _) ← insertNodeN cmp key s (s.sz - 1)
      pure (s, some a)

/-- As `insertEntryW`, ccc/impl/impl_flat_ordered_map.h:121-155. -/
def insertEntryWN (s : Fom α) (e : FEnt) (x : α) (ans : Option (Junk α)) : Count (Fom α × Slot) :=
  if !Stat.has e.stats Stat.occupied then
    match allocBack s ans with
    | (s, none) => pure (s, none)
    | (s, some a) => do
      let s ← setVal s a x
      let (s, _) ← insertNodeN cmp key s (s.sz - 1)
      pure (s, some a)
  else if e.stats = Stat.occupied then do
    let s ← setVal s e.i x
    pure (s, some e.i)
  else pure (s, none)

/-- As `insertVacantW`, ccc/impl/impl_flat_ordered_map.h:167-185, 209-229. -/
def insertVacantWN (s : Fom α) (x : α) (ans : Option (Junk α)) : Count (Fom α × Ent) :=
  match allocBack s ans with
  | (s, none) => pure (s, ⟨none, Stat.insertError⟩)
  | (s, some a) => do
    let s ← setVal s a x
    let (s, _) ← insertNodeN cmp key s a
    pure (s, ⟨some a, Stat.vacant⟩)

/-- As `tryInsertW`, ccc/impl/impl_flat_ordered_map.h:157-195. -/
def tryInsertWN (s : Fom α) (k : κ) (x : α) (ans : Option (Junk α)) : Count (Fom α × Ent) := do
  let (s, e) ← entryN cmp key s k
  if !Stat.has e.stats Stat.occupied then insertVacantWN cmp key s x ans
  else if e.stats = Stat.occupied then pure (s, ⟨if e.i ≥ s.cap then none else some e.i, e.stats⟩)
  else pure (s, ⟨none, Stat.inputError⟩)

/-- As `insertOrAssignW`, ccc/impl/impl_flat_ordered_map.h:197-251. -/
def insertOrAssignWN (s : Fom α) (k : κ) (x : α) (ans : Option (Junk α)) : Count (Fom α × Ent) := do
  let (s, e) ← entryN cmp key s k
  if !Stat.has e.stats Stat.occupied then insertVacantWN cmp key s x ans
  else if e.stats = Stat.occupied then do
    let s ← setVal s e.i x
    pure (s, ⟨some e.i, e.stats⟩)
  else pure (s, ⟨none, Stat.inputError⟩)

/-- As `equalRange`, src/flat_ordered_map.c:585-613. -/
def equalRangeN (s : Fom α) (b e : κ) (trav : Bool) : Count (Fom α × Slot × Slot) :=
  if isEmpty s then pure (s, none, none)
  else do
    let (t, x, y) ← Splay.equalRangeN s.t (cmpAt cmp key s b) (cmpAt cmp key s e) trav
    pure ({ s with t := t }, some x, some y)

open FlatMap

/-- As `step`. -/
def stepN (s : Fom α) : Op α κ (Junk α) → Count (Fom α × Out α)
  | .insert x ans => do
    let (s, e, h) ← insertN cmp key s x ans
    pure (s, .insEnt e.stats (view s (Ent.unwrap (some e))) h)
  | .tryInsert x ans => do
    let (s, e) ← tryInsertN cmp key s x ans
    pure (s, .ent e.stats (view s (Ent.unwrap (some e))))
  | .insertOrAssign x ans => do
    let (s, e) ← insertOrAssignN cmp key s x ans
    pure (s, .ent e.stats (view s (Ent.unwrap (some e))))
  | .remove x => do
    let (s, e) ← removeN cmp key s x
    pure (s, .ent e.stats (view s (Ent.unwrap (some e))))
  | .orInsert k x ans => do
    let (s, e) ← entryN cmp key s k
    let (s, p) ← orInsertN cmp key s e x ans
    pure (s, .ptr (view s p))
  | .insertEntry k x ans => do
    let (s, e) ← entryN cmp key s k
    let (s, p) ← insertEntryN cmp key s e x ans
    pure (s, .ptr (view s p))
  | .removeEntry k => do
    let (s, e) ← entryN cmp key s k
    let (s, e) ← removeEntryN cmp key s e
    pure (s, .ent e.stats (view s (Ent.unwrap (some e))))
  | .andModify k f => do
    let (s, e) ← entryN cmp key s k
    let s ← andModify s e f
    pure (s, .ptr (view s (unwrap s e)))
  | .occupied k => do
    let (s, e) ← entryN cmp key s k
    pure (s, .flag (occupied e))
  | .orInsertW k x ans => do
    let (s, e) ← entryN cmp key s k
    let (s, p) ← orInsertWN cmp key s e x ans
    pure (s, .ptr (view s p))
  | .insertEntryW k x ans => do
    let (s, e) ← entryN cmp key s k
    let (s, p) ← insertEntryWN cmp key s e x ans
    pure (s, .ptr (view s p))
  | .tryInsertW k x ans => do
    let (s, e) ← tryInsertWN cmp key s k x ans
    pure (s, .ent e.stats (view s (Ent.unwrap (some e))))
  | .insertOrAssignW k x ans => do
    let (s, e) ← insertOrAssignWN cmp key s k x ans
    pure (s, .ent e.stats (view s (Ent.unwrap (some e))))
  | .contains k => do
    let (s, b) ← containsN cmp key s k
    pure (s, .flag b)
  | .get k => do
    let (s, p) ← getN cmp key s k
    pure (s, .ptr (view s p))
  | .begin => do
    let p ← begin_ s false
    pure (s, .ptr (view s p))
  | .rbegin => do
    let p ← begin_ s true
    pure (s, .ptr (view s p))
  | .next a => do
    let p ← next s a true
    pure (s, .ptr (view s p))
  | .rnext a => do
    let p ← next s a false
    pure (s, .ptr (view s p))
  | .end_ => pure (s, .ptr (view s (end_ s)))
  | .equalRange b e => do
    let (s, x, y) ← equalRangeN cmp key s b e true
    pure (s, .range (view s x) (view s y))
  | .equalRrange b e => do
    let (s, x, y) ← equalRangeN cmp key s b e false
    pure (s, .range (view s x) (view s y))
  | .size => pure (s, .num (size s))
  | .isEmpty => pure (s, .flag (isEmpty s))
  | .capacity => pure (s, .num (capacity s))
  | .validate => do
    let b ← validate cmp key s
    pure (s, .flag b)
  | .clear => do
    let (s, _, r) ← clear s false
    pure (s, .result r)

/-- As `run`. -/
def runN (s : Fom α) : List (Op α κ (Junk α)) → Count (Fom α × List (Out α))
  | [] => pure (s, [])
  | o :: os => do
    let (s, r) ← stepN cmp key s o
    let (s, rs) ← runN s os
    pure (s, r :: rs)

end CCC.Fom
