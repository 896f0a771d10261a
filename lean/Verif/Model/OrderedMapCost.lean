import Verif.Model.OrderedMap
import Verif.Model.SplayCost
/-
The functions of `Verif/Model/OrderedMap.lean` that call the user's comparison function, with the calls counted.  They are
the same functions, statement for statement.  `validate`, a function for tests that visits the whole tree, is not counted.
-/
namespace CCC.Om
open CCC Splay Rom PtrMap

variable {α κ : Type} (cmp : κ → κ → Cmp) (key : α → κ)

/-- As `splayTo`. -/
def splayToN (s : Om α) (k : κ) : Count (Om α × Cmp) := do
  let (t, r) ← splayN s.t (cmpAt cmp key s k) s.t.root
  let s := { s with t := t.setRoot r }
  let q ← cnt (cmpAt cmp key s k) s.t.root
  pure (s, q)

/-- As `find`, src/ordered_map.c:609-619. -/
def findN (s : Om α) (k : κ) : Count (Om α × Slot) :=
  if s.t.root = 0 then pure (s, none)
  else do
    let (s, q) ← splayToN cmp key s k
    pure (s, if q = .eql then some s.t.root else none)

/-- As `contains`, src/ordered_map.c:621-626. -/
def containsN (s : Om α) (k : κ) : Count (Om α × Bool) := do
  let (s, q) ← splayToN cmp key s k
  pure (s, q == .eql)

/-- As `get`, src/ordered_map.c:301-309. -/
def getN (s : Om α) (k : κ) : Count (Om α × Slot) := findN cmp key s k

/-- As `allocInsert`, src/ordered_map.c:628-662. -/
def allocInsertN (s : Om α) (h : Nat) (ans : Option Nat) : Count (Om α × Slot) := do
  let (s, rc) ← (if !empty s then splayToN cmp key s (key (s.val h)) else pure (s, .err))
  if rc = .eql then pure (s, none)
  else
    match (if s.alloc then ans else some h) with
    | none => pure (s, none)
    | some n => do
      let v := if s.alloc then upd s.val n (s.val h) else s.val
      let t ← initNode { s.t with live := upd s.t.live n true } n
      if empty s then pure ({ s with t := t.setRoot n, sz := 1, val := v }, some n)
      else do
        req (rc != .err)
        let t ← connectNewRoot t n rc
        pure ({ s with t := t, sz := s.sz + 1, val := v }, some n)

/-- As `insertNode`, src/ordered_map.c:664-683. -/
def insertNodeN (s : Om α) (n : Nat) : Count (Om α × Slot) := do
  let t ← initNode { s.t with live := upd s.t.live n true } n
  let s := { s with t := t }
  if empty s then pure ({ s with t := t.setRoot n, sz := 1 }, some n)
  else do
    let (s, rc) ← splayToN cmp key s (key (s.val n))
    if rc = .eql then pure (s, none)
    else do
      let t ← connectNewRoot s.t n rc
      pure ({ s with t := t, sz := s.sz + 1 }, some n)

/-- As `erase`, src/ordered_map.c:699-716. -/
def eraseN (s : Om α) (k : κ) : Count (Om α × Slot) :=
  if empty s then pure (s, none)
  else do
    let (t, ret) ← splayN s.t (cmpAt cmp key s k) s.t.root
    let s := { s with t := t }
    let q ← cnt (cmpAt cmp key s k) ret
    if q ≠ .eql then pure (s, none)
    else do
      let t ← removeFromTreeN s.t (cmpAt cmp key s (key (s.val ret))) ret
      pure ({ s with t := { t with live := upd t.live ret false }, sz := s.sz - 1 }, some ret)

/-- As `insert`, src/ordered_map.c:173-204. -/
def insertN (s : Om α) (h tmp : Nat) (ans : Option Nat) : Count (Om α × Ent) := do
  let (s, f) ← findN cmp key s (key (s.val h))
  if f.isSome then do
    req (s.t.root != 0)
    let v := upd s.val tmp (s.val s.t.root)
    let v := upd v s.t.root (v h)
    let v := upd v h (v tmp)
    pure ({ s with val := v }, ⟨some tmp, Stat.occupied⟩)
  else do
    let (s, i) ← allocInsertN cmp key s h ans
    match i with
    | none => pure (s, ⟨none, Stat.insertError⟩)
    | some _ => pure (s, ⟨none, Stat.vacant⟩)

/-- As `tryInsert`, src/ordered_map.c:206-228. -/
def tryInsertN (s : Om α) (h : Nat) (ans : Option Nat) : Count (Om α × Ent) := do
  let (s, f) ← findN cmp key s (key (s.val h))
  if f.isSome then do
    req (s.t.root != 0)
    pure (s, ⟨some s.t.root, Stat.occupied⟩)
  else do
    let (s, i) ← allocInsertN cmp key s h ans
    match i with
    | none => pure (s, ⟨none, Stat.insertError⟩)
    | some n => pure (s, ⟨some n, Stat.vacant⟩)

/-- As `insertOrAssign`, src/ordered_map.c:230-254. -/
def insertOrAssignN (s : Om α) (h : Nat) (ans : Option Nat) : Count (Om α × Ent) := do
  let (s, f) ← findN cmp key s (key (s.val h))
  match f with
  | some a => do
    req (s.t.root != 0)
    pure ({ s with val := upd s.val a (s.val h) }, ⟨some a, Stat.occupied⟩)
  | none => do
    let (s, i) ← allocInsertN cmp key s h ans
    match i with
    | none => pure (s, ⟨none, Stat.insertError⟩)
    | some n => pure (s, ⟨some n, Stat.vacant⟩)

/-- As `remove`, src/ordered_map.c:256-277. -/
def removeN (s : Om α) (h : Nat) : Count (Om α × Ent) := do
  let (s, n) ← eraseN cmp key s (key (s.val h))
  match n with
  | none => pure (s, ⟨none, Stat.vacant⟩)
  | some n =>
    if s.alloc then pure ({ s with val := upd s.val h (s.val n) }, ⟨some h, Stat.occupied⟩)
    else pure (s, ⟨some n, Stat.occupied⟩)

/-- As `entry`, src/ordered_map.c:482-493. -/
def entryN (s : Om α) (k : κ) : Count (Om α × Ent) := do
  let (s, f) ← findN cmp key s k
  if f.isSome then pure (s, ⟨f, Stat.occupied⟩) else pure (s, ⟨f, Stat.vacant⟩)

/-- As `insertEntry`, src/ordered_map.c:117-132. -/
def insertEntryN (s : Om α) (e : Ent) (h : Nat) (ans : Option Nat) : Count (Om α × Slot) :=
  if e.stats = Stat.occupied then do
    let a ← e.e
    pure ({ s with val := upd s.val a (s.val h) }, some a)
  else allocInsertN cmp key s h ans

/-- As `orInsert`, src/ordered_map.c:134-146. -/
def orInsertN (s : Om α) (e : Ent) (h : Nat) (ans : Option Nat) : Count (Om α × Slot) :=
  if Stat.has e.stats Stat.occupied then pure (s, e.e) else allocInsertN cmp key s h ans

/-- As `removeEntry`, src/ordered_map.c:279-299. -/
def removeEntryN (s : Om α) (e : Ent) : Count (Om α × Ent) :=
  if e.stats = Stat.occupied then do
    let a ← e.e
    let (s, p) ← eraseN cmp key s (key (s.val a))
    let n ← p
    if s.alloc then pure (s, ⟨none, Stat.occupied⟩) else pure (s, ⟨some n, Stat.occupied⟩)
  else pure (s, ⟨none, Stat.vacant⟩)

/-- As `insertKeyVal`, ccc/impl/impl_ordered_map.h:58-68. -/
def insertKeyValN (s : Om α) (new : Option Nat) (x : α) : Count (Om α × Slot) :=
  match new with
  | none => pure (s, none)
  | some n => insertNodeN cmp key { s with val := upd s.val n x } n

/-- As `orInsertW`, ccc/impl/impl_ordered_map.h:115-135. -/
def orInsertWN (s : Om α) (e : Ent) (x : α) (ans : Option Nat) : Count (Om α × Slot) :=
  if e.stats = Stat.occupied then pure (s, e.e) else insertKeyValN cmp key s (newMem s ans) x

/-- As `insertEntryW`, ccc/impl/impl_ordered_map.h:137-163. -/
def insertEntryWN (s : Om α) (e : Ent) (x : α) (ans : Option Nat) : Count (Om α × Slot) :=
  if !Stat.has e.stats Stat.occupied then insertKeyValN cmp key s (newMem s ans) x
  else if e.stats = Stat.occupied then do
    let a ← e.e
    pure ({ s with val := upd s.val a x }, some a)
  else pure (s, none)

/-- As `insertAndCopyKey`, ccc/impl/impl_ordered_map.h:70-90. -/
def insertAndCopyKeyN (s : Om α) (x : α) (ans : Option Nat) : Count (Om α × Ent) :=
  match newMem s ans with
  | none => pure (s, ⟨none, Stat.insertError⟩)
  | some n => do
    let (s, _) ← insertNodeN cmp key { s with val := upd s.val n x } n
    pure (s, ⟨some n, Stat.insertError⟩)

/-- As `tryInsertW`, ccc/impl/impl_ordered_map.h:165-188. -/
def tryInsertWN (s : Om α) (k : κ) (x : α) (ans : Option Nat) : Count (Om α × Ent) := do
  let (s, e) ← entryN cmp key s k
  if !Stat.has e.stats Stat.occupied then insertAndCopyKeyN cmp key s x ans
  else if e.stats = Stat.occupied then pure (s, e)
  else pure (s, ⟨none, Stat.inputError⟩)

/-- As `insertOrAssignW`, ccc/impl/impl_ordered_map.h:190-226. -/
def insertOrAssignWN (s : Om α) (k : κ) (x : α) (ans : Option Nat) : Count (Om α × Ent) := do
  let (s, e) ← entryN cmp key s k
  if !Stat.has e.stats Stat.occupied then insertAndCopyKeyN cmp key s x ans
  else if e.stats = Stat.occupied then do
    let a ← e.e
    pure ({ s with val := upd s.val a x }, e)
  else pure (s, ⟨none, Stat.inputError⟩)

/-- As `equalRange`, src/ordered_map.c:579-607. -/
def equalRangeN (s : Om α) (b e : κ) (trav : Bool) : Count (Om α × Slot × Slot) :=
  if s.sz = 0 then pure (s, none, none)
  else do
    let (t, x, y) ← Splay.equalRangeN s.t (cmpAt cmp key s b) (cmpAt cmp key s e) trav
    pure ({ s with t := t }, toSlot x, toSlot y)

/-- As `clearLoop`, src/ordered_map.c:419-432. -/
def clearLoopN (s : Om α) (acc : List (Nat × α)) : Count (Om α × List (Nat × α)) :=
  if isEmpty s then pure (s, acc)
  else do
    let (s, p) ← eraseN cmp key s (key (s.val s.t.root))
    let r ← p
    clearLoopN s (acc ++ [(r, s.val r)])
partial_fixpoint

/-- As `clear`, src/ordered_map.c:412-434. -/
def clearN (s : Om α) : Count (Om α × List (Nat × α) × Res) := do
  let (s, d) ← clearLoopN cmp key s []
  pure (s, d, .ok)

/-- As `step`. -/
def stepN (s : Om α) : Op α κ → Count (Om α × Out α)
  | .insert h x tmp y ans => do
    let (s, e) ← insertN cmp key (put (put s tmp y) h x) h tmp ans
    pure (s, .insEnt e.stats (view s (Ent.unwrap (some e))) (s.val tmp))
  | .tryInsert h x ans => do
    let (s, e) ← tryInsertN cmp key (put s h x) h ans
    pure (s, .ent e.stats (view s (Ent.unwrap (some e))))
  | .insertOrAssign h x ans => do
    let (s, e) ← insertOrAssignN cmp key (put s h x) h ans
    pure (s, .ent e.stats (view s (Ent.unwrap (some e))))
  | .remove h x => do
    let (s, e) ← removeN cmp key (put s h x) h
    pure (s, .ent e.stats (view s (Ent.unwrap (some e))))
  | .orInsert k h x ans => do
    let (s, e) ← entryN cmp key (put s h x) k
    let (s, p) ← orInsertN cmp key s e h ans
    pure (s, .ptr (view s p))
  | .insertEntry k h x ans => do
    let (s, e) ← entryN cmp key (put s h x) k
    let (s, p) ← insertEntryN cmp key s e h ans
    pure (s, .ptr (view s p))
  | .removeEntry k => do
    let (s, e) ← entryN cmp key s k
    let (s, e) ← removeEntryN cmp key s e
    pure (s, .ent e.stats (view s (Ent.unwrap (some e))))
  | .andModify k f => do
    let (s, e) ← entryN cmp key s k
    let s ← andModify s e f
    pure (s, .ptr (view s (unwrap e)))
  | .occupied k => do
    let (s, e) ← entryN cmp key s k
    pure (s, .flag (occupied e))
  | .orInsertW k x ans => do
    let (s, e) ← entryN cmp key s k
    let (s, p) ← orInsertWN cmp key s e x ans
    pure (s, .ptr (view s p))
  | .insertEntryW k x ans => do
    let (s, e) ← entryN cmp key s k
    let (s, p) ← insertEntryWN cmp key s e x ans
    pure (s, .ptr (view s p))
  | .tryInsertW k x ans => do
    let (s, e) ← tryInsertWN cmp key s k x ans
    pure (s, .ptr (view s (Ent.unwrap (some e))))
  | .insertOrAssignW k x ans => do
    let (s, e) ← insertOrAssignWN cmp key s k x ans
    pure (s, .ptr (view s (Ent.unwrap (some e))))
  | .contains k => do
    let (s, b) ← containsN cmp key s k
    pure (s, .flag b)
  | .get k => do
    let (s, p) ← getN cmp key s k
    pure (s, .ptr (view s p))
  | .begin => do
    let p ← begin_ s
    pure (s, .ptr (view s p))
  | .rbegin => do
    let p ← rbegin s
    pure (s, .ptr (view s p))
  | .next a => do
    let p ← next s a
    pure (s, .ptr (view s p))
  | .rnext a => do
    let p ← rnext s a
    pure (s, .ptr (view s p))
  | .equalRange b e => do
    let (s, x, y) ← equalRangeN cmp key s b e true
    pure (s, .range (view s x) (view s y))
  | .equalRrange b e => do
    let (s, x, y) ← equalRangeN cmp key s b e false
    pure (s, .range (view s x) (view s y))
  | .size => pure (s, .num (size s))
  | .isEmpty => pure (s, .flag (isEmpty s))
  | .validate => do
    let b ← validate cmp key s
    pure (s, .flag b)
  | .clear => do
    let (s, _, r) ← clearN cmp key s
    pure (s, .result r)

/-- As `run`. -/
def runN (s : Om α) : List (Op α κ) → Count (Om α × List (Out α))
  | [] => pure (s, [])
  | o :: os => do
    let (s, r) ← stepN cmp key s o
    let (s, rs) ← runN s os
    pure (s, r :: rs)

end CCC.Om
