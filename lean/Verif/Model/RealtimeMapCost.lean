import Verif.Model.RealtimeMap
import Verif.Model.WavlCost
/-
The functions of `Verif/Model/RealtimeMap.lean` that access elements, with the accesses counted.  They are the same functions,
statement for statement.  The copies of user data, a constant number for each call, are not counted, nor is `validate`, a
function for tests that visits the whole tree.
-/
namespace CCC.Rom
open CCC Wavl PtrMap

variable {α κ : Type} (cmp : κ → κ → Cmp) (key : α → κ)

/-- As `find`, src/realtime_ordered_map.c:656-674. -/
def findN (s : Rom α) (k : κ) : Count Query := Wavl.findN s.t (at_ cmp key s k)

/-- As `contains`, src/realtime_ordered_map.c:155-164. -/
def containsN (s : Rom α) (k : κ) : Count Bool := do
  let q ← findN cmp key s k
  pure (q.1 == .eql)

/-- As `get`, src/realtime_ordered_map.c:166-176. -/
def getN (s : Rom α) (k : κ) : Count Slot := do
  let q ← findN cmp key s k
  pure (if q.1 == .eql then some q.2 else none)

/-- As `insertNode`, src/realtime_ordered_map.c:612-635. -/
def insertNodeN (s : Rom α) (parent : Nat) (last : Cmp) (e : Nat) : Count (Rom α) := do
  let t := { s.t with live := upd s.t.live e true }
  let t ← initNodeN t e
  if s.sz = 0 then pure { s with t := t.setRoot e, sz := s.sz + 1 }
  else do
    let t ← insertBelowN t parent last e
    pure { s with t := t, sz := s.sz + 1 }

/-- As `maybeAllocInsert`, src/realtime_ordered_map.c:637-654. -/
def maybeAllocInsertN (s : Rom α) (parent : Nat) (last : Cmp) (h : Nat) (ans : Option Nat) :
    Count (Rom α × Slot) :=
  if s.alloc then
    match ans with
    | none => pure (s, none)
    | some n => do
      let s ← insertNodeN { s with val := upd s.val n (s.val h) } parent last n
      pure (s, some n)
  else do
    let s ← insertNodeN s parent last h
    pure (s, some h)

/-- As `removeFixup`, src/realtime_ordered_map.c:823-887. -/
def removeFixupN (s : Rom α) (rm : Nat) : Count (Rom α) := do
  let t ← removeLinksN s.t rm
  pure { s with t := { t with live := upd t.live rm false }, sz := s.sz - 1 }

/-- As `insert`, src/realtime_ordered_map.c:178-206. -/
def insertN (s : Rom α) (h tmp : Nat) (ans : Option Nat) : Count (Rom α × Ent) := do
  let q ← findN cmp key s (key (s.val h))
  if q.1 = .eql then
    let v := upd s.val tmp (s.val q.2)
    let v := upd v q.2 (v h)
    let v := upd v h (v tmp)
    pure ({ s with val := v }, ⟨some tmp, Stat.occupied⟩)
  else do
    let (s, i) ← maybeAllocInsertN s q.2 q.1 h ans
    match i with
    | none => pure (s, ⟨none, Stat.insertError⟩)
    | some _ => pure (s, ⟨none, Stat.vacant⟩)

/-- As `tryInsert`, src/realtime_ordered_map.c:208-229. -/
def tryInsertN (s : Rom α) (h : Nat) (ans : Option Nat) : Count (Rom α × Ent) := do
  let q ← findN cmp key s (key (s.val h))
  if q.1 = .eql then pure (s, ⟨some q.2, Stat.occupied⟩)
  else do
    let (s, i) ← maybeAllocInsertN s q.2 q.1 h ans
    match i with
    | none => pure (s, ⟨none, Stat.insertError⟩)
    | some n => pure (s, ⟨some n, Stat.vacant⟩)

/-- As `insertOrAssign`, src/realtime_ordered_map.c:231-254. -/
def insertOrAssignN (s : Rom α) (h : Nat) (ans : Option Nat) : Count (Rom α × Ent) := do
  let q ← findN cmp key s (key (s.val h))
  if q.1 = .eql then pure ({ s with val := upd s.val q.2 (s.val h) }, ⟨some q.2, Stat.occupied⟩)
  else do
    let (s, i) ← maybeAllocInsertN s q.2 q.1 h ans
    match i with
    | none => pure (s, ⟨none, Stat.insertError⟩)
    | some n => pure (s, ⟨some n, Stat.vacant⟩)

/-- As `remove`, src/realtime_ordered_map.c:323-345. -/
def removeN (s : Rom α) (h : Nat) : Count (Rom α × Ent) := do
  let q ← findN cmp key s (key (s.val h))
  if q.1 ≠ .eql then pure (s, ⟨none, Stat.vacant⟩)
  else do
    let s ← removeFixupN s q.2
    if s.alloc then pure ({ s with val := upd s.val h (s.val q.2) }, ⟨some h, Stat.occupied⟩)
    else pure (s, ⟨some q.2, Stat.occupied⟩)

/-- As `entry`, src/realtime_ordered_map.c:587-610. -/
def entryN (s : Rom α) (k : κ) : Count REnt := do
  let q ← findN cmp key s k
  if q.1 = .eql then pure ⟨q.1, q.2, Stat.occupied⟩
  else pure ⟨q.1, q.2, Stat.vacant ||| Stat.noUnwrap⟩

/-- As `orInsert`, src/realtime_ordered_map.c:266-280. -/
def orInsertN (s : Rom α) (e : REnt) (h : Nat) (ans : Option Nat) : Count (Rom α × Slot) :=
  if e.stats = Stat.occupied then pure (s, some e.e) else maybeAllocInsertN s e.e e.last h ans

/-- As `insertEntry`, src/realtime_ordered_map.c:282-299. -/
def insertEntryN (s : Rom α) (e : REnt) (h : Nat) (ans : Option Nat) : Count (Rom α × Slot) :=
  if e.stats = Stat.occupied then pure ({ s with val := upd s.val e.e (s.val h) }, some e.e)
  else maybeAllocInsertN s e.e e.last h ans

/-- As `removeEntry`, src/realtime_ordered_map.c:301-321. -/
def removeEntryN (s : Rom α) (e : REnt) : Count (Rom α × Ent) :=
  if e.stats = Stat.occupied then do
    let s ← removeFixupN s e.e
    if s.alloc then pure (s, ⟨none, Stat.occupied⟩) else pure (s, ⟨some e.e, Stat.occupied⟩)
  else pure (s, ⟨none, Stat.vacant⟩)

/-- As `insertKeyVal`, ccc/impl/impl_realtime_ordered_map.h:94-109. -/
def insertKeyValN (s : Rom α) (e : REnt) (new : Option Nat) (x : α) : Count (Rom α × Slot) :=
  match new with
  | none => pure (s, none)
  | some n => do
    let s ← insertNodeN { s with val := upd s.val n x } e.e e.last n
    pure (s, some n)

/-- As `orInsertW`, ccc/impl/impl_realtime_ordered_map.h:159-180. -/
def orInsertWN (s : Rom α) (e : REnt) (x : α) (ans : Option Nat) : Count (Rom α × Slot) :=
  if e.stats = Stat.occupied then pure (s, some e.e) else insertKeyValN s e (newMem s ans) x

/-- As `insertEntryW`, ccc/impl/impl_realtime_ordered_map.h:182-210. -/
def insertEntryWN (s : Rom α) (e : REnt) (x : α) (ans : Option Nat) : Count (Rom α × Slot) :=
  if !Stat.has e.stats Stat.occupied then insertKeyValN s e (newMem s ans) x
  else if e.stats = Stat.occupied then pure ({ s with val := upd s.val e.e x }, some e.e)
  else pure (s, none)

/-- As `insertAndCopyKey`, ccc/impl/impl_realtime_ordered_map.h:111-134. -/
def insertAndCopyKeyN (s : Rom α) (e : REnt) (x : α) (ans : Option Nat) : Count (Rom α × Ent) :=
  let n := newMem s ans
  match n with
  | none => pure (s, ⟨none, Stat.insertError⟩)
  | some n => do
    let s ← insertNodeN { s with val := upd s.val n x } e.e e.last n
    pure (s, ⟨some n, Stat.insertError⟩)

/-- As `tryInsertW`, ccc/impl/impl_realtime_ordered_map.h:212-235. -/
def tryInsertWN (s : Rom α) (k : κ) (x : α) (ans : Option Nat) : Count (Rom α × Ent) := do
  let e ← entryN cmp key s k
  if !Stat.has e.stats Stat.occupied then insertAndCopyKeyN s e x ans
  else if e.stats = Stat.occupied then pure (s, ⟨some e.e, e.stats⟩)
  else pure (s, ⟨none, Stat.inputError⟩)

/-- As `insertOrAssignW`, ccc/impl/impl_realtime_ordered_map.h:237-282. -/
def insertOrAssignWN (s : Rom α) (k : κ) (x : α) (ans : Option Nat) : Count (Rom α × Ent) := do
  let e ← entryN cmp key s k
  if !Stat.has e.stats Stat.occupied then insertAndCopyKeyN s e x ans
  else if e.stats = Stat.occupied then pure ({ s with val := upd s.val e.e x }, ⟨some e.e, e.stats⟩)
  else pure (s, ⟨none, Stat.inputError⟩)

/-- As `begin_`, src/realtime_ordered_map.c:403-412. -/
def begin_N (s : Rom α) : Count Slot := do
  let m ← minMaxFromN s.t s.t.root false
  pure (toSlot m)

/-- As `rbegin`, src/realtime_ordered_map.c:430-439. -/
def rbeginN (s : Rom α) : Count Slot := do
  let m ← minMaxFromN s.t s.t.root true
  pure (toSlot m)

/-- As `next`, src/realtime_ordered_map.c:414-428. -/
def nextN (s : Rom α) (e : Nat) : Count Slot := do
  let n ← Wavl.nextN s.t e true
  pure (toSlot n)

/-- As `rnext`, src/realtime_ordered_map.c:453-464. -/
def rnextN (s : Rom α) (e : Nat) : Count Slot := do
  let n ← Wavl.nextN s.t e false
  pure (toSlot n)

/-- As `equalRange`, src/realtime_ordered_map.c:700-723. -/
def equalRangeN (s : Rom α) (b e : κ) (trav : Bool) : Count (Slot × Slot) :=
  if s.sz = 0 then pure (none, none)
  else do
    let r ← Wavl.equalRangeN s.t (at_ cmp key s b) (at_ cmp key s e) trav
    pure (toSlot r.1, toSlot r.2)

/-- As `clearLoop`, src/realtime_ordered_map.c:507-532. -/
def clearLoopN (s : Rom α) (acc : List (Nat × α)) : Count (Rom α × List (Nat × α)) :=
  if s.sz = 0 then pure (s, acc)
  else do
    let _ ← s.t.getBrN s.t.root false
    let _ ← s.t.getBrN s.t.root true
    let r := s.t.root
    let s' ← removeFixupN s r
    clearLoopN s' (acc ++ [(r, s'.val r)])
partial_fixpoint

/-- As `clear`, src/realtime_ordered_map.c:507-532. -/
def clearN (s : Rom α) : Count (Rom α × List (Nat × α) × Res) := do
  let (s, d) ← clearLoopN s []
  pure (s, d, .ok)

/-- As `step`. -/
def stepN (s : Rom α) : Op α κ → Count (Rom α × Out α)
  | .insert h x tmp y ans => do
    let (s, e) ← insertN cmp key (put (put s tmp y) h x) h tmp ans
    pure (s, .insEnt e.stats (view s (Ent.unwrap (some e))) (s.val tmp))
  | .tryInsert h x ans => do
    let (s, e) ← tryInsertN cmp key (put s h x) h ans
    pure (s, .ent e.stats (view s (Ent.unwrap (some e))))
  | .insertOrAssign h x ans => do
    let (s, e) ← insertOrAssignN cmp key (put s h x) h ans
    pure (s, .ent e.stats (view s (Ent.unwrap (some e))))
  | .remove h x => do
    let (s, e) ← removeN cmp key (put s h x) h
    pure (s, .ent e.stats (view s (Ent.unwrap (some e))))
  | .orInsert k h x ans => do
    let s := put s h x
    let e ← entryN cmp key s k
    let (s, p) ← orInsertN s e h ans
    pure (s, .ptr (view s p))
  | .insertEntry k h x ans => do
    let s := put s h x
    let e ← entryN cmp key s k
    let (s, p) ← insertEntryN s e h ans
    pure (s, .ptr (view s p))
  | .removeEntry k => do
    let e ← entryN cmp key s k
    let (s, e) ← removeEntryN s e
    pure (s, .ent e.stats (view s (Ent.unwrap (some e))))
  | .andModify k f => do
    let e ← entryN cmp key s k
    let s := andModify s e f
    pure (s, .ptr (view s (unwrap e)))
  | .occupied k => do
    let e ← entryN cmp key s k
    pure (s, .flag (occupied e))
  | .orInsertW k x ans => do
    let e ← entryN cmp key s k
    let (s, p) ← orInsertWN s e x ans
    pure (s, .ptr (view s p))
  | .insertEntryW k x ans => do
    let e ← entryN cmp key s k
    let (s, p) ← insertEntryWN s e x ans
    pure (s, .ptr (view s p))
  | .tryInsertW k x ans => do
    let (s, e) ← tryInsertWN cmp key s k x ans
    pure (s, .ptr (view s (Ent.unwrap (some e))))
  | .insertOrAssignW k x ans => do
    let (s, e) ← insertOrAssignWN cmp key s k x ans
    pure (s, .ptr (view s (Ent.unwrap (some e))))
  | .contains k => do
    let b ← containsN cmp key s k
    pure (s, .flag b)
  | .get k => do
    let p ← getN cmp key s k
    pure (s, .ptr (view s p))
  | .begin => do
    let p ← begin_N s
    pure (s, .ptr (view s p))
  | .rbegin => do
    let p ← rbeginN s
    pure (s, .ptr (view s p))
  | .next a => do
    let p ← nextN s a
    pure (s, .ptr (view s p))
  | .rnext a => do
    let p ← rnextN s a
    pure (s, .ptr (view s p))
  | .equalRange b e => do
    let r ← equalRangeN cmp key s b e true
    pure (s, .range (view s r.1) (view s r.2))
  | .equalRrange b e => do
    let r ← equalRangeN cmp key s b e false
    pure (s, .range (view s r.1) (view s r.2))
  | .size => pure (s, .num (size s))
  | .isEmpty => pure (s, .flag (isEmpty s))
  | .validate => do
    let b ← validate cmp key s
    pure (s, .flag b)
  | .clear => do
    let (s, _, r) ← clearN s
    pure (s, .result r)

/-- As `run`. -/
def runN (s : Rom α) : List (Op α κ) → Count (Rom α × List (Out α))
  | [] => pure (s, [])
  | o :: os => do
    let (s, r) ← stepN cmp key s o
    let (s, rs) ← runN s os
    pure (s, r :: rs)

end CCC.Rom
