import Verif.Model.FlatRealtimeMap
import Verif.Model.WavlCost
/-
The functions of `Verif/Model/FlatRealtimeMap.lean` that access slots, with the accesses counted.  They are the same
functions, statement for statement.  Copying a slot and writing the user's data to a slot count as one access each, moving
the buffer to larger memory as one for each slot of the old memory.  `validate`, a function for tests that visits the
whole tree, is not counted.
-/
namespace CCC.Frm
open CCC Wavl FlatMap

variable {α κ : Type} (cmp : κ → κ → Cmp) (key : α → κ)

/-- `n` accesses. -/
def ticks (n : Nat) : Count Unit := work n (some ())

/-- As `bufAllocBack`, src/buffer.c:60-78; growing copies the old slots. -/
def bufAllocBackN (s : Frm α) (ans : Option (Junk α)) : Count (Frm α × Slot) :=
  if s.sz = s.cap then
    match (if s.hasAlloc then ans else none) with
    | none => pure (s, none)
    | some j => do
      ticks s.cap
      let s := growTo s (if s.cap ≠ 0 then s.cap * 2 else Buf.startCapacity) j
      pure (setSize s (s.sz + 1), some s.sz)
  else pure (setSize s (s.sz + 1), some s.sz)

/-- As `allocBack`, src/flat_realtime_ordered_map.c:791-806. -/
def allocBackN (s : Frm α) (ans : Option (Junk α)) : Count (Frm α × Slot) :=
  if s.sz = 0 then do
    let r ← bufAllocBackN s ans
    match r with
    | (s, none) => pure (s, none)
    | (s, some a) => do
      let t ← s.t.setParityN a true
      bufAllocBackN { s with t := t } ans
  else bufAllocBackN s ans

/-- As `setVal`. -/
def setValN (s : Frm α) (a : Nat) (x : α) : Count (Frm α) := acc (setVal s a x)
/-- As `copyLinks`. -/
def copyLinksN (t : Links) (dst src : Nat) : Count Links := acc (copyLinks t dst src)
/-- As `copySlot`. -/
def copySlotN (s : Frm α) (dst src : Nat) : Count (Frm α) := acc (copySlot s dst src)

/-- As `find`, src/flat_realtime_ordered_map.c:700-717. -/
def findN (s : Frm α) (k : κ) : Count Query := Wavl.findN s.t (at_ cmp key s k)

/-- As `contains`, src/flat_realtime_ordered_map.c:155-164. -/
def containsN (s : Frm α) (k : κ) : Count Bool := do
  let q ← findN cmp key s k
  pure (q.1 == .eql)

/-- As `get`, src/flat_realtime_ordered_map.c:166-176. -/
def getN (s : Frm α) (k : κ) : Count Slot := do
  let q ← findN cmp key s k
  pure (if q.1 == .eql then some q.2 else none)

/-- As `insertNode`, src/flat_realtime_ordered_map.c:656-677. -/
def insertNodeN (s : Frm α) (parent : Nat) (last : Cmp) (e : Nat) : Count (Frm α) := do
  let t ← initNodeN s.t e
  if s.sz = 2 then pure { s with t := t.setRoot e }
  else do
    let t ← insertBelowN t parent last e
    pure { s with t := t }

/-- As `maybeAllocInsert`, src/flat_realtime_ordered_map.c:640-654. -/
def maybeAllocInsertN (s : Frm α) (parent : Nat) (last : Cmp) (x : α) (ans : Option (Junk α)) :
    Count (Frm α × Slot) := do
  let (s, p) ← allocBackN s ans
  match p with
  | none => pure (s, none)
  | some _ => do
    let node := s.sz - 1
    let s ← setValN s node x
    let s ← insertNodeN s parent last node
    pure (s, some node)

/-- As `swapAndPop`, src/flat_realtime_ordered_map.c:1105-1135. -/
def swapAndPopN (s : Frm α) (vacant : Nat) : Count (Frm α) :=
  let x := s.sz - 1
  if vacant = x then pure (setSize s x)
  else do
    req (vacant != 0)
    req (x != 0)
    let t := s.t
    let t ← (if x = t.root then pure (t.setRoot vacant)
      else do
        let p ← t.getParN x
        let r ← t.getBrN p true
        t.setBrN p (r == x) vacant)
    let r ← t.getBrN x true
    let t ← t.setParN r vacant
    let l ← t.getBrN x false
    let t ← t.setParN l vacant
    let s := { s with t := t }
    let s ← copySlotN s 0 vacant
    let s ← copySlotN s vacant x
    let s ← copySlotN s x 0
    let t ← s.t.setParityN 0 true
    let t ← t.setParityN x false
    let t ← t.setParN x 0
    let t ← t.setBrN x true 0
    let t ← t.setBrN x false 0
    pure (setSize { s with t := t } x)

/-- As `removeFixup`, src/flat_realtime_ordered_map.c:946-1007. -/
def removeFixupN (s : Frm α) (rm : Nat) : Count (Frm α × Nat) := do
  let t ← removeLinksN s.t rm
  let s ← swapAndPopN { s with t := t } rm
  pure (s, s.sz)

/-- As `insert`, src/flat_realtime_ordered_map.c:178-204. -/
def insertN (s : Frm α) (x : α) (ans : Option (Junk α)) : Count (Frm α × Ent × α) := do
  let q ← findN cmp key s (key x)
  if q.1 = .eql then do
    let t ← copyLinksN s.t 0 q.2
    let s := { s with t := t }
    let s ← setValN s 0 x
    let old := s.val q.2
    let s ← setValN s q.2 (s.val 0)
    let t ← s.t.setParityN 0 true
    pure ({ s with t := t }, ⟨some q.2, Stat.occupied⟩, old)
  else do
    let (s, i) ← maybeAllocInsertN s q.2 q.1 x ans
    match i with
    | none => pure (s, ⟨none, Stat.insertError⟩, x)
    | some _ => pure (s, ⟨none, Stat.vacant⟩, x)

/-- As `tryInsert`, src/flat_realtime_ordered_map.c:206-227. -/
def tryInsertN (s : Frm α) (x : α) (ans : Option (Junk α)) : Count (Frm α × Ent) := do
  let q ← findN cmp key s (key x)
  if q.1 = .eql then pure (s, ⟨some q.2, Stat.occupied⟩)
  else do
    let (s, i) ← maybeAllocInsertN s q.2 q.1 x ans
    match i with
    | none => pure (s, ⟨none, Stat.insertError⟩)
    | some n => pure (s, ⟨some n, Stat.vacant⟩)

/-- As `insertOrAssign`, src/flat_realtime_ordered_map.c:229-253. -/
def insertOrAssignN (s : Frm α) (x : α) (ans : Option (Junk α)) : Count (Frm α × Ent) := do
  let q ← findN cmp key s (key x)
  if q.1 = .eql then do
    let s ← setValN s q.2 x
    pure (s, ⟨some q.2, Stat.occupied⟩)
  else do
    let (s, i) ← maybeAllocInsertN s q.2 q.1 x ans
    match i with
    | none => pure (s, ⟨none, Stat.insertError⟩)
    | some n => pure (s, ⟨some n, Stat.vacant⟩)

/-- As `entry`, src/flat_realtime_ordered_map.c:679-698. -/
def entryN (s : Frm α) (k : κ) : Count FEnt := do
  let q ← findN cmp key s k
  if q.1 = .eql then pure ⟨q.1, q.2, Stat.occupied⟩
  else pure ⟨q.1, q.2, Stat.noUnwrap ||| Stat.vacant⟩

/-- As `andModify`, src/flat_realtime_ordered_map.c:255-276, ccc/impl/impl_flat_realtime_ordered_map.h:74-94. -/
def andModifyN (s : Frm α) (e : FEnt) (f : α → α) : Count (Frm α) :=
  if Stat.has e.stats Stat.occupied then setValN s e.i (f (s.val e.i)) else pure s

/-- As `orInsert`, src/flat_realtime_ordered_map.c:278-291. -/
def orInsertN (s : Frm α) (e : FEnt) (x : α) (ans : Option (Junk α)) : Count (Frm α × Slot) :=
  if e.stats = Stat.occupied then pure (s, some e.i) else maybeAllocInsertN s e.i e.last x ans

/-- As `insertEntry`, src/flat_realtime_ordered_map.c:293-311. -/
def insertEntryN (s : Frm α) (e : FEnt) (x : α) (ans : Option (Junk α)) : Count (Frm α × Slot) :=
  if e.stats = Stat.occupied then do
    let s ← setValN s e.i x
    pure (s, some e.i)
  else maybeAllocInsertN s e.i e.last x ans

/-- As `removeEntry`, src/flat_realtime_ordered_map.c:324-338. -/
def removeEntryN (s : Frm α) (e : FEnt) : Count (Frm α × Ent) :=
  if e.stats = Stat.occupied then do
    let (s, a) ← removeFixupN s e.i
    pure (s, ⟨some a, Stat.occupied⟩)
  else pure (s, ⟨none, Stat.vacant⟩)

/-- As `remove`, src/flat_realtime_ordered_map.c:340-358. -/
def removeN (s : Frm α) (x : α) : Count (Frm α × Nat × Bool × α) := do
  let q ← findN cmp key s (key x)
  if q.1 ≠ .eql then pure (s, Stat.vacant, false, x)
  else do
    let (s, a) ← removeFixupN s q.2
    pure (s, Stat.occupied, true, s.val a)

/-- As `orInsertW`, ccc/impl/impl_flat_realtime_ordered_map.h:96-123. -/
def orInsertWN (s : Frm α) (e : FEnt) (x : α) (ans : Option (Junk α)) : Count (Frm α × Slot) :=
  if e.stats = Stat.occupied then pure (s, if e.i ≥ s.cap then none else some e.i) else do
    let (s, p) ← allocBackN s ans
    match p with
    | none => pure (s, none)
    | some a => do
      let s ← setValN s a x
      let s ← insertNodeN s e.i e.last (s.sz - 1)
      pure (s, some a)

/-- As `insertEntryW`, ccc/impl/impl_flat_realtime_ordered_map.h:125-163. -/
def insertEntryWN (s : Frm α) (e : FEnt) (x : α) (ans : Option (Junk α)) : Count (Frm α × Slot) :=
  if !Stat.has e.stats Stat.occupied then do
    let (s, p) ← allocBackN s ans
    match p with
    | none => pure (s, none)
    | some a => do
      let s ← setValN s a x
      let s ← insertNodeN s e.i e.last (s.sz - 1)
      pure (s, some a)
  else if e.stats = Stat.occupied then do
    let s ← setValN s e.i x
    pure (s, some e.i)
  else pure (s, none)

/-- As `insertVacantW`. -/
def insertVacantWN (s : Frm α) (e : FEnt) (x : α) (ans : Option (Junk α)) : Count (Frm α × Ent) := do
  let (s, p) ← allocBackN s ans
  match p with
  | none => pure (s, ⟨none, Stat.insertError⟩)
  | some a => do
    let s ← setValN s a x
    let s ← insertNodeN s e.i e.last a
    pure (s, ⟨some a, Stat.vacant⟩)

/-- As `tryInsertW`, ccc/impl/impl_flat_realtime_ordered_map.h:165-203. -/
def tryInsertWN (s : Frm α) (k : κ) (x : α) (ans : Option (Junk α)) : Count (Frm α × Ent) := do
  let e ← entryN cmp key s k
  if !Stat.has e.stats Stat.occupied then insertVacantWN s e x ans
  else if e.stats = Stat.occupied then pure (s, ⟨if e.i ≥ s.cap then none else some e.i, e.stats⟩)
  else pure (s, ⟨none, Stat.inputError⟩)

/-- As `insertOrAssignW`, ccc/impl/impl_flat_realtime_ordered_map.h:205-262. -/
def insertOrAssignWN (s : Frm α) (k : κ) (x : α) (ans : Option (Junk α)) : Count (Frm α × Ent) := do
  let e ← entryN cmp key s k
  if !Stat.has e.stats Stat.occupied then insertVacantWN s e x ans
  else if e.stats = Stat.occupied then do
    let s ← setValN s e.i x
    pure (s, ⟨some e.i, e.stats⟩)
  else pure (s, ⟨none, Stat.inputError⟩)

/-- As `begin_`, src/flat_realtime_ordered_map.c:444-464. -/
def begin_N (s : Frm α) (dir : Bool) : Count Slot :=
  if s.sz = 0 then pure none else do
    let m ← minMaxFromN s.t s.t.root dir
    pure (some m)

/-- As `next`, src/flat_realtime_ordered_map.c:466-488. -/
def nextN (s : Frm α) (e : Nat) (trav : Bool) : Count Slot :=
  if s.sz = 0 then pure none else do
    let n ← Wavl.nextN s.t e trav
    pure (some n)

/-- As `equalRange`, src/flat_realtime_ordered_map.c:744-767. -/
def equalRangeN (s : Frm α) (b e : κ) (trav : Bool) : Count (Slot × Slot) :=
  if isEmpty s then pure (none, none)
  else do
    let r ← Wavl.equalRangeN s.t (at_ cmp key s b) (at_ cmp key s e) trav
    pure (some r.1, some r.2)

/-- As `step`. -/
def stepN (s : Frm α) : Op α κ (Junk α) → Count (Frm α × Out α)
  | .insert x ans => do
    let (s, e, h) ← insertN cmp key s x ans
    pure (s, .insEnt e.stats (view s (Ent.unwrap (some e))) h)
  | .tryInsert x ans => do
    let (s, e) ← tryInsertN cmp key s x ans
    pure (s, .ent e.stats (view s (Ent.unwrap (some e))))
  | .insertOrAssign x ans => do
    let (s, e) ← insertOrAssignN cmp key s x ans
    pure (s, .ent e.stats (view s (Ent.unwrap (some e))))
  | .remove x => do
    let (s, st, b, h) ← removeN cmp key s x
    pure (s, .remEnt st b h)
  | .orInsert k x ans => do
    let e ← entryN cmp key s k
    let (s, p) ← orInsertN s e x ans
    pure (s, .ptr (view s p))
  | .insertEntry k x ans => do
    let e ← entryN cmp key s k
    let (s, p) ← insertEntryN s e x ans
    pure (s, .ptr (view s p))
  | .removeEntry k => do
    let e ← entryN cmp key s k
    let (s, e) ← removeEntryN s e
    pure (s, .ent e.stats (view s (Ent.unwrap (some e))))
  | .andModify k f => do
    let e ← entryN cmp key s k
    let s ← andModifyN s e f
    pure (s, .ptr (view s (unwrap s e)))
  | .occupied k => do
    let e ← entryN cmp key s k
    pure (s, .flag (occupied e))
  | .orInsertW k x ans => do
    let e ← entryN cmp key s k
    let (s, p) ← orInsertWN s e x ans
    pure (s, .ptr (view s p))
  | .insertEntryW k x ans => do
    let e ← entryN cmp key s k
    let (s, p) ← insertEntryWN s e x ans
    pure (s, .ptr (view s p))
  | .tryInsertW k x ans => do
    let (s, e) ← tryInsertWN cmp key s k x ans
    pure (s, .ent e.stats (view s (Ent.unwrap (some e))))
  | .insertOrAssignW k x ans => do
    let (s, e) ← insertOrAssignWN cmp key s k x ans
    pure (s, .ent e.stats (view s (Ent.unwrap (some e))))
  | .contains k => do
    let b ← containsN cmp key s k
    pure (s, .flag b)
  | .get k => do
    let p ← getN cmp key s k
    pure (s, .ptr (view s p))
  | .begin => do
    let p ← begin_N s false
    pure (s, .ptr (view s p))
  | .rbegin => do
    let p ← begin_N s true
    pure (s, .ptr (view s p))
  | .next a => do
    let p ← nextN s a true
    pure (s, .ptr (view s p))
  | .rnext a => do
    let p ← nextN s a false
    pure (s, .ptr (view s p))
  | .end_ => pure (s, .ptr (view s (end_ s)))
  | .equalRange b e => do
    let r ← equalRangeN cmp key s b e true
    pure (s, .range (view s r.1) (view s r.2))
  | .equalRrange b e => do
    let r ← equalRangeN cmp key s b e false
    pure (s, .range (view s r.1) (view s r.2))
  | .size => pure (s, .num (size s))
  | .isEmpty => pure (s, .flag (isEmpty s))
  | .capacity => pure (s, .num (capacity s))
  | .validate => do
    let b ← validate cmp key s
    pure (s, .flag b)
  | .clear => do
    let (s, _, r) ← clear s false
    pure (s, .result r)

/-- As `run`. -/
def runN (s : Frm α) : List (Op α κ (Junk α)) → Count (Frm α × List (Out α))
  | [] => pure (s, [])
  | o :: os => do
    let (s, r) ← stepN cmp key s o
    let (s, rs) ← runN s os
    pure (s, r :: rs)

end CCC.Frm
