import Verif.Model.FlatHashMap
import Verif.Model.Count
/-
The calls of `Verif/Model/FlatHashMap.lean` with the slots of the table counted that a call looks at or wipes: one for each
slot visited by the loops of `find`, `insert`, `erase` and `maybe_resize`, and one for each slot filled with zero bytes by
`memset`.  The slots looked at by `validate` are not counted.  They are the same functions, statement for statement;
`find`, `insertAt` and `erase` already come with their counts.
-/
namespace CCC.Fhm
open CCC HashMap

variable {α κ : Type} (c : Cfg κ α)

/-- Take the count that comes with a result for the work done. -/
def tally {β : Type} (x : Option (β × Nat)) : Count β := fun n => x.map (fun r => (r.1, n + r.2))

/-- As `find`, src/flat_hash_map.c:732-769. -/
def findN (s : Fhm α) (k : κ) (hash : UInt64) : Count Ent := tally (find c s k hash)
/-- As `insertAt`, src/flat_hash_map.c:774-810. -/
def insertAtN (s : Fhm α) (x : α) (hash : UInt64) (i : Nat) : Count (Fhm α) := tally (insertAt c s x hash i)
/-- As `erase`, src/flat_hash_map.c:815-839. -/
def eraseN (s : Fhm α) (i : Nat) : Count (Fhm α) := tally (erase c s i)

/-- As `rehashLoop`, src/flat_hash_map.c:903-915. -/
def rehashLoopN (old s : Fhm α) (i : Nat) : Count (Fhm α) :=
  if i = old.cap then pure s
  else do
    let x ← acc (at_ old i)
    if x.hash ≠ 0 then do
      let e ← findN c s (c.key x.val) x.hash
      let p ← e.e
      let s ← insertAtN c s x.val x.hash p
      rehashLoopN old s (i + 1)
    else rehashLoopN old s (i + 1)
partial_fixpoint

/-- As `maybeResize`, src/flat_hash_map.c:862-923. -/
def maybeResizeN (s : Fhm α) (ans : AllocAns α) : Count (Fhm α × Res) := do
  let s ← (if s.cap ≠ 0 ∧ s.sz < 2 then work s.cap (some (sizeSet { s with mem := wipe s.mem } 2)) else pure s : Count (Fhm α))
  if s.cap ≠ 0 ∧ 5 * s.sz ≤ 4 * s.cap then pure (s, .ok)
  else if !s.hasAlloc then pure (s, .noAlloc)
  else
    let cap' := if s.cap ≠ 0 then nextPrime (s.sz * 2) else 11
    if cap' ≤ s.cap then pure (s, .memErr)
    else match ans with
      | none => pure (s, .memErr)
      | some junk => do
        let t ← work cap' (some { mem := wipe (fun i => ⟨0, junk i⟩), sz := 0, cap := cap', hasAlloc := s.hasAlloc })
        let t ← rehashLoopN c s (sizeSet t 2) 0
        pure (t, .ok)

/-- As `entry`, src/flat_hash_map.c:719-730, 841-850. -/
def entryN (s : Fhm α) (k : κ) (ans : AllocAns α) : Count (Fhm α × FEnt) := do
  let (s, r) ← maybeResizeN c s ans
  let e ← findN c s k (filter c k)
  pure (s, ⟨⟨e.e, if r ≠ .ok then e.stats ||| Stat.insertError else e.stats⟩, filter c k⟩)

/-- As `contains`, src/flat_hash_map.c:179-187. -/
def containsN (s : Fhm α) (k : κ) (ans : AllocAns α) : Count (Fhm α × Bool) := do
  let (s, e) ← entryN c s k ans
  pure (s, Stat.has e.ent.stats Stat.occupied)

/-- As `get`, src/flat_hash_map.c:234-247. -/
def getN (s : Fhm α) (k : κ) : Count Slot :=
  if s.cap = 0 then pure none
  else do
    let e ← findN c s k (filter c k)
    pure (if Stat.has e.stats Stat.occupied then e.e else none)

/-- As `insertEntry`, src/flat_hash_map.c:210-232. -/
def insertEntryN (s : Fhm α) (e : FEnt) (x : α) : Count (Fhm α × Slot) :=
  if Stat.has e.ent.stats Stat.occupied then do
    let i ← e.ent.e
    let s ← put s i ⟨e.hash, x⟩
    pure (s, some i)
  else if Stat.has e.ent.stats Stat.insertError then pure (s, none)
  else do
    let i ← e.ent.e
    let s ← insertAtN c s x e.hash i
    pure (s, some i)

/-- As `removeEntry`, src/flat_hash_map.c:249-262. -/
def removeEntryN (s : Fhm α) (e : FEnt) : Count (Fhm α × Ent) :=
  if e.ent.stats ≠ Stat.occupied then pure (s, ⟨none, Stat.vacant⟩)
  else do
    let i ← e.ent.e
    let s ← eraseN c s i
    pure (s, ⟨none, Stat.occupied⟩)

/-- As `insert`, src/flat_hash_map.c:285-310. -/
def insertN (s : Fhm α) (x : α) (ans : AllocAns α) : Count (Fhm α × Nat × Bool × α) := do
  let (s, e) ← entryN c s (c.key x) ans
  if Stat.has e.ent.stats Stat.occupied then do
    let i ← e.ent.e
    let old ← at_ s i
    let s ← put s 0 old
    let s ← put s i ⟨e.hash, x⟩
    let s ← putHash s 0 0
    pure (s, Stat.occupied, true, old.val)
  else if Stat.has e.ent.stats Stat.insertError then pure (s, Stat.insertError, false, x)
  else do
    let i ← e.ent.e
    let s ← insertAtN c s x e.hash i
    pure (s, Stat.vacant, false, x)

/-- As `tryInsert`, src/flat_hash_map.c:312-332. -/
def tryInsertN (s : Fhm α) (x : α) (ans : AllocAns α) : Count (Fhm α × Ent) := do
  let (s, e) ← entryN c s (c.key x) ans
  if Stat.has e.ent.stats Stat.occupied then pure (s, ⟨e.ent.e, Stat.occupied⟩)
  else if Stat.has e.ent.stats Stat.insertError then pure (s, ⟨none, Stat.insertError⟩)
  else do
    let i ← e.ent.e
    let s ← insertAtN c s x e.hash i
    pure (s, ⟨some i, Stat.vacant⟩)

/-- As `insertOrAssign`, src/flat_hash_map.c:334-355. -/
def insertOrAssignN (s : Fhm α) (x : α) (ans : AllocAns α) : Count (Fhm α × Ent) := do
  let (s, e) ← entryN c s (c.key x) ans
  if Stat.has e.ent.stats Stat.occupied then do
    let i ← e.ent.e
    let s ← put s i ⟨e.hash, x⟩
    pure (s, ⟨some i, Stat.occupied⟩)
  else if Stat.has e.ent.stats Stat.insertError then pure (s, ⟨none, Stat.insertError⟩)
  else do
    let i ← e.ent.e
    let s ← insertAtN c s x e.hash i
    pure (s, ⟨some i, Stat.vacant⟩)

/-- As `remove`, src/flat_hash_map.c:357-374. -/
def removeN (s : Fhm α) (x : α) : Count (Fhm α × Nat × Bool × α) := do
  let e ← findN c s (c.key x) (filter c (c.key x))
  if Stat.has e.stats Stat.occupied then do
    let i ← e.e
    let old ← at_ s i
    let s ← eraseN c s i
    pure (s, Stat.occupied, true, old.val)
  else pure (s, Stat.vacant, false, x)

/-- As `orInsert`, src/flat_hash_map.c:376-396. -/
def orInsertN (s : Fhm α) (e : FEnt) (x : α) : Count (Fhm α × Slot) :=
  if Stat.has e.ent.stats Stat.occupied then pure (s, e.ent.e)
  else if Stat.has e.ent.stats Stat.insertError then pure (s, none)
  else do
    let i ← e.ent.e
    let s ← insertAtN c s x e.hash i
    pure (s, some i)

/-- As `swaps`, ccc/impl/impl_flat_hash_map.h:110-141. -/
def swapsN (s : Fhm α) (e : FEnt) (x : α) : Count (Fhm α × Slot) := do
  let i ← e.ent.e
  let y ← at_ s i
  if y.hash = 0 then do
    let s ← put s i ⟨e.hash, x⟩
    pure (sizePlus s 1, some i)
  else do
    let s ← put s i ⟨e.hash, x⟩
    let s ← insertAtN c s y.val y.hash (increment s.cap i)
    pure (s, some i)

/-- As `orInsertW`, ccc/impl/impl_flat_hash_map.h:166-188. -/
def orInsertWN (s : Fhm α) (e : FEnt) (x : α) : Count (Fhm α × Slot) :=
  if !Stat.has e.ent.stats Stat.insertError then
    if Stat.has e.ent.stats Stat.occupied then pure (s, e.ent.e) else swapsN c s e x
  else pure (s, none)

/-- As `insertEntryW`, ccc/impl/impl_flat_hash_map.h:190-219. -/
def insertEntryWN (s : Fhm α) (e : FEnt) (x : α) : Count (Fhm α × Slot) :=
  if !Stat.has e.ent.stats Stat.insertError then
    if Stat.has e.ent.stats Stat.occupied then do
      let i ← e.ent.e
      let s ← put s i ⟨e.hash, x⟩
      pure (s, some i)
    else swapsN c s e x
  else pure (s, none)

/-- As `tryInsertW`, ccc/impl/impl_flat_hash_map.h:221-248. -/
def tryInsertWN (s : Fhm α) (k : κ) (x : α) (ans : AllocAns α) : Count (Fhm α × Ent) := do
  let (s, e) ← entryN c s k ans
  if Stat.has e.ent.stats Stat.occupied || Stat.has e.ent.stats Stat.insertError then pure (s, e.ent)
  else do
    let (s, p) ← swapsN c s e x
    pure (s, ⟨p, Stat.vacant⟩)

/-- As `insertOrAssignW`, ccc/impl/impl_flat_hash_map.h:250-291. -/
def insertOrAssignWN (s : Fhm α) (k : κ) (x : α) (ans : AllocAns α) : Count (Fhm α × Ent) := do
  let (s, e) ← entryN c s k ans
  if Stat.has e.ent.stats Stat.occupied then do
    let i ← e.ent.e
    let s ← put s i ⟨e.hash, x⟩
    pure (s, e.ent)
  else if Stat.has e.ent.stats Stat.insertError then pure (s, ⟨none, Stat.insertError⟩)
  else do
    let (s, p) ← swapsN c s e x
    pure (s, ⟨p, Stat.vacant⟩)

/-- As `step`. -/
def stepN (s : Fhm α) : Op α κ → Count (Fhm α × Out α)
  | .insert x ans => do
    let (s, st, b, h) ← insertN c s x ans
    pure (s, .insEnt st (if b then some h else none) h)
  | .tryInsert x ans => do
    let (s, e) ← tryInsertN c s x ans
    pure (s, .ent (shown e.stats) (view s (Ent.unwrap (some e))))
  | .insertOrAssign x ans => do
    let (s, e) ← insertOrAssignN c s x ans
    pure (s, .ent (shown e.stats) (view s (Ent.unwrap (some e))))
  | .remove x => do
    let (s, st, b, h) ← removeN c s x
    pure (s, .insEnt st (if b then some h else none) h)
  | .orInsert k x f ans => do
    let (s, e) ← entryN c s k ans
    let (s, p) ← orInsertN c s e x
    let s' ← poke s p f
    pure (s', .ptr (view s p))
  | .insertEntry k x ans => do
    let (s, e) ← entryN c s k ans
    let (s, p) ← insertEntryN c s e x
    pure (s, .ptr (view s p))
  | .removeEntry k ans => do
    let (s, e) ← entryN c s k ans
    let (s, e) ← removeEntryN c s e
    pure (s, .ent (shown e.stats) (view s (Ent.unwrap (some e))))
  | .andModify k f ans => do
    let (s, e) ← entryN c s k ans
    let s ← andModify s e f
    pure (s, .ptr (view s (unwrap e)))
  | .occupied k ans => do
    let (s, e) ← entryN c s k ans
    pure (s, .flag (occupied e))
  | .insertError k ans => do
    let (s, e) ← entryN c s k ans
    pure (s, .flag (insertError e))
  | .orInsertW k x ans => do
    let (s, e) ← entryN c s k ans
    let (s, p) ← orInsertWN c s e x
    pure (s, .ptr (view s p))
  | .insertEntryW k x ans => do
    let (s, e) ← entryN c s k ans
    let (s, p) ← insertEntryWN c s e x
    pure (s, .ptr (view s p))
  | .tryInsertW k x ans => do
    let (s, e) ← tryInsertWN c s k x ans
    pure (s, .ent (shown e.stats) (view s (Ent.unwrap (some e))))
  | .insertOrAssignW k x ans => do
    let (s, e) ← insertOrAssignWN c s k x ans
    pure (s, .ent (shown e.stats) (view s (Ent.unwrap (some e))))
  | .contains k ans => do
    let (s, b) ← containsN c s k ans
    pure (s, .flag b)
  | .get k f => do
    let p ← getN c s k
    let s' ← poke s p f
    pure (s', .ptr (view s p))
  | .size => pure (s, .num (size s))
  | .isEmpty => pure (s, .flag (isEmpty s))
  | .capacity => pure (s, .num (capacity s))
  | .validate => do
    let b ← validate c s
    pure (s, .flag b)
  | .clear => do
    let (s, _, r) ← clear s false
    pure (s, .result r)

/-- As `run`. -/
def runN (s : Fhm α) : List (Op α κ) → Count (Fhm α × List (Out α))
  | [] => pure (s, [])
  | o :: os => do
    let (s, r) ← stepN c s o
    let (s, rs) ← runN s os
    pure (s, r :: rs)

end CCC.Fhm
