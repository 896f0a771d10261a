import Verif.Model.FlatLedger
import Verif.Model.FlatOrderedMap
import Verif.Model.FlatHashMap
/-
The calls of the flat maps that call the user's allocation function, with these calls and the field `mem_` of the buffer
written down, as in `Verif/Model/FlatLedger.lean`.  The functions are those of `Verif/Model/FlatRealtimeMap.lean`,
`Verif/Model/FlatOrderedMap.lean` and `Verif/Model/FlatHashMap.lean`, statement for statement; what does not call the allocation
function is taken from there.
-/
namespace CCC

namespace Flat

/-- `ccc_buf_alloc`, src/buffer.c:16-36, as far as `mem_` is concerned; `f` is `none` for a NULL allocation function and says
whether a request is granted. -/
def bufAlloc (capacity : Nat) (f : Option Bool) : Fl Res :=
  match f with
  | none => pure .noAlloc
  | some granted => do
    let newMem ← request (← getMem) capacity granted
    if capacity ≠ 0 ∧ newMem = none then pure .memErr
    else do
      setMem newMem
      pure .ok

end Flat
open Flat

namespace Frm
variable {α κ : Type} (cmp : κ → κ → Cmp) (key : α → κ)

/-- `ccc_buf_alloc_back`, src/buffer.c:60-78. -/
def bufAllocBackM (s : Frm α) (ans : Option (Junk α)) : Fl (Frm α × Slot) :=
  if s.sz = s.cap then do
    let n := if s.cap ≠ 0 then s.cap * 2 else Buf.startCapacity
    match ← bufAlloc n (if s.hasAlloc then some ans.isSome else none), ans with
    | .ok, some j => pure (setSize (growTo s n j) (s.sz + 1), some s.sz)
    | _, _ => pure (s, none)
  else pure (setSize s (s.sz + 1), some s.sz)

/-- `alloc_back`, src/flat_realtime_ordered_map.c:791-806. -/
def allocBackM (s : Frm α) (ans : Option (Junk α)) : Fl (Frm α × Slot) :=
  if s.sz = 0 then do
    match ← bufAllocBackM s ans with
    | (s, none) => pure (s, none)
    | (s, some a) => do
      let t ← s.t.setParity a true
      bufAllocBackM { s with t := t } ans
  else bufAllocBackM s ans

/-- `maybe_alloc_insert`, src/flat_realtime_ordered_map.c:640-654. -/
def maybeAllocInsertM (s : Frm α) (parent : Nat) (last : Cmp) (x : α) (ans : Option (Junk α)) :
    Fl (Frm α × Slot) := do
  let (s, p) ← allocBackM s ans
  match p with
  | none => pure (s, none)
  | some _ => do
    let node := s.sz - 1
    let s ← setVal s node x
    let s ← insertNode s parent last node
    pure (s, some node)

/-- `ccc_frm_insert`, src/flat_realtime_ordered_map.c:178-204. -/
def insertM (s : Frm α) (x : α) (ans : Option (Junk α)) : Fl (Frm α × Ent × α) := do
  let q ← find cmp key s (key x)
  if q.1 = .eql then do
    let t ← copyLinks s.t 0 q.2
    let s := { s with t := t }
    let s ← setVal s 0 x
    let old := s.val q.2
    let s ← setVal s q.2 (s.val 0)
    let t ← s.t.setParity 0 true
    pure ({ s with t := t }, ⟨some q.2, Stat.occupied⟩, old)
  else do
    let (s, i) ← maybeAllocInsertM s q.2 q.1 x ans
    match i with
    | none => pure (s, ⟨none, Stat.insertError⟩, x)
    | some _ => pure (s, ⟨none, Stat.vacant⟩, x)

/-- `ccc_frm_try_insert`, src/flat_realtime_ordered_map.c:206-227. -/
def tryInsertM (s : Frm α) (x : α) (ans : Option (Junk α)) : Fl (Frm α × Ent) := do
  let q ← find cmp key s (key x)
  if q.1 = .eql then pure (s, ⟨some q.2, Stat.occupied⟩)
  else do
    let (s, i) ← maybeAllocInsertM s q.2 q.1 x ans
    match i with
    | none => pure (s, ⟨none, Stat.insertError⟩)
    | some n => pure (s, ⟨some n, Stat.vacant⟩)

/-- `ccc_frm_insert_or_assign`, src/flat_realtime_ordered_map.c:229-253. -/
def insertOrAssignM (s : Frm α) (x : α) (ans : Option (Junk α)) : Fl (Frm α × Ent) := do
  let q ← find cmp key s (key x)
  if q.1 = .eql then do
    let s ← setVal s q.2 x
    pure (s, ⟨some q.2, Stat.occupied⟩)
  else do
    let (s, i) ← maybeAllocInsertM s q.2 q.1 x ans
    match i with
    | none => pure (s, ⟨none, Stat.insertError⟩)
    | some n => pure (s, ⟨some n, Stat.vacant⟩)

/-- `ccc_frm_or_insert`, src/flat_realtime_ordered_map.c:278-291. -/
def orInsertM (s : Frm α) (e : FEnt) (x : α) (ans : Option (Junk α)) : Fl (Frm α × Slot) :=
  if e.stats = Stat.occupied then pure (s, some e.i) else maybeAllocInsertM s e.i e.last x ans

/-- `ccc_frm_insert_entry`, src/flat_realtime_ordered_map.c:293-311. -/
def insertEntryM (s : Frm α) (e : FEnt) (x : α) (ans : Option (Junk α)) : Fl (Frm α × Slot) :=
  if e.stats = Stat.occupied then do
    let s ← setVal s e.i x
    pure (s, some e.i)
  else maybeAllocInsertM s e.i e.last x ans

/-- `ccc_impl_frm_or_insert_w`, ccc/impl/impl_flat_realtime_ordered_map.h:96-123. -/
def orInsertWM (s : Frm α) (e : FEnt) (x : α) (ans : Option (Junk α)) : Fl (Frm α × Slot) :=
  if e.stats = Stat.occupied then pure (s, if e.i ≥ s.cap then none else some e.i) else do
    let (s, p) ← allocBackM s ans
    match p with
    | none => pure (s, none)
    | some a => do
      let s ← setVal s a x
      let s ← insertNode s e.i e.last (s.sz - 1)
      pure (s, some a)

/-- `ccc_impl_frm_insert_entry_w`, ccc/impl/impl_flat_realtime_ordered_map.h:125-163. -/
def insertEntryWM (s : Frm α) (e : FEnt) (x : α) (ans : Option (Junk α)) : Fl (Frm α × Slot) :=
  if !Stat.has e.stats Stat.occupied then do
    let (s, p) ← allocBackM s ans
    match p with
    | none => pure (s, none)
    | some a => do
      let s ← setVal s a x
      let s ← insertNode s e.i e.last (s.sz - 1)
      pure (s, some a)
  else if e.stats = Stat.occupied then do
    let s ← setVal s e.i x
    pure (s, some e.i)
  else pure (s, none)

/-- The common vacant branch of the next two macros: `x` is the lazy value after the key was copied into it. -/
def insertVacantWM (s : Frm α) (e : FEnt) (x : α) (ans : Option (Junk α)) : Fl (Frm α × Ent) := do
  let (s, p) ← allocBackM s ans
  match p with
  | none => pure (s, ⟨none, Stat.insertError⟩)
  | some a => do
    let s ← setVal s a x
    let s ← insertNode s e.i e.last a
    pure (s, ⟨some a, Stat.vacant⟩)

/-- `ccc_impl_frm_try_insert_w`, ccc/impl/impl_flat_realtime_ordered_map.h:165-203. -/
def tryInsertWM (s : Frm α) (k : κ) (x : α) (ans : Option (Junk α)) : Fl (Frm α × Ent) := do
  let e ← entry cmp key s k
  if !Stat.has e.stats Stat.occupied then insertVacantWM s e x ans
  else if e.stats = Stat.occupied then pure (s, ⟨if e.i ≥ s.cap then none else some e.i, e.stats⟩)
  else pure (s, ⟨none, Stat.inputError⟩)

/-- `ccc_impl_frm_insert_or_assign_w`, ccc/impl/impl_flat_realtime_ordered_map.h:205-262. -/
def insertOrAssignWM (s : Frm α) (k : κ) (x : α) (ans : Option (Junk α)) : Fl (Frm α × Ent) := do
  let e ← entry cmp key s k
  if !Stat.has e.stats Stat.occupied then insertVacantWM s e x ans
  else if e.stats = Stat.occupied then do
    let s ← setVal s e.i x
    pure (s, ⟨some e.i, e.stats⟩)
  else pure (s, ⟨none, Stat.inputError⟩)

/-- `ccc_frm_clear_and_free`, src/flat_realtime_ordered_map.c:568-588. -/
def clearAndFreeM (s : Frm α) (destroy : Bool) : Fl (Frm α × List (Nat × α) × Res) := do
  let d ← (if destroy then destroyLoop s (if 1 ≥ s.cap then none else some 1) [] else some [] : Option (List (Nat × α)))
  let s := { s with t := s.t.setRoot 0 }
  let r ← bufAlloc 0 (if s.hasAlloc then some true else none)
  if r = .ok then pure ({ s with cap := 0, t := { s.t with live := inUse s.sz 0 } }, d, r)
  else pure (s, d, r)

/-- `ccc_frm_copy`, src/flat_realtime_ordered_map.c:510-543, and `ccc_fom_copy`, src/flat_ordered_map.c:457-489; `srcMem` is
`src->buf_.mem_`. -/
def copyM (dst src : Frm α) (srcMem : Slot) (fn : Option (Option (Junk α))) : Fl (Frm α × Res) :=
  if dst.cap < src.cap ∧ fn.isNone then pure (dst, .inputErr)
  else do
    let dstMem ← getMem
    setMem srcMem
    setMem dstMem
    if dst.cap < src.cap then do
      let _ ← bufAlloc src.cap (fn.map Option.isSome)
      pure (copy dst src fn)
    else pure (copy dst src fn)

/-- One call of the interface. -/
def stepM (s : Frm α) : FlatMap.Op α κ (Junk α) → Fl (Frm α × FlatMap.Out α)
  | .insert x ans => do
    let (s, e, h) ← insertM cmp key s x ans
    pure (s, .insEnt e.stats (view s (Ent.unwrap (some e))) h)
  | .tryInsert x ans => do
    let (s, e) ← tryInsertM cmp key s x ans
    pure (s, .ent e.stats (view s (Ent.unwrap (some e))))
  | .insertOrAssign x ans => do
    let (s, e) ← insertOrAssignM cmp key s x ans
    pure (s, .ent e.stats (view s (Ent.unwrap (some e))))
  | .orInsert k x ans => do
    let e ← entry cmp key s k
    let (s, p) ← orInsertM s e x ans
    pure (s, .ptr (view s p))
  | .insertEntry k x ans => do
    let e ← entry cmp key s k
    let (s, p) ← insertEntryM s e x ans
    pure (s, .ptr (view s p))
  | .orInsertW k x ans => do
    let e ← entry cmp key s k
    let (s, p) ← orInsertWM s e x ans
    pure (s, .ptr (view s p))
  | .insertEntryW k x ans => do
    let e ← entry cmp key s k
    let (s, p) ← insertEntryWM s e x ans
    pure (s, .ptr (view s p))
  | .tryInsertW k x ans => do
    let (s, e) ← tryInsertWM cmp key s k x ans
    pure (s, .ent e.stats (view s (Ent.unwrap (some e))))
  | .insertOrAssignW k x ans => do
    let (s, e) ← insertOrAssignWM cmp key s k x ans
    pure (s, .ent e.stats (view s (Ent.unwrap (some e))))
  | op => liftM (step cmp key s op)

end Frm

namespace Fom
open CCC.Frm (Frm Junk inUse setSize growTo bufAllocBackM setVal copyLinks copySlot destroyLoop view)
variable {α κ : Type} (cmp : κ → κ → Cmp) (key : α → κ)

/-- `alloc_back`, src/flat_ordered_map.c:864-874. -/
def allocBackM (s : Fom α) (ans : Option (Junk α)) : Fl (Fom α × Slot) :=
  if s.sz = 0 then do
    match ← bufAllocBackM s ans with
    | (s, none) => pure (s, none)
    | (s, some _) => bufAllocBackM s ans
  else bufAllocBackM s ans

/-- `maybe_alloc_insert`, src/flat_ordered_map.c:634-647. -/
def maybeAllocInsertM (s : Fom α) (x : α) (ans : Option (Junk α)) : Fl (Fom α × Slot) := do
  match ← allocBackM s ans with
  | (s, none) => pure (s, none)
  | (s, some _) => do
    let node := s.sz - 1
    let s ← setVal s node x
    insertNode cmp key s node

/-- `ccc_fom_insert`, src/flat_ordered_map.c:197-222. -/
def insertM (s : Fom α) (x : α) (ans : Option (Junk α)) : Fl (Fom α × Ent × α) := do
  let (s, f) ← find cmp key s (key x)
  if f.isSome then do
    let r := s.t.root
    req (r != 0)
    let t ← copyLinks s.t 0 r
    let s := { s with t := t }
    let s ← setVal s 0 x
    let old := s.val r
    let s ← setVal s r (s.val 0)
    pure (s, ⟨some r, Stat.occupied⟩, old)
  else do
    let (s, i) ← maybeAllocInsertM cmp key s x ans
    match i with
    | none => pure (s, ⟨none, Stat.insertError⟩, x)
    | some _ => pure (s, ⟨none, Stat.vacant⟩, x)

/-- `ccc_fom_try_insert`, src/flat_ordered_map.c:224-244. -/
def tryInsertM (s : Fom α) (x : α) (ans : Option (Junk α)) : Fl (Fom α × Ent) := do
  let (s, f) ← find cmp key s (key x)
  match f with
  | some a => do
    req (s.t.root != 0)
    pure (s, ⟨some a, Stat.occupied⟩)
  | none => do
    let (s, i) ← maybeAllocInsertM cmp key s x ans
    match i with
    | none => pure (s, ⟨none, Stat.insertError⟩)
    | some n => pure (s, ⟨some n, Stat.vacant⟩)

/-- `ccc_fom_insert_or_assign`, src/flat_ordered_map.c:246-269. -/
def insertOrAssignM (s : Fom α) (x : α) (ans : Option (Junk α)) : Fl (Fom α × Ent) := do
  let (s, f) ← find cmp key s (key x)
  match f with
  | some a => do
    req (s.t.root != 0)
    let s ← setVal s a x
    pure (s, ⟨some a, Stat.occupied⟩)
  | none => do
    let (s, i) ← maybeAllocInsertM cmp key s x ans
    match i with
    | none => pure (s, ⟨none, Stat.insertError⟩)
    | some n => pure (s, ⟨some n, Stat.vacant⟩)

/-- `ccc_fom_or_insert`, src/flat_ordered_map.c:183-195. -/
def orInsertM (s : Fom α) (e : FEnt) (x : α) (ans : Option (Junk α)) : Fl (Fom α × Slot) :=
  if Stat.has e.stats Stat.occupied then pure (s, some e.i) else maybeAllocInsertM cmp key s x ans

/-- `ccc_fom_insert_entry`, src/flat_ordered_map.c:130-146. -/
def insertEntryM (s : Fom α) (e : FEnt) (x : α) (ans : Option (Junk α)) : Fl (Fom α × Slot) :=
  if e.stats = Stat.occupied then do
    let s ← setVal s e.i x
    pure (s, some e.i)
  else maybeAllocInsertM cmp key s x ans

/-- `ccc_impl_fom_or_insert_w`, ccc/impl/impl_flat_ordered_map.h:91-119. -/
def orInsertWM (s : Fom α) (e : FEnt) (x : α) (ans : Option (Junk α)) : Fl (Fom α × Slot) :=
  if e.stats = Stat.occupied then pure (s, if e.i ≥ s.cap then none else some e.i)
  else do
    match ← allocBackM s ans with
    | (s, none) => pure (s, none)
    | (s, some a) => do
      let s ← setVal s a x
      let (s, _) ← insertNode cmp key s (s.sz - 1)
      pure (s, some a)

/-- `ccc_impl_fom_insert_entry_w`, ccc/impl/impl_flat_ordered_map.h:121-155. -/
def insertEntryWM (s : Fom α) (e : FEnt) (x : α) (ans : Option (Junk α)) : Fl (Fom α × Slot) :=
  if !Stat.has e.stats Stat.occupied then do
    match ← allocBackM s ans with
    | (s, none) => pure (s, none)
    | (s, some a) => do
      let s ← setVal s a x
      let (s, _) ← insertNode cmp key s (s.sz - 1)
      pure (s, some a)
  else if e.stats = Stat.occupied then do
    let s ← setVal s e.i x
    pure (s, some e.i)
  else pure (s, none)

/-- The common vacant branch of the next two macros, ccc/impl/impl_flat_ordered_map.h:167-185, 209-229: `x` is the lazy value after the key was copied into it. -/
def insertVacantWM (s : Fom α) (x : α) (ans : Option (Junk α)) : Fl (Fom α × Ent) := do
  match ← allocBackM s ans with
  | (s, none) => pure (s, ⟨none, Stat.insertError⟩)
  | (s, some a) => do
    let s ← setVal s a x
    let (s, _) ← insertNode cmp key s a
    pure (s, ⟨some a, Stat.vacant⟩)

/-- `ccc_impl_fom_try_insert_w`, ccc/impl/impl_flat_ordered_map.h:157-195. -/
def tryInsertWM (s : Fom α) (k : κ) (x : α) (ans : Option (Junk α)) : Fl (Fom α × Ent) := do
  let (s, e) ← entry cmp key s k
  if !Stat.has e.stats Stat.occupied then insertVacantWM cmp key s x ans
  else if e.stats = Stat.occupied then pure (s, ⟨if e.i ≥ s.cap then none else some e.i, e.stats⟩)
  else pure (s, ⟨none, Stat.inputError⟩)

/-- `ccc_impl_fom_insert_or_assign_w`, ccc/impl/impl_flat_ordered_map.h:197-251. -/
def insertOrAssignWM (s : Fom α) (k : κ) (x : α) (ans : Option (Junk α)) : Fl (Fom α × Ent) := do
  let (s, e) ← entry cmp key s k
  if !Stat.has e.stats Stat.occupied then insertVacantWM cmp key s x ans
  else if e.stats = Stat.occupied then do
    let s ← setVal s e.i x
    pure (s, ⟨some e.i, e.stats⟩)
  else pure (s, ⟨none, Stat.inputError⟩)

/-- `ccc_fom_clear_and_free`, src/flat_ordered_map.c:514-534. -/
def clearAndFreeM (s : Fom α) (destroy : Bool) : Fl (Fom α × List (Nat × α) × Res) := do
  let d ← (if destroy then destroyLoop s (if 1 ≥ s.cap then none else some 1) [] else some [] : Option (List (Nat × α)))
  let s := { s with t := s.t.setRoot 0 }
  let r ← bufAlloc 0 (if s.hasAlloc then some true else none)
  if r = .ok then pure ({ s with cap := 0, t := { s.t with live := inUse s.sz 0 } }, d, r)
  else pure (s, d, r)

/-- One call of the interface. -/
def stepM (s : Fom α) : FlatMap.Op α κ (Junk α) → Fl (Fom α × FlatMap.Out α)
  | .insert x ans => do
    let (s, e, h) ← insertM cmp key s x ans
    pure (s, .insEnt e.stats (view s (Ent.unwrap (some e))) h)
  | .tryInsert x ans => do
    let (s, e) ← tryInsertM cmp key s x ans
    pure (s, .ent e.stats (view s (Ent.unwrap (some e))))
  | .insertOrAssign x ans => do
    let (s, e) ← insertOrAssignM cmp key s x ans
    pure (s, .ent e.stats (view s (Ent.unwrap (some e))))
  | .orInsert k x ans => do
    let (s, e) ← entry cmp key s k
    let (s, p) ← orInsertM cmp key s e x ans
    pure (s, .ptr (view s p))
  | .insertEntry k x ans => do
    let (s, e) ← entry cmp key s k
    let (s, p) ← insertEntryM cmp key s e x ans
    pure (s, .ptr (view s p))
  | .orInsertW k x ans => do
    let (s, e) ← entry cmp key s k
    let (s, p) ← orInsertWM cmp key s e x ans
    pure (s, .ptr (view s p))
  | .insertEntryW k x ans => do
    let (s, e) ← entry cmp key s k
    let (s, p) ← insertEntryWM cmp key s e x ans
    pure (s, .ptr (view s p))
  | .tryInsertW k x ans => do
    let (s, e) ← tryInsertWM cmp key s k x ans
    pure (s, .ent e.stats (view s (Ent.unwrap (some e))))
  | .insertOrAssignW k x ans => do
    let (s, e) ← insertOrAssignWM cmp key s k x ans
    pure (s, .ent e.stats (view s (Ent.unwrap (some e))))
  | op => liftM (step cmp key s op)

end Fom

namespace Fhm
open HashMap
variable {α κ : Type} (c : Cfg κ α)

/-- `maybe_resize`, src/flat_hash_map.c:862-923. -/
def maybeResizeM (s : Fhm α) (ans : AllocAns α) : Fl (Fhm α × Res) :=
  let s := if s.cap ≠ 0 ∧ s.sz < 2 then sizeSet { s with mem := wipe s.mem } 2 else s
  if s.cap ≠ 0 ∧ 5 * s.sz ≤ 4 * s.cap then pure (s, .ok)
  else if !s.hasAlloc then pure (s, .noAlloc)
  else
    let cap' := if s.cap ≠ 0 then nextPrime (s.sz * 2) else 11
    if cap' ≤ s.cap then pure (s, .memErr)
    else do
      let newMem ← request none cap' ans.isSome                        -- 890-892
      match newMem, ans with
      | some p, some junk => do
        let t : Fhm α := { mem := wipe (fun i => ⟨0, junk i⟩), sz := 0, cap := cap', hasAlloc := s.hasAlloc }
        let t ← rehashLoop c s (sizeSet t 2) 0
        let r ← bufAlloc 0 (if s.hasAlloc then some true else none)    -- 916
        setMem (some p)                                                -- 918, 921
        pure (t, if r ≠ .ok then .memErr else .ok)
      | _, _ => pure (s, .memErr)

/-- `entry` and `container_entry`, src/flat_hash_map.c:719-730, 841-850. -/
def entryM (s : Fhm α) (k : κ) (ans : AllocAns α) : Fl (Fhm α × FEnt) := do
  let (s, r) ← maybeResizeM c s ans
  let (e, _) ← find c s k (filter c k)
  pure (s, ⟨⟨e.e, if r ≠ .ok then e.stats ||| Stat.insertError else e.stats⟩, filter c k⟩)

/-- `ccc_fhm_contains`, src/flat_hash_map.c:179-187. -/
def containsM (s : Fhm α) (k : κ) (ans : AllocAns α) : Fl (Fhm α × Bool) := do
  let (s, e) ← entryM c s k ans
  pure (s, Stat.has e.ent.stats Stat.occupied)

/-- `ccc_fhm_insert`, src/flat_hash_map.c:285-310. -/
def insertM (s : Fhm α) (x : α) (ans : AllocAns α) : Fl (Fhm α × Nat × Bool × α) := do
  let (s, e) ← entryM c s (c.key x) ans
  if Stat.has e.ent.stats Stat.occupied then do
    let i ← e.ent.e
    let old ← at_ s i
    let s ← put s 0 old
    let s ← put s i ⟨e.hash, x⟩
    let s ← putHash s 0 0
    pure (s, Stat.occupied, true, old.val)
  else if Stat.has e.ent.stats Stat.insertError then pure (s, Stat.insertError, false, x)
  else do
    let i ← e.ent.e
    let (s, _) ← insertAt c s x e.hash i
    pure (s, Stat.vacant, false, x)

/-- `ccc_fhm_try_insert`, src/flat_hash_map.c:312-332. -/
def tryInsertM (s : Fhm α) (x : α) (ans : AllocAns α) : Fl (Fhm α × Ent) := do
  let (s, e) ← entryM c s (c.key x) ans
  if Stat.has e.ent.stats Stat.occupied then pure (s, ⟨e.ent.e, Stat.occupied⟩)
  else if Stat.has e.ent.stats Stat.insertError then pure (s, ⟨none, Stat.insertError⟩)
  else do
    let i ← e.ent.e
    let (s, _) ← insertAt c s x e.hash i
    pure (s, ⟨some i, Stat.vacant⟩)

/-- `ccc_fhm_insert_or_assign`, src/flat_hash_map.c:334-355. -/
def insertOrAssignM (s : Fhm α) (x : α) (ans : AllocAns α) : Fl (Fhm α × Ent) := do
  let (s, e) ← entryM c s (c.key x) ans
  if Stat.has e.ent.stats Stat.occupied then do
    let i ← e.ent.e
    let s ← put s i ⟨e.hash, x⟩
    pure (s, ⟨some i, Stat.occupied⟩)
  else if Stat.has e.ent.stats Stat.insertError then pure (s, ⟨none, Stat.insertError⟩)
  else do
    let i ← e.ent.e
    let (s, _) ← insertAt c s x e.hash i
    pure (s, ⟨some i, Stat.vacant⟩)

/-- `ccc_impl_fhm_try_insert_w`, ccc/impl/impl_flat_hash_map.h:221-248. -/
def tryInsertWM (s : Fhm α) (k : κ) (x : α) (ans : AllocAns α) : Fl (Fhm α × Ent) := do
  let (s, e) ← entryM c s k ans
  if Stat.has e.ent.stats Stat.occupied || Stat.has e.ent.stats Stat.insertError then pure (s, e.ent)
  else do
    let (s, p) ← swaps c s e x
    pure (s, ⟨p, Stat.vacant⟩)

/-- `ccc_impl_fhm_insert_or_assign_w`, ccc/impl/impl_flat_hash_map.h:250-291. -/
def insertOrAssignWM (s : Fhm α) (k : κ) (x : α) (ans : AllocAns α) : Fl (Fhm α × Ent) := do
  let (s, e) ← entryM c s k ans
  if Stat.has e.ent.stats Stat.occupied then do
    let i ← e.ent.e
    let s ← put s i ⟨e.hash, x⟩
    pure (s, e.ent)
  else if Stat.has e.ent.stats Stat.insertError then pure (s, ⟨none, Stat.insertError⟩)
  else do
    let (s, p) ← swaps c s e x
    pure (s, ⟨p, Stat.vacant⟩)

/-- `ccc_fhm_clear_and_free`, src/flat_hash_map.c:539-561. -/
def clearAndFreeM (s : Fhm α) (destroy : Bool) : Fl (Fhm α × List (Nat × α) × Res) := do
  let (s, d) ← (if !destroy then some ({ s with sz := 0 }, [])
    else do
      let d ← destroyLoop s 0
      some (s, d) : Option (Fhm α × List (Nat × α)))
  let r ← bufAlloc 0 (if s.hasAlloc then some true else none)
  if r = .ok then pure ({ s with cap := 0 }, d, r) else pure (s, d, r)

/-- `ccc_fhm_copy`, src/flat_hash_map.c:481-513; `srcMem` is `src->buf_.mem_`. -/
def copyM (dst src : Fhm α) (srcMem : Slot) (fn : Option Bool) : Fl (Fhm α × Res) :=
  if dst.cap < src.cap ∧ fn = none then pure (dst, .inputErr)
  else do
    let dstMem ← getMem
    setMem srcMem
    setMem dstMem
    if dst.cap < src.cap then do
      let _ ← bufAlloc src.cap fn
      pure (copy dst src fn)
    else pure (copy dst src fn)

/-- One call of the interface. -/
def stepM (s : Fhm α) : Op α κ → Fl (Fhm α × Out α)
  | .insert x ans => do
    let (s, st, b, h) ← insertM c s x ans
    pure (s, .insEnt st (if b then some h else none) h)
  | .tryInsert x ans => do
    let (s, e) ← tryInsertM c s x ans
    pure (s, .ent (shown e.stats) (view s (Ent.unwrap (some e))))
  | .insertOrAssign x ans => do
    let (s, e) ← insertOrAssignM c s x ans
    pure (s, .ent (shown e.stats) (view s (Ent.unwrap (some e))))
  | .orInsert k x f ans => do
    let (s, e) ← entryM c s k ans
    let (s, p) ← orInsert c s e x
    let s' ← poke s p f
    pure (s', .ptr (view s p))
  | .insertEntry k x ans => do
    let (s, e) ← entryM c s k ans
    let (s, p) ← insertEntry c s e x
    pure (s, .ptr (view s p))
  | .removeEntry k ans => do
    let (s, e) ← entryM c s k ans
    let (s, e) ← removeEntry c s e
    pure (s, .ent (shown e.stats) (view s (Ent.unwrap (some e))))
  | .andModify k f ans => do
    let (s, e) ← entryM c s k ans
    let s ← andModify s e f
    pure (s, .ptr (view s (unwrap e)))
  | .occupied k ans => do
    let (s, e) ← entryM c s k ans
    pure (s, .flag (occupied e))
  | .insertError k ans => do
    let (s, e) ← entryM c s k ans
    pure (s, .flag (insertError e))
  | .orInsertW k x ans => do
    let (s, e) ← entryM c s k ans
    let (s, p) ← orInsertW c s e x
    pure (s, .ptr (view s p))
  | .insertEntryW k x ans => do
    let (s, e) ← entryM c s k ans
    let (s, p) ← insertEntryW c s e x
    pure (s, .ptr (view s p))
  | .tryInsertW k x ans => do
    let (s, e) ← tryInsertWM c s k x ans
    pure (s, .ent (shown e.stats) (view s (Ent.unwrap (some e))))
  | .insertOrAssignW k x ans => do
    let (s, e) ← insertOrAssignWM c s k x ans
    pure (s, .ent (shown e.stats) (view s (Ent.unwrap (some e))))
  | .contains k ans => do
    let (s, b) ← containsM c s k ans
    pure (s, .flag b)
  | op => liftM (step c s op)

end Fhm
end CCC
