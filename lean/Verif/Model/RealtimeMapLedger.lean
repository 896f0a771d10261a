import Verif.Model.RealtimeMap
import Verif.Model.Ledger
/-
The functions of the realtime ordered map that call the user's allocation function, with the calls written down; the
functions are those of `Verif/Model/RealtimeMap.lean`.
-/
namespace CCC.Rom
open CCC Wavl PtrMap

variable {α κ : Type} (cmp : κ → κ → Cmp) (key : α → κ)

/-- `maybe_alloc_insert`, src/realtime_ordered_map.c:637-655; the request is at 645. -/
def maybeAllocInsertL (s : Rom α) (parent : Nat) (last : Cmp) (h : Nat) (ans : Option Nat) : Led (Rom α × Slot) :=
  if s.alloc then do
    let n ← ask ans
    match n with
    | none => pure (s, none)
    | some n => do
      let s ← liftM (insertNode { s with val := upd s.val n (s.val h) } parent last n)
      pure (s, some n)
  else do
    let s ← liftM (insertNode s parent last h)
    pure (s, some h)

/-- `ccc_rom_insert`, src/realtime_ordered_map.c:178-206. -/
def insertL (s : Rom α) (h tmp : Nat) (ans : Option Nat) : Led (Rom α × Ent) := do
  let q ← liftM (find cmp key s (key (s.val h)))
  if q.1 = .eql then
    let v := upd s.val tmp (s.val q.2)
    let v := upd v q.2 (v h)
    let v := upd v h (v tmp)
    pure ({ s with val := v }, ⟨some tmp, Stat.occupied⟩)
  else do
    let (s, i) ← maybeAllocInsertL s q.2 q.1 h ans
    match i with
    | none => pure (s, ⟨none, Stat.insertError⟩)
    | some _ => pure (s, ⟨none, Stat.vacant⟩)

/-- `ccc_rom_try_insert`, src/realtime_ordered_map.c:208-229. -/
def tryInsertL (s : Rom α) (h : Nat) (ans : Option Nat) : Led (Rom α × Ent) := do
  let q ← liftM (find cmp key s (key (s.val h)))
  if q.1 = .eql then pure (s, ⟨some q.2, Stat.occupied⟩)
  else do
    let (s, i) ← maybeAllocInsertL s q.2 q.1 h ans
    match i with
    | none => pure (s, ⟨none, Stat.insertError⟩)
    | some n => pure (s, ⟨some n, Stat.vacant⟩)

/-- `ccc_rom_insert_or_assign`, src/realtime_ordered_map.c:231-254. -/
def insertOrAssignL (s : Rom α) (h : Nat) (ans : Option Nat) : Led (Rom α × Ent) := do
  let q ← liftM (find cmp key s (key (s.val h)))
  if q.1 = .eql then pure ({ s with val := upd s.val q.2 (s.val h) }, ⟨some q.2, Stat.occupied⟩)
  else do
    let (s, i) ← maybeAllocInsertL s q.2 q.1 h ans
    match i with
    | none => pure (s, ⟨none, Stat.insertError⟩)
    | some n => pure (s, ⟨some n, Stat.vacant⟩)

/-- `ccc_rom_remove`, src/realtime_ordered_map.c:323-345: the block is given back after the copy. -/
def removeL (s : Rom α) (h : Nat) : Led (Rom α × Ent) := do
  let q ← liftM (find cmp key s (key (s.val h)))
  if q.1 ≠ .eql then pure (s, ⟨none, Stat.vacant⟩)
  else do
    let s ← liftM (removeFixup s q.2)
    if s.alloc then do
      let s := { s with val := upd s.val h (s.val q.2) }
      giveBack q.2
      pure (s, ⟨some h, Stat.occupied⟩)
    else pure (s, ⟨some q.2, Stat.occupied⟩)

/-- `ccc_rom_or_insert`, src/realtime_ordered_map.c:266-280. -/
def orInsertL (s : Rom α) (e : REnt) (h : Nat) (ans : Option Nat) : Led (Rom α × Slot) :=
  if e.stats = Stat.occupied then pure (s, some e.e) else maybeAllocInsertL s e.e e.last h ans

/-- `ccc_rom_insert_entry`, src/realtime_ordered_map.c:282-299. -/
def insertEntryL (s : Rom α) (e : REnt) (h : Nat) (ans : Option Nat) : Led (Rom α × Slot) :=
  if e.stats = Stat.occupied then pure ({ s with val := upd s.val e.e (s.val h) }, some e.e)
  else maybeAllocInsertL s e.e e.last h ans

/-- `ccc_rom_remove_entry`, src/realtime_ordered_map.c:301-321. -/
def removeEntryL (s : Rom α) (e : REnt) : Led (Rom α × Ent) :=
  if e.stats = Stat.occupied then do
    let s ← liftM (removeFixup s e.e)
    if s.alloc then do
      giveBack e.e
      pure (s, ⟨none, Stat.occupied⟩)
    else pure (s, ⟨some e.e, Stat.occupied⟩)
  else pure (s, ⟨none, Stat.vacant⟩)

/-- `ccc_impl_rom_new`, ccc/impl/impl_realtime_ordered_map.h:80-92. -/
def newMemL (s : Rom α) (ans : Option Nat) : Led (Option Nat) := if s.alloc then ask ans else pure none

/-- `ccc_impl_rom_or_insert_w`, ccc/impl/impl_realtime_ordered_map.h:159-180. -/
def orInsertWL (s : Rom α) (e : REnt) (x : α) (ans : Option Nat) : Led (Rom α × Slot) :=
  if e.stats = Stat.occupied then pure (s, some e.e)
  else do
    let n ← newMemL s ans
    liftM (insertKeyVal s e n x)

/-- `ccc_impl_rom_insert_entry_w`, ccc/impl/impl_realtime_ordered_map.h:182-210. -/
def insertEntryWL (s : Rom α) (e : REnt) (x : α) (ans : Option Nat) : Led (Rom α × Slot) :=
  if !Stat.has e.stats Stat.occupied then do
    let n ← newMemL s ans
    liftM (insertKeyVal s e n x)
  else if e.stats = Stat.occupied then pure ({ s with val := upd s.val e.e x }, some e.e)
  else pure (s, none)

/-- `ccc_impl_rom_insert_and_copy_key`, ccc/impl/impl_realtime_ordered_map.h:111-134. -/
def insertAndCopyKeyL (s : Rom α) (e : REnt) (x : α) (ans : Option Nat) : Led (Rom α × Ent) := do
  let n ← newMemL s ans
  match n with
  | none => pure (s, ⟨none, Stat.insertError⟩)
  | some n => do
    let s ← liftM (insertNode { s with val := upd s.val n x } e.e e.last n)
    pure (s, ⟨some n, Stat.insertError⟩)

/-- `ccc_impl_rom_try_insert_w`, ccc/impl/impl_realtime_ordered_map.h:212-235. -/
def tryInsertWL (s : Rom α) (k : κ) (x : α) (ans : Option Nat) : Led (Rom α × Ent) := do
  let e ← liftM (entry cmp key s k)
  if !Stat.has e.stats Stat.occupied then insertAndCopyKeyL s e x ans
  else if e.stats = Stat.occupied then pure (s, ⟨some e.e, e.stats⟩)
  else pure (s, ⟨none, Stat.inputError⟩)

/-- `ccc_impl_rom_insert_or_assign_w`, ccc/impl/impl_realtime_ordered_map.h:237-282. -/
def insertOrAssignWL (s : Rom α) (k : κ) (x : α) (ans : Option Nat) : Led (Rom α × Ent) := do
  let e ← liftM (entry cmp key s k)
  if !Stat.has e.stats Stat.occupied then insertAndCopyKeyL s e x ans
  else if e.stats = Stat.occupied then pure ({ s with val := upd s.val e.e x }, ⟨some e.e, e.stats⟩)
  else pure (s, ⟨none, Stat.inputError⟩)

/-- The loop of `ccc_rom_clear`, src/realtime_ordered_map.c:507-532: the block is given back after the destructor
ran. -/
def clearLoopL (s : Rom α) (acc : List (Nat × α)) : Led (Rom α × List (Nat × α)) :=
  if s.sz = 0 then pure (s, acc)
  else do
    let _ ← liftM (s.t.getBr s.t.root false)
    let _ ← liftM (s.t.getBr s.t.root true)
    let r := s.t.root
    let s' ← liftM (removeFixup s r)
    let acc := acc ++ [(r, s'.val r)]
    if s'.alloc then do
      giveBack r
      clearLoopL s' acc
    else clearLoopL s' acc
partial_fixpoint

/-- `ccc_rom_clear`, src/realtime_ordered_map.c:507-532. -/
def clearL (s : Rom α) : Led (Rom α × List (Nat × α) × Res) := do
  let (s, d) ← clearLoopL s []
  pure (s, d, .ok)

/-- One call of the interface; those not listed do not call the allocation function. -/
def stepL (s : Rom α) : Op α κ → Led (Rom α × Out α)
  | .insert h x tmp y ans => do
    let (s, e) ← insertL cmp key (put (put s tmp y) h x) h tmp ans
    pure (s, .insEnt e.stats (view s (Ent.unwrap (some e))) (s.val tmp))
  | .tryInsert h x ans => do
    let (s, e) ← tryInsertL cmp key (put s h x) h ans
    pure (s, .ent e.stats (view s (Ent.unwrap (some e))))
  | .insertOrAssign h x ans => do
    let (s, e) ← insertOrAssignL cmp key (put s h x) h ans
    pure (s, .ent e.stats (view s (Ent.unwrap (some e))))
  | .remove h x => do
    let (s, e) ← removeL cmp key (put s h x) h
    pure (s, .ent e.stats (view s (Ent.unwrap (some e))))
  | .orInsert k h x ans => do
    let s := put s h x
    let e ← liftM (entry cmp key s k)
    let (s, p) ← orInsertL s e h ans
    pure (s, .ptr (view s p))
  | .insertEntry k h x ans => do
    let s := put s h x
    let e ← liftM (entry cmp key s k)
    let (s, p) ← insertEntryL s e h ans
    pure (s, .ptr (view s p))
  | .removeEntry k => do
    let e ← liftM (entry cmp key s k)
    let (s, e) ← removeEntryL s e
    pure (s, .ent e.stats (view s (Ent.unwrap (some e))))
  | .orInsertW k x ans => do
    let e ← liftM (entry cmp key s k)
    let (s, p) ← orInsertWL s e x ans
    pure (s, .ptr (view s p))
  | .insertEntryW k x ans => do
    let e ← liftM (entry cmp key s k)
    let (s, p) ← insertEntryWL s e x ans
    pure (s, .ptr (view s p))
  | .tryInsertW k x ans => do
    let (s, e) ← tryInsertWL cmp key s k x ans
    pure (s, .ptr (view s (Ent.unwrap (some e))))
  | .insertOrAssignW k x ans => do
    let (s, e) ← insertOrAssignWL cmp key s k x ans
    pure (s, .ptr (view s (Ent.unwrap (some e))))
  | .clear => do
    let (s, _, r) ← clearL s
    pure (s, .result r)
  | op => liftM (step cmp key s op)

/-- A history of calls. -/
def runL (s : Rom α) : List (Op α κ) → Led (Rom α × List (Out α))
  | [] => pure (s, [])
  | o :: os => do
    let (s, r) ← stepL cmp key s o
    let (s, rs) ← runL s os
    pure (s, r :: rs)

end CCC.Rom
