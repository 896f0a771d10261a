import Verif.Model.OrderedMap
import Verif.Model.Ledger
/-
The functions of the ordered map that call the user's allocation function, with the calls written down; the functions are
those of `Verif/Model/OrderedMap.lean`.
-/
namespace CCC.Om
open CCC Splay Rom PtrMap

variable {α κ : Type} (cmp : κ → κ → Cmp) (key : α → κ)

/-- `alloc_insert`, src/ordered_map.c:628-662; the request is at 645. -/
def allocInsertL (s : Om α) (h : Nat) (ans : Option Nat) : Led (Om α × Slot) := do
  let (s, rc) ← liftM (if !empty s then splayTo cmp key s (key (s.val h)) else some (s, .err))
  if rc = .eql then pure (s, none)
  else do
    let n ← (if s.alloc then ask ans else pure (some h))
    match n with
    | none => pure (s, none)
    | some n => do
      let v := if s.alloc then upd s.val n (s.val h) else s.val
      let t ← liftM (initNode { s.t with live := upd s.t.live n true } n)
      if empty s then pure ({ s with t := t.setRoot n, sz := 1, val := v }, some n)
      else do
        let _ ← liftM (req (rc != .err))
        let t ← liftM (connectNewRoot t n rc)
        pure ({ s with t := t, sz := s.sz + 1, val := v }, some n)

/-- `ccc_om_insert`, src/ordered_map.c:173-204. -/
def insertL (s : Om α) (h tmp : Nat) (ans : Option Nat) : Led (Om α × Ent) := do
  let (s, f) ← liftM (find cmp key s (key (s.val h)))
  if f.isSome then do
    let _ ← liftM (req (s.t.root != 0))
    let v := upd s.val tmp (s.val s.t.root)
    let v := upd v s.t.root (v h)
    let v := upd v h (v tmp)
    pure ({ s with val := v }, ⟨some tmp, Stat.occupied⟩)
  else do
    let (s, i) ← allocInsertL cmp key s h ans
    match i with
    | none => pure (s, ⟨none, Stat.insertError⟩)
    | some _ => pure (s, ⟨none, Stat.vacant⟩)

/-- `ccc_om_try_insert`, src/ordered_map.c:206-228. -/
def tryInsertL (s : Om α) (h : Nat) (ans : Option Nat) : Led (Om α × Ent) := do
  let (s, f) ← liftM (find cmp key s (key (s.val h)))
  if f.isSome then do
    let _ ← liftM (req (s.t.root != 0))
    pure (s, ⟨some s.t.root, Stat.occupied⟩)
  else do
    let (s, i) ← allocInsertL cmp key s h ans
    match i with
    | none => pure (s, ⟨none, Stat.insertError⟩)
    | some n => pure (s, ⟨some n, Stat.vacant⟩)

/-- `ccc_om_insert_or_assign`, src/ordered_map.c:230-254. -/
def insertOrAssignL (s : Om α) (h : Nat) (ans : Option Nat) : Led (Om α × Ent) := do
  let (s, f) ← liftM (find cmp key s (key (s.val h)))
  match f with
  | some a => do
    let _ ← liftM (req (s.t.root != 0))
    pure ({ s with val := upd s.val a (s.val h) }, ⟨some a, Stat.occupied⟩)
  | none => do
    let (s, i) ← allocInsertL cmp key s h ans
    match i with
    | none => pure (s, ⟨none, Stat.insertError⟩)
    | some n => pure (s, ⟨some n, Stat.vacant⟩)

/-- `ccc_om_remove`, src/ordered_map.c:256-277: the block is given back after the copy. -/
def removeL (s : Om α) (h : Nat) : Led (Om α × Ent) := do
  let (s, n) ← liftM (erase cmp key s (key (s.val h)))
  match n with
  | none => pure (s, ⟨none, Stat.vacant⟩)
  | some n =>
    if s.alloc then do
      let s := { s with val := upd s.val h (s.val n) }
      giveBack n
      pure (s, ⟨some h, Stat.occupied⟩)
    else pure (s, ⟨some n, Stat.occupied⟩)

/-- `ccc_om_insert_entry`, src/ordered_map.c:117-132. -/
def insertEntryL (s : Om α) (e : Ent) (h : Nat) (ans : Option Nat) : Led (Om α × Slot) :=
  if e.stats = Stat.occupied then do
    let a ← liftM e.e
    pure ({ s with val := upd s.val a (s.val h) }, some a)
  else allocInsertL cmp key s h ans

/-- `ccc_om_or_insert`, src/ordered_map.c:134-146. -/
def orInsertL (s : Om α) (e : Ent) (h : Nat) (ans : Option Nat) : Led (Om α × Slot) :=
  if Stat.has e.stats Stat.occupied then pure (s, e.e) else allocInsertL cmp key s h ans

/-- `ccc_om_remove_entry`, src/ordered_map.c:279-299. -/
def removeEntryL (s : Om α) (e : Ent) : Led (Om α × Ent) :=
  if e.stats = Stat.occupied then do
    let a ← liftM e.e
    let (s, p) ← liftM (erase cmp key s (key (s.val a)))
    let n ← liftM p
    if s.alloc then do
      giveBack n
      pure (s, ⟨none, Stat.occupied⟩)
    else pure (s, ⟨some n, Stat.occupied⟩)
  else pure (s, ⟨none, Stat.vacant⟩)

/-- `ccc_impl_om_new`, ccc/impl/impl_ordered_map.h:45-56. -/
def newMemL (s : Om α) (ans : Option Nat) : Led (Option Nat) := if s.alloc then ask ans else pure none

/-- `ccc_impl_om_or_insert_w`, ccc/impl/impl_ordered_map.h:115-135. -/
def orInsertWL (s : Om α) (e : Ent) (x : α) (ans : Option Nat) : Led (Om α × Slot) :=
  if e.stats = Stat.occupied then pure (s, e.e)
  else do
    let n ← newMemL s ans
    liftM (insertKeyVal cmp key s n x)

/-- `ccc_impl_om_insert_entry_w`, ccc/impl/impl_ordered_map.h:137-163. -/
def insertEntryWL (s : Om α) (e : Ent) (x : α) (ans : Option Nat) : Led (Om α × Slot) :=
  if !Stat.has e.stats Stat.occupied then do
    let n ← newMemL s ans
    liftM (insertKeyVal cmp key s n x)
  else if e.stats = Stat.occupied then do
    let a ← liftM e.e
    pure ({ s with val := upd s.val a x }, some a)
  else pure (s, none)

/-- `ccc_impl_om_insert_and_copy_key`, ccc/impl/impl_ordered_map.h:70-90. -/
def insertAndCopyKeyL (s : Om α) (x : α) (ans : Option Nat) : Led (Om α × Ent) := do
  let n ← newMemL s ans
  match n with
  | none => pure (s, ⟨none, Stat.insertError⟩)
  | some n => do
    let (s, _) ← liftM (insertNode cmp key { s with val := upd s.val n x } n)
    pure (s, ⟨some n, Stat.insertError⟩)

/-- `ccc_impl_om_try_insert_w`, ccc/impl/impl_ordered_map.h:165-188. -/
def tryInsertWL (s : Om α) (k : κ) (x : α) (ans : Option Nat) : Led (Om α × Ent) := do
  let (s, e) ← liftM (entry cmp key s k)
  if !Stat.has e.stats Stat.occupied then insertAndCopyKeyL cmp key s x ans
  else if e.stats = Stat.occupied then pure (s, e)
  else pure (s, ⟨none, Stat.inputError⟩)

/-- `ccc_impl_om_insert_or_assign_w`, ccc/impl/impl_ordered_map.h:190-226. -/
def insertOrAssignWL (s : Om α) (k : κ) (x : α) (ans : Option Nat) : Led (Om α × Ent) := do
  let (s, e) ← liftM (entry cmp key s k)
  if !Stat.has e.stats Stat.occupied then insertAndCopyKeyL cmp key s x ans
  else if e.stats = Stat.occupied then do
    let a ← liftM e.e
    pure ({ s with val := upd s.val a x }, e)
  else pure (s, ⟨none, Stat.inputError⟩)

/-- The loop of `ccc_om_clear`, src/ordered_map.c:419-432: the block is given back after the destructor ran. -/
def clearLoopL (s : Om α) (acc : List (Nat × α)) : Led (Om α × List (Nat × α)) :=
  if isEmpty s then pure (s, acc)
  else do
    let (s, p) ← liftM (erase cmp key s (key (s.val s.t.root)))
    let r ← liftM p
    let acc := acc ++ [(r, s.val r)]
    if s.alloc then do
      giveBack r
      clearLoopL s acc
    else clearLoopL s acc
partial_fixpoint

/-- `ccc_om_clear`, src/ordered_map.c:412-434. -/
def clearL (s : Om α) : Led (Om α × List (Nat × α) × Res) := do
  let (s, d) ← clearLoopL cmp key s []
  pure (s, d, .ok)

/-- One call of the interface; those not listed do not call the allocation function. -/
def stepL (s : Om α) : Op α κ → Led (Om α × Out α)
  | .insert h x tmp y ans => do
    let (s, e) ← insertL cmp key (put (put s tmp y) h x) h tmp ans
    pure (s, .insEnt e.stats (view s (Ent.unwrap (some e))) (s.val tmp))
  | .tryInsert h x ans => do
    let (s, e) ← tryInsertL cmp key (put s h x) h ans
    pure (s, .ent e.stats (view s (Ent.unwrap (some e))))
  | .insertOrAssign h x ans => do
    let (s, e) ← insertOrAssignL cmp key (put s h x) h ans
    pure (s, .ent e.stats (view s (Ent.unwrap (some e))))
  | .remove h x => do
    let (s, e) ← removeL cmp key (put s h x) h
    pure (s, .ent e.stats (view s (Ent.unwrap (some e))))
  | .orInsert k h x ans => do
    let (s, e) ← liftM (entry cmp key (put s h x) k)
    let (s, p) ← orInsertL cmp key s e h ans
    pure (s, .ptr (view s p))
  | .insertEntry k h x ans => do
    let (s, e) ← liftM (entry cmp key (put s h x) k)
    let (s, p) ← insertEntryL cmp key s e h ans
    pure (s, .ptr (view s p))
  | .removeEntry k => do
    let (s, e) ← liftM (entry cmp key s k)
    let (s, e) ← removeEntryL cmp key s e
    pure (s, .ent e.stats (view s (Ent.unwrap (some e))))
  | .orInsertW k x ans => do
    let (s, e) ← liftM (entry cmp key s k)
    let (s, p) ← orInsertWL cmp key s e x ans
    pure (s, .ptr (view s p))
  | .insertEntryW k x ans => do
    let (s, e) ← liftM (entry cmp key s k)
    let (s, p) ← insertEntryWL cmp key s e x ans
    pure (s, .ptr (view s p))
  | .tryInsertW k x ans => do
    let (s, e) ← tryInsertWL cmp key s k x ans
    pure (s, .ptr (view s (Ent.unwrap (some e))))
  | .insertOrAssignW k x ans => do
    let (s, e) ← insertOrAssignWL cmp key s k x ans
    pure (s, .ptr (view s (Ent.unwrap (some e))))
  | .clear => do
    let (s, _, r) ← clearL cmp key s
    pure (s, .result r)
  | op => liftM (step cmp key s op)

/-- A history of calls. -/
def runL (s : Om α) : List (Op α κ) → Led (Om α × List (Out α))
  | [] => pure (s, [])
  | o :: os => do
    let (s, r) ← stepL cmp key s o
    let (s, rs) ← runL s os
    pure (s, r :: rs)

end CCC.Om
