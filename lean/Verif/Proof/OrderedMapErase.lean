import Verif.Model.OrderedMapCost
import Verif.Proof.SplaySplit
/-
The counter is the only difference between the counted functions of the ordered map and the functions.
-/
namespace CCC.Om
open CCC Splay Rom PtrMap

variable {α κ : Type} (cmp : κ → κ → Cmp) (key : α → κ)

theorem splayToN_er (s : Om α) (k : κ) : Er (splayToN cmp key s k) (splayTo cmp key s k) := by
  refine (splayN_er _ _ _).bind ?_
  rintro ⟨t, r⟩
  exact (Er.cnt _ _).bind (fun _ => .pure _)

theorem findN_er (s : Om α) (k : κ) : Er (findN cmp key s k) (find cmp key s k) := by
  refine .ite (.pure _) ((splayToN_er _ _ _ _).bind ?_)
  rintro ⟨t, r⟩
  exact .pure _

theorem containsN_er (s : Om α) (k : κ) : Er (containsN cmp key s k) (contains cmp key s k) := by
  refine (splayToN_er _ _ _ _).bind ?_
  rintro ⟨t, r⟩
  exact .pure _

theorem allocInsertN_er (s : Om α) (h : Nat) (ans : Option Nat) :
    Er (allocInsertN cmp key s h ans) (allocInsert cmp key s h ans) := by
  refine Er.bind (.ite (splayToN_er _ _ _ _) (.pure _)) ?_
  rintro ⟨s, rc⟩
  refine .ite (.pure _) ?_
  simp only
  cases (if s.alloc = true then ans else some h) with
  | none => exact .pure _
  | some n =>
    exact (Er.lift _).bind (fun t => .ite (.pure _) ((Er.lift _).bind (fun _ => (Er.lift _).bind (fun _ => .pure _))))

theorem insertNodeN_er (s : Om α) (n : Nat) : Er (insertNodeN cmp key s n) (insertNode cmp key s n) := by
  refine (Er.lift _).bind (fun t => .ite (.pure _) ((splayToN_er _ _ _ _).bind ?_))
  rintro ⟨s, rc⟩
  exact .ite (.pure _) ((Er.lift _).bind (fun t => .pure _))

theorem eraseN_er (s : Om α) (k : κ) : Er (eraseN cmp key s k) (erase cmp key s k) := by
  refine .ite (.pure _) ((splayN_er _ _ _).bind ?_)
  rintro ⟨t, ret⟩
  exact (Er.cnt _ _).bind (fun q => .ite (.pure _) ((removeFromTreeN_er _ _ _).bind (fun t => .pure _)))

theorem insertN_er (s : Om α) (h tmp : Nat) (ans : Option Nat) :
    Er (insertN cmp key s h tmp ans) (insert cmp key s h tmp ans) := by
  refine (findN_er _ _ _ _).bind ?_
  rintro ⟨s, f⟩
  refine .ite ((Er.lift _).bind (fun _ => .pure _)) ((allocInsertN_er _ _ _ _ _).bind ?_)
  rintro ⟨s, _ | i⟩ <;> exact .pure _

theorem tryInsertN_er (s : Om α) (h : Nat) (ans : Option Nat) :
    Er (tryInsertN cmp key s h ans) (tryInsert cmp key s h ans) := by
  refine (findN_er _ _ _ _).bind ?_
  rintro ⟨s, f⟩
  refine .ite ((Er.lift _).bind (fun _ => .pure _)) ((allocInsertN_er _ _ _ _ _).bind ?_)
  rintro ⟨s, _ | i⟩ <;> exact .pure _

theorem insertOrAssignN_er (s : Om α) (h : Nat) (ans : Option Nat) :
    Er (insertOrAssignN cmp key s h ans) (insertOrAssign cmp key s h ans) := by
  refine (findN_er _ _ _ _).bind ?_
  rintro ⟨s, _ | f⟩
  · refine (allocInsertN_er _ _ _ _ _).bind ?_
    rintro ⟨s, _ | i⟩ <;> exact .pure _
  · exact (Er.lift _).bind (fun _ => .pure _)

theorem removeN_er (s : Om α) (h : Nat) : Er (removeN cmp key s h) (remove cmp key s h) := by
  refine (eraseN_er _ _ _ _).bind ?_
  rintro ⟨s, _ | n⟩
  · exact .pure _
  · exact .ite (.pure _) (.pure _)

theorem entryN_er (s : Om α) (k : κ) : Er (entryN cmp key s k) (entry cmp key s k) := by
  refine (findN_er _ _ _ _).bind ?_
  rintro ⟨s, f⟩
  exact .ite (.pure _) (.pure _)

theorem insertEntryN_er (s : Om α) (e : Ent) (h : Nat) (ans : Option Nat) :
    Er (insertEntryN cmp key s e h ans) (insertEntry cmp key s e h ans) :=
  .ite ((Er.lift _).bind (fun _ => .pure _)) (allocInsertN_er _ _ _ _ _)

theorem orInsertN_er (s : Om α) (e : Ent) (h : Nat) (ans : Option Nat) :
    Er (orInsertN cmp key s e h ans) (orInsert cmp key s e h ans) :=
  .ite (.pure _) (allocInsertN_er _ _ _ _ _)

theorem removeEntryN_er (s : Om α) (e : Ent) : Er (removeEntryN cmp key s e) (removeEntry cmp key s e) := by
  refine .ite ((Er.lift _).bind (fun a => (eraseN_er _ _ _ _).bind ?_)) (.pure _)
  rintro ⟨s, p⟩
  exact (Er.lift _).bind (fun n => .ite (.pure _) (.pure _))

theorem insertKeyValN_er (s : Om α) (new : Option Nat) (x : α) :
    Er (insertKeyValN cmp key s new x) (insertKeyVal cmp key s new x) := by
  cases new with
  | none => exact .pure _
  | some n => exact insertNodeN_er _ _ _ _

theorem orInsertWN_er (s : Om α) (e : Ent) (x : α) (ans : Option Nat) :
    Er (orInsertWN cmp key s e x ans) (orInsertW cmp key s e x ans) :=
  .ite (.pure _) (insertKeyValN_er _ _ _ _ _)

theorem insertEntryWN_er (s : Om α) (e : Ent) (x : α) (ans : Option Nat) :
    Er (insertEntryWN cmp key s e x ans) (insertEntryW cmp key s e x ans) :=
  .ite (insertKeyValN_er _ _ _ _ _) (.ite ((Er.lift _).bind (fun _ => .pure _)) (.pure _))

theorem insertAndCopyKeyN_er (s : Om α) (x : α) (ans : Option Nat) :
    Er (insertAndCopyKeyN cmp key s x ans) (insertAndCopyKey cmp key s x ans) := by
  unfold insertAndCopyKeyN insertAndCopyKey
  cases newMem s ans with
  | none => exact .pure _
  | some n => exact (insertNodeN_er _ _ _ _).bind (fun _ => .pure _)

theorem tryInsertWN_er (s : Om α) (k : κ) (x : α) (ans : Option Nat) :
    Er (tryInsertWN cmp key s k x ans) (tryInsertW cmp key s k x ans) := by
  refine (entryN_er _ _ _ _).bind ?_
  rintro ⟨s, e⟩
  exact .ite (insertAndCopyKeyN_er _ _ _ _ _) (.ite (.pure _) (.pure _))

theorem insertOrAssignWN_er (s : Om α) (k : κ) (x : α) (ans : Option Nat) :
    Er (insertOrAssignWN cmp key s k x ans) (insertOrAssignW cmp key s k x ans) := by
  refine (entryN_er _ _ _ _).bind ?_
  rintro ⟨s, e⟩
  exact .ite (insertAndCopyKeyN_er _ _ _ _ _) (.ite ((Er.lift _).bind (fun _ => .pure _)) (.pure _))

theorem equalRangeN_er (s : Om α) (b e : κ) (trav : Bool) :
    Er (equalRangeN cmp key s b e trav) (equalRange cmp key s b e trav) := by
  refine .ite (.pure _) ((Splay.equalRangeN_er _ _ _ _).bind ?_)
  rintro ⟨t, x, y⟩
  exact .pure _

open Lean.Order in
theorem clearLoopN_er : ∀ (s : Om α) (acc : List (Nat × α)),
    Er (clearLoopN cmp key s acc) (clearLoop cmp key s acc) := by
  apply clearLoopN.fixpoint_induct (motive := fun f => ∀ s acc, Er (f s acc) (clearLoop cmp key s acc))
  · refine admissible_pi_apply (P := fun s (g : List (Nat × α) → Count (Om α × List (Nat × α))) =>
      ∀ acc, Er (g acc) (clearLoop cmp key s acc)) (fun s => ?_)
    refine admissible_pi_apply (P := fun acc (g : Count (Om α × List (Nat × α))) =>
      Er g (clearLoop cmp key s acc)) (fun acc => ?_)
    exact Er.admissible _
  · intro f ih s acc
    rw [clearLoop]
    refine .ite (.pure _) ((eraseN_er _ _ _ _).bind ?_)
    rintro ⟨s, p⟩
    exact (Er.lift _).bind (fun r => ih _ _)

theorem clearN_er (s : Om α) : Er (clearN cmp key s) (clear cmp key s) := by
  refine (clearLoopN_er _ _ _ _).bind ?_
  rintro ⟨s, d⟩
  exact .pure _

theorem stepN_er (s : Om α) (o : Op α κ) : Er (stepN cmp key s o) (step cmp key s o) := by
  cases o with
  | insert => exact (insertN_er _ _ _ _ _ _).bind (fun _ => .pure _)
  | tryInsert => exact (tryInsertN_er _ _ _ _ _).bind (fun _ => .pure _)
  | insertOrAssign => exact (insertOrAssignN_er _ _ _ _ _).bind (fun _ => .pure _)
  | remove => exact (removeN_er _ _ _ _).bind (fun _ => .pure _)
  | orInsert => exact (entryN_er _ _ _ _).bind (fun _ => (orInsertN_er _ _ _ _ _ _).bind (fun _ => .pure _))
  | insertEntry => exact (entryN_er _ _ _ _).bind (fun _ => (insertEntryN_er _ _ _ _ _ _).bind (fun _ => .pure _))
  | removeEntry => exact (entryN_er _ _ _ _).bind (fun _ => (removeEntryN_er _ _ _ _).bind (fun _ => .pure _))
  | andModify => exact (entryN_er _ _ _ _).bind (fun _ => (Er.lift _).bind (fun _ => .pure _))
  | occupied => exact (entryN_er _ _ _ _).bind (fun _ => .pure _)
  | orInsertW => exact (entryN_er _ _ _ _).bind (fun _ => (orInsertWN_er _ _ _ _ _ _).bind (fun _ => .pure _))
  | insertEntryW => exact (entryN_er _ _ _ _).bind (fun _ => (insertEntryWN_er _ _ _ _ _ _).bind (fun _ => .pure _))
  | tryInsertW => exact (tryInsertWN_er _ _ _ _ _ _).bind (fun _ => .pure _)
  | insertOrAssignW => exact (insertOrAssignWN_er _ _ _ _ _ _).bind (fun _ => .pure _)
  | contains => exact (containsN_er _ _ _ _).bind (fun _ => .pure _)
  | get => exact (findN_er _ _ _ _).bind (fun _ => .pure _)
  | begin => exact (Er.lift _).bind (fun _ => .pure _)
  | rbegin => exact (Er.lift _).bind (fun _ => .pure _)
  | next => exact (Er.lift _).bind (fun _ => .pure _)
  | rnext => exact (Er.lift _).bind (fun _ => .pure _)
  | equalRange => exact (equalRangeN_er _ _ _ _ _ _).bind (fun _ => .pure _)
  | equalRrange => exact (equalRangeN_er _ _ _ _ _ _).bind (fun _ => .pure _)
  | size => exact .pure _
  | isEmpty => exact .pure _
  | validate => exact (Er.lift _).bind (fun _ => .pure _)
  | clear => exact (clearN_er _ _ _).bind (fun _ => .pure _)

/-- A counted history that returns is the history. -/
theorem runN_er (s : Om α) (ops : List (Op α κ)) : Er (runN cmp key s ops) (run cmp key s ops) := by
  induction ops generalizing s with
  | nil => exact .pure _
  | cons o os ih =>
    refine (stepN_er _ _ _ _).bind ?_
    rintro ⟨s, r⟩
    refine (ih s).bind ?_
    rintro ⟨s, rs⟩
    exact .pure _

end CCC.Om
