import Verif.Model.OrderedMultimapCost
import Verif.Proof.Count
/-
The counter is the only difference between the counted functions of the ordered multimap and the functions.
-/
namespace CCC.Omm
open CCC PtrMap MultiSpec

variable {α κ : Type}

open Lean.Order in
theorem splayLoopN_er (c : Nat → Option Cmp) : ∀ (s : Omm α) (lr : Bool → Nat) (root : Nat),
    Er (splayLoopN s c lr root) (splayLoop s c lr root) := by
  apply splayLoopN.fixpoint_induct (motive := fun f => ∀ s lr root, Er (f s lr root) (splayLoop s c lr root))
  · refine admissible_pi_apply (P := fun s (g : (Bool → Nat) → Nat → Count (Omm α × (Bool → Nat) × Nat)) =>
      ∀ lr root, Er (g lr root) (splayLoop s c lr root)) (fun s => ?_)
    refine admissible_pi_apply (P := fun lr (g : Nat → Count (Omm α × (Bool → Nat) × Nat)) =>
      ∀ root, Er (g root) (splayLoop s c lr root)) (fun lr => ?_)
    refine admissible_pi_apply (P := fun root (g : Count (Omm α × (Bool → Nat) × Nat)) =>
      Er g (splayLoop s c lr root)) (fun root => ?_)
    exact Er.admissible _
  · intro f ih s lr root
    rw [splayLoop]
    refine (Er.cnt _ _).bind (fun rc => .ite (.pure _) ?_)
    refine (Er.lift _).bind (fun child => .ite (.pure _) ?_)
    refine (Er.cnt _ _).bind (fun cc => .ite ?_ ?_)
    · refine (Er.lift _).bind (fun b => (Er.lift _).bind (fun t => (Er.lift _).bind (fun t => (Er.lift _).bind
        (fun nx => .ite (.pure _) ?_))))
      exact (Er.lift _).bind (fun t => (Er.lift _).bind (fun nx => ih _ _ _))
    · exact (Er.lift _).bind (fun t => (Er.lift _).bind (fun nx => ih _ _ _))

theorem splayN_er (s : Omm α) (c : Nat → Option Cmp) (root : Nat) : Er (splayN s c root) (splay s c root) := by
  refine (Er.lift _).bind (fun _ => (Er.lift _).bind (fun _ => (Er.lift _).bind (fun _ => (splayLoopN_er _ _ _ _).bind ?_)))
  rintro ⟨t, lr, root⟩
  exact (Er.lift _).bind (fun _ => (Er.lift _).bind (fun _ => (Er.lift _).bind (fun _ => (Er.lift _).bind (fun _ =>
    (Er.lift _).bind (fun _ => (Er.lift _).bind (fun _ => (Er.lift _).bind (fun _ => (Er.lift _).bind (fun _ =>
    (Er.lift _).bind (fun _ => .pure _)))))))))

/-- The loop with the counter in view. -/
theorem splayLoopN_eq (s : Omm α) (c : Nat → Option Cmp) (lr : Bool → Nat) (root n : Nat) :
    splayLoopN s c lr root n = (do
      let rc ← c root
      if rc = .eql then some ((s, lr, root), n + 1) else
      let dir := decide (rc = .grt)
      let child ← branch s root dir
      if child = 0 then some ((s, lr, root), n + 1) else
      let cc ← c child
      if cc ≠ .eql ∧ dir = decide (cc = .grt) then do
        let b ← branch s child (!dir)
        let s ← link s root dir b
        let s ← link s child (!dir) root
        let nx ← branch s child dir
        if nx = 0 then some ((s, lr, child), n + 1 + 1)
        else do
          let s ← link s (lr (!dir)) dir child
          let nx ← branch s child dir
          splayLoopN s c (fun b => if b = !dir then child else lr b) nx (n + 1 + 1)
      else do
        let s ← link s (lr (!dir)) dir root
        let nx ← branch s root dir
        splayLoopN s c (fun b => if b = !dir then root else lr b) nx (n + 1 + 1)) := by
  have st : ∀ {α : Type} (p : Prop) [Decidable p] (x y : Count α) (n : Nat), (if p then x else y) n = if p then x n else y n := by
    intro α p _ x y n; split <;> rfl
  rw [splayLoopN]
  simp only [Count.bind_run, Count.cnt_run, Count.lift_run, st, Count.pure_run, Option.bind_eq_bind,
    Option.bind_map, Function.comp_def]

variable (cmp : κ → κ → Cmp) (key : α → κ)

theorem splayToN_er (s : Omm α) (k : κ) : Er (splayToN cmp key s k) (splayTo cmp key s k) := by
  refine (splayN_er _ _ _).bind ?_
  rintro ⟨t, r⟩
  exact (Er.cnt _ _).bind (fun _ => .pure _)

theorem findN_er (s : Omm α) (k : κ) : Er (findN cmp key s k) (find cmp key s k) := by
  refine .ite (.pure _) ((splayToN_er _ _ _ _).bind ?_)
  rintro ⟨t, r⟩
  exact .pure _

theorem containsN_er (s : Omm α) (k : κ) : Er (containsN cmp key s k) (contains cmp key s k) := by
  refine (splayToN_er _ _ _ _).bind ?_
  rintro ⟨t, r⟩
  exact .pure _

theorem insertNodeN_er (s : Omm α) (n : Nat) : Er (insertNodeN cmp key s n) (insertNode cmp key s n) := by
  refine (Er.lift _).bind (fun t => .ite (.pure _) ((splayToN_er _ _ _ _).bind ?_))
  rintro ⟨s, rc⟩
  exact .ite ((Er.lift _).bind (fun t => .pure _)) ((Er.lift _).bind (fun t => .pure _))

theorem popFrontDupN_er (s : Omm α) (old : Nat) (k : κ) : Er (popFrontDupN cmp key s old k) (popFrontDup cmp key s old k) := by
  refine (Er.lift _).bind (fun repl => (Er.lift _).bind (fun par => Er.bind (.ite (.pure _) ((Er.cnt _ _).bind (fun q =>
    .lift _))) (fun s => ?_)))
  repeat' refine (Er.lift _).bind (fun _ => ?_)
  exact .pure _

theorem removeFromTreeN_er (s : Omm α) (ret : Nat) : Er (removeFromTreeN cmp key s ret) (removeFromTree cmp key s ret) := by
  refine (Er.lift _).bind (fun l => .ite ((Er.lift _).bind (fun r => (Er.lift _).bind (fun _ => .pure _))) ((splayN_er _ _ _).bind ?_))
  rintro ⟨t, root⟩
  exact (Er.lift _).bind (fun _ => (Er.lift _).bind (fun _ => .pure _))

theorem takeRootN_er (s : Omm α) (ret : Nat) : Er (takeRootN cmp key s ret) (takeRoot cmp key s ret) := by
  refine (Er.lift _).bind (fun d => Er.bind (.ite (popFrontDupN_er _ _ _ _ _) (removeFromTreeN_er _ _ _ _)) ?_)
  rintro ⟨s, ret⟩
  exact (Er.lift _).bind (fun _ => .pure _)

theorem eraseN_er (s : Omm α) (k : κ) : Er (eraseN cmp key s k) (erase cmp key s k) := by
  refine .ite (.pure _) ((splayN_er _ _ _).bind ?_)
  rintro ⟨t, ret⟩
  exact (Er.cnt _ _).bind (fun q => .ite (.pure _) (takeRootN_er _ _ _ _))

theorem eraseMaxOrMinN_er (s : Omm α) (q : Cmp) : Er (eraseMaxOrMinN cmp key s q) (eraseMaxOrMin cmp key s q) := by
  refine .ite (.pure _) ((splayN_er _ _ _).bind ?_)
  rintro ⟨t, ret⟩
  exact takeRootN_er _ _ _ _

theorem popDupNodeN_er (s : Omm α) (dup splayed : Nat) :
    Er (popDupNodeN cmp key s dup splayed) (popDupNode cmp key s dup splayed) := by
  refine .ite (popFrontDupN_er _ _ _ _ _) ((Er.lift _).bind (fun n => .ite ((Er.lift _).bind (fun _ => .pure _)) ?_))
  repeat' refine (Er.lift _).bind (fun _ => ?_)
  exact .pure _

theorem eraseNodeN_er (s : Omm α) (node : Nat) : Er (eraseNodeN cmp key s node) (eraseNode cmp key s node) := by
  refine (Er.lift _).bind (fun l => (Er.lift _).bind (fun r => .ite (.pure _) (.ite (.pure _) ((Er.lift _).bind (fun p =>
    .ite ?_ ?_)))))
  · refine (Er.lift _).bind (fun _ => (Er.lift _).bind (fun _ => (Er.lift _).bind (fun _ => (Er.lift _).bind (fun _ =>
      .ite ?_ (.lift _)))))
    exact (Er.lift _).bind (fun _ => (Er.lift _).bind (fun _ => .pure _))
  · refine (splayN_er _ _ _).bind ?_
    rintro ⟨t, ret⟩
    refine (Er.cnt _ _).bind (fun q => .ite (.pure _) ?_)
    refine (Er.lift _).bind (fun d => Er.bind (.ite (popDupNodeN_er _ _ _ _ _) (removeFromTreeN_er _ _ _ _)) ?_)
    rintro ⟨s, ret⟩
    exact (Er.lift _).bind (fun _ => .pure _)

theorem insertN_er (s : Omm α) (h : Nat) (ans : Slot) : Er (insertN cmp key s h ans) (insert cmp key s h ans) := by
  refine .ite ?_ (insertNodeN_er _ _ _ _)
  cases ans with
  | none => exact .pure _
  | some n => exact insertNodeN_er _ _ _ _

theorem tryInsertN_er (s : Omm α) (h : Nat) : Er (tryInsertN cmp key s h) (tryInsert cmp key s h) := by
  refine (findN_er _ _ _ _).bind ?_
  rintro ⟨s, f⟩
  exact .ite (.pure _) (insertNodeN_er _ _ _ _)

theorem insertOrAssignN_er (s : Omm α) (h : Nat) : Er (insertOrAssignN cmp key s h) (insertOrAssign cmp key s h) := by
  refine (findN_er _ _ _ _).bind ?_
  rintro ⟨s, _ | f⟩
  · exact insertNodeN_er _ _ _ _
  · exact .ite (.lift _) (.pure _)

theorem removeN_er (s : Omm α) (h : Nat) : Er (removeN cmp key s h) (remove cmp key s h) := by
  refine (eraseN_er _ _ _ _).bind ?_
  rintro ⟨s, _ | n⟩
  · exact .pure _
  · exact .ite ((Er.lift _).bind (fun _ => .pure _)) (.pure _)

theorem entryN_er (s : Omm α) (k : κ) : Er (entryN cmp key s k) (entry cmp key s k) := by
  refine (findN_er _ _ _ _).bind ?_
  rintro ⟨s, f⟩
  exact .ite (.pure _) (.pure _)

theorem insertEntryN_er (s : Omm α) (h : Nat) : Er (insertEntryN cmp key s h) (insertEntry cmp key s h) := by
  refine (insertNodeN_er _ _ _ _).bind ?_
  rintro ⟨s, f⟩
  exact .pure _

theorem orInsertN_er (s : Omm α) (e : Ent) (h : Nat) : Er (orInsertN cmp key s e h) (orInsert cmp key s e h) :=
  .ite (.pure _) (insertEntryN_er _ _ _ _)

theorem removeEntryN_er (s : Omm α) (e : Ent) : Er (removeEntryN cmp key s e) (removeEntry cmp key s e) := by
  refine .ite ((Er.lift _).bind (fun a => (eraseN_er _ _ _ _).bind ?_)) (.pure _)
  rintro ⟨s, p⟩
  exact (Er.lift _).bind (fun n => .ite ((Er.lift _).bind (fun _ => .pure _)) (.pure _))

theorem insertKeyValN_er (s : Omm α) (x : α) (ans : Slot) : Er (insertKeyValN cmp key s x ans) (insertKeyVal cmp key s x ans) := by
  unfold insertKeyValN insertKeyVal
  rcases newMem s x ans with ⟨s, _ | n⟩
  · exact .pure _
  · exact insertEntryN_er _ _ _ _

theorem orInsertWN_er (s : Omm α) (e : Ent) (x : α) (ans : Slot) :
    Er (orInsertWN cmp key s e x ans) (orInsertW cmp key s e x ans) :=
  .ite (.pure _) (insertKeyValN_er _ _ _ _ _)

theorem insertEntryWN_er (s : Omm α) (x : α) (ans : Slot) :
    Er (insertEntryWN cmp key s x ans) (insertEntryW cmp key s x ans) := insertKeyValN_er _ _ _ _ _

theorem insertAndCopyKeyN_er (s : Omm α) (x : α) (ans : Slot) :
    Er (insertAndCopyKeyN cmp key s x ans) (insertAndCopyKey cmp key s x ans) := by
  refine (insertKeyValN_er _ _ _ _ _).bind ?_
  rintro ⟨s, f⟩
  exact .pure _

theorem tryInsertWN_er (s : Omm α) (k : κ) (x : α) (ans : Slot) :
    Er (tryInsertWN cmp key s k x ans) (tryInsertW cmp key s k x ans) := by
  refine (entryN_er _ _ _ _).bind ?_
  rintro ⟨s, e⟩
  exact .ite (insertAndCopyKeyN_er _ _ _ _ _) (.ite (.pure _) (.pure _))

theorem insertOrAssignWN_er (s : Omm α) (k : κ) (x : α) (ans : Slot) :
    Er (insertOrAssignWN cmp key s k x ans) (insertOrAssignW cmp key s k x ans) := by
  refine (entryN_er _ _ _ _).bind ?_
  rintro ⟨s, e⟩
  exact .ite (insertAndCopyKeyN_er _ _ _ _ _) (.ite ((Er.lift _).bind (fun _ => .pure _)) (.pure _))

theorem maxMinN_er (s : Omm α) (q : Cmp) : Er (maxMinN s q) (maxMin s q) := by
  refine (splayN_er _ _ _).bind ?_
  rintro ⟨t, ret⟩
  exact .pure _

theorem updateN_er (s : Omm α) (a : Nat) (f : α → α) : Er (updateN cmp key s a f) (update cmp key s a f) := by
  refine (Er.lift _).bind (fun l => (Er.lift _).bind (fun r => .ite (.pure _) ((eraseNodeN_er _ _ _ _).bind ?_)))
  rintro ⟨s, _ | e⟩
  · exact .pure _
  · exact (insertNodeN_er _ _ _ _).bind (fun _ => .pure _)

theorem popMaxN_er (s : Omm α) : Er (popMaxN cmp key s) (popMax cmp key s) := by
  refine (eraseMaxOrMinN_er _ _ _ _).bind ?_
  rintro ⟨s, _ | e⟩
  · exact .pure _
  · exact .ite ((Er.lift _).bind (fun _ => .pure _)) (.pure _)

theorem popMinN_er (s : Omm α) : Er (popMinN cmp key s) (popMin cmp key s) := by
  refine (eraseMaxOrMinN_er _ _ _ _).bind ?_
  rintro ⟨s, _ | e⟩
  · exact .pure _
  · exact .ite (.ite ((Er.lift _).bind (fun _ => .pure _)) (.lift _)) (.pure _)

theorem equalRangeN_er (s : Omm α) (b e : κ) (trav : Bool) :
    Er (equalRangeN cmp key s b e trav) (equalRange cmp key s b e trav) := by
  refine .ite (.pure _) ((splayN_er _ _ _).bind ?_)
  rintro ⟨t, b⟩
  refine (Er.cnt _ _).bind (fun q => (Er.lift _).bind (fun b => (splayN_er _ _ _).bind ?_))
  rintro ⟨t, e⟩
  exact (Er.cnt _ _).bind (fun q => (Er.lift _).bind (fun b => .pure _))

open Lean.Order in
theorem clearLoopN_er : ∀ (s : Omm α) (acc : List (Nat × α)),
    Er (clearLoopN cmp key s acc) (clearLoop cmp key s acc) := by
  apply clearLoopN.fixpoint_induct (motive := fun f => ∀ s acc, Er (f s acc) (clearLoop cmp key s acc))
  · refine admissible_pi_apply (P := fun s (g : List (Nat × α) → Count (Omm α × List (Nat × α))) =>
      ∀ acc, Er (g acc) (clearLoop cmp key s acc)) (fun s => ?_)
    refine admissible_pi_apply (P := fun acc (g : Count (Omm α × List (Nat × α))) =>
      Er g (clearLoop cmp key s acc)) (fun acc => ?_)
    exact Er.admissible _
  · intro f ih s acc
    rw [clearLoop]
    refine .ite (.pure _) ((eraseMaxOrMinN_er _ _ _ _).bind ?_)
    rintro ⟨s, p⟩
    exact (Er.lift _).bind (fun r => (Er.lift _).bind (fun _ => ih _ _))

theorem clearN_er (s : Omm α) : Er (clearN cmp key s) (clear cmp key s) := by
  refine (clearLoopN_er _ _ _ _).bind ?_
  rintro ⟨s, d⟩
  exact .pure _

theorem stepN_er (s : Omm α) (o : MultiSpec.Op α κ) : Er (stepN cmp key s o) (step cmp key s o) := by
  cases o with
  | insert => exact (insertN_er _ _ _ _ _).bind (fun _ => .pure _)
  | tryInsert => exact (tryInsertN_er _ _ _ _).bind (fun _ => .pure _)
  | insertOrAssign => exact (insertOrAssignN_er _ _ _ _).bind (fun _ => .pure _)
  | remove => exact (removeN_er _ _ _ _).bind (fun _ => .pure _)
  | orInsert => exact (entryN_er _ _ _ _).bind (fun _ => (orInsertN_er _ _ _ _ _).bind (fun _ => .pure _))
  | insertEntry => exact (entryN_er _ _ _ _).bind (fun _ => (insertEntryN_er _ _ _ _).bind (fun _ => .pure _))
  | removeEntry => exact (entryN_er _ _ _ _).bind (fun _ => (removeEntryN_er _ _ _ _).bind (fun _ => .pure _))
  | andModify => exact (entryN_er _ _ _ _).bind (fun _ => (Er.lift _).bind (fun _ => .pure _))
  | occupied => exact (entryN_er _ _ _ _).bind (fun _ => .pure _)
  | orInsertW => exact (entryN_er _ _ _ _).bind (fun _ => (orInsertWN_er _ _ _ _ _ _).bind (fun _ => .pure _))
  | insertEntryW => exact (entryN_er _ _ _ _).bind (fun _ => (insertEntryWN_er _ _ _ _ _).bind (fun _ => .pure _))
  | tryInsertW => exact (tryInsertWN_er _ _ _ _ _ _).bind (fun _ => .pure _)
  | insertOrAssignW => exact (insertOrAssignWN_er _ _ _ _ _ _).bind (fun _ => .pure _)
  | contains => exact (containsN_er _ _ _ _).bind (fun _ => .pure _)
  | get => exact (findN_er _ _ _ _).bind (fun _ => .pure _)
  | max => exact (maxMinN_er _ _).bind (fun _ => .pure _)
  | min => exact (maxMinN_er _ _).bind (fun _ => .pure _)
  | popMax => exact (popMaxN_er _ _ _).bind (fun _ => .pure _)
  | popMin => exact (popMinN_er _ _ _).bind (fun _ => .pure _)
  | extract => exact (eraseNodeN_er _ _ _ _).bind (fun _ => .pure _)
  | update => exact (updateN_er _ _ _ _ _).bind (fun _ => .pure _)
  | begin => exact (Er.lift _).bind (fun _ => .pure _)
  | rbegin => exact (Er.lift _).bind (fun _ => .pure _)
  | next => exact (Er.lift _).bind (fun _ => .pure _)
  | rnext => exact (Er.lift _).bind (fun _ => .pure _)
  | equalRange => exact (equalRangeN_er _ _ _ _ _ _).bind (fun _ => .pure _)
  | equalRrange => exact (equalRangeN_er _ _ _ _ _ _).bind (fun _ => .pure _)
  | size => exact .pure _
  | isEmpty => exact .pure _
  | validate => exact (Er.lift _).bind (fun _ => .pure _)
  | clear => exact (clearN_er _ _ _).bind (fun _ => .pure _)
  | drop => exact .pure _

/-- A counted history that returns is the history. -/
theorem runN_er (s : Omm α) (ops : List (MultiSpec.Op α κ)) : Er (runN cmp key s ops) (run cmp key s ops) := by
  induction ops generalizing s with
  | nil => exact .pure _
  | cons o os ih =>
    refine (stepN_er _ _ _ _).bind ?_
    rintro ⟨s, r⟩
    refine (ih s).bind ?_
    rintro ⟨s, rs⟩
    exact .pure _

end CCC.Omm
