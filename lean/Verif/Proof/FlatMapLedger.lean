import Verif.Proof.FlatLedger
import Verif.Model.FlatMapLedger
/-
The flat maps and their calls of the allocation function.
-/
namespace CCC
namespace Flat

/-- What `ccc_buf_alloc` returns. -/
def bufRes (n : Nat) : Option Bool → Res
  | none => .noAlloc
  | some g => if n ≠ 0 ∧ g = false then .memErr else .ok

theorem bufAlloc_keeps (c n : Nat) (f : Option Bool) :
    Keeps (bufAlloc n f) (some (bufRes n f)) (c, f.isSome) (fun r => (if r = .ok then n else c, f.isSome)) := by
  cases f with
  | none => exact Keeps.pure rfl
  | some g =>
    intro r hr
    cases hr
    refine ⟨rfl, fun h ho => ?_⟩
    by_cases hn : n = 0
    · subst hn
      refine ⟨{ h with mem := none, log := h.log ++ [.freed h.mem] }, [.freed h.mem], ?_, rfl, ?_, ?_, fun z => by cases z⟩
      · simp [bufAlloc, bufRes, StateT.bind, bind, getMem, request, setMem, StateT.pure, pure]
      · cases hm : h.mem <;> simp [account, own, back]
      · exact ⟨by simp [bufRes], by simp⟩
    · cases g with
      | false =>
        refine ⟨{ h with log := h.log ++ [.refused h.mem n] }, [.refused h.mem n], ?_, rfl, ?_, ?_, fun z => by cases z⟩
        · simp [bufAlloc, bufRes, StateT.bind, bind, getMem, request, hn, StateT.pure, pure]
        · cases hm : h.mem <;> simp [account, own, back, bufRes, hn]
        · have : bufRes n (some false) = .memErr := by simp [bufRes, hn]
          simp only [this]; exact ho
      | true =>
        refine ⟨{ mem := some h.next, next := h.next + 1, log := h.log ++ [.got h.mem h.next n] },
          [.got h.mem h.next n], ?_, rfl, ?_, ?_, fun z => by cases z⟩
        · simp [bufAlloc, bufRes, StateT.bind, bind, getMem, request, setMem, hn, StateT.pure, pure]
        · cases hm : h.mem <;> simp [account, own, back, bufRes, hn]
        · exact ⟨by simp [bufRes, hn], by simp⟩

end Flat
open Flat

namespace Frm
variable {α κ : Type} (cmp : κ → κ → Cmp) (key : α → κ)

/-- Capacity, and whether there is an allocation function. -/
def shape (s : Frm α) : Nat × Bool := (s.cap, s.hasAlloc)

theorem bufAllocBack_keeps (s : Frm α) (ans : Option (Junk α)) :
    Keeps (bufAllocBackM s ans) (some (bufAllocBack s ans)) (shape s) (fun r => shape r.1) := by
  unfold bufAllocBackM bufAllocBack
  by_cases h : s.sz = s.cap
  · rw [if_pos h, if_pos h]
    have hN : (if s.cap ≠ 0 then s.cap * 2 else Buf.startCapacity) ≠ 0 := by
      split
      · omega
      · simp [Buf.startCapacity]
    generalize (if s.cap ≠ 0 then s.cap * 2 else Buf.startCapacity) = N at hN
    cases ha : s.hasAlloc with
    | false =>
      have := (bufAlloc_keeps s.cap N none).bind (w := fun r => shape r.1)
        (f := fun r => match r, ans with
          | .ok, some j => (pure (setSize (growTo s N j) (s.sz + 1), some s.sz) : Fl (Frm α × Slot))
          | _, _ => pure (s, none))
        (g := fun _ => some (s, none)) (fun r hr => by
          cases hr
          refine Keeps.pure ?_
          simp [shape, bufRes, ha])
      refine this.view (by simp [shape, ha]) (fun _ _ => rfl)
    | true =>
      cases ans with
      | none =>
        have := (bufAlloc_keeps s.cap N (some false)).bind (w := fun r => shape r.1)
          (f := fun r => match r, (none : Option (Junk α)) with
            | .ok, some j => (pure (setSize (growTo s N j) (s.sz + 1), some s.sz) : Fl (Frm α × Slot))
            | _, _ => pure (s, none))
          (g := fun _ => some (s, none)) (fun r hr => by
            cases hr
            have hb : bufRes N (some false) = .memErr := by simp [bufRes, hN]
            rw [hb]
            refine Keeps.pure ?_
            simp [shape, ha])
        refine this.view (by simp [shape, ha]) (fun _ _ => rfl)
      | some j =>
        have := (bufAlloc_keeps s.cap N (some true)).bind (w := fun r => shape r.1)
          (f := fun r => match r, some j with
            | .ok, some j => (pure (setSize (growTo s N j) (s.sz + 1), some s.sz) : Fl (Frm α × Slot))
            | _, _ => pure (s, none))
          (g := fun _ => some (setSize (growTo s N j) (s.sz + 1), some s.sz)) (fun r hr => by
            simp [bufRes] at hr
            subst hr
            refine Keeps.pure ?_
            simp [shape, ha, setSize, growTo])
        refine this.view (by simp [shape, ha]) (fun _ _ => rfl)
  · rw [if_neg h, if_neg h]; exact Keeps.pure rfl

theorem setVal_same (s : Frm α) (a : Nat) (x : α) : Same (setVal s a x) (shape s) shape :=
  Same.ite (fun _ => Same.some rfl) fun _ => Same.none

theorem insertNode_same (s : Frm α) (p : Nat) (l : Cmp) (e : Nat) : Same (insertNode s p l e) (shape s) shape := by
  unfold insertNode
  refine Same.skip fun t => Same.ite (fun _ => Same.some rfl) fun _ => Same.skip fun t => Same.some rfl

theorem keep_skip {β γ : Type} {y : Option β} {f : β → Fl γ} {g : β → Option γ} {s : Nat × Bool}
    {w : γ → Nat × Bool} (hf : ∀ a, Keeps (f a) (g a) s w) : Keeps (liftM y >>= f) (y >>= g) s w :=
  Keeps.bind (v := fun _ => s) (Keeps.lift fun _ _ => rfl) fun a _ => hf a

theorem keep_same {β γ : Type} {y : Option β} {f : β → Fl γ} {g : β → Option γ} {s : Nat × Bool} {v : β → Nat × Bool}
    {w : γ → Nat × Bool} (hy : Same y s v) (hf : ∀ a, Keeps (f a) (g a) (v a) w) : Keeps (liftM y >>= f) (y >>= g) s w :=
  Keeps.bind (v := v) (Keeps.lift hy) fun a _ => hf a

theorem allocBack_keeps (s : Frm α) (ans : Option (Junk α)) :
    Keeps (allocBackM s ans) (allocBack s ans) (shape s) (fun r => shape r.1) := by
  unfold allocBackM allocBack
  refine Keeps.ite (fun _ => ?_) fun _ => bufAllocBack_keeps s ans
  refine (bufAllocBack_keeps s ans).bind (g := fun r => match r with
    | (s, none) => some (s, none)
    | (s, some a) => do
      let t ← s.t.setParity a true
      some (bufAllocBack { s with t := t } ans)) ?_
  rintro ⟨s', p⟩ _
  cases p with
  | none => exact Keeps.pure rfl
  | some a => exact keep_skip fun t => bufAllocBack_keeps { s' with t := t } ans

theorem maybeAllocInsert_keeps (s : Frm α) (p : Nat) (l : Cmp) (x : α) (ans : Option (Junk α)) :
    Keeps (maybeAllocInsertM s p l x ans) (maybeAllocInsert s p l x ans) (shape s) (fun r => shape r.1) := by
  unfold maybeAllocInsertM maybeAllocInsert
  refine (allocBack_keeps s ans).bind ?_
  rintro ⟨s', p⟩ _
  cases p with
  | none => exact Keeps.pure rfl
  | some a =>
    refine keep_same (setVal_same _ _ _) fun s1 => ?_
    refine keep_same (insertNode_same _ _ _ _) fun s2 => ?_
    exact Keeps.pure rfl

/-- One step of a proof about a program. -/
macro "keep1" : tactic => `(tactic| first
  | exact Keeps.pure rfl
  | exact maybeAllocInsert_keeps _ _ _ _ _
  | (refine Keeps.ite (fun _ => ?_) (fun _ => ?_))
  | (refine (maybeAllocInsert_keeps _ _ _ _ _).bind ?_; rintro ⟨_, i⟩ _; dsimp only)
  | (refine (allocBack_keeps _ _).bind ?_; rintro ⟨_, i⟩ _; dsimp only)
  | (refine keep_same (setVal_same _ _ _) fun _ => ?_)
  | (refine keep_same (insertNode_same _ _ _ _) fun _ => ?_)
  | (refine keep_skip fun _ => ?_)
  | split)
macro "keep" : tactic => `(tactic| repeat' keep1)

theorem insert_keeps (s : Frm α) (x : α) (ans : Option (Junk α)) :
    Keeps (insertM cmp key s x ans) (insert cmp key s x ans) (shape s) (fun r => shape r.1) := by
  unfold insertM insert; keep
theorem tryInsert_keeps (s : Frm α) (x : α) (ans : Option (Junk α)) :
    Keeps (tryInsertM cmp key s x ans) (tryInsert cmp key s x ans) (shape s) (fun r => shape r.1) := by
  unfold tryInsertM tryInsert; keep
theorem insertOrAssign_keeps (s : Frm α) (x : α) (ans : Option (Junk α)) :
    Keeps (insertOrAssignM cmp key s x ans) (insertOrAssign cmp key s x ans) (shape s) (fun r => shape r.1) := by
  unfold insertOrAssignM insertOrAssign; keep
theorem orInsert_keeps (s : Frm α) (e : FEnt) (x : α) (ans : Option (Junk α)) :
    Keeps (orInsertM s e x ans) (orInsert s e x ans) (shape s) (fun r => shape r.1) := by
  unfold orInsertM orInsert; keep
theorem insertEntry_keeps (s : Frm α) (e : FEnt) (x : α) (ans : Option (Junk α)) :
    Keeps (insertEntryM s e x ans) (insertEntry s e x ans) (shape s) (fun r => shape r.1) := by
  unfold insertEntryM insertEntry; keep
theorem orInsertW_keeps (s : Frm α) (e : FEnt) (x : α) (ans : Option (Junk α)) :
    Keeps (orInsertWM s e x ans) (orInsertW s e x ans) (shape s) (fun r => shape r.1) := by
  unfold orInsertWM orInsertW; keep
theorem insertEntryW_keeps (s : Frm α) (e : FEnt) (x : α) (ans : Option (Junk α)) :
    Keeps (insertEntryWM s e x ans) (insertEntryW s e x ans) (shape s) (fun r => shape r.1) := by
  unfold insertEntryWM insertEntryW; keep
theorem insertVacantW_keeps (s : Frm α) (e : FEnt) (x : α) (ans : Option (Junk α)) :
    Keeps (insertVacantWM s e x ans) (insertVacantW s e x ans) (shape s) (fun r => shape r.1) := by
  unfold insertVacantWM insertVacantW; keep
theorem tryInsertW_keeps (s : Frm α) (k : κ) (x : α) (ans : Option (Junk α)) :
    Keeps (tryInsertWM cmp key s k x ans) (tryInsertW cmp key s k x ans) (shape s) (fun r => shape r.1) := by
  unfold tryInsertWM tryInsertW
  refine keep_skip fun e => Keeps.ite (fun _ => insertVacantW_keeps s e x ans) fun _ => ?_
  keep
theorem insertOrAssignW_keeps (s : Frm α) (k : κ) (x : α) (ans : Option (Junk α)) :
    Keeps (insertOrAssignWM cmp key s k x ans) (insertOrAssignW cmp key s k x ans) (shape s) (fun r => shape r.1) := by
  unfold insertOrAssignWM insertOrAssignW
  refine keep_skip fun e => Keeps.ite (fun _ => insertVacantW_keeps s e x ans) fun _ => ?_
  keep

theorem copySlot_same (s : Frm α) (d a : Nat) : Same (copySlot s d a) (shape s) shape := by
  unfold copySlot
  exact Same.skip fun t => setVal_same _ _ _

theorem swapAndPop_same (s : Frm α) (v : Nat) : Same (swapAndPop s v) (shape s) shape := by
  unfold swapAndPop
  refine Same.ite (fun _ => Same.some rfl) fun _ => ?_
  iterate 7 refine Same.skip fun _ => ?_
  refine Same.bind (copySlot_same _ _ _) fun s1 h1 => ?_
  refine Same.bind (copySlot_same _ _ _) fun s2 h2 => ?_
  refine Same.bind (copySlot_same _ _ _) fun s3 h3 => ?_
  iterate 5 refine Same.skip fun _ => ?_
  refine Same.some ?_
  exact (h3.trans h2).trans h1

theorem removeFixup_same (s : Frm α) (r : Nat) : Same (removeFixup s r) (shape s) (fun r => shape r.1) := by
  unfold removeFixup
  refine Same.skip fun t => Same.bind (swapAndPop_same _ _) fun s1 h1 => Same.some h1

/-- The calls that ask for no memory. -/
def Quiet {ρ : Type} : FlatMap.Op α κ ρ → Prop
  | .insert .. | .tryInsert .. | .insertOrAssign .. | .orInsert .. | .insertEntry .. | .orInsertW .. | .insertEntryW ..
  | .tryInsertW .. | .insertOrAssignW .. => False
  | _ => True

theorem sizeSet_shape (s : Frm α) (n : Nat) : shape (sizeSet s n).1 = shape s := by unfold sizeSet; split <;> rfl

theorem step_same (s : Frm α) (op : FlatMap.Op α κ (Junk α)) (hq : Quiet op) :
    Same (step cmp key s op) (shape s) (fun r => shape r.1) := by
  cases op with
  | insert | tryInsert | insertOrAssign | orInsert | insertEntry | orInsertW | insertEntryW | tryInsertW
  | insertOrAssignW => exact hq.elim
  | remove x =>
    refine Same.bind (t := shape s) (u := fun r => shape r.1) ?_ (by rintro ⟨s1, st, b, h⟩ h1; exact Same.some h1)
    unfold remove
    refine Same.skip fun q => Same.ite (fun _ => Same.some rfl) fun _ => ?_
    exact Same.bind (removeFixup_same _ _) (by rintro ⟨s1, a⟩ h1; exact Same.some h1)
  | removeEntry k =>
    refine Same.skip fun e => ?_
    refine Same.bind (t := shape s) (u := fun r => shape r.1) ?_ (by rintro ⟨s1, e⟩ h1; exact Same.some h1)
    unfold removeEntry
    refine Same.ite (fun _ => ?_) fun _ => Same.some rfl
    exact Same.bind (removeFixup_same _ _) (by rintro ⟨s1, a⟩ h1; exact Same.some h1)
  | andModify k f =>
    refine Same.skip fun e => ?_
    refine Same.bind (t := shape s) (u := shape) ?_ (fun s1 h1 => Same.some h1)
    unfold andModify
    exact Same.ite (fun _ => setVal_same _ _ _) fun _ => Same.some rfl
  | clear =>
    refine Same.some ?_
    exact sizeSet_shape _ 1
  | end_ | size | isEmpty | capacity => exact Same.some rfl
  | _ => exact Same.skip fun _ => Same.some rfl

theorem step_keeps (s : Frm α) (op : FlatMap.Op α κ (Junk α)) :
    Keeps (stepM cmp key s op) (step cmp key s op) (shape s) (fun r => shape r.1) := by
  cases op with
  | insert x ans => exact (insert_keeps cmp key s x ans).bind fun _ _ => Keeps.pure rfl
  | tryInsert x ans => exact (tryInsert_keeps cmp key s x ans).bind fun _ _ => Keeps.pure rfl
  | insertOrAssign x ans => exact (insertOrAssign_keeps cmp key s x ans).bind fun _ _ => Keeps.pure rfl
  | orInsert k x ans => exact keep_skip fun e => (orInsert_keeps s e x ans).bind fun _ _ => Keeps.pure rfl
  | insertEntry k x ans => exact keep_skip fun e => (insertEntry_keeps s e x ans).bind fun _ _ => Keeps.pure rfl
  | orInsertW k x ans => exact keep_skip fun e => (orInsertW_keeps s e x ans).bind fun _ _ => Keeps.pure rfl
  | insertEntryW k x ans => exact keep_skip fun e => (insertEntryW_keeps s e x ans).bind fun _ _ => Keeps.pure rfl
  | tryInsertW k x ans => exact (tryInsertW_keeps cmp key s k x ans).bind fun _ _ => Keeps.pure rfl
  | insertOrAssignW k x ans => exact (insertOrAssignW_keeps cmp key s k x ans).bind fun _ _ => Keeps.pure rfl
  | _ => exact Keeps.lift (step_same cmp key s _ trivial)

theorem clearAndFree_keeps (s : Frm α) (destroy : Bool) :
    Keeps (clearAndFreeM s destroy) (clearAndFree s destroy) (shape s) (fun r => shape r.1) := by
  unfold clearAndFreeM clearAndFree
  refine keep_skip fun d => ?_
  cases ha : s.hasAlloc with
  | false =>
    have := (bufAlloc_keeps s.cap 0 none).bind (w := fun r => shape r.1)
      (f := fun r => if r = .ok then
          (pure ({ s with cap := 0, t := { (s.t.setRoot 0) with live := inUse s.sz 0 } }, d, r) :
            Fl (Frm α × List (Nat × α) × Res))
        else pure ({ s with t := s.t.setRoot 0 }, d, r))
      (g := fun _ => some ({ s with t := s.t.setRoot 0 }, d, Res.noAlloc)) (fun r hr => by
        cases hr
        refine Keeps.pure ?_
        simp [shape, bufRes, ha])
    have hs : (s.cap, s.hasAlloc) = shape s := rfl
    rw [← hs, ha]
    simpa [ha] using this
  | true =>
    have := (bufAlloc_keeps s.cap 0 (some true)).bind (w := fun r => shape r.1)
      (f := fun r => if r = .ok then
          (pure ({ s with cap := 0, t := { (s.t.setRoot 0) with live := inUse s.sz 0 } }, d, r) :
            Fl (Frm α × List (Nat × α) × Res))
        else pure ({ s with t := s.t.setRoot 0 }, d, r))
      (g := fun _ => some ({ s with cap := 0, t := { (s.t.setRoot 0) with live := inUse s.sz 0 } }, d, Res.ok))
      (fun r hr => by
        cases hr
        refine Keeps.pure ?_
        simp [shape, bufRes, ha])
    have hs : (s.cap, s.hasAlloc) = shape s := rfl
    rw [← hs, ha]
    simpa [ha] using this

theorem copy_keeps (dst src : Frm α) (p : Slot) (fn : Option (Option (Junk α))) :
    Keeps (copyM dst src p fn) (some (copy dst src fn)) (dst.cap, fn.isSome) (fun r => (r.1.cap, fn.isSome)) := by
  unfold copyM
  by_cases h0 : dst.cap < src.cap ∧ fn.isNone
  · rw [if_pos h0]
    have : copy dst src fn = (dst, .inputErr) := by unfold copy; rw [if_pos h0]
    rw [this]; exact Keeps.pure rfl
  rw [if_neg h0]
  refine Keeps.restore p ?_
  by_cases h : dst.cap < src.cap
  · simp only [if_pos h]
    have := (bufAlloc_keeps dst.cap src.cap (fn.map Option.isSome)).bind (w := fun r => (r.1.cap, fn.isSome))
      (f := fun _ => (pure (copy dst src fn) : Fl (Frm α × Res)))
      (g := fun _ => some (copy dst src fn)) (fun r hr => by
        cases hr
        refine Keeps.pure ?_
        have hn : ¬ src.cap = 0 := by omega
        rcases fn with _ | _ | j
        · exact absurd ⟨h, rfl⟩ h0
        · simp [copy, h, bufRes, hn]
        · simp [copy, h, bufRes, growTo])
    refine this.view (by simp) (fun _ _ => rfl)
  · simp only [if_neg h]
    refine Keeps.pure ?_
    simp [copy, h]

theorem copy_hasAlloc (dst src : Frm α) (fn : Option (Option (Junk α))) :
    (copy dst src fn).1.hasAlloc = dst.hasAlloc := by
  unfold copy
  split
  · rfl
  · simp only []
    split
    · split <;> rfl
    · rfl

end Frm

namespace Fom
open CCC.Frm (Frm Junk inUse setSize growTo bufAllocBackM bufAllocBack setVal copyLinks copySlot sizeSet destroyLoop view shape
  bufAllocBack_keeps setVal_same keep_skip keep_same copySlot_same Quiet sizeSet_shape)
variable {α κ : Type} (cmp : κ → κ → Cmp) (key : α → κ)

theorem splayTo_same (s : Fom α) (k : κ) : Same (splayTo cmp key s k) (shape s) (fun r => shape r.1) := by
  unfold splayTo
  refine Same.skip ?_
  rintro ⟨t, r⟩
  exact Same.skip fun q => Same.some rfl

theorem find_same (s : Fom α) (k : κ) : Same (find cmp key s k) (shape s) (fun r => shape r.1) := by
  unfold find
  refine Same.ite (fun _ => Same.some rfl) fun _ => ?_
  exact Same.bind (splayTo_same cmp key s k) (by rintro ⟨s1, q⟩ h1; exact Same.some h1)

theorem entry_same (s : Fom α) (k : κ) : Same (entry cmp key s k) (shape s) (fun r => shape r.1) := by
  unfold entry
  refine Same.bind (find_same cmp key s k) ?_
  rintro ⟨s1, f⟩ h1
  cases f <;> exact Same.some h1

theorem insertNode_same (s : Fom α) (n : Nat) : Same (insertNode cmp key s n) (shape s) (fun r => shape r.1) := by
  unfold insertNode
  refine Same.skip fun t => ?_
  refine Same.ite (fun _ => Same.some rfl) fun _ => ?_
  refine Same.bind (splayTo_same cmp key _ _) ?_
  rintro ⟨s1, rc⟩ h1
  refine Same.ite (fun _ => Same.some h1) fun _ => ?_
  exact Same.skip fun t => Same.some h1

theorem allocBack_keeps (s : Fom α) (ans : Option (Junk α)) :
    Keeps (allocBackM s ans) (some (allocBack s ans)) (shape s) (fun r => shape r.1) := by
  unfold allocBackM allocBack
  rw [apply_ite some]
  refine Keeps.ite (fun _ => ?_) fun _ => bufAllocBack_keeps s ans
  have := (bufAllocBack_keeps s ans).bind (w := fun r => shape r.1) (f := fun r => match r with
      | (s, none) => (pure (s, none) : Fl (Fom α × Slot))
      | (s, some _) => bufAllocBackM s ans) (g := fun r => some (match r with
      | (s, none) => (s, none)
      | (s, some _) => bufAllocBack s ans)) (by
    rintro ⟨s', p⟩ _
    cases p with
    | none => exact Keeps.pure rfl
    | some a => exact bufAllocBack_keeps s' ans)
  exact this

theorem maybeAllocInsert_keeps (s : Fom α) (x : α) (ans : Option (Junk α)) :
    Keeps (maybeAllocInsertM cmp key s x ans) (maybeAllocInsert cmp key s x ans) (shape s) (fun r => shape r.1) := by
  unfold maybeAllocInsertM maybeAllocInsert
  refine (allocBack_keeps s ans).bind (g := fun r => match r with
    | (s, none) => some (s, none)
    | (s, some _) => do
      let node := s.sz - 1
      let s ← setVal s node x
      insertNode cmp key s node) ?_
  rintro ⟨s', p⟩ _
  cases p with
  | none => exact Keeps.pure rfl
  | some a =>
    refine keep_same (setVal_same _ _ _) fun s1 => ?_
    exact Keeps.lift (insertNode_same cmp key _ _)

/-- One step of a proof about a program. -/
macro "fkeep1" : tactic => `(tactic| first
  | exact Keeps.pure rfl
  | exact maybeAllocInsert_keeps _ _ _ _ _
  | (refine Keeps.ite (fun _ => ?_) (fun _ => ?_))
  | (refine keep_same (find_same _ _ _ _) ?_; rintro ⟨_, i⟩; dsimp only)
  | (refine keep_same (entry_same _ _ _ _) ?_; rintro ⟨_, i⟩; dsimp only)
  | (refine (maybeAllocInsert_keeps _ _ _ _ _).bind ?_; rintro ⟨_, i⟩ _; dsimp only)
  | (refine keep_same (setVal_same _ _ _) fun _ => ?_)
  | (refine keep_same (insertNode_same _ _ _ _) fun _ => ?_)
  | (refine keep_skip fun _ => ?_)
  | split)
macro "fkeep" : tactic => `(tactic| repeat' fkeep1)

theorem insert_keeps (s : Fom α) (x : α) (ans : Option (Junk α)) :
    Keeps (insertM cmp key s x ans) (insert cmp key s x ans) (shape s) (fun r => shape r.1) := by
  unfold insertM insert; fkeep
theorem tryInsert_keeps (s : Fom α) (x : α) (ans : Option (Junk α)) :
    Keeps (tryInsertM cmp key s x ans) (tryInsert cmp key s x ans) (shape s) (fun r => shape r.1) := by
  unfold tryInsertM tryInsert; fkeep
theorem insertOrAssign_keeps (s : Fom α) (x : α) (ans : Option (Junk α)) :
    Keeps (insertOrAssignM cmp key s x ans) (insertOrAssign cmp key s x ans) (shape s) (fun r => shape r.1) := by
  unfold insertOrAssignM insertOrAssign; fkeep
theorem orInsert_keeps (s : Fom α) (e : FEnt) (x : α) (ans : Option (Junk α)) :
    Keeps (orInsertM cmp key s e x ans) (orInsert cmp key s e x ans) (shape s) (fun r => shape r.1) := by
  unfold orInsertM orInsert; fkeep
theorem insertEntry_keeps (s : Fom α) (e : FEnt) (x : α) (ans : Option (Junk α)) :
    Keeps (insertEntryM cmp key s e x ans) (insertEntry cmp key s e x ans) (shape s) (fun r => shape r.1) := by
  unfold insertEntryM insertEntry; fkeep

/-- The branch of the macros that allocates. -/
theorem vacant_keeps {β : Type} (s : Fom α) (x : α) (ans : Option (Junk α)) (o1 : β) (o2 : Nat → β) (n : Fom α → Nat → Nat) :
    Keeps (do
      match ← allocBackM s ans with
      | (s, none) => pure (s, o1)
      | (s, some a) => do
        let s ← setVal s a x
        let (s, _) ← insertNode cmp key s (n s a)
        pure (s, o2 a) : Fl (Fom α × β))
      (match allocBack s ans with
      | (s, none) => some (s, o1)
      | (s, some a) => do
        let s ← setVal s a x
        let (s, _) ← insertNode cmp key s (n s a)
        some (s, o2 a)) (shape s) (fun r => shape r.1) := by
  refine (allocBack_keeps s ans).bind (g := fun r => match r with
      | (s, none) => some (s, o1)
      | (s, some a) => do
        let s ← setVal s a x
        let (s, _) ← insertNode cmp key s (n s a)
        some (s, o2 a)) ?_
  rintro ⟨s', p⟩ _
  cases p with
  | none => exact Keeps.pure rfl
  | some a =>
    refine keep_same (setVal_same _ _ _) fun s1 => ?_
    exact keep_same (insertNode_same cmp key _ _) (by rintro ⟨s2, _⟩; exact Keeps.pure rfl)

theorem orInsertW_keeps (s : Fom α) (e : FEnt) (x : α) (ans : Option (Junk α)) :
    Keeps (orInsertWM cmp key s e x ans) (orInsertW cmp key s e x ans) (shape s) (fun r => shape r.1) := by
  unfold orInsertWM orInsertW
  refine Keeps.ite (fun _ => Keeps.pure rfl) fun _ => ?_
  exact vacant_keeps cmp key s x ans none some (fun s _ => s.sz - 1)
theorem insertEntryW_keeps (s : Fom α) (e : FEnt) (x : α) (ans : Option (Junk α)) :
    Keeps (insertEntryWM cmp key s e x ans) (insertEntryW cmp key s e x ans) (shape s) (fun r => shape r.1) := by
  unfold insertEntryWM insertEntryW
  refine Keeps.ite (fun _ => vacant_keeps cmp key s x ans none some (fun s _ => s.sz - 1)) fun _ => ?_
  fkeep
theorem insertVacantW_keeps (s : Fom α) (x : α) (ans : Option (Junk α)) :
    Keeps (insertVacantWM cmp key s x ans) (insertVacantW cmp key s x ans) (shape s) (fun r => shape r.1) :=
  vacant_keeps cmp key s x ans (⟨none, Stat.insertError⟩ : Ent) (fun a => (⟨some a, Stat.vacant⟩ : Ent)) (fun _ a => a)
theorem tryInsertW_keeps (s : Fom α) (k : κ) (x : α) (ans : Option (Junk α)) :
    Keeps (tryInsertWM cmp key s k x ans) (tryInsertW cmp key s k x ans) (shape s) (fun r => shape r.1) := by
  unfold tryInsertWM tryInsertW
  refine keep_same (entry_same cmp key s k) ?_
  rintro ⟨s1, e⟩
  refine Keeps.ite (fun _ => insertVacantW_keeps cmp key s1 x ans) fun _ => ?_
  fkeep
theorem insertOrAssignW_keeps (s : Fom α) (k : κ) (x : α) (ans : Option (Junk α)) :
    Keeps (insertOrAssignWM cmp key s k x ans) (insertOrAssignW cmp key s k x ans) (shape s) (fun r => shape r.1) := by
  unfold insertOrAssignWM insertOrAssignW
  refine keep_same (entry_same cmp key s k) ?_
  rintro ⟨s1, e⟩
  refine Keeps.ite (fun _ => insertVacantW_keeps cmp key s1 x ans) fun _ => ?_
  fkeep

theorem swapAndPop_same (s : Fom α) (v : Nat) : Same (swapAndPop s v) (shape s) shape := by
  unfold swapAndPop
  refine Same.ite (fun _ => Same.some rfl) fun _ => ?_
  iterate 7 refine Same.skip fun _ => ?_
  refine Same.bind (copySlot_same _ _ _) fun s1 h1 => ?_
  refine Same.bind (copySlot_same _ _ _) fun s2 h2 => ?_
  refine Same.bind (copySlot_same _ _ _) fun s3 h3 => ?_
  iterate 3 refine Same.skip fun _ => ?_
  refine Same.some ?_
  exact (h3.trans h2).trans h1

theorem erase_same (s : Fom α) (k : κ) : Same (erase cmp key s k) (shape s) (fun r => shape r.1) := by
  unfold erase
  refine Same.ite (fun _ => Same.some rfl) fun _ => ?_
  refine Same.skip ?_
  rintro ⟨t, r⟩
  refine Same.skip fun q => ?_
  refine Same.ite (fun _ => Same.some rfl) fun _ => ?_
  refine Same.skip fun t => ?_
  exact Same.bind (swapAndPop_same _ _) fun s1 h1 => Same.some h1

theorem step_same (s : Fom α) (op : FlatMap.Op α κ (Junk α)) (hq : Quiet op) :
    Same (step cmp key s op) (shape s) (fun r => shape r.1) := by
  cases op with
  | insert | tryInsert | insertOrAssign | orInsert | insertEntry | orInsertW | insertEntryW | tryInsertW
  | insertOrAssignW => exact hq.elim
  | remove x =>
    refine Same.bind (t := shape s) (u := fun r => shape r.1) ?_ (by rintro ⟨s1, e⟩ h1; exact Same.some h1)
    unfold remove
    refine Same.bind (erase_same cmp key s _) ?_
    rintro ⟨s1, n⟩ h1
    cases n <;> exact Same.some h1
  | removeEntry k =>
    refine Same.bind (entry_same cmp key s k) ?_
    rintro ⟨s1, e⟩ h1
    refine Same.bind (t := shape s1) (u := fun r => shape r.1) ?_ (by rintro ⟨s2, e⟩ h2; exact Same.some (h2.trans h1))
    unfold removeEntry
    refine Same.ite (fun _ => ?_) fun _ => Same.some rfl
    refine Same.bind (erase_same cmp key s1 _) ?_
    rintro ⟨s2, p⟩ h2
    exact Same.skip fun n => Same.some h2
  | andModify k f =>
    refine Same.bind (entry_same cmp key s k) ?_
    rintro ⟨s1, e⟩ h1
    refine Same.bind (t := shape s1) (u := shape) ?_ (fun s2 h2 => Same.some (h2.trans h1))
    unfold andModify
    exact Same.ite (fun _ => setVal_same _ _ _) fun _ => Same.some rfl
  | occupied k => exact Same.bind (entry_same cmp key s k) (by rintro ⟨s1, e⟩ h1; exact Same.some h1)
  | contains k =>
    refine Same.bind (t := shape s) (u := fun r => shape r.1) ?_ (by rintro ⟨s1, e⟩ h1; exact Same.some h1)
    exact Same.bind (splayTo_same cmp key s k) (by rintro ⟨s1, q⟩ h1; exact Same.some h1)
  | get k => exact Same.bind (find_same cmp key s k) (by rintro ⟨s1, e⟩ h1; exact Same.some h1)
  | equalRange b e =>
    refine Same.bind (t := shape s) (u := fun r => shape r.1) ?_ (by rintro ⟨s1, x, y⟩ h1; exact Same.some h1)
    unfold equalRange
    refine Same.ite (fun _ => Same.some rfl) fun _ => ?_
    exact Same.skip (by rintro ⟨t, x, y⟩; exact Same.some rfl)
  | equalRrange b e =>
    refine Same.bind (t := shape s) (u := fun r => shape r.1) ?_ (by rintro ⟨s1, x, y⟩ h1; exact Same.some h1)
    unfold equalRange
    refine Same.ite (fun _ => Same.some rfl) fun _ => ?_
    exact Same.skip (by rintro ⟨t, x, y⟩; exact Same.some rfl)
  | clear =>
    refine Same.some ?_
    exact sizeSet_shape _ 1
  | end_ | size | isEmpty | capacity => exact Same.some rfl
  | _ => exact Same.skip fun _ => Same.some rfl

theorem step_keeps (s : Fom α) (op : FlatMap.Op α κ (Junk α)) :
    Keeps (stepM cmp key s op) (step cmp key s op) (shape s) (fun r => shape r.1) := by
  cases op with
  | insert x ans => exact (insert_keeps cmp key s x ans).bind fun _ _ => Keeps.pure rfl
  | tryInsert x ans => exact (tryInsert_keeps cmp key s x ans).bind fun _ _ => Keeps.pure rfl
  | insertOrAssign x ans => exact (insertOrAssign_keeps cmp key s x ans).bind fun _ _ => Keeps.pure rfl
  | orInsert k x ans =>
    exact keep_same (entry_same cmp key s k) (by
      rintro ⟨s1, e⟩; exact (orInsert_keeps cmp key s1 e x ans).bind fun _ _ => Keeps.pure rfl)
  | insertEntry k x ans =>
    exact keep_same (entry_same cmp key s k) (by
      rintro ⟨s1, e⟩; exact (insertEntry_keeps cmp key s1 e x ans).bind fun _ _ => Keeps.pure rfl)
  | orInsertW k x ans =>
    exact keep_same (entry_same cmp key s k) (by
      rintro ⟨s1, e⟩; exact (orInsertW_keeps cmp key s1 e x ans).bind fun _ _ => Keeps.pure rfl)
  | insertEntryW k x ans =>
    exact keep_same (entry_same cmp key s k) (by
      rintro ⟨s1, e⟩; exact (insertEntryW_keeps cmp key s1 e x ans).bind fun _ _ => Keeps.pure rfl)
  | tryInsertW k x ans => exact (tryInsertW_keeps cmp key s k x ans).bind fun _ _ => Keeps.pure rfl
  | insertOrAssignW k x ans => exact (insertOrAssignW_keeps cmp key s k x ans).bind fun _ _ => Keeps.pure rfl
  | _ => exact Keeps.lift (step_same cmp key s _ trivial)

theorem clearAndFree_keeps (s : Fom α) (destroy : Bool) :
    Keeps (clearAndFreeM s destroy) (clearAndFree s destroy) (shape s) (fun r => shape r.1) :=
  Frm.clearAndFree_keeps s destroy

end Fom
end CCC
