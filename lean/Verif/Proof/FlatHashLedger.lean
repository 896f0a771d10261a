import Verif.Proof.FlatMapLedger
/-
The hash map and its calls of the allocation function.
-/
namespace CCC
open Flat

namespace Fhm
open HashMap
open Frm (keep_skip keep_same)
variable {α κ : Type} (c : Cfg κ α)

/-- Capacity, and whether there is an allocation function. -/
def shape (s : Fhm α) : Nat × Bool := (s.cap, s.hasAlloc)

theorem put_same (s : Fhm α) (i : Nat) (x : Cell α) : Same (put s i x) (shape s) shape := by
  unfold put
  exact Same.ite (fun _ => Same.some rfl) fun _ => Same.none

theorem putHash_same (s : Fhm α) (i : Nat) (x : UInt64) : Same (putHash s i x) (shape s) shape := by
  unfold putHash
  exact Same.skip fun y => put_same _ _ _

theorem swap_same (s : Fhm α) (t a b : Nat) : Same (swap s t a b) (shape s) shape := by
  unfold swap
  refine Same.ite (fun _ => Same.some rfl) fun _ => Same.skip fun x => ?_
  refine Same.bind (put_same _ _ _) fun s1 h1 => Same.skip fun y => ?_
  refine Same.bind (put_same _ _ _) fun s2 h2 => Same.skip fun z => ?_
  have := put_same s2 b z
  rw [h2, h1] at this
  exact this

theorem insertLoop_same (s : Fhm α) (i dist n : Nat) : Same (insertLoop c s i dist n) (shape s) (fun r => shape r.1) := by
  intro r hr
  revert hr
  refine insertLoop.partial_correctness c (fun s i dist n r => shape r.1 = shape s) ?_ s i dist n r
  intro loop ih s i dist n r
  refine (?_ : Same _ (shape s) (fun r => shape r.1)) r
  refine Same.skip fun x => ?_
  refine Same.ite (fun _ => ?_) fun _ => ?_
  · refine Same.skip fun f => Same.bind (put_same _ _ _) fun s1 h1 => ?_
    refine Same.bind (putHash_same _ _ _) fun s2 h2 => ?_
    refine Same.bind (putHash_same _ _ _) fun s3 h3 => Same.some ?_
    exact (h3.trans h2).trans h1
  refine Same.ite (fun _ => ?_) fun _ => ?_
  · refine Same.bind (swap_same _ _ _ _) fun s1 h1 => ?_
    intro r hr
    exact (ih _ _ _ _ _ hr).trans h1
  · intro r hr
    exact ih _ _ _ _ _ hr

theorem insertAt_same (s : Fhm α) (x : α) (hash : UInt64) (i : Nat) :
    Same (insertAt c s x hash i) (shape s) (fun r => shape r.1) := by
  unfold insertAt
  refine Same.bind (put_same _ _ _) fun s1 h1 => ?_
  have := insertLoop_same c s1 i (distance s1.cap i (toI c s1.cap hash)) 0
  rw [h1] at this
  exact this

theorem eraseLoop_same (s : Fhm α) (i nx n : Nat) : Same (eraseLoop c s i nx n) (shape s) (fun r => shape r.1) := by
  intro r hr
  revert hr
  refine eraseLoop.partial_correctness c (fun s i nx n r => shape r.1 = shape s) ?_ s i nx n r
  intro loop ih s i nx n r
  refine (?_ : Same _ (shape s) (fun r => shape r.1)) r
  refine Same.skip fun x => ?_
  refine Same.ite (fun _ => ?_) fun _ => ?_
  · exact Same.bind (putHash_same _ _ _) fun s1 h1 => Same.some h1
  · refine Same.bind (swap_same _ _ _ _) fun s1 h1 => ?_
    intro r hr
    exact (ih _ _ _ _ _ hr).trans h1

theorem erase_same (s : Fhm α) (i : Nat) : Same (erase c s i) (shape s) (fun r => shape r.1) := by
  unfold erase
  refine Same.bind (putHash_same _ _ _) fun s1 h1 => ?_
  have := eraseLoop_same c s1 i (increment s1.cap i) 0
  rw [h1] at this
  exact this

theorem rehashLoop_same (old s : Fhm α) (i : Nat) : Same (rehashLoop c old s i) (shape s) shape := by
  intro r hr
  revert hr
  refine rehashLoop.partial_correctness c old (fun s i r => shape r = shape s) ?_ s i r
  intro loop ih s i r
  refine (?_ : Same _ (shape s) shape) r
  refine Same.ite (fun _ => Same.some rfl) fun _ => Same.skip fun x => ?_
  refine Same.ite (fun _ => ?_) fun _ => ?_
  · refine Same.skip ?_
    rintro ⟨e, n⟩
    refine Same.skip fun p => ?_
    refine Same.bind (insertAt_same c _ _ _ _) ?_
    rintro ⟨s1, n1⟩ h1
    intro r hr
    exact (ih _ _ _ hr).trans h1
  · intro r hr
    exact ih _ _ _ hr

theorem grow_keeps (s : Fhm α) (N : Nat) (hN : N ≠ 0) (ha : s.hasAlloc = true) (ans : AllocAns α) :
    Keeps (do
      let newMem ← request none N ans.isSome
      match newMem, ans with
      | some p, some junk => do
        let t : Fhm α := { mem := wipe (fun i => ⟨0, junk i⟩), sz := 0, cap := N, hasAlloc := s.hasAlloc }
        let t ← rehashLoop c s (sizeSet t 2) 0
        let r ← bufAlloc 0 (if s.hasAlloc then some true else none)
        setMem (some p)
        pure (t, if r ≠ .ok then .memErr else .ok)
      | _, _ => pure (s, .memErr) : Fl (Fhm α × Res))
      (match ans with
      | none => some (s, .memErr)
      | some junk => do
        let t : Fhm α := { mem := wipe (fun i => ⟨0, junk i⟩), sz := 0, cap := N, hasAlloc := s.hasAlloc }
        let t ← rehashLoop c s (sizeSet t 2) 0
        some (t, .ok)) (shape s) (fun r => shape r.1) := by
  cases ans with
  | none =>
    intro r hr
    cases hr
    refine ⟨rfl, fun h ho => ⟨{ h with log := h.log ++ [.refused none N] }, [.refused none N], ?_, rfl, rfl, ho, ?_⟩⟩
    · simp [StateT.bind, bind, request, hN, StateT.pure, pure]
    · intro z; rw [show (shape s).2 = s.hasAlloc from rfl, ha] at z; cases z
  | some junk =>
    intro r hr
    simp only [Option.bind_eq_bind, Option.bind_eq_some_iff] at hr
    obtain ⟨t, ht, hr⟩ := hr
    cases hr
    have hsh : shape t = (N, s.hasAlloc) := rehashLoop_same c s _ 0 t ht
    simp only [hsh]
    refine ⟨rfl, fun h ho => ⟨{ mem := some h.next, next := h.next + 1, log := h.log ++ [.got none h.next N, .freed h.mem] },
      [.got none h.next N, .freed h.mem], ?_, rfl, ?_, ?_, ?_⟩⟩
    · simp only [bind, StateT.bind, request, hN, if_false, Option.isSome_some, if_true, Option.bind_some]
      rw [ht]
      simp [liftM, monadLift, MonadLift.monadLift, StateT.lift, StateT.bind, bind, bufAlloc, ha, getMem, setMem,
        request, pure, StateT.pure]
    · have hne : ∀ a, h.mem = some a → ¬ h.next = a := fun a e => by have := ho.2 a e; omega
      rcases hm : h.mem with _ | a
      · simp [account, own, Flat.back]
      · have := hne a hm
        simp [account, own, Flat.back, this]
    · exact ⟨by simp [hN], by simp⟩
    · intro z; rw [show (shape s).2 = s.hasAlloc from rfl, ha] at z; cases z

theorem maybeResize_keeps (s : Fhm α) (ans : AllocAns α) :
    Keeps (maybeResizeM c s ans) (maybeResize c s ans) (shape s) (fun r => shape r.1) := by
  unfold maybeResizeM maybeResize
  have h0 : shape (if s.cap ≠ 0 ∧ s.sz < 2 then sizeSet { s with mem := wipe s.mem } 2 else s) = shape s := by
    split <;> rfl
  generalize (if s.cap ≠ 0 ∧ s.sz < 2 then sizeSet { s with mem := wipe s.mem } 2 else s) = s1 at h0
  rw [← h0]
  refine Keeps.ite (fun _ => Keeps.pure rfl) fun h1 => ?_
  refine Keeps.ite (fun _ => Keeps.pure rfl) fun h2 => ?_
  refine Keeps.ite (fun _ => Keeps.pure rfl) fun h3 => ?_
  have h2 : s1.hasAlloc = true := by simpa using h2
  exact grow_keeps c s1 _ (by omega) h2 ans

theorem entry_keeps (s : Fhm α) (k : κ) (ans : AllocAns α) :
    Keeps (entryM c s k ans) (entry c s k ans) (shape s) (fun r => shape r.1) := by
  unfold entryM entry
  refine (maybeResize_keeps c s ans).bind ?_
  rintro ⟨s1, r⟩ _
  exact keep_skip (by rintro ⟨e, n⟩; exact Keeps.pure rfl)

theorem swaps_same (s : Fhm α) (e : FEnt) (x : α) : Same (swaps c s e x) (shape s) (fun r => shape r.1) := by
  unfold swaps
  refine Same.skip fun i => Same.skip fun y => ?_
  refine Same.ite (fun _ => ?_) fun _ => ?_
  · exact Same.bind (put_same _ _ _) fun s1 h1 => Same.some h1
  · refine Same.bind (put_same _ _ _) fun s1 h1 => ?_
    refine Same.bind (insertAt_same c _ _ _ _) ?_
    rintro ⟨s2, n⟩ h2
    exact Same.some (h2.trans h1)

theorem orInsert_same (s : Fhm α) (e : FEnt) (x : α) : Same (orInsert c s e x) (shape s) (fun r => shape r.1) := by
  unfold orInsert
  refine Same.ite (fun _ => Same.some rfl) fun _ => Same.ite (fun _ => Same.some rfl) fun _ => Same.skip fun i => ?_
  exact Same.bind (insertAt_same c _ _ _ _) (by rintro ⟨s1, n⟩ h1; exact Same.some h1)

theorem insertEntry_same (s : Fhm α) (e : FEnt) (x : α) : Same (insertEntry c s e x) (shape s) (fun r => shape r.1) := by
  unfold insertEntry
  refine Same.ite (fun _ => ?_) fun _ => Same.ite (fun _ => Same.some rfl) fun _ => Same.skip fun i => ?_
  · exact Same.skip fun i => Same.bind (put_same _ _ _) fun s1 h1 => Same.some h1
  · exact Same.bind (insertAt_same c _ _ _ _) (by rintro ⟨s1, n⟩ h1; exact Same.some h1)

theorem removeEntry_same (s : Fhm α) (e : FEnt) : Same (removeEntry c s e) (shape s) (fun r => shape r.1) := by
  unfold removeEntry
  refine Same.ite (fun _ => Same.some rfl) fun _ => Same.skip fun i => ?_
  exact Same.bind (erase_same c _ _) (by rintro ⟨s1, n⟩ h1; exact Same.some h1)

theorem andModify_same (s : Fhm α) (e : FEnt) (f : α → α) : Same (andModify s e f) (shape s) shape := by
  unfold andModify
  exact Same.ite (fun _ => Same.skip fun i => Same.skip fun x => put_same _ _ _) fun _ => Same.some rfl

theorem orInsertW_same (s : Fhm α) (e : FEnt) (x : α) : Same (orInsertW c s e x) (shape s) (fun r => shape r.1) := by
  unfold orInsertW
  exact Same.ite (fun _ => Same.ite (fun _ => Same.some rfl) fun _ => swaps_same c _ _ _) fun _ => Same.some rfl

theorem insertEntryW_same (s : Fhm α) (e : FEnt) (x : α) : Same (insertEntryW c s e x) (shape s) (fun r => shape r.1) := by
  unfold insertEntryW
  refine Same.ite (fun _ => Same.ite (fun _ => ?_) fun _ => swaps_same c _ _ _) fun _ => Same.some rfl
  exact Same.skip fun i => Same.bind (put_same _ _ _) fun s1 h1 => Same.some h1

theorem poke_same (s : Fhm α) (p : Slot) (f : α → α) : Same (poke s p f) (shape s) shape := by
  cases p with
  | none => exact Same.some rfl
  | some i => exact Same.skip fun x => put_same _ _ _

/-- One step of a proof about a program. -/
macro "hkeep1" : tactic => `(tactic| first
  | exact Keeps.pure rfl
  | (refine Keeps.ite (fun _ => ?_) (fun _ => ?_))
  | (refine (entry_keeps _ _ _ _).bind ?_; rintro ⟨_, i⟩ _; dsimp only)
  | (refine keep_same (put_same _ _ _) fun _ => ?_)
  | (refine keep_same (putHash_same _ _ _) fun _ => ?_)
  | (refine keep_same (insertAt_same _ _ _ _ _) fun _ => ?_)
  | (refine keep_same (swaps_same _ _ _ _) fun _ => ?_)
  | (refine keep_same (orInsert_same _ _ _ _) fun _ => ?_)
  | (refine keep_same (insertEntry_same _ _ _ _) fun _ => ?_)
  | (refine keep_same (removeEntry_same _ _ _) fun _ => ?_)
  | (refine keep_same (orInsertW_same _ _ _ _) fun _ => ?_)
  | (refine keep_same (insertEntryW_same _ _ _ _) fun _ => ?_)
  | (refine keep_same (andModify_same _ _ _) fun _ => ?_)
  | (refine keep_same (poke_same _ _ _) fun _ => ?_)
  | (refine keep_skip fun _ => ?_))
macro "hkeep" : tactic => `(tactic| repeat' hkeep1)

theorem contains_keeps (s : Fhm α) (k : κ) (ans : AllocAns α) :
    Keeps (containsM c s k ans) (contains c s k ans) (shape s) (fun r => shape r.1) := by
  unfold containsM contains; hkeep
theorem insert_keeps (s : Fhm α) (x : α) (ans : AllocAns α) :
    Keeps (insertM c s x ans) (insert c s x ans) (shape s) (fun r => shape r.1) := by
  unfold insertM insert; hkeep
theorem tryInsert_keeps (s : Fhm α) (x : α) (ans : AllocAns α) :
    Keeps (tryInsertM c s x ans) (tryInsert c s x ans) (shape s) (fun r => shape r.1) := by
  unfold tryInsertM tryInsert; hkeep
theorem insertOrAssign_keeps (s : Fhm α) (x : α) (ans : AllocAns α) :
    Keeps (insertOrAssignM c s x ans) (insertOrAssign c s x ans) (shape s) (fun r => shape r.1) := by
  unfold insertOrAssignM insertOrAssign; hkeep
theorem tryInsertW_keeps (s : Fhm α) (k : κ) (x : α) (ans : AllocAns α) :
    Keeps (tryInsertWM c s k x ans) (tryInsertW c s k x ans) (shape s) (fun r => shape r.1) := by
  unfold tryInsertWM tryInsertW; hkeep
theorem insertOrAssignW_keeps (s : Fhm α) (k : κ) (x : α) (ans : AllocAns α) :
    Keeps (insertOrAssignWM c s k x ans) (insertOrAssignW c s k x ans) (shape s) (fun r => shape r.1) := by
  unfold insertOrAssignWM insertOrAssignW; hkeep

theorem step_keeps (s : Fhm α) (op : Op α κ) :
    Keeps (stepM c s op) (step c s op) (shape s) (fun r => shape r.1) := by
  cases op with
  | insert x ans => exact (insert_keeps c s x ans).bind fun _ _ => Keeps.pure rfl
  | tryInsert x ans => exact (tryInsert_keeps c s x ans).bind fun _ _ => Keeps.pure rfl
  | insertOrAssign x ans => exact (insertOrAssign_keeps c s x ans).bind fun _ _ => Keeps.pure rfl
  | tryInsertW k x ans => exact (tryInsertW_keeps c s k x ans).bind fun _ _ => Keeps.pure rfl
  | insertOrAssignW k x ans => exact (insertOrAssignW_keeps c s k x ans).bind fun _ _ => Keeps.pure rfl
  | contains k ans => exact (contains_keeps c s k ans).bind fun _ _ => Keeps.pure rfl
  | orInsert | insertEntry | removeEntry | andModify | occupied | insertError | orInsertW | insertEntryW =>
    simp only [stepM, step]; hkeep
  | remove x =>
    refine Keeps.lift (?_ : Same _ _ _)
    refine Same.bind (t := shape s) (u := fun r => shape r.1) ?_ (by rintro ⟨s1, st, b, h⟩ h1; exact Same.some h1)
    unfold remove
    refine Same.skip ?_
    rintro ⟨e, n⟩
    refine Same.ite (fun _ => ?_) fun _ => Same.some rfl
    refine Same.skip fun i => Same.skip fun old => ?_
    exact Same.bind (erase_same c _ _) (by rintro ⟨s1, n⟩ h1; exact Same.some h1)
  | get k f =>
    refine Keeps.lift (?_ : Same _ _ _)
    exact Same.skip fun p => Same.bind (poke_same _ _ _) fun s1 h1 => Same.some h1
  | validate =>
    refine Keeps.lift (?_ : Same _ _ _)
    exact Same.skip fun b => Same.some rfl
  | size | isEmpty | capacity => exact Keeps.lift (Same.some rfl : Same _ _ _)
  | clear => exact Keeps.lift (Same.some rfl : Same _ _ _)

theorem clearAndFree_keeps (s : Fhm α) (destroy : Bool) :
    Keeps (clearAndFreeM s destroy) (clearAndFree s destroy) (shape s) (fun r => shape r.1) := by
  unfold clearAndFreeM clearAndFree
  refine keep_same (v := fun r => shape r.1) ?_ ?_
  · refine Same.ite (fun _ => Same.some rfl) fun _ => Same.skip fun d => Same.some rfl
  rintro ⟨s, d⟩
  dsimp only
  cases ha : s.hasAlloc with
  | false =>
    have := (bufAlloc_keeps s.cap 0 none).bind (w := fun r => shape r.1)
      (f := fun r => if r = .ok then
          (pure ({ s with cap := 0 }, d, r) : Fl (Fhm α × List (Nat × α) × Res)) else pure (s, d, r))
      (g := fun _ => some (s, d, Res.noAlloc)) (fun r hr => by
        cases hr
        refine Keeps.pure ?_
        simp [shape, bufRes, ha])
    have hs : (s.cap, s.hasAlloc) = shape s := rfl
    rw [← hs, ha]
    simpa [ha] using this
  | true =>
    have := (bufAlloc_keeps s.cap 0 (some true)).bind (w := fun r => shape r.1)
      (f := fun r => if r = .ok then
          (pure ({ s with cap := 0 }, d, r) : Fl (Fhm α × List (Nat × α) × Res)) else pure (s, d, r))
      (g := fun _ => some ({ s with cap := 0 }, d, Res.ok)) (fun r hr => by
        cases hr
        refine Keeps.pure ?_
        simp [shape, bufRes, ha])
    have hs : (s.cap, s.hasAlloc) = shape s := rfl
    rw [← hs, ha]
    simpa [ha] using this

theorem copy_keeps (dst src : Fhm α) (p : Slot) (fn : Option Bool) :
    Keeps (copyM dst src p fn) (some (copy dst src fn)) (dst.cap, fn.isSome) (fun r => (r.1.cap, fn.isSome)) := by
  unfold copyM
  by_cases h0 : dst.cap < src.cap ∧ fn = none
  · rw [if_pos h0]
    have : copy dst src fn = (dst, .inputErr) := by unfold copy; rw [if_pos h0]
    rw [this]; exact Keeps.pure rfl
  rw [if_neg h0]
  refine Keeps.restore p ?_
  by_cases h : dst.cap < src.cap
  · simp only [if_pos h]
    have := (bufAlloc_keeps dst.cap src.cap fn).bind (w := fun r => (r.1.cap, fn.isSome))
      (f := fun _ => (pure (copy dst src fn) : Fl (Fhm α × Res)))
      (g := fun _ => some (copy dst src fn)) (fun r hr => by
        cases hr
        refine Keeps.pure ?_
        have hn : ¬ src.cap = 0 := by omega
        rcases fn with _ | _ | _
        · exact absurd ⟨h, rfl⟩ h0
        · simp [copy, h, bufRes, hn]
        · simp [copy, h, bufRes])
    exact this
  · simp only [if_neg h]
    refine Keeps.pure ?_
    simp [copy, h]

theorem copy_hasAlloc (dst src : Fhm α) (fn : Option Bool) : (copy dst src fn).1.hasAlloc = dst.hasAlloc := by
  unfold copy
  split
  · rfl
  · simp only []
    split
    · split <;> rfl
    · rfl

end Fhm
end CCC
