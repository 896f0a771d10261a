import Verif.Model.SinglyLinkedListLedger
import Verif.Model.DoublyLinkedListLedger
import Verif.Spec.ListLedger
import Verif.Proof.Ledger
import Verif.Proof.SinglyLinkedListCalls
import Verif.Proof.DoublyLinkedListCalls
/-
The calls of the allocation function by the linked lists.
-/
namespace CCC

theorem Log.fail {α : Type} {x : Led α} {es : List Ev} : Log x none es := by intro r hr; cases hr

theorem Log.reads {α β : Type} {y : Option α} {r : α} (hy : y = some r) {f : α → Led β} {g : α → Option β} {es : List Ev}
    (h : Log (f r) (g r) es) : Log (liftM y >>= f) (y >>= g) es :=
  Log.liftBind fun a ha => by rw [hy] at ha; cases ha; exact h

theorem Log.free {β : Type} {a : Nat} {f : Unit → Led β} {y : Option β} {es : List Ev}
    (h : Log (f ()) y es) : Log (giveBack a >>= f) y (.freed a :: es) := Log.freeBind h

/-- Reads and writes that do not call the allocation function. -/
macro "logs" : tactic => `(tactic| repeat (first
  | exact Log.pure _
  | exact Log.lift _
  | exact Log.fail
  | refine Log.liftBind (fun _ _ => ?_)
  | refine Log.ite (fun _ => ?_) (fun _ => ?_)))

namespace Sll
open Seq SllSpec

variable {α : Type} {c : Cfg} {s : Sll α} {st : St α}

theorem freeLoop_log {l e : Nat} : ∀ {M : List Nat} {s : Sll α} {k : Nat}, Path (Lk s) (M ++ [e]) → (M ++ [e]).Nodup →
    Log (freeLoopL s l (M.headD e) e k) (freeLoop s l (M.headD e) e k) ((M ++ [e]).map .freed)
  | [], s, k, _, _ => by
    rw [freeLoop, freeLoopL, if_pos (by simp), if_pos (by simp)]
    exact Log.liftBind fun _ _ => Log.free (Log.pure _)
  | a :: M, s, k, h, nd => by
    rw [freeLoop, freeLoopL]
    have nd' := List.nodup_cons.1 nd
    have he : a ≠ e := fun e' => nd'.1 (by simp [e'])
    have h1 : s.lnk a = some (some (M.headD e)) := by cases M <;> exact h.1
    have h2 : Path (Lk s) (M ++ [e]) := by cases M <;> exact h.2
    refine Log.ite (fun h => absurd h he) (fun _ => Log.ite (fun _ => ?_) (fun _ => Log.fail))
    simp only [List.headD_cons]
    refine Log.reads h1 (Log.reads rfl (Log.free ?_))
    exact freeLoop_log (free_path h2 nd'.1) nd'.2

theorem pushFront_log (s : Sll α) (l e : Nat) (ans : Slot) :
    Log (pushFrontL c s l e ans) (pushFront c s l e ans) (if c.alloc l then [Ev.ofAns ans] else []) := by
  unfold pushFrontL pushFront
  cases c.alloc l with
  | false => simp only [Bool.false_eq_true, if_false]; logs
  | true =>
    simp only [if_true]
    refine Log.askBind ?_
    cases ans with
    | none => exact Log.pure _
    | some n => logs

theorem Sim.popFront_log (h : Sim c s st) {l : Nat} (hl : l ∈ c.lists) :
    Log (popFrontL c s l) (Sll.popFront c s l) (if c.alloc l then (st.seq l).head?.toList.map .freed else []) := by
  unfold popFrontL Sll.popFront
  cases hs : st.seq l with
  | nil =>
    rw [if_pos ((h.empty_iff hl).2 hs), if_pos ((h.empty_iff hl).2 hs)]
    simp only [List.head?_nil, Option.toList_none, List.map_nil, ite_self]
    exact Log.pure _
  | cons e t =>
    have : s.sz l ≠ 0 := fun h0 => by have := (h.empty_iff hl).1 h0; rw [hs] at this; cases this
    obtain ⟨s', a1, -, -⟩ := h.popNode hl hs
    rw [if_neg this, if_neg this]
    refine Log.reads a1 ?_
    cases c.alloc l with
    | false => exact Log.pure _
    | true => exact Log.free (Log.pure _)

theorem Sim.erase_log (h : Sim c s st) {l e : Nat} (hl : l ∈ c.lists) (he : e ∈ st.seq l) :
    Log (eraseL c s l e) (Sll.erase c s l e) (if c.alloc l then [.freed e] else []) := by
  unfold eraseL Sll.erase
  rw [if_neg (h.sz_ne hl he), if_neg (h.sz_ne hl he)]
  refine Log.liftBind fun _ _ => Log.liftBind fun _ _ => Log.liftBind fun _ _ => Log.liftBind fun _ _ => Log.liftBind fun _ _ => ?_
  cases c.alloc l with
  | false =>
    simp only [Bool.false_eq_true, if_false]
    logs
  | true =>
    simp only [if_true]
    refine Log.free ?_
    logs

theorem Sim.eraseRange_log (h : Sim c s st) {l b e : Nat} (hl : l ∈ c.lists) (hr : InRange (st.seq l) b e) :
    Log (eraseRangeL c s l b e) (Sll.eraseRange c s l b e) (if c.alloc l then (through b e (st.seq l)).map .freed else []) := by
  obtain ⟨A, M, B, hs, hb, a1, a2, a3, a4, a5, a6, hp, nd, a7, a8, a9, a10, a11, a12, a13⟩ := h.unlinkRange hl hr
  unfold eraseRangeL Sll.eraseRange
  rw [if_neg a12, if_neg a12]
  refine Log.reads a1 (Log.reads a2 (Log.reads a1 (Log.reads a3 ?_)))
  refine Log.outBind ?_ (fun _ _ => by dsimp only; logs)
  unfold eraseNodesL eraseNodes
  rw [a7]
  cases c.alloc l with
  | false => exact Log.lift _
  | true =>
    have := freeLoop_log (l := l) (k := 1) hp nd
    rw [hb] at this
    exact this

theorem Sim.clearLoop_log {l : Nat} (hl : l ∈ c.lists) (d : Bool) : ∀ (t : List Nat) {s : Sll α} {st : St α}, Sim c s st → st.seq l = t →
    Log (clearLoopL c s l d) (Sll.clearLoop c s l d) (if c.alloc l then t.map .freed else [])
  | [], s, st, h, hs => by
    rw [Sll.clearLoop, clearLoopL]
    have : isEmpty s l = true := by simp [isEmpty, (h.empty_iff hl).2 hs]
    rw [if_pos this, if_pos this]
    simp only [List.map_nil, ite_self]
    exact Log.pure _
  | e :: t, s, st, h, hs => by
    rw [Sll.clearLoop, clearLoopL]
    have : ¬ isEmpty s l = true := by
      intro h0
      have h0 : s.sz l = 0 := by simpa [isEmpty] using h0
      have := (h.empty_iff hl).1 h0; rw [hs] at this; cases this
    rw [if_neg this, if_neg this]
    obtain ⟨s1, a1, a2, a3⟩ := h.popNode hl hs
    refine Log.reads a1 ?_
    dsimp only
    by_cases ha : c.alloc l = true
    · have a4 := a2.drop (X := [e]) (by intro a ha; simp at ha; subst ha; exact a3)
      rw [dropAll_one] at a4
      have ih := Sim.clearLoop_log hl d t a4 (upd_same _ _ _)
      simp only [ha, if_true] at ih ⊢
      exact Log.free (ih.outBind fun _ _ => Log.pure _)
    · have ih := Sim.clearLoop_log hl d t a2 (upd_same _ _ _)
      simp only [ha] at ih ⊢
      exact ih.outBind fun _ _ => Log.pure _

/-- Every call makes the calls of the allocation function the specification says. -/
theorem Sim.step_log (h : Sim c s st) (op : Op α) (hok : okOp c.lists c.alloc st op) :
    Log (stepL c s op) (step c s op) (calls c.alloc st op) := by
  cases op with
  | pushFront l e ans => exact (pushFront_log s l e ans).outBind fun _ _ => Log.pure _
  | popFront l => exact (h.popFront_log hok).outBind fun _ _ => Log.pure _
  | erase l e => exact (h.erase_log hok.1 hok.2).outBind fun _ _ => Log.pure _
  | eraseRange l b e => exact (h.eraseRange_log hok.1 hok.2).outBind fun _ _ => Log.pure _
  | clear l d =>
    refine Log.outBind ?_ (fun _ _ => Log.pure _)
    exact (Sim.clearLoop_log hok d _ h rfl).outBind fun _ _ => Log.pure _
  | _ => exact Log.lift _

end Sll

namespace Dll
open Seq DllSpec

variable {α : Type} {c : Cfg} {s : Dll α} {st : St α} {z : Nat → Bool}

theorem freeLoop_log {l e : Nat} : ∀ {M : List Nat} {s : Dll α} {k : Nat}, Path (Nk s) (M ++ [e]) → (M ++ [e]).Nodup →
    Log (freeLoopL s l (M.headD e) e k) (freeLoop s l (M.headD e) e k) ((M ++ [e]).map .freed)
  | [], s, k, _, _ => by
    rw [freeLoop, freeLoopL, if_pos (by simp), if_pos (by simp)]
    exact Log.liftBind fun _ _ => Log.free (Log.pure _)
  | a :: M, s, k, h, nd => by
    rw [freeLoop, freeLoopL]
    have nd' := List.nodup_cons.1 nd
    have he : a ≠ e := fun e' => nd'.1 (by simp [e'])
    have h1 : s.nx a = some (some (M.headD e)) := by cases M <;> exact h.1
    have h2 : Path (Nk s) (M ++ [e]) := by cases M <;> exact h.2
    refine Log.ite (fun h => absurd h he) (fun _ => Log.ite (fun _ => ?_) (fun _ => Log.fail))
    simp only [List.headD_cons]
    refine Log.reads h1 (Log.reads rfl (Log.free ?_))
    exact freeLoop_log (free_path h2 nd'.1) nd'.2

theorem withCopy_log (s : Dll α) (l e : Nat) (ans : Slot) (put : Dll α → Nat → Option (Dll α × Slot)) :
    Log (withCopyL c s l e ans put) (withCopy c s l e ans put) (if c.alloc l then [Ev.ofAns ans] else []) := by
  unfold withCopyL withCopy
  cases c.alloc l with
  | false => exact Log.lift _
  | true =>
    simp only [if_true]
    refine Log.askBind ?_
    cases ans with
    | none => exact Log.pure _
    | some n => logs

theorem emplaceFront_log (s : Dll α) (l : Nat) (x : α) (kn kp ans : Slot) :
    Log (emplaceFrontL c s l x kn kp ans) (emplaceFront c s l x kn kp ans) (if c.alloc l then [Ev.ofAns ans] else []) := by
  unfold emplaceFrontL emplaceFront
  cases c.alloc l with
  | false => exact Log.pure _
  | true =>
    simp only [if_true]
    refine Log.askBind ?_
    cases ans with
    | none => exact Log.pure _
    | some n => logs

theorem emplaceBack_log (s : Dll α) (l : Nat) (x : α) (kn kp ans : Slot) :
    Log (emplaceBackL c s l x kn kp ans) (emplaceBack c s l x kn kp ans) (if c.alloc l then [Ev.ofAns ans] else []) := by
  unfold emplaceBackL emplaceBack
  cases c.alloc l with
  | false => exact Log.pure _
  | true =>
    simp only [if_true]
    refine Log.askBind ?_
    cases ans with
    | none => exact Log.pure _
    | some n => logs

theorem Sim.popFront_log (h : Sim c s st z) {l : Nat} (hl : l ∈ c.lists) :
    Log (popFrontL c s l) (Dll.popFront c s l) (if c.alloc l then (st.seq l).head?.toList.map .freed else []) := by
  unfold popFrontL Dll.popFront
  cases hs : st.seq l with
  | nil =>
    rw [if_pos ((h.empty_iff hl).2 hs), if_pos ((h.empty_iff hl).2 hs)]
    simp only [List.head?_nil, Option.toList_none, List.map_nil, ite_self]
    exact Log.pure _
  | cons e t =>
    have : s.sz l ≠ 0 := h.sz_ne hl (e := e) (by rw [hs]; simp)
    obtain ⟨s', a1, -, -⟩ := h.popNode hl hs
    rw [if_neg this, if_neg this]
    refine Log.reads a1 ?_
    cases c.alloc l with
    | false => exact Log.pure _
    | true => exact Log.free (Log.pure _)

theorem Sim.popBack_log (h : Sim c s st z) {l : Nat} (hl : l ∈ c.lists) (hg : Good st z l ((st.seq l).getLastD l) ∨ st.seq l = []) :
    Log (popBackL c s l) (Dll.popBack c s l) (if c.alloc l then (st.seq l).getLast?.toList.map .freed else []) := by
  unfold popBackL Dll.popBack
  rcases List.eq_nil_or_concat (st.seq l) with hs | ⟨A, e, hs⟩
  · rw [if_pos ((h.empty_iff hl).2 hs), if_pos ((h.empty_iff hl).2 hs), hs]
    simp only [List.getLast?_nil, Option.toList_none, List.map_nil, ite_self]
    exact Log.pure _
  · have hs' : st.seq l = A ++ ([] ++ e :: []) := by rw [hs]; simp
    have h0 := h.sz_ne hl (e := e) (by rw [hs]; simp)
    have hg : Good st z l e := by
      rcases hg with hg | hg
      · rw [hs] at hg; simpa using hg
      · rw [hs] at hg; simp at hg
    have r0 := h.prv hl (P := A ++ [e]) (Q := []) (by rw [hs]; simp) (h.good_end hl (M := []) (B := []) hs' hg)
    simp only [List.headD_nil, List.getLastD_concat] at r0
    rw [if_neg h0, if_neg h0]
    refine Log.reads r0 (Log.reads rfl ?_)
    refine Log.liftBind fun _ _ => Log.liftBind fun _ _ => Log.liftBind fun _ _ => Log.liftBind fun _ _ => Log.liftBind fun _ _ =>
      Log.liftBind fun _ _ => Log.liftBind fun _ _ => ?_
    rw [hs]
    simp only [List.concat_eq_append, List.getLast?_concat, Option.toList_some, List.map_cons, List.map_nil]
    cases c.alloc l with
    | false => exact Log.pure _
    | true => exact Log.free (Log.pure _)

theorem Sim.insert_log (h : Sim c s st z) {l pos : Nat} (e : Nat) (ans : Slot) (hl : l ∈ c.lists) (hp : IsPos st l pos) (hg : Good st z l pos) :
    Log (insertL c s l pos e ans) (Dll.insert c s l pos e ans) (if c.alloc l then [Ev.ofAns ans] else []) := by
  obtain ⟨P, Q, hs, hQ, hput⟩ := split_pos (h.shape.ring hl) hp
  have r1 := h.prv hl hs (by rw [hQ]; exact hg)
  rw [hQ] at r1
  have r2 : ∃ b, s.nx pos = some (some b) := by
    rcases hp with rfl | hp
    · exact ⟨_, h.head hl⟩
    · obtain ⟨A, B, hs', -, -⟩ := split_mem hp (h.shape.nd l hl)
      exact ⟨_, h.at_ hl hs'⟩
  obtain ⟨b, r2⟩ := r2
  unfold insertL Dll.insert
  refine Log.reads r2 (Log.reads r1 ?_)
  rw [if_neg (by simp), if_neg (by simp)]
  exact withCopy_log _ _ _ _ _

theorem Sim.erase_log (h : Sim c s st z) {l e : Nat} (hl : l ∈ c.lists) (he : e ∈ st.seq l) :
    Log (eraseL c s l e) (Dll.erase c s l e) (if c.alloc l then [.freed e] else []) := by
  unfold eraseL Dll.erase
  rw [if_neg (h.sz_ne hl he), if_neg (h.sz_ne hl he)]
  refine Log.liftBind fun _ _ => Log.liftBind fun _ _ => Log.liftBind fun _ _ => Log.liftBind fun _ _ => Log.liftBind fun _ _ =>
    Log.liftBind fun _ _ => Log.liftBind fun _ _ => Log.liftBind fun _ _ => Log.liftBind fun _ _ => ?_
  cases c.alloc l with
  | false => exact Log.pure _
  | true => exact Log.free (Log.pure _)

theorem Sim.eraseRange_log (h : Sim c s st z) {l b e : Nat} (hl : l ∈ c.lists) (hr : IsRange st l b e) (hg : Good st z l b) :
    Log (eraseRangeL c s l b e) (Dll.eraseRange c s l b e)
      (if c.alloc l then (if b = e then [.freed e] else (between b e (st.seq l)).map .freed) else []) := by
  unfold eraseRangeL Dll.eraseRange
  have h0 := h.sz_ne hl hr.1
  by_cases hbe : b = e
  · subst hbe
    refine Log.reads (h.noLinks_one hl hr.1 hg) ?_
    refine Log.ite (fun h => absurd h (by simp [h0])) (fun _ => ?_)
    simp only [if_true]
    exact h.erase_log hl hr.1
  · obtain ⟨A, M, e', B, hs, hb, he, hbt⟩ := split_between (h.shape.ring hl) hr.1 hr.2 hbe
    rw [hbt]
    subst hb; subst he
    refine Log.reads (h.noLinks hl hs hg) ?_
    refine Log.ite (fun h => absurd h (by simp [h0])) (fun _ => ?_)
    simp only [if_neg hbe]
    obtain ⟨hc, hp, _, hlo, nd⟩ := h.toCore.cut hl hs hg
    refine Log.reads (h.unlinkRange hl hs hg).1 ?_
    dsimp only
    refine Log.outBind ?_ (fun _ _ => by logs)
    unfold eraseNodesL eraseNodes
    cases c.alloc l with
    | false => exact Log.lift _
    | true =>
      simp only [Bool.not_true, Bool.false_eq_true, if_false, if_true]
      refine Log.liftBind fun t ht => ?_
      refine freeLoop_log ?_ nd
      have : t.nx = (cutSt s (A.getLastD l) (B.headD l)).nx := by
        unfold Dll.setP at ht
        cases h1 : (cutSt s (A.getLastD l) (B.headD l)).pv (M.headD e') with
        | none => rw [h1] at ht; cases ht
        | some q => rw [h1] at ht; cases ht; rfl
      refine hp.mono fun a _ b _ hab => ?_
      show t.nx a = _
      rw [this]; exact hab.1

theorem Sim.clearLoop_log {l : Nat} (hl : l ∈ c.lists) (d : Bool) : ∀ (t : List Nat) {s : Dll α} {st : St α} {z : Nat → Bool},
    Sim c s st z → st.seq l = t → Log (clearLoopL c s l d) (Dll.clearLoop c s l d) (if c.alloc l then t.map .freed else [])
  | [], s, st, z, h, hs => by
    rw [Dll.clearLoop, clearLoopL]
    have : isEmpty s l = true := by simp [isEmpty, (h.empty_iff hl).2 hs]
    rw [if_pos this, if_pos this]
    simp only [List.map_nil, ite_self]
    exact Log.pure _
  | e :: t, s, st, z, h, hs => by
    rw [Dll.clearLoop, clearLoopL]
    have : ¬ isEmpty s l = true := by
      intro h0
      have h0 : s.sz l = 0 := by simpa [isEmpty] using h0
      exact h.sz_ne hl (e := e) (by rw [hs]; simp) h0
    rw [if_neg this, if_neg this]
    obtain ⟨s1, a1, a2, a3⟩ := h.popNode hl hs
    refine Log.reads a1 ?_
    dsimp only
    have a4 := a2.freeIf a3 (c.alloc l)
    have ih := Sim.clearLoop_log hl d t a4 (by unfold St.release; split <;> exact upd_same _ _ _)
    cases ha : c.alloc l with
    | true =>
      simp only [ha, if_true] at ih ⊢
      exact Log.free (ih.outBind fun _ _ => Log.pure _)
    | false =>
      simp only [ha, Bool.false_eq_true, if_false] at ih ⊢
      exact ih.outBind fun _ _ => Log.pure _

/-- Every call makes the calls of the allocation function the specification says. -/
theorem Sim.step_log (h : Sim c s st z) (op : Op α) (hok : okOp c.lists c.alloc st op) (hsafe : safeOp st z op) :
    Log (stepL c s op) (step c s op) (calls c.alloc st op) := by
  cases op with
  | pushFront l e ans => exact (withCopy_log s l e ans _).outBind fun _ _ => Log.pure _
  | pushBack l e ans => exact (withCopy_log s l e ans _).outBind fun _ _ => Log.pure _
  | insert l pos e ans => exact (h.insert_log e ans hok.1 hok.2.1 hsafe).outBind fun _ _ => Log.pure _
  | emplaceFront l x n p ans => exact (emplaceFront_log s l x n p ans).outBind fun _ _ => Log.pure _
  | emplaceBack l x n p ans => exact (emplaceBack_log s l x n p ans).outBind fun _ _ => Log.pure _
  | popFront l => exact (h.popFront_log hok).outBind fun _ _ => Log.pure _
  | popBack l => exact (h.popBack_log hok hsafe).outBind fun _ _ => Log.pure _
  | erase l e => exact (h.erase_log hok.1 hok.2).outBind fun _ _ => Log.pure _
  | eraseRange l b e => exact (h.eraseRange_log hok.1 hok.2 hsafe).outBind fun _ _ => Log.pure _
  | clear l d =>
    refine Log.outBind ?_ (fun _ _ => Log.pure _)
    exact (Sim.clearLoop_log hok d _ h rfl).outBind fun _ _ => Log.pure _
  | _ => exact Log.lift _

end Dll
end CCC
