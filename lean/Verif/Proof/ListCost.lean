import Verif.Model.SinglyLinkedListCost
import Verif.Model.DoublyLinkedListCost
import Verif.Spec.ListCost
import Verif.Proof.SinglyLinkedListCalls
import Verif.Proof.Bounds
/-
How many links the calls of the linked lists read and write.
-/
namespace CCC

theorem Bd.fail {α : Type} (b : Nat) : Bd (failure : Count α) (none : Option α) b := by
  intro r h; cases h

/-- Straight line code to its end. -/
macro "bds" : tactic => `(tactic| repeat' (first | exact Bd.fail _ | bd1))

namespace Dll
open Seq DllSpec

variable {α : Type} {c : Cfg}

theorem pushFrontNode_bd (s : Dll α) (l e : Nat) : Bd (pushFrontNodeN s l e) (pushFrontNode s l e) 6 := by
  unfold pushFrontNodeN pushFrontNode
  bds

theorem pushBackNode_bd (s : Dll α) (l e : Nat) : Bd (pushBackNodeN s l e) (pushBackNode s l e) 6 := by
  unfold pushBackNodeN pushBackNode
  bds

theorem popFrontNode_bd (s : Dll α) (l : Nat) : Bd (popFrontNodeN s l) (popFrontNode s l) 6 := by
  unfold popFrontNodeN popFrontNode
  bds

/-- The loop of `len` takes as many steps as it counts. -/
theorem lenLoop_cost (s : Dll α) (l e : Nat) : ∀ n b k r, s.sz l + 1 - k = n → k ≤ s.sz l + 1 → lenLoop s l b e k = some r →
    k ≤ r ∧ r ≤ s.sz l + 1 ∧ Costs (lenLoopN s l b e k) (r - k) r := by
  intro n
  induction n with
  | zero =>
    intro b k r hn hk h
    rw [lenLoop] at h
    rw [lenLoopN]
    split at h
    · cases h; rw [if_pos ‹_›, Nat.sub_self]; exact ⟨by omega, by omega, .pure _⟩
    · rw [if_neg (by omega)] at h; cases h
  | succ n ih =>
    intro b k r hn hk h
    rw [lenLoop] at h
    rw [lenLoopN]
    split at h
    · cases h; rw [if_pos ‹_›, Nat.sub_self]; exact ⟨by omega, by omega, .pure _⟩
    · rw [if_pos (by omega)] at h
      rw [if_neg ‹_›, if_pos (by omega)]
      cases h1 : s.nx b with
      | none => rw [h1] at h; cases h
      | some q =>
        cases q with
        | none => rw [h1] at h; cases h
        | some b' =>
          rw [h1] at h
          obtain ⟨k1, k2, k3⟩ := ih b' (k + 1) r (by omega) (by omega) h
          refine ⟨by omega, k2, ?_⟩
          have : r - k = 1 + (0 + (r - (k + 1))) := by omega
          rw [this]
          exact (Costs.acc rfl).bind ((Costs.lift rfl).bind k3)

theorem len_bd (s : Dll α) (l b e : Nat) : Bd (lenN s l b e) (len s l b e) (s.sz l) := by
  intro r h
  obtain ⟨h1, h2, h3⟩ := lenLoop_cost s l e _ b 1 r rfl (by omega) h
  exact ⟨r - 1, by omega, h3⟩

theorem setP_sz {s s' : Dll α} {a : Nat} {x : Slot} (h : s.setP a x = some s') : s'.sz = s.sz := by
  unfold Dll.setP at h
  cases h1 : s.pv a with
  | none => rw [h1] at h; cases h
  | some q => rw [h1] at h; cases h; rfl

theorem setN_sz {s s' : Dll α} {a : Nat} {x : Slot} (h : s.setN a x = some s') : s'.sz = s.sz := by
  unfold Dll.setN at h
  cases h1 : s.nx a with
  | none => rw [h1] at h; cases h
  | some q => rw [h1] at h; cases h; rfl

theorem extractNodes_bd (s : Dll α) (l b e : Nat) : Bd (extractNodesN s l b e) (extractNodes s l b e) (s.sz l + 2) := by
  unfold extractNodesN extractNodes
  refine Bd.accBind (by omega) (fun t ht => ?_)
  refine Bd.bind (len_bd t l b e) (by rw [setP_sz ht]; omega) (fun k _ => ?_)
  rw [setP_sz ht]
  refine Bd.ite (fun _ => Bd.fail _) (fun _ => ?_)
  exact Bd.accBind (by omega) (fun _ _ => Bd.pure _ _)

theorem freeLoop_cost (l e : Nat) : ∀ n (s : Dll α) b k, s.sz l + 1 - k = n → k ≤ s.sz l + 1 →
    Bd (freeLoopN s l b e k) (freeLoop s l b e k) (n + 1) := by
  intro n
  induction n with
  | zero =>
    intro s b k hn hk
    rw [freeLoop, freeLoopN]
    refine Bd.ite (fun _ => Bd.accBind (by omega) (fun _ _ => Bd.pure _ _)) (fun _ => ?_)
    rw [if_neg (by omega), if_neg (by omega)]
    exact Bd.fail _
  | succ n ih =>
    intro s b k hn hk
    rw [freeLoop, freeLoopN]
    refine Bd.ite (fun _ => Bd.accBind (by omega) (fun _ _ => Bd.pure _ _)) (fun _ => ?_)
    refine Bd.ite (fun _ => ?_) (fun _ => Bd.fail _)
    refine Bd.accBind (by omega) (fun q _ => Bd.liftBind (fun b' _ => ?_))
    exact ih (free s b) b' (k + 1) (by show s.sz l + 1 - (k + 1) = n; omega) (by show k + 1 ≤ s.sz l + 1; omega)

theorem eraseNodes_bd (s : Dll α) (l b e : Nat) : Bd (eraseNodesN c s l b e) (eraseNodes c s l b e) (s.sz l + 2) := by
  unfold eraseNodesN eraseNodes
  refine Bd.ite (fun _ => extractNodes_bd s l b e) (fun _ => ?_)
  refine Bd.accBind (by omega) (fun t ht => ?_)
  exact freeLoop_cost l e _ t b 1 (by rw [setP_sz ht]; omega) (by omega)

theorem withCopy_bd (s : Dll α) (l e : Nat) (ans : Slot) {p : Dll α → Nat → Count (Dll α × Slot)}
    {q : Dll α → Nat → Option (Dll α × Slot)} {n : Nat} (h : ∀ s e, Bd (p s e) (q s e) n) :
    Bd (withCopyN c s l e ans p) (withCopy c s l e ans q) (n + 3) := by
  unfold withCopyN withCopy
  refine Bd.ite (fun _ => ?_) (fun _ => (h s e).mono (by omega))
  cases ans with
  | none => exact Bd.pure _ _
  | some a =>
    exact Bd.accBind (by omega) (fun _ _ => Bd.accBind (by omega) (fun _ _ => Bd.accBind (by omega) (fun _ _ => h _ _)))

theorem pushFront_bd (s : Dll α) (l e : Nat) (ans : Slot) : Bd (pushFrontN c s l e ans) (pushFront c s l e ans) 10 := by
  refine withCopy_bd s l e ans (n := 7) (fun s e => ?_)
  exact Bd.bind (pushFrontNode_bd s l e) (by omega) (fun _ _ => by bds)

theorem pushBack_bd (s : Dll α) (l e : Nat) (ans : Slot) : Bd (pushBackN c s l e ans) (pushBack c s l e ans) 10 := by
  refine withCopy_bd s l e ans (n := 7) (fun s e => ?_)
  exact Bd.bind (pushBackNode_bd s l e) (by omega) (fun _ _ => by bds)

theorem emplaceFront_bd (s : Dll α) (l : Nat) (x : α) (n p ans : Slot) :
    Bd (emplaceFrontN c s l x n p ans) (emplaceFront c s l x n p ans) 6 := by
  unfold emplaceFrontN emplaceFront
  refine Bd.ite (fun _ => ?_) (fun _ => Bd.pure _ _)
  cases ans with
  | none => exact Bd.pure _ _
  | some a => exact Bd.bind (pushFrontNode_bd _ l a) (by omega) (fun _ _ => Bd.pure _ _)

theorem emplaceBack_bd (s : Dll α) (l : Nat) (x : α) (n p ans : Slot) :
    Bd (emplaceBackN c s l x n p ans) (emplaceBack c s l x n p ans) 6 := by
  unfold emplaceBackN emplaceBack
  refine Bd.ite (fun _ => ?_) (fun _ => Bd.pure _ _)
  cases ans with
  | none => exact Bd.pure _ _
  | some a => exact Bd.bind (pushBackNode_bd _ l a) (by omega) (fun _ _ => Bd.pure _ _)

theorem popFront_bd (s : Dll α) (l : Nat) : Bd (popFrontN c s l) (popFront c s l) 6 := by
  unfold popFrontN popFront
  refine Bd.ite (fun _ => Bd.pure _ _) (fun _ => ?_)
  refine Bd.bind (popFrontNode_bd s l) (by omega) (fun a _ => ?_)
  exact Bd.pure _ _

theorem popBack_bd (s : Dll α) (l : Nat) : Bd (popBackN c s l) (popBack c s l) 7 := by
  unfold popBackN popBack
  bds

theorem insert_bd (s : Dll α) (l pos e : Nat) (ans : Slot) : Bd (insertN c s l pos e ans) (insert c s l pos e ans) 11 := by
  unfold insertN insert
  refine Bd.accBind (by omega) (fun _ _ => Bd.accBind (by omega) (fun _ _ => Bd.ite (fun _ => Bd.pure _ _) (fun _ => ?_)))
  refine withCopy_bd s l e ans (n := 6) (fun s e => ?_)
  bds

theorem erase_bd (s : Dll α) (l e : Nat) : Bd (eraseN c s l e) (erase c s l e) 7 := by
  unfold eraseN erase
  bds

theorem unlinkRange_bd (s : Dll α) (b e : Nat) : Bd (unlinkRangeN s b e) (unlinkRange s b e) 7 := by
  unfold unlinkRangeN unlinkRange
  bds

theorem noLinks_bd (s : Dll α) (b e : Nat) : Bd (noLinksN s b e) (noLinks s b e) 4 := by
  unfold noLinksN noLinks
  bds

theorem unlinkRange_sz {s t : Dll α} {b e e' : Nat} (h : unlinkRange s b e = some (t, e')) : t.sz = s.sz := by
  simp only [unlinkRange, Option.bind_eq_bind, Option.bind_eq_some_iff] at h
  obtain ⟨_, _, _, _, _, _, _, _, _, _, u, h1, _, _, _, _, _, _, v, h2, h3⟩ := h
  cases h3
  rw [setN_sz h2, setP_sz h1]

theorem eraseRange_bd (s : Dll α) (l b e : Nat) : Bd (eraseRangeN c s l b e) (eraseRange c s l b e) (s.sz l + 13) := by
  unfold eraseRangeN eraseRange
  refine Bd.bind (noLinks_bd s b e) (by omega) (fun q _ => ?_)
  refine Bd.ite (fun _ => Bd.pure _ _) (fun _ => Bd.ite (fun _ => (erase_bd s l b).mono (by omega)) (fun _ => ?_))
  refine Bd.bind (unlinkRange_bd s b e) (by omega) (fun a ha => ?_)
  obtain ⟨t, e'⟩ := a
  refine Bd.bind (eraseNodes_bd t l b e') (by rw [unlinkRange_sz ha]; omega) (fun a _ => ?_)
  exact Bd.ite (fun _ => Bd.pure _ _) (fun _ => Bd.fail _)

theorem extract_bd (s : Dll α) (l e : Nat) : Bd (extractN c s l e) (extract c s l e) 8 := by
  unfold extractN extract
  bds

theorem extractRange_bd (s : Dll α) (l b e : Nat) : Bd (extractRangeN c s l b e) (extractRange c s l b e) (s.sz l + 13) := by
  unfold extractRangeN extractRange
  refine Bd.bind (noLinks_bd s b e) (by omega) (fun q _ => ?_)
  refine Bd.ite (fun _ => Bd.pure _ _) (fun _ => Bd.ite (fun _ => (extract_bd s l b).mono (by omega)) (fun _ => ?_))
  refine Bd.bind (unlinkRange_bd s b e) (by omega) (fun a ha => ?_)
  obtain ⟨t, e'⟩ := a
  refine Bd.bind (extractNodes_bd t l b e') (by rw [unlinkRange_sz ha]; omega) (fun a _ => ?_)
  exact Bd.ite (fun _ => Bd.pure _ _) (fun _ => Bd.fail _)

theorem splice_bd (s : Dll α) (l pos m e : Nat) : Bd (spliceN s l pos m e) (splice s l pos m e) 12 := by
  unfold spliceN splice
  bds

theorem spliceRange_bd (s : Dll α) (l pos m b e : Nat) :
    Bd (spliceRangeN s l pos m b e) (spliceRange s l pos m b e) (s.sz m + 14) := by
  unfold spliceRangeN spliceRange
  refine Bd.ite (fun _ => Bd.pure _ _) (fun _ => Bd.accBind (by omega) (fun q _ => Bd.ite (fun _ => Bd.pure _ _) (fun _ => ?_)))
  refine Bd.bind (unlinkRange_bd s b e) (by omega) (fun a ha => ?_)
  obtain ⟨t, e'⟩ := a
  dsimp only
  refine Bd.accBind (by omega) (fun q1 _ => Bd.accBind (by omega) (fun t1 h1 => Bd.accBind (by omega) (fun t2 h2 =>
    Bd.accBind (by omega) (fun q2 _ => Bd.liftBind (fun i _ => Bd.accBind (by omega) (fun t3 h3 =>
      Bd.accBind (by omega) (fun t4 h4 => Bd.ite (fun _ => ?_) (fun _ => Bd.pure _ _))))))))
  have hz : t4.sz = s.sz := by rw [setP_sz h4, setN_sz h3, setN_sz h2, setP_sz h1, unlinkRange_sz ha]
  intro r hr
  cases hk : len t4 l b e' with
  | none => rw [hk] at hr; cases hr
  | some k =>
    rw [hk] at hr
    obtain ⟨k1, k2, k3⟩ := lenLoop_cost t4 l e' _ b 1 k rfl (by omega) hk
    have hr : (if k ≤ t4.sz m then some (((t4.setSz l (t4.sz l + k)).setSz m ((t4.setSz l (t4.sz l + k)).sz m - k)), Res.ok) else none)
      = some r := hr
    split at hr
    · rename_i hkm
      rw [hz] at hkm
      refine ⟨k - 1 + 0, by omega, k3.bind ?_⟩
      rw [if_pos (by rw [hz]; exact hkm)]
      cases hr
      exact .pure _
    · cases hr

theorem clearLoop_cost (l : Nat) (d : Bool) : ∀ n (s : Dll α), s.sz l = n →
    Bd (clearLoopN c s l d) (clearLoop c s l d) (6 * n) := by
  intro n
  induction n with
  | zero =>
    intro s hs
    rw [clearLoopN, clearLoop, if_pos (by simp [isEmpty, hs]), if_pos (by simp [isEmpty, hs])]
    exact Bd.pure _ _
  | succ n ih =>
    intro s hs
    rw [clearLoopN, clearLoop, if_neg (by simp [isEmpty, hs]), if_neg (by simp [isEmpty, hs])]
    refine Bd.bind (popFrontNode_bd s l) (by omega) (fun a ha => ?_)
    obtain ⟨t, e⟩ := a
    dsimp only
    have hz : t.sz l = n := by
      simp only [popFrontNode, Option.bind_eq_bind, Option.bind_eq_some_iff] at ha
      obtain ⟨_, _, _, _, u, h1, _, _, v, h2, w, h3, x, h4, h5⟩ := ha
      cases h5
      show upd x.sz l (x.sz l - 1) l = n
      rw [upd, if_pos rfl, setN_sz h4, setP_sz h3, setN_sz h2, setP_sz h1, hs]
      omega
    refine Bd.bind (ih (if c.alloc l then free t e else t) ?_) (by omega) (fun a _ => Bd.pure _ _)
    split
    · exact hz
    · exact hz

theorem clear_bd (s : Dll α) (l : Nat) (d : Bool) : Bd (clearN c s l d) (clear c s l d) (6 * s.sz l) := by
  unfold clearN clear
  exact Bd.bind (clearLoop_cost l d _ s rfl) (by omega) (fun a _ => Bd.pure _ _)

theorem validateLoop_cost (s : Dll α) (l : Nat) : ∀ n e k, s.sz l - k = n →
    Bd (validateLoopN s l e k) (validateLoop s l e k) (2 * n) := by
  intro n
  induction n with
  | zero =>
    intro e k hn
    rw [validateLoopN.eq_def, validateLoop.eq_def]
    refine Bd.ite (fun _ => Bd.pure _ _) (fun _ => ?_)
    rw [if_pos (by omega), if_pos (by omega)]
    exact Bd.pure _ _
  | succ n ih =>
    intro e k hn
    rw [validateLoopN.eq_def, validateLoop.eq_def]
    refine Bd.ite (fun _ => Bd.pure _ _) (fun _ => Bd.ite (fun _ => Bd.pure _ _) (fun _ => ?_))
    cases e with
    | none => exact Bd.pure _ _
    | some a =>
      refine Bd.accBind (by omega) (fun q _ => Bd.accBind (by omega) (fun q' _ => Bd.ite (fun _ => Bd.pure _ _) (fun _ => ?_)))
      exact (ih q (k + 1) (by omega)).mono (by omega)

theorem validate_bd (s : Dll α) (l : Nat) : Bd (validateN s l) (validate s l) (2 * s.sz l + 1) := by
  unfold validateN validate
  exact Bd.accBind (by omega) (fun q _ => (validateLoop_cost s l _ q 0 rfl).mono (by omega))

theorem step_bd (s : Dll α) (op : Op α) : Bd (stepN c s op) (step c s op) (14 * (extent s.sz op + 1)) := by
  cases op with
  | make e x n p => exact Bd.pure _ _
  | drop e => exact Bd.pure _ _
  | pushFront l e ans => exact Bd.bind (pushFront_bd s l e ans) (by omega) (fun _ _ => Bd.pure _ _)
  | pushBack l e ans => exact Bd.bind (pushBack_bd s l e ans) (by omega) (fun _ _ => Bd.pure _ _)
  | insert l pos e ans => exact Bd.bind (insert_bd s l pos e ans) (by omega) (fun _ _ => Bd.pure _ _)
  | emplaceFront l x n p ans => exact Bd.bind (emplaceFront_bd s l x n p ans) (by omega) (fun _ _ => Bd.pure _ _)
  | emplaceBack l x n p ans => exact Bd.bind (emplaceBack_bd s l x n p ans) (by omega) (fun _ _ => Bd.pure _ _)
  | popFront l => exact Bd.bind (popFront_bd s l) (by omega) (fun _ _ => Bd.pure _ _)
  | popBack l => exact Bd.bind (popBack_bd s l) (by omega) (fun _ _ => Bd.pure _ _)
  | splice l pos m e => exact Bd.bind (splice_bd s l pos m e) (by omega) (fun _ _ => Bd.pure _ _)
  | spliceRange l pos m b e =>
    exact Bd.bind (spliceRange_bd s l pos m b e) (by simp only [extent]; omega) (fun _ _ => Bd.pure _ _)
  | erase l e => exact Bd.bind (erase_bd s l e) (by omega) (fun _ _ => Bd.pure _ _)
  | eraseRange l b e => exact Bd.bind (eraseRange_bd s l b e) (by simp only [extent]; omega) (fun _ _ => Bd.pure _ _)
  | extract l e => exact Bd.bind (extract_bd s l e) (by omega) (fun _ _ => Bd.pure _ _)
  | extractRange l b e => exact Bd.bind (extractRange_bd s l b e) (by simp only [extent]; omega) (fun _ _ => Bd.pure _ _)
  | clear l d => exact Bd.bind (clear_bd s l d) (by simp only [extent]; omega) (fun _ _ => Bd.pure _ _)
  | front l =>
    simp only [stepN, step, frontN, front]
    exact Bd.bind (k := 1) (by bds) (by omega) (fun _ _ => Bd.pure _ _)
  | back l =>
    simp only [stepN, step, backN, back]
    exact Bd.bind (k := 1) (by bds) (by omega) (fun _ _ => Bd.pure _ _)
  | «begin» l =>
    simp only [stepN, step, beginN', begin']
    exact Bd.bind (k := 1) (by bds) (by omega) (fun _ _ => Bd.pure _ _)
  | rbegin l =>
    simp only [stepN, step, rbeginN, rbegin]
    exact Bd.bind (k := 1) (by bds) (by omega) (fun _ _ => Bd.pure _ _)
  | next l e =>
    simp only [stepN, step, nextN, next]
    exact Bd.bind (k := 1) (by bds) (by omega) (fun _ _ => Bd.pure _ _)
  | rnext l e =>
    simp only [stepN, step, rnextN, rnext]
    exact Bd.bind (k := 1) (by bds) (by omega) (fun _ _ => Bd.pure _ _)
  | beginElem l => exact Bd.accBind (by omega) (fun _ _ => Bd.pure _ _)
  | endElem l => exact Bd.accBind (by omega) (fun _ _ => Bd.pure _ _)
  | endSentinel l => exact Bd.pure _ _
  | endIter l => exact Bd.pure _ _
  | rend l => exact Bd.pure _ _
  | size l => exact Bd.pure _ _
  | isEmpty l => exact Bd.pure _ _
  | validate l => exact Bd.bind (validate_bd s l) (by simp only [extent]; omega) (fun _ _ => Bd.pure _ _)

end Dll

namespace Sll
open Seq SllSpec

variable {α : Type} {c : Cfg} {s : Sll α} {st : St α}

theorem pushFrontNode_bd (s : Sll α) (l e : Nat) : Bd (pushFrontNodeN s l e) (pushFrontNode s l e) 3 := by
  unfold pushFrontNodeN pushFrontNode
  bds

theorem popFrontNode_bd (s : Sll α) (l : Nat) : Bd (popFrontNodeN s l) (popFrontNode s l) 4 := by
  unfold popFrontNodeN popFrontNode
  bds

/-- The loop of `len` takes as many steps as it counts. -/
theorem lenLoop_cost (s : Sll α) (l e : Nat) : ∀ n b k r, s.sz l + 1 - k = n → k ≤ s.sz l + 1 → lenLoop s l b e k = some r →
    k ≤ r ∧ r ≤ s.sz l + 1 ∧ Costs (lenLoopN s l b e k) (r - k) r := by
  intro n
  induction n with
  | zero =>
    intro b k r hn hk h
    rw [lenLoop] at h
    rw [lenLoopN]
    split at h
    · cases h; rw [if_pos ‹_›, Nat.sub_self]; exact ⟨by omega, by omega, .pure _⟩
    · rw [if_neg (by omega)] at h; cases h
  | succ n ih =>
    intro b k r hn hk h
    rw [lenLoop] at h
    rw [lenLoopN]
    split at h
    · cases h; rw [if_pos ‹_›, Nat.sub_self]; exact ⟨by omega, by omega, .pure _⟩
    · rw [if_pos (by omega)] at h
      rw [if_neg ‹_›, if_pos (by omega)]
      cases h1 : s.lnk b with
      | none => rw [h1] at h; cases h
      | some q =>
        cases q with
        | none => rw [h1] at h; cases h
        | some b' =>
          rw [h1] at h
          obtain ⟨k1, k2, k3⟩ := ih b' (k + 1) r (by omega) (by omega) h
          refine ⟨by omega, k2, ?_⟩
          have : r - k = 1 + (0 + (r - (k + 1))) := by omega
          rw [this]
          exact (Costs.acc rfl).bind ((Costs.lift rfl).bind k3)

theorem len_bd (s : Sll α) (l b e : Nat) : Bd (lenN s l b e) (len s l b e) (s.sz l) := by
  intro r h
  obtain ⟨h1, h2, h3⟩ := lenLoop_cost s l e _ b 1 r rfl (by omega) h
  exact ⟨r - 1, by omega, h3⟩

theorem setN_sz {s s' : Sll α} {a : Nat} {x : Slot} (h : s.setN a x = some s') : s'.sz = s.sz := by
  unfold Sll.setN at h
  cases h1 : s.lnk a with
  | none => rw [h1] at h; cases h
  | some q => rw [h1] at h; cases h; rfl

theorem extractNodes_bd (s : Sll α) (l b e : Nat) : Bd (extractNodesN s l b e) (extractNodes s l b e) (s.sz l + 1) := by
  unfold extractNodesN extractNodes
  refine Bd.bind (len_bd s l b e) (by omega) (fun k _ => ?_)
  exact Bd.accBind (by omega) (fun _ _ => Bd.pure _ _)

theorem freeLoop_cost (l e : Nat) : ∀ n (s : Sll α) b k, s.sz l + 1 - k = n → k ≤ s.sz l + 1 →
    Bd (freeLoopN s l b e k) (freeLoop s l b e k) (n + 1) := by
  intro n
  induction n with
  | zero =>
    intro s b k hn hk
    rw [freeLoop, freeLoopN]
    refine Bd.ite (fun _ => Bd.accBind (by omega) (fun _ _ => Bd.pure _ _)) (fun _ => ?_)
    rw [if_neg (by omega), if_neg (by omega)]
    exact Bd.fail _
  | succ n ih =>
    intro s b k hn hk
    rw [freeLoop, freeLoopN]
    refine Bd.ite (fun _ => Bd.accBind (by omega) (fun _ _ => Bd.pure _ _)) (fun _ => ?_)
    refine Bd.ite (fun _ => ?_) (fun _ => Bd.fail _)
    refine Bd.accBind (by omega) (fun q _ => Bd.liftBind (fun b' _ => ?_))
    exact ih (free s b) b' (k + 1) (by show s.sz l + 1 - (k + 1) = n; omega) (by show k + 1 ≤ s.sz l + 1; omega)

/-- The search for the element before another one reads one link for each element it passes. -/
theorem before_cost {e : Nat} : ∀ {A : List Nat} {p : Nat}, Seg (Lk s) p A e → e ∉ A →
    Costs (beforeLoopN s e p) (A.length + 1) (A.getLastD p)
  | [], p, h, _ => by
    have h : s.lnk p = some (some e) := h
    rw [beforeLoopN]
    refine Costs.bind (m' := 0) (r := some e) (Costs.acc h) ?_
    rw [if_pos rfl]
    exact .pure _
  | a :: A, p, h, he => by
    obtain ⟨h1, h2⟩ := h
    have h1 : s.lnk p = some (some a) := h1
    have hne : ¬ (some a : Slot) = some e := by
      intro e'; cases e'; exact he List.mem_cons_self
    have h3 := before_cost h2 (fun h => he (List.mem_cons_of_mem _ h))
    rw [beforeLoopN]
    have : (a :: A).length + 1 = 1 + (0 + (A.length + 1)) := by simp only [List.length_cons]; omega
    rw [this]
    refine Costs.bind (r := some a) (Costs.acc h1) ?_
    rw [if_neg hne]
    rw [getLastD_cons']
    exact Costs.bind (m := 0) (r := a) (Costs.lift rfl) h3

theorem Sim.before_bd (h : Sim c s st) {m b : Nat} (hm : m ∈ c.lists) (hb : b ∈ st.seq m) :
    Bd (beforeN s m b) (before s m b) (s.sz m) := by
  obtain ⟨A, B, hs⟩ := List.append_of_mem hb
  have hr := h.ring m hm
  rw [hs] at hr
  have nd := h.shape.nd m hm
  rw [hs] at nd
  have hA : b ∉ A := fun hx => (List.nodup_append.1 nd).2.2 b hx b (by simp) rfl
  have hseg : Seg (Lk s) m A b := (seg_append.1 hr).1
  have hc := before_cost hseg hA
  intro r hr
  have : before s m b = some (A.getLastD m) := before_spec hseg hA
  rw [this] at hr
  cases hr
  refine ⟨A.length + 1, ?_, hc⟩
  have := h.sz m hm
  rw [this, hs]
  simp

theorem eraseNodes_bd (s : Sll α) (l b e : Nat) : Bd (eraseNodesN c s l b e) (eraseNodes c s l b e) (s.sz l + 1) := by
  unfold eraseNodesN eraseNodes
  refine Bd.ite (fun _ => extractNodes_bd s l b e) (fun _ => ?_)
  exact freeLoop_cost l e _ s b 1 (by omega) (by omega)

theorem pushFront_bd (s : Sll α) (l e : Nat) (ans : Slot) : Bd (pushFrontN c s l e ans) (pushFront c s l e ans) 6 := by
  unfold pushFrontN pushFront
  refine Bd.ite (fun _ => ?_) (fun _ => ?_)
  · cases ans with
    | none => exact Bd.pure _ _
    | some n =>
      refine Bd.accBind (by omega) (fun _ _ => Bd.accBind (by omega) (fun _ _ => ?_))
      exact Bd.bind (pushFrontNode_bd _ l n) (by omega) (fun _ _ => by bds)
  · exact Bd.bind (pushFrontNode_bd s l e) (by omega) (fun _ _ => by bds)

theorem popFront_bd (s : Sll α) (l : Nat) : Bd (popFrontN c s l) (popFront c s l) 4 := by
  unfold popFrontN popFront
  refine Bd.ite (fun _ => Bd.pure _ _) (fun _ => ?_)
  exact Bd.bind (popFrontNode_bd s l) (by omega) (fun a _ => Bd.pure _ _)

theorem Sim.splice_bd (h : Sim c s st) {l pos m e : Nat} (hm : m ∈ c.lists) (he : e ∈ st.seq m) :
    Bd (spliceN s l pos m e) (Sll.splice s l pos m e) (s.sz m + 6) := by
  unfold spliceN Sll.splice
  refine Bd.ite (fun _ => Bd.pure _ _) (fun _ => Bd.accBind (by omega) (fun _ _ => Bd.ite (fun _ => Bd.pure _ _) (fun _ => ?_)))
  refine Bd.bind (h.before_bd hm he) (by omega) (fun i _ => ?_)
  bds

theorem Sim.spliceRange_bd (h : Sim c s st) {l pos m b e : Nat} (hm : m ∈ c.lists) (hb : b ∈ st.seq m) :
    Bd (spliceRangeN s l pos m b e) (Sll.spliceRange s l pos m b e) (2 * s.sz m + 7) := by
  unfold spliceRangeN Sll.spliceRange
  refine Bd.ite (fun _ => Bd.pure _ _) (fun _ => Bd.accBind (by omega) (fun _ _ => Bd.ite (fun _ => Bd.pure _ _) (fun _ => ?_)))
  refine Bd.ite (fun _ => Bd.bind (h.splice_bd hm hb) (by omega) (fun _ _ => Bd.pure _ _)) (fun _ => ?_)
  refine Bd.bind (h.before_bd hm hb) (by omega) (fun i _ => Bd.accBind (by omega) (fun _ _ => Bd.accBind (by omega) (fun t1 h1 =>
    Bd.accBind (by omega) (fun _ _ => Bd.accBind (by omega) (fun t2 h2 => Bd.accBind (by omega) (fun t3 h3 => ?_))))))
  have hz : t3.sz = s.sz := by rw [setN_sz h3, setN_sz h2, setN_sz h1]
  exact Bd.ite (fun _ => Bd.bind (len_bd t3 m b e) (by rw [hz]; omega) (fun _ _ => Bd.pure _ _)) (fun _ => Bd.pure _ _)

theorem Sim.erase_bd (h : Sim c s st) {l e : Nat} (hl : l ∈ c.lists) (he : e ∈ st.seq l) :
    Bd (eraseN c s l e) (Sll.erase c s l e) (s.sz l + 4) := by
  unfold eraseN Sll.erase
  refine Bd.ite (fun _ => Bd.pure _ _) (fun _ => Bd.accBind (by omega) (fun _ _ => ?_))
  refine Bd.bind (h.before_bd hl he) (by omega) (fun i _ => ?_)
  bds

theorem Sim.extract_bd (h : Sim c s st) {l e : Nat} (hl : l ∈ c.lists) (he : e ∈ st.seq l) :
    Bd (extractN c s l e) (Sll.extract c s l e) (s.sz l + 4) := by
  unfold extractN Sll.extract
  refine Bd.ite (fun _ => Bd.pure _ _) (fun _ => Bd.accBind (by omega) (fun _ _ => ?_))
  refine Bd.bind (h.before_bd hl he) (by omega) (fun i _ => ?_)
  bds

theorem Sim.eraseRange_bd (h : Sim c s st) {l b e : Nat} (hl : l ∈ c.lists) (hb : b ∈ st.seq l) :
    Bd (eraseRangeN c s l b e) (Sll.eraseRange c s l b e) (2 * s.sz l + 4) := by
  unfold eraseRangeN Sll.eraseRange
  refine Bd.ite (fun _ => Bd.pure _ _) (fun _ => Bd.accBind (by omega) (fun _ _ => ?_))
  refine Bd.bind (h.before_bd hl hb) (by omega) (fun i _ => Bd.accBind (by omega) (fun _ _ => Bd.accBind (by omega) (fun t ht => ?_)))
  refine Bd.bind (eraseNodes_bd t l b e) (by rw [setN_sz ht]; omega) (fun a _ => ?_)
  dsimp only
  bds

theorem Sim.extractRange_bd (h : Sim c s st) {l b e : Nat} (hl : l ∈ c.lists) (hb : b ∈ st.seq l) :
    Bd (extractRangeN c s l b e) (Sll.extractRange c s l b e) (2 * s.sz l + 4) := by
  unfold extractRangeN Sll.extractRange
  refine Bd.ite (fun _ => Bd.pure _ _) (fun _ => Bd.accBind (by omega) (fun _ _ => ?_))
  refine Bd.bind (h.before_bd hl hb) (by omega) (fun i _ => Bd.accBind (by omega) (fun _ _ => Bd.accBind (by omega) (fun t ht => ?_)))
  refine Bd.bind (extractNodes_bd t l b e) (by rw [setN_sz ht]; omega) (fun a _ => ?_)
  dsimp only
  bds

theorem clearLoop_cost (l : Nat) (d : Bool) : ∀ n (s : Sll α), s.sz l = n →
    Bd (clearLoopN c s l d) (clearLoop c s l d) (4 * n) := by
  intro n
  induction n with
  | zero =>
    intro s hs
    rw [clearLoopN, clearLoop, if_pos (by simp [isEmpty, hs]), if_pos (by simp [isEmpty, hs])]
    exact Bd.pure _ _
  | succ n ih =>
    intro s hs
    rw [clearLoopN, clearLoop, if_neg (by simp [isEmpty, hs]), if_neg (by simp [isEmpty, hs])]
    refine Bd.bind (popFrontNode_bd s l) (by omega) (fun a ha => ?_)
    obtain ⟨t, e⟩ := a
    dsimp only
    have hz : t.sz l = n := by
      simp only [popFrontNode, Option.bind_eq_bind, Option.bind_eq_some_iff] at ha
      obtain ⟨_, _, _, _, _, _, v, h2, w, h3, h5⟩ := ha
      cases h5
      show upd w.sz l (w.sz l - 1) l = n
      rw [upd, if_pos rfl, setN_sz h3, setN_sz h2, hs]
      omega
    refine Bd.bind (ih (if c.alloc l then free t e else t) ?_) (by omega) (fun a _ => Bd.pure _ _)
    split
    · exact hz
    · exact hz

theorem clear_bd (s : Sll α) (l : Nat) (d : Bool) : Bd (clearN c s l d) (clear c s l d) (4 * s.sz l) := by
  unfold clearN clear
  exact Bd.bind (clearLoop_cost l d _ s rfl) (by omega) (fun a _ => Bd.pure _ _)

theorem validateLoop_cost (s : Sll α) (l : Nat) : ∀ n e k, s.sz l - k = n →
    Bd (validateLoopN s l e k) (validateLoop s l e k) n := by
  intro n
  induction n with
  | zero =>
    intro e k hn
    rw [validateLoopN.eq_def, validateLoop.eq_def]
    refine Bd.ite (fun _ => Bd.pure _ _) (fun _ => ?_)
    rw [if_pos (by omega), if_pos (by omega)]
    exact Bd.pure _ _
  | succ n ih =>
    intro e k hn
    rw [validateLoopN.eq_def, validateLoop.eq_def]
    refine Bd.ite (fun _ => Bd.pure _ _) (fun _ => Bd.ite (fun _ => Bd.pure _ _) (fun _ => ?_))
    cases e with
    | none => exact Bd.pure _ _
    | some a =>
      refine Bd.accBind (by omega) (fun q _ => Bd.ite (fun _ => Bd.pure _ _) (fun _ => ?_))
      exact (ih q (k + 1) (by omega)).mono (by omega)

theorem validate_bd (s : Sll α) (l : Nat) : Bd (validateN s l) (validate s l) (s.sz l + 1) := by
  unfold validateN validate
  exact Bd.accBind (by omega) (fun q _ => (validateLoop_cost s l _ q 0 rfl).mono (by omega))

theorem Sim.step_bd (h : Sim c s st) (op : Op α) (hok : okOp c.lists c.alloc st op) :
    Bd (stepN c s op) (step c s op) (8 * (extent s.sz op + 1)) := by
  cases op with
  | make e x n => exact Bd.pure _ _
  | drop e => exact Bd.pure _ _
  | pushFront l e ans => exact Bd.bind (pushFront_bd s l e ans) (by omega) (fun _ _ => Bd.pure _ _)
  | popFront l => exact Bd.bind (popFront_bd s l) (by omega) (fun _ _ => Bd.pure _ _)
  | splice l pos m e =>
    exact Bd.bind (h.splice_bd hok.2.1 hok.2.2.2) (by simp only [extent]; omega) (fun _ _ => Bd.pure _ _)
  | spliceRange l pos m b e =>
    exact Bd.bind (h.spliceRange_bd hok.2.1 hok.2.2.2.1.1) (by simp only [extent]; omega) (fun _ _ => Bd.pure _ _)
  | erase l e => exact Bd.bind (h.erase_bd hok.1 hok.2) (by simp only [extent]; omega) (fun _ _ => Bd.pure _ _)
  | eraseRange l b e => exact Bd.bind (h.eraseRange_bd hok.1 hok.2.1) (by simp only [extent]; omega) (fun _ _ => Bd.pure _ _)
  | extract l e => exact Bd.bind (h.extract_bd hok.1 hok.2) (by simp only [extent]; omega) (fun _ _ => Bd.pure _ _)
  | extractRange l b e => exact Bd.bind (h.extractRange_bd hok.1 hok.2.1) (by simp only [extent]; omega) (fun _ _ => Bd.pure _ _)
  | clear l d => exact Bd.bind (clear_bd s l d) (by simp only [extent]; omega) (fun _ _ => Bd.pure _ _)
  | front l =>
    simp only [stepN, step, frontN, front]
    exact Bd.bind (k := 1) (by bds) (by omega) (fun _ _ => Bd.pure _ _)
  | «begin» l =>
    simp only [stepN, step, beginN', begin']
    exact Bd.bind (k := 1) (by bds) (by omega) (fun _ _ => Bd.pure _ _)
  | next l e =>
    simp only [stepN, step, nextN, next]
    exact Bd.bind (k := 1) (by bds) (by omega) (fun _ _ => Bd.pure _ _)
  | beginElem l => exact Bd.accBind (by omega) (fun _ _ => Bd.pure _ _)
  | beginSentinel l => exact Bd.pure _ _
  | endIter l => exact Bd.pure _ _
  | size l => exact Bd.pure _ _
  | isEmpty l => exact Bd.pure _ _
  | validate l => exact Bd.bind (validate_bd s l) (by simp only [extent]; omega) (fun _ _ => Bd.pure _ _)

end Sll

end CCC
