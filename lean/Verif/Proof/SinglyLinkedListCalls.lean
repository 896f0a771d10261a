import Verif.Proof.SinglyLinkedList
/-
The singly linked list: every call does what the specification says.
-/
namespace CCC.Sll
open CCC Seq SllSpec

variable {α : Type} {c : Cfg} {s : Sll α} {st : St α}

theorem headD_eq {B : List Nat} {l : Nat} (hl : l ∉ B) :
    (if some (B.headD l) = some l then some none else structBase c (some (B.headD l))) = some B.head? := by
  cases B with
  | nil => simp
  | cons b B =>
    have : b ≠ l := fun e => hl (by simp [e])
    simp [this, structBase]

theorem ret_eq {B : List Nat} {l : Nat} (hl : l ∉ B) (t : Sll α) :
    (if some (B.headD l) = some l then some (t, none) else (structBase c (some (B.headD l))).bind fun r => some (t, r)) =
      some (t, B.head?) := by
  cases B with
  | nil => simp
  | cons b B =>
    have : b ≠ l := fun e => hl (by simp [e])
    simp [this, structBase]

theorem Sim.front (h : Sim c s st) {l : Nat} (hl : l ∈ c.lists) : Sll.front c s l = some (st.seq l).head? := by
  simp only [Sll.front, h.head hl, Option.bind_eq_bind, Option.bind_some]
  exact headD_eq (List.nodup_cons.1 (h.shape.ring hl)).1

theorem Sim.next (h : Sim c s st) {l e : Nat} (hl : l ∈ c.lists) (he : e ∈ st.seq l) :
    Sll.next c s l e = some (after e (st.seq l)) := by
  obtain ⟨A, B, hs, hA, _⟩ := split_mem he (h.shape.nd l hl)
  rw [hs, after_append B hA]
  simp only [Sll.next, h.at_ hl hs, Option.bind_eq_bind, Option.bind_some]
  refine headD_eq fun hb => ?_
  have := (List.nodup_cons.1 (h.shape.ring hl)).1
  rw [hs] at this
  exact this (by simp [hb])

theorem Sim.empty_iff (h : Sim c s st) {l : Nat} (hl : l ∈ c.lists) : s.sz l = 0 ↔ st.seq l = [] := by
  rw [h.sz l hl, List.length_eq_zero_iff]

theorem Core.setSz (h : Core c s st) (l n : Nat) : Core c (s.setSz l n) st := ⟨h.val, h.live, h.shape, h.ring, h.own, h.nolist⟩

/-- Pushing a struct in no list. -/
theorem Sim.pushNode (h : Sim c s st) {l e : Nat} (hl : l ∈ c.lists) (he : Loose c.lists st e) (hv : st.val e ≠ none) :
    ∃ s', pushFrontNode s l e = some s' ∧ Sim c s' (st.set l (e :: st.seq l)) ∧ s'.lnk l = some (some e) := by
  have hne : l ≠ e := fun e' => he.1 (e' ▸ hl)
  have hp := h.toCore.paste (P := []) (M := []) (Q := st.seq l) (e := e) hl rfl trivial (by simp)
    (by intro a ha; simp at ha; subst ha; exact ⟨he, hv⟩)
  refine ⟨(pasteSt s l [] [] (st.seq l) e).setSz l (s.sz l + 1), ?_, ⟨hp.setSz _ _, fun k hk => ?_⟩, ?_⟩
  · simp only [pushFrontNode, h.head hl, Option.bind_eq_bind, Option.bind_some]
    rw [setN_eq' (h.live e hv)]
    simp only [Option.bind_some]
    rw [setN_eq (s := { s with lnk := upd s.lnk e _ }) (x := some ((st.seq l).headD l))
      (by show upd s.lnk _ _ l = _; rw [upd_ne _ _ hne]; exact h.head hl)]
    rfl
  · show upd s.sz l _ k = (upd st.seq l _ k).length
    by_cases e' : k = l
    · subst e'; simp [h.sz k hk]
    · rw [upd_ne _ _ e', upd_ne _ _ e', h.sz k hk]
  · show upd _ _ _ l = _
    exact upd_same _ _ _

theorem Sim.make (h : Sim c s st) {e : Nat} (he : Loose c.lists st e) (x : α) (n : Slot) :
    Sim c { s with val := upd s.val e (some x), lnk := upd s.lnk e (some n) } { st with val := upd st.val e (some x) } := by
  have hc := h.toCore.loose he n
  refine ⟨⟨by simp only [h.val], fun a ha => ?_, hc.shape, hc.ring, fun k hk a ha => ?_, fun k hk => ?_⟩, h.sz⟩
  · by_cases e' : a = e
    · rw [e']; simp
    · simp only [upd_ne _ _ e'] at ha
      exact hc.live a ha
  · show upd st.val _ _ a ≠ none
    by_cases e' : a = e
    · rw [e', upd_same]; simp
    · rw [upd_ne _ _ e']; exact h.own k hk a ha
  · show upd st.val _ _ k = none
    have : k ≠ e := fun e' => he.1 (e' ▸ hk)
    rw [upd_ne _ _ this]; exact h.nolist k hk

theorem Sim.pushFront (h : Sim c s st) {l e : Nat} {ans : Slot} (hok : okOp c.lists c.alloc st (.pushFront l e ans)) :
    ∃ s' r, Sll.pushFront c s l e ans = some (s', r) ∧ Sim c s' (specStep c.alloc st (.pushFront l e ans)).1 ∧
      (specStep c.alloc st (.pushFront l e ans)).2 = .ptr r := by
  obtain ⟨hl, hv, ho⟩ := hok
  by_cases ha : c.alloc l = true
  · simp only [Sll.pushFront, specStep, ha, if_true]
    rw [if_pos ha] at ho
    cases ans with
    | none => exact ⟨s, none, rfl, h, rfl⟩
    | some n =>
      obtain ⟨h1, h2⟩ := ho n rfl
      obtain ⟨x, hx⟩ := Option.ne_none_iff_exists'.1 hv
      obtain ⟨k, hk⟩ := Option.ne_none_iff_exists'.1 (h.live e hv)
      have hn : Loose c.lists st n := ⟨h1, fun m hm hnm => h.own m hm n hnm h2⟩
      obtain ⟨s', a1, a2, a3⟩ := (h.make hn x k).pushNode hl ⟨h1, hn.2⟩ (by simp)
      refine ⟨s', some n, ?_, ?_, rfl⟩
      · simp only [show s.val e = some x by rw [h.val, hx], hk, Option.bind_eq_bind, Option.bind_some, a1, a3, structBase]
        simp
      · rw [hx]; exact a2
  · rw [if_neg ha] at ho
    simp only [Sll.pushFront, specStep, ha]
    obtain ⟨s', a1, a2, a3⟩ := h.pushNode hl ho hv
    refine ⟨s', some e, ?_, a2, rfl⟩
    simp only [Option.bind_eq_bind, Option.bind_some, a1, a3, structBase]
    simp

theorem set_set (st : St α) (l : Nat) (x y : List Nat) : (st.set l x).set l y = st.set l y := by
  simp only [St.set, upd_upd]

theorem set_loose {l a : Nat} {t : List Nat} (hl : Loose c.lists (st.set l t) a) : Loose c.lists (st.set l t) a := hl

/-- A range taken out of a list, its last link reset, the size adjusted. -/
theorem Sim.unlink (h : Sim c s st) {l e : Nat} (hl : l ∈ c.lists) {A M B : List Nat} (hs : st.seq l = A ++ (M ++ e :: B)) :
    Sim c ({ cutSt s l A B with lnk := upd (cutSt s l A B).lnk e (some none) }.setSz l (s.sz l - (M.length + 1))) (st.set l (A ++ B)) := by
  obtain ⟨hc, _, _, hloose⟩ := h.toCore.cut hl hs
  refine ⟨(hc.loose (hloose e (by simp)) none).setSz _ _, fun k hk => ?_⟩
  show upd s.sz l _ k = (upd st.seq l _ k).length
  by_cases e' : k = l
  · subst e'
    rw [upd_same, upd_same, h.sz k hk, hs]
    simp only [List.length_append, List.length_cons]
    omega
  · rw [upd_ne _ _ e', upd_ne _ _ e', h.sz k hk]

theorem Sim.drop (h : Sim c s st) {X : List Nat} (hX : ∀ a ∈ X, Loose c.lists st a) : Sim c (dropAll s X) (st.drop X) :=
  ⟨h.toCore.dropAll hX, h.sz⟩

theorem Sim.popNode (h : Sim c s st) {l e : Nat} (hl : l ∈ c.lists) {t : List Nat} (hs : st.seq l = e :: t) :
    ∃ s', popFrontNode s l = some (s', e) ∧ Sim c s' (st.set l t) ∧ Loose c.lists (st.set l t) e := by
  have h1 : s.lnk l = some (some e) := by rw [h.head hl, hs]; rfl
  have h2 := h.at_ hl (A := []) hs
  have hu := h.unlink hl (A := []) (M := []) (e := e) (B := t) hs
  obtain ⟨_, _, _, hloose⟩ := h.toCore.cut hl (A := []) (M := []) (e := e) (B := t) hs
  have hne : e ≠ l := fun e' => (List.nodup_cons.1 (h.shape.ring hl)).1 (by rw [hs, ← e']; simp)
  refine ⟨_, ?_, hu, hloose e (by simp)⟩
  simp only [popFrontNode, h1, h2, Option.bind_eq_bind, Option.bind_some]
  rw [setN_eq h1]
  simp only [Option.bind_some]
  rw [setN_eq (s := { s with lnk := upd s.lnk l _ }) (x := some (t.headD l))
    (by show upd s.lnk _ _ e = _; rw [upd_ne _ _ hne]; exact h2)]
  rfl

theorem Sim.popFront (h : Sim c s st) {l : Nat} (hl : l ∈ c.lists) :
    ∃ s' r, Sll.popFront c s l = some (s', r) ∧ Sim c s' (specStep c.alloc st (.popFront l)).1 ∧
      (specStep c.alloc st (.popFront l)).2 = .res r := by
  simp only [Sll.popFront, specStep]
  cases hs : st.seq l with
  | nil =>
    rw [if_pos ((h.empty_iff hl).2 hs)]
    exact ⟨s, _, rfl, h, rfl⟩
  | cons e t =>
    have : s.sz l ≠ 0 := fun h0 => by have := (h.empty_iff hl).1 h0; rw [hs] at this; cases this
    obtain ⟨s', a1, a2, a3⟩ := h.popNode hl hs
    simp only [if_neg this, a1, Option.bind_eq_bind, Option.bind_some]
    refine ⟨_, _, rfl, ?_, rfl⟩
    by_cases ha : c.alloc l = true
    · simp only [ha, if_true, St.release]
      rw [← dropAll_one]
      exact a2.drop (by intro a ha; simp at ha; subst ha; exact a3)
    · simp only [ha, St.release]
      exact a2

theorem Sim.sz_ne (h : Sim c s st) {l e : Nat} (hl : l ∈ c.lists) (he : e ∈ st.seq l) : ¬ (s.sz l = 0 ∨ e = l) := by
  rintro (h0 | rfl)
  · have := (h.empty_iff hl).1 h0; rw [this] at he; cases he
  · exact h.shape.out e hl e he hl

/-- The common part of `erase` and `extract`. -/
theorem Sim.unlinkOne (h : Sim c s st) {l e : Nat} (hl : l ∈ c.lists) (he : e ∈ st.seq l) :
    ∃ A B, st.seq l = A ++ e :: B ∧ s.lnk e = some (some (B.headD l)) ∧ before s l e = some (A.getLastD l) ∧
      s.setN (A.getLastD l) (some (B.headD l)) = some (cutSt s l A B) ∧
      (cutSt s l A B).setN e none = some { cutSt s l A B with lnk := upd (cutSt s l A B).lnk e (some none) } ∧
      Sim c ({ cutSt s l A B with lnk := upd (cutSt s l A B).lnk e (some none) }.setSz l (s.sz l - 1)) (st.set l (A ++ B)) ∧
      Loose c.lists (st.set l (A ++ B)) e ∧ without [e] (st.seq l) = A ++ B ∧ after e (st.seq l) = B.head? ∧ l ∉ B := by
  have nd := h.shape.nd l hl
  obtain ⟨A, B, hs, hA, _⟩ := split_mem he nd
  obtain ⟨_, _, hne, hloose⟩ := h.toCore.cut hl (A := A) (M := []) (e := e) (B := B) hs
  refine ⟨A, B, hs, h.at_ hl hs, h.before hl (C := e :: B) hs rfl hA, ?_, ?_, ?_, hloose e (by simp), ?_, ?_, ?_⟩
  · exact setN_eq (h.last hl hs) _
  · refine setN_eq (x := some (B.headD l)) ?_ _
    show upd s.lnk _ _ e = _
    rw [upd_ne _ _ (hne e (by simp))]; exact h.at_ hl hs
  · exact h.unlink hl (A := A) (M := []) (e := e) (B := B) hs
  · rw [hs]; rw [hs] at nd
    exact without_append (X := [e]) nd
  · rw [hs]; exact after_append B hA
  · intro hb
    exact (List.nodup_cons.1 (h.shape.ring hl)).1 (by rw [hs]; simp [hb])

theorem Sim.extract (h : Sim c s st) {l e : Nat} (hl : l ∈ c.lists) (he : e ∈ st.seq l) :
    ∃ s', Sll.extract c s l e = some (s', after e (st.seq l)) ∧ Sim c s' (st.set l (without [e] (st.seq l))) := by
  obtain ⟨A, B, hs, a1, a2, a3, a4, a5, a6, a7, a8, a9⟩ := h.unlinkOne hl he
  rw [a7, a8]
  refine ⟨_, ?_, a5⟩
  simp only [Sll.extract, if_neg (h.sz_ne hl he), a1, a2, a3, a4, Option.bind_eq_bind, Option.bind_some]
  exact ret_eq a9 _

theorem Sim.erase (h : Sim c s st) {l e : Nat} (hl : l ∈ c.lists) (he : e ∈ st.seq l) :
    ∃ s', Sll.erase c s l e = some (s', after e (st.seq l)) ∧
      Sim c s' ((st.set l (without [e] (st.seq l))).release (c.alloc l) [e]) := by
  obtain ⟨A, B, hs, a1, a2, a3, a4, a5, a6, a7, a8, a9⟩ := h.unlinkOne hl he
  rw [a7, a8]
  simp only [Sll.erase, if_neg (h.sz_ne hl he), a1, a2, a3, a4, Option.bind_eq_bind, Option.bind_some]
  refine ⟨_, ret_eq a9 _, ?_⟩
  by_cases ha : c.alloc l = true
  · simp only [ha, if_true, St.release]
    rw [← dropAll_one]
    exact a5.drop (by intro a ha; simp at ha; subst ha; exact a6)
  · simp only [ha, St.release]
    exact a5

/-- The common part of `eraseRange` and `extractRange`. -/
theorem Sim.unlinkRange (h : Sim c s st) {l b e : Nat} (hl : l ∈ c.lists) (hr : InRange (st.seq l) b e) :
    ∃ A M B, st.seq l = A ++ (M ++ e :: B) ∧ M.headD e = b ∧ s.lnk e = some (some (B.headD l)) ∧ before s l b = some (A.getLastD l) ∧
      s.setN (A.getLastD l) (some (B.headD l)) = some (cutSt s l A B) ∧
      (cutSt s l A B).setN e none = some { cutSt s l A B with lnk := upd (cutSt s l A B).lnk e (some none) } ∧
      Sim c ({ cutSt s l A B with lnk := upd (cutSt s l A B).lnk e (some none) }.setSz l (s.sz l - (M.length + 1))) (st.set l (A ++ B)) ∧
      (∀ a ∈ M ++ [e], Loose c.lists (st.set l (A ++ B)) a) ∧ Path (Lk (cutSt s l A B)) (M ++ [e]) ∧ (M ++ [e]).Nodup ∧
      through b e (st.seq l) = M ++ [e] ∧ without (M ++ [e]) (st.seq l) = A ++ B ∧ after e (st.seq l) = B.head? ∧ l ∉ B ∧
      M.length + 1 ≤ s.sz l ∧ ¬ (s.sz l = 0 ∨ b = l ∨ e = l) ∧ (cutSt s l A B).lnk e ≠ none := by
  have nd := h.shape.nd l hl
  obtain ⟨A, M, B, hs, hb, ht, haf, hA⟩ := split_range hr.1 hr.2 nd
  obtain ⟨_, hp, hne, hloose⟩ := h.toCore.cut hl hs
  have hs' : st.seq l = (A ++ M) ++ e :: B := by rw [hs, List.append_assoc]
  have hat := h.at_ hl hs'
  have he : (cutSt s l A B).lnk e = some (some (B.headD l)) := by
    show upd s.lnk _ _ e = _
    rw [upd_ne _ _ (hne e (by simp))]; exact hat
  have hlen : (st.seq l).length = A.length + (M.length + (B.length + 1)) := by rw [hs]; simp
  have hsz := h.sz l hl
  have nd' := nd
  rw [hs] at nd'
  have nd2 : (M ++ [e] ++ B).Nodup := by simpa using (List.nodup_append.1 nd').2.1
  refine ⟨A, M, B, hs, hb, hat, h.before hl (C := M ++ e :: B) hs (by rw [headD_append, hb]) hA, setN_eq (h.last hl hs) _,
    setN_eq he _, h.unlink hl hs, hloose, hp, (List.nodup_append.1 nd2).1, ht, ?_, haf, ?_, by omega, ?_, by rw [he]; simp⟩
  · rw [hs]
    rw [show M ++ e :: B = (M ++ [e]) ++ B by simp] at nd' ⊢
    exact without_append nd'
  · intro hb
    exact (List.nodup_cons.1 (h.shape.ring hl)).1 (by rw [hs]; simp [hb])
  · rintro (h0 | h0 | h0)
    · omega
    · exact h.shape.out l hl b hr.1 (h0 ▸ hl)
    · exact h.shape.out l hl e (by rw [hs]; simp) (h0 ▸ hl)

theorem not_mem_of_nodup {M : List Nat} {e : Nat} (nd : (M ++ [e]).Nodup) : e ∉ M :=
  fun h => (List.nodup_append.1 nd).2.2 e h e (by simp) rfl

theorem Sim.extractRange (h : Sim c s st) {l b e : Nat} (hl : l ∈ c.lists) (hr : InRange (st.seq l) b e) :
    ∃ s', Sll.extractRange c s l b e = some (s', after e (st.seq l)) ∧
      Sim c s' (st.set l (without (through b e (st.seq l)) (st.seq l))) := by
  obtain ⟨A, M, B, hs, hb, a1, a2, a3, a4, a5, a6, hp, nd, a7, a8, a9, a10, a11, a12, _⟩ := h.unlinkRange hl hr
  rw [a7, a8, a9]
  have hlen := len_spec (l := l) (k := 1) hp (not_mem_of_nodup nd) (by
    show _ ≤ s.sz l + 1; omega)
  rw [hb] at hlen
  refine ⟨_, ?_, a5⟩
  have hk : 1 + M.length ≤ ({ cutSt s l A B with lnk := upd (cutSt s l A B).lnk e (some none) } : Sll α).sz l := by
    show _ ≤ s.sz l; omega
  simp only [Sll.extractRange, if_neg a12, a1, a2, a3, Option.bind_eq_bind, Option.bind_some, extractNodes, len, hlen, a4, if_pos hk]
  rw [ret_eq a10]
  rw [Nat.add_comm 1 M.length]
  rfl

theorem Sim.eraseRange (h : Sim c s st) {l b e : Nat} (hl : l ∈ c.lists) (hr : InRange (st.seq l) b e) :
    ∃ s', Sll.eraseRange c s l b e = some (s', after e (st.seq l)) ∧
      Sim c s' ((st.set l (without (through b e (st.seq l)) (st.seq l))).release (c.alloc l) (through b e (st.seq l))) := by
  obtain ⟨A, M, B, hs, hb, a1, a2, a3, a4, a5, a6, hp, nd, a7, a8, a9, a10, a11, a12, a13⟩ := h.unlinkRange hl hr
  rw [a7, a8, a9]
  by_cases ha : c.alloc l = true
  · have hfr := freeLoop_spec (l := l) (k := 1) hp nd a13 (by show _ ≤ s.sz l + 1; omega)
    rw [hb] at hfr
    have hk : 1 + M.length ≤ (Sll.dropAll (cutSt s l A B) (M ++ [e])).sz l := by
      show _ ≤ s.sz l; omega
    refine ⟨(Sll.dropAll (cutSt s l A B) (M ++ [e])).setSz l (s.sz l - (1 + M.length)), ?_, ?_⟩
    · simp only [Sll.eraseRange, if_neg a12, a1, a2, a3, Option.bind_eq_bind, Option.bind_some, eraseNodes, ha, Bool.not_true,
        Bool.false_eq_true, if_false, hfr, if_pos hk]
      exact ret_eq a10 _
    · rw [ha]
      have := a5.drop a6
      simp only [St.release, if_true]
      have e1 : Sll.dropAll ({ cutSt s l A B with lnk := upd (cutSt s l A B).lnk e (some none) }.setSz l (s.sz l - (M.length + 1))) (M ++ [e])
          = (Sll.dropAll (cutSt s l A B) (M ++ [e])).setSz l (s.sz l - (1 + M.length)) := by
        simp only [Sll.dropAll, Sll.setSz, Sll.mk.injEq, true_and]
        refine ⟨?_, by rw [Nat.add_comm]⟩
        funext j
        by_cases hj : j = e
        · subst hj; simp
        · rw [upd_ne _ _ hj]
      rw [← e1]; exact this
  · have hlen := len_spec (l := l) (k := 1) hp (not_mem_of_nodup nd) (by
      show _ ≤ s.sz l + 1; omega)
    rw [hb] at hlen
    have hk : 1 + M.length ≤ ({ cutSt s l A B with lnk := upd (cutSt s l A B).lnk e (some none) } : Sll α).sz l := by
      show _ ≤ s.sz l; omega
    have ha' : c.alloc l = false := by simpa using ha
    rw [ha']
    refine ⟨_, ?_, a5⟩
    · simp only [Sll.eraseRange, if_neg a12, a1, a2, a3, Option.bind_eq_bind, Option.bind_some, eraseNodes, ha', Bool.not_false, if_true,
        extractNodes, len, hlen, a4, if_pos hk]
      rw [ret_eq a10]
      rw [Nat.add_comm 1 M.length]
      rfl

/-! ### Splicing -/

/-- Where nothing has to be moved. -/
theorem Sim.move_noop (h : Sim c s st) {l pos m e : Nat} (hl : l ∈ c.lists) (hm : m ∈ c.lists) {A M B : List Nat}
    (hs : st.seq m = A ++ (M ++ e :: B)) (hp : pos = l ∨ pos ∈ st.seq l) (hn : s.lnk pos = some (some (M.headD e))) :
    SllSpec.St.move st l pos m (M ++ [e]) = st := by
  unfold SllSpec.St.move
  split
  · rfl
  rename_i hpx
  obtain ⟨P, Q, hPQ, hlast, _⟩ := split_pos (h.shape.ring hl) hp
  have hx := h.last hl hPQ
  rw [hlast, hn] at hx
  have hx : M.headD e = Q.headD l := by simpa using hx
  have hbm : M.headD e ∈ st.seq m := by rw [hs]; cases M <;> simp
  have hlm : l = m := by
    cases Q with
    | nil =>
      rw [hx] at hbm
      exact absurd hl (h.shape.out m hm _ hbm)
    | cons q Q =>
      refine h.shape.disj l hl m hm (M.headD e) ?_ hbm
      rw [hx, hPQ]; simp
  subst hlm
  have nd := h.shape.ring hl
  have hA : A.getLastD l = pos := by
    -- both are linked to the same element
    have h1 : A ++ (M ++ e :: B) = P ++ Q := by rw [← hs, hPQ]
    have ndl := h.shape.nd l hl
    have hb : M.headD e ∉ A := by
      intro ha
      rw [hs] at ndl
      exact (List.nodup_append.1 ndl).2.2 _ ha _ (by cases M <;> simp) rfl
    have e1 : upto (M.headD e) (st.seq l) = A := by
      rw [hs]
      cases M with
      | nil => exact upto_append B hb
      | cons x M => exact upto_append _ hb
    have e2 : upto (M.headD e) (st.seq l) = P := by
      cases Q with
      | nil =>
        rw [hx] at hbm
        exact absurd hl (h.shape.out l hl _ hbm)
      | cons q Q =>
        rw [hPQ, hx]
        refine upto_append Q ?_
        intro hq
        rw [hPQ] at ndl
        exact (List.nodup_append.1 ndl).2.2 q hq q (by simp) rfl
    rw [← e1, e2, hlast]
  have hw : without (M ++ [e]) (st.seq l) = A ++ B := by
    have nd' := h.shape.nd l hl
    rw [hs] at nd' ⊢
    rw [show M ++ e :: B = (M ++ [e]) ++ B by simp] at nd' ⊢
    exact without_append nd'
  have key : putAt l pos (M ++ [e]) (A ++ B) = st.seq l := by
    have hmem := getLastD_mem l A
    rw [hA] at hmem
    rcases List.mem_cons.1 hmem with h1 | h1
    · have hA0 : A = [] := by
        rcases List.eq_nil_or_concat A with h2 | ⟨A', x, h2⟩
        · exact h2
        · exfalso
          rw [h2] at hA
          simp at hA
          have : x ∈ st.seq l := by rw [hs, h2]; simp
          rw [hA, h1] at this
          exact h.shape.out l hl l this hl
      subst hA0
      rw [putAt, if_pos h1, hs]; simp
    · have hpl : pos ≠ l := fun e' => h.shape.out l hl pos (by rw [hs]; simp [h1]) (e' ▸ hl)
      obtain ⟨A', x, h2⟩ := (List.eq_nil_or_concat A).resolve_left (by rintro rfl; cases h1)
      have hxp : x = pos := by rw [h2] at hA; simpa using hA
      subst hxp
      have hA' : x ∉ A' := by
        have nd' := h.shape.nd l hl
        rw [hs, h2] at nd'
        have := (List.nodup_append.1 nd').1
        simp only [List.concat_eq_append] at this
        exact not_mem_of_nodup this
      rw [putAt, if_neg hpl, putAfter, h2]
      simp only [List.concat_eq_append, List.append_assoc, List.singleton_append]
      rw [upto_append B hA', onward_append B hA', hs, h2]
      simp
  simp only [hw, St.set, upd_same, key]
  rw [upd_upd, upd_self]

/-- The links after a range is moved. -/
def moveSt (s : Sll α) (i pos b e : Nat) (n pn : Slot) : Sll α :=
  { s with lnk := upd (upd (upd s.lnk i (some n)) e (some pn)) pos (some (some b)) }

/-- Moving a range. -/
theorem Sim.move (h : Sim c s st) {l pos m e : Nat} (hl : l ∈ c.lists) (hm : m ∈ c.lists) {A M B : List Nat}
    (hs : st.seq m = A ++ (M ++ e :: B)) (hp : pos = l ∨ pos ∈ st.seq l) (hx : pos ∉ M ++ [e]) :
    ∃ pn, (cutSt s m A B).lnk pos = some pn ∧
      Core c (moveSt s (A.getLastD m) pos (M.headD e) e (some (B.headD m)) pn) (SllSpec.St.move st l pos m (M ++ [e])) ∧
      (∀ k ∈ c.lists, ((SllSpec.St.move st l pos m (M ++ [e])).seq k).length =
        if l = m then (st.seq k).length else
          if k = l then (st.seq k).length + (M.length + 1) else if k = m then (st.seq k).length - (M.length + 1) else (st.seq k).length) ∧
      s.setN (A.getLastD m) (some (B.headD m)) = some (cutSt s m A B) ∧ (cutSt s m A B).lnk e = some (some (B.headD m)) ∧
      s.lnk e = some (some (B.headD m)) ∧ Path (Lk (moveSt s (A.getLastD m) pos (M.headD e) e (some (B.headD m)) pn)) (M ++ [e]) ∧
      M.length + 1 ≤ s.sz m := by
  obtain ⟨hc, hpath, hne, hloose⟩ := h.toCore.cut hm hs
  have hsub : A ++ B = without (M ++ [e]) (st.seq m) := by
    have nd' := h.shape.nd m hm
    rw [hs] at nd' ⊢
    rw [show M ++ e :: B = (M ++ [e]) ++ B by simp] at nd' ⊢
    exact (without_append nd').symm
  have hp' : pos = l ∨ pos ∈ (st.set m (A ++ B)).seq l := by
    rcases hp with h1 | h1
    · exact .inl h1
    · right
      show pos ∈ upd st.seq m (A ++ B) l
      by_cases e' : l = m
      · subst e'
        rw [upd_same]
        rw [hs] at h1
        simp only [List.mem_append, List.mem_cons, List.not_mem_nil, or_false, not_or] at h1 hx ⊢
        rcases h1 with h1 | h1 | h1 | h1
        · exact .inl h1
        · exact absurd h1 hx.1
        · exact absurd h1 hx.2
        · exact .inr h1
      · rw [upd_ne _ _ e']; exact h1
  obtain ⟨P, Q, hPQ, hlast, hput⟩ := split_pos (hc.shape.ring hl) hp'
  have hval : ∀ a ∈ M ++ [e], (st.set m (A ++ B)).val a ≠ none := by
    intro a ha
    refine h.own m hm a ?_
    rw [hs]
    rcases List.mem_append.1 ha with h | h
    · simp [h]
    · simp at h; simp [h]
  have nd : (M ++ [e]).Nodup := by
    have nd' := h.shape.nd m hm
    rw [hs] at nd'
    have nd2 : (M ++ [e] ++ B).Nodup := by simpa using (List.nodup_append.1 nd').2.1
    exact (List.nodup_append.1 nd2).1
  have hpaste := hc.paste hl hPQ hpath nd (fun a ha => ⟨hloose a ha, hval a ha⟩)
  have hpn : (cutSt s m A B).lnk pos = some (some (Q.headD l)) := by
    have := hc.last hl hPQ
    rwa [hlast] at this
  have hmv : SllSpec.St.move st l pos m (M ++ [e]) = (st.set m (A ++ B)).set l (P ++ (M ++ e :: Q)) := by
    unfold SllSpec.St.move
    rw [if_neg hx]
    simp only [← hsub]
    rw [hput]; simp
  have hst : pasteSt (cutSt s m A B) l P M Q e = moveSt s (A.getLastD m) pos (M.headD e) e (some (B.headD m)) (some (Q.headD l)) := by
    simp only [pasteSt, moveSt, hlast, cutSt]
  have hs' : st.seq m = (A ++ M) ++ e :: B := by rw [hs, List.append_assoc]
  have hat := h.at_ hm hs'
  have hlen : (st.seq m).length = A.length + (M.length + (B.length + 1)) := by rw [hs]; simp
  refine ⟨_, hpn, by rw [hmv, ← hst]; exact hpaste, fun k hk => ?_, setN_eq (h.last hm hs) _, ?_, hat, ?_, ?_⟩
  · rw [hmv]
    show (upd (upd st.seq m (A ++ B)) l (P ++ (M ++ e :: Q)) k).length = _
    have hPQ' : upd st.seq m (A ++ B) l = P ++ Q := hPQ
    by_cases e1 : l = m
    · subst e1
      rw [if_pos rfl]
      by_cases e2 : k = l
      · subst e2
        rw [upd_same] at hPQ'
        rw [upd_same, hlen]
        have := congrArg List.length hPQ'
        simp only [List.length_append, List.length_cons] at this ⊢
        omega
      · rw [upd_ne _ _ e2, upd_ne _ _ e2]
    · rw [if_neg e1]
      rw [upd_ne _ _ e1] at hPQ'
      by_cases e2 : k = l
      · subst e2
        rw [upd_same, if_pos rfl, hPQ']
        simp only [List.length_append, List.length_cons]
        omega
      · rw [upd_ne _ _ e2, if_neg e2]
        by_cases e3 : k = m
        · subst e3
          rw [upd_same, if_pos rfl, hlen]
          simp only [List.length_append]
          omega
        · rw [upd_ne _ _ e3, if_neg e3]
  · show upd s.lnk _ _ e = _
    rw [upd_ne _ _ (hne e (by simp))]; exact hat
  · rw [← hst]
    have hr := hpaste.ring l hl
    rw [show ((st.set m (A ++ B)).set l (P ++ (M ++ e :: Q))).seq l = P ++ (M ++ e :: Q) from upd_same _ _ _] at hr
    exact (seg_split.1 (seg_append.1 hr).2).2.1
  · rw [h.sz m hm, hlen]; omega

/-- The three writes of a splice. -/
theorem move_writes {i pos b e : Nat} {n pn : Slot} {s1 : Sll α} (h1 : s1 = { s with lnk := upd s.lnk i (some n) })
    (he : s1.lnk e ≠ none) (hpn : s1.lnk pos = some pn) (hpe : pos ≠ e) :
    s1.setN e pn = some { s1 with lnk := upd s1.lnk e (some pn) } ∧
      ({ s1 with lnk := upd s1.lnk e (some pn) } : Sll α).setN pos (some b) = some (moveSt s i pos b e n pn) := by
  refine ⟨setN_eq' he _, ?_⟩
  rw [setN_eq' (s := { s1 with lnk := upd s1.lnk e (some pn) }) (by
    show upd s1.lnk _ _ pos ≠ none; rw [upd_ne _ _ hpe, hpn]; simp)]
  subst h1
  rfl

theorem Sim.splice (h : Sim c s st) {l pos m e : Nat} (hl : l ∈ c.lists) (hm : m ∈ c.lists) (hp : pos = l ∨ pos ∈ st.seq l)
    (he : e ∈ st.seq m) : ∃ s', Sll.splice s l pos m e = some (s', .ok) ∧ Sim c s' (SllSpec.St.move st l pos m [e]) := by
  unfold Sll.splice
  by_cases h1 : e = pos
  · rw [if_pos h1]
    refine ⟨s, rfl, ?_⟩
    unfold SllSpec.St.move
    rw [if_pos (by simp [h1])]; exact h
  rw [if_neg h1]
  obtain ⟨A, B, hs, hA, _⟩ := split_mem he (h.shape.nd m hm)
  obtain ⟨pn0, hpn0⟩ := Option.ne_none_iff_exists'.1 (h.lnk_live hl (List.mem_cons.2 hp))
  simp only [hpn0, Option.bind_eq_bind, Option.bind_some]
  by_cases h2 : pn0 = some e
  · rw [if_pos h2]
    refine ⟨s, rfl, ?_⟩
    rw [show [e] = [] ++ [e] from rfl, h.move_noop hl hm (M := []) hs hp (by rw [hpn0, h2]; rfl)]
    exact h
  rw [if_neg h2]
  obtain ⟨pn, b1, b2, b3, b4, b5, b6, _, b8⟩ := h.move hl hm (M := []) hs hp (by simpa using fun e' => h1 e'.symm)
  have hb : before s m e = some (A.getLastD m) := h.before hm (C := e :: B) hs rfl hA
  obtain ⟨w1, w2⟩ := move_writes (b := e) (pn := pn) (s1 := cutSt s m A B) rfl (by rw [b5]; simp) b1 (fun e' => h1 e'.symm)
  simp only [hb, b6, b4, b1, w1, w2, Option.bind_some]
  simp only [List.headD_nil, List.nil_append, List.length_nil, Nat.zero_add] at b2 b3 b8
  by_cases h3 : l = m
  · rw [if_neg (by simpa using h3)]
    refine ⟨_, rfl, b2, fun k hk => ?_⟩
    rw [b3 k hk, if_pos h3]; exact h.sz k hk
  · rw [if_pos h3]
    refine ⟨_, rfl, (b2.setSz _ _).setSz _ _, fun k hk => ?_⟩
    rw [b3 k hk, if_neg h3]
    show upd (upd s.sz m (s.sz m - 1)) l (upd s.sz m (s.sz m - 1) l + 1) k = _
    rw [upd_ne _ _ h3]
    by_cases e1 : k = l
    · subst e1; rw [upd_same, if_pos rfl, h.sz k hk]
    · rw [upd_ne _ _ e1, if_neg e1]
      by_cases e2 : k = m
      · subst e2; rw [upd_same, if_pos rfl, h.sz k hk]
      · rw [upd_ne _ _ e2, if_neg e2, h.sz k hk]

theorem Sim.spliceRange (h : Sim c s st) {l pos m b e : Nat} (hok : okOp c.lists c.alloc st (.spliceRange l pos m b e)) :
    ∃ s', Sll.spliceRange s l pos m b e = some (s', .ok) ∧ Sim c s' (SllSpec.St.move st l pos m (through b e (st.seq m))) := by
  obtain ⟨hl, hm, hp, hr, hx⟩ := hok
  obtain ⟨A, M, B, hs, hb, ht, _, hA⟩ := split_range hr.1 hr.2 (h.shape.nd m hm)
  unfold Sll.spliceRange
  rw [ht] at hx ⊢
  by_cases h1 : b = pos ∨ e = pos
  · rw [if_pos h1]
    refine ⟨s, rfl, ?_⟩
    unfold SllSpec.St.move
    rw [if_pos]
    · exact h
    · rcases h1 with h1 | h1
      · rw [← h1, ← hb]; cases M <;> simp
      · simp [h1]
  rw [if_neg h1]
  have hx' : pos ∉ M ++ [e] := fun h => (hx h).elim (fun e' => h1 (.inl e'.symm)) (fun e' => h1 (.inr e'.symm))
  obtain ⟨pn0, hpn0⟩ := Option.ne_none_iff_exists'.1 (h.lnk_live hl (List.mem_cons.2 hp))
  simp only [hpn0, Option.bind_eq_bind, Option.bind_some]
  by_cases h2 : pn0 = some b
  · rw [if_pos h2]
    refine ⟨s, rfl, ?_⟩
    rw [h.move_noop hl hm hs hp (by rw [hpn0, h2, hb])]
    exact h
  rw [if_neg h2]
  have nd : (M ++ [e]).Nodup := by
    have nd' := h.shape.nd m hm
    rw [hs] at nd'
    have nd2 : (M ++ [e] ++ B).Nodup := by simpa using (List.nodup_append.1 nd').2.1
    exact (List.nodup_append.1 nd2).1
  by_cases h4 : b = e
  · rw [if_pos h4]
    obtain ⟨s', a1, a2⟩ := h.splice hl hm hp hr.1
    refine ⟨s', by simp only [a1, Option.bind_some], ?_⟩
    have : M = [] := by
      cases M with
      | nil => rfl
      | cons x M =>
        exfalso
        simp only [List.headD_cons] at hb
        subst hb; subst h4
        simp at nd
    subst this
    simpa [h4] using a2
  rw [if_neg h4]
  obtain ⟨pn, b1, b2, b3, b4, b5, b6, b7, b8⟩ := h.move hl hm hs hp hx'
  have hbf := h.before hm (C := M ++ e :: B) hs (by rw [headD_append, hb]) hA
  rw [hb] at b2 b7
  obtain ⟨w1, w2⟩ := move_writes (b := b) (pn := pn) (s1 := cutSt s m A B) rfl (by rw [b5]; simp) b1 (fun e' => hx' (by simp [e']))
  simp only [hbf, b6, b4, b1, w1, w2, Option.bind_some]
  by_cases h3 : l = m
  · rw [if_neg (by simpa using h3)]
    refine ⟨_, rfl, b2, fun k hk => ?_⟩
    rw [b3 k hk, if_pos h3]; exact h.sz k hk
  · rw [if_pos h3]
    have hlen := len_spec (l := m) (k := 1) b7 (not_mem_of_nodup nd) (by show _ ≤ s.sz m + 1; omega)
    rw [hb] at hlen
    simp only [len, hlen, Option.bind_some]
    refine ⟨_, rfl, (b2.setSz _ _).setSz _ _, fun k hk => ?_⟩
    rw [b3 k hk, if_neg h3]
    show upd (upd s.sz m (s.sz m - (1 + M.length))) l (upd s.sz m (s.sz m - (1 + M.length)) l + (1 + M.length)) k = _
    rw [upd_ne _ _ h3, Nat.add_comm 1]
    by_cases e1 : k = l
    · subst e1; rw [upd_same, if_pos rfl, h.sz k hk]
    · rw [upd_ne _ _ e1, if_neg e1]
      by_cases e2 : k = m
      · subst e2; rw [upd_same, if_pos rfl, h.sz k hk]
      · rw [upd_ne _ _ e2, if_neg e2, h.sz k hk]

/-! ### The other calls -/

theorem drop_drop (st : St α) (a : Nat) (X : List Nat) : (st.drop [a]).drop X = st.drop (a :: X) := by
  simp only [St.drop, St.mk.injEq, and_true]
  funext j
  by_cases h : j = a
  · subst h; simp
  · simp [h]

theorem drop_set (st : St α) (X : List Nat) (l : Nat) (t : List Nat) : (st.drop X).set l t = (st.set l t).drop X := rfl

theorem Sim.clearLoop {l : Nat} (hl : l ∈ c.lists) (d : Bool) : ∀ (t : List Nat) {s : Sll α} {st : St α}, Sim c s st → st.seq l = t →
    ∃ s', Sll.clearLoop c s l d = some (s', if d then t else []) ∧ Sim c s' ((st.set l []).release (c.alloc l) t)
  | [], s, st, h, hs => by
    rw [Sll.clearLoop]
    have : isEmpty s l = true := by simp [isEmpty, (h.empty_iff hl).2 hs]
    rw [if_pos this]
    refine ⟨s, by simp, ?_⟩
    have e1 : st.set l [] = st := by simp only [St.set, ← hs, upd_self]
    rw [e1]
    have e2 : st.drop [] = st := by simp [St.drop]
    unfold St.release
    split
    · rw [e2]; exact h
    · exact h
  | e :: t, s, st, h, hs => by
    rw [Sll.clearLoop]
    have : ¬ isEmpty s l = true := by
      intro h0
      have h0 : s.sz l = 0 := by simpa [isEmpty] using h0
      have := (h.empty_iff hl).1 h0; rw [hs] at this; cases this
    rw [if_neg this]
    obtain ⟨s1, a1, a2, a3⟩ := h.popNode hl hs
    simp only [a1, Option.bind_eq_bind, Option.bind_some]
    by_cases ha : c.alloc l = true
    · have a4 := a2.drop (X := [e]) (by intro a ha; simp at ha; subst ha; exact a3)
      rw [dropAll_one] at a4
      obtain ⟨s2, b1, b2⟩ := Sim.clearLoop hl d t a4 (upd_same _ _ _)
      simp only [ha, if_true, b1, Option.bind_some]
      refine ⟨s2, by cases d <;> simp, ?_⟩
      rw [ha] at b2
      simp only [St.release, if_true] at b2 ⊢
      rw [drop_set, drop_drop, set_set] at b2
      exact b2
    · have ha' : c.alloc l = false := by simpa using ha
      obtain ⟨s2, b1, b2⟩ := Sim.clearLoop hl d t a2 (upd_same _ _ _)
      simp only [ha', Bool.false_eq_true, if_false, b1, Option.bind_some]
      refine ⟨s2, by cases d <;> simp, ?_⟩
      rw [ha'] at b2
      simp only [St.release, Bool.false_eq_true, if_false] at b2 ⊢
      rw [set_set] at b2
      exact b2

theorem validateLoop_spec {l : Nat} : ∀ {t : List Nat} {p k : Nat}, Seg (Lk s) p t l → (p :: t).Nodup → l ∉ t → s.sz l = k + t.length →
    validateLoop s l (some (t.headD l)) k = some true
  | [], p, k, h, _, _, hk => by rw [validateLoop]; simp [hk]
  | a :: t, p, k, h, nd, hl, hk => by
    have hne : a ≠ l := fun e => hl (by simp [e])
    have h1 : s.lnk a = some (some (t.headD l)) := h.2.head
    have hk' : ¬ k ≥ s.sz l := by simp only [List.length_cons] at hk; omega
    have nd' := (List.nodup_cons.1 nd).2
    have h2 : ¬ (some (t.headD l) = none ∨ some (t.headD l) = some a) := by
      rintro (h' | h')
      · cases h'
      · have h' : t.headD l = a := Option.some.inj h'
        cases t with
        | nil => exact hne h'.symm
        | cons b t => exact (List.nodup_cons.1 nd').1 (by simp at h'; simp [h'])
    show validateLoop s l (some a) k = some true
    rw [validateLoop.eq_def, if_neg (fun e => hne (Option.some.inj e)), if_neg hk']
    simp only [h1, Option.bind_eq_bind, Option.bind_some, if_neg h2]
    exact validateLoop_spec h.2 nd' (fun h => hl (by simp [h])) (by simp only [List.length_cons] at hk; omega)

theorem Sim.validate (h : Sim c s st) {l : Nat} (hl : l ∈ c.lists) : Sll.validate s l = some true := by
  simp only [Sll.validate, h.head hl, Option.bind_eq_bind, Option.bind_some]
  have nd := h.shape.ring hl
  exact validateLoop_spec (h.ring l hl) nd (List.nodup_cons.1 nd).1 (by rw [h.sz l hl]; simp)

theorem init_sim : Sim c (init c) (St.empty : St α) := by
  refine ⟨⟨rfl, fun a ha => absurd rfl ha, ⟨fun l _ => List.nodup_nil, fun l _ a ha => (by cases ha), fun l _ m _ a ha => (by cases ha)⟩,
    fun l hl => ?_, fun l _ a ha => (by cases ha), fun l _ => rfl⟩, fun l _ => rfl⟩
  show (init c).lnk l = some (some l)
  simp [init, hl]

/-- Every allowed call does what the specification says. -/
theorem step_sim (h : Sim c s st) (op : Op α) (hok : okOp c.lists c.alloc st op) :
    ∃ s', step c s op = some (s', (specStep c.alloc st op).2) ∧ Sim c s' (specStep c.alloc st op).1 := by
  cases op with
  | make e x n => exact ⟨_, rfl, h.make hok x n⟩
  | drop e =>
    have := h.drop (X := [e]) (by intro a ha; simp at ha; subst ha; exact hok)
    rw [dropAll_one] at this
    have e1 : st.drop [e] = { st with val := upd st.val e none } := by
      simp only [St.drop, St.mk.injEq, and_true]
      funext j; simp [upd]
    rw [e1] at this
    exact ⟨_, rfl, this⟩
  | pushFront l e ans =>
    obtain ⟨s', r, a1, a2, a3⟩ := h.pushFront hok
    exact ⟨s', by rw [a3]; simp only [step, a1, Option.bind_eq_bind, Option.bind_some], a2⟩
  | popFront l =>
    obtain ⟨s', r, a1, a2, a3⟩ := h.popFront hok
    exact ⟨s', by rw [a3]; simp only [step, a1, Option.bind_eq_bind, Option.bind_some], a2⟩
  | splice l pos m e =>
    obtain ⟨s', a1, a2⟩ := h.splice hok.1 hok.2.1 hok.2.2.1 hok.2.2.2
    exact ⟨s', by simp only [step, a1, Option.bind_eq_bind, Option.bind_some, specStep], a2⟩
  | spliceRange l pos m b e =>
    obtain ⟨s', a1, a2⟩ := h.spliceRange hok
    exact ⟨s', by simp only [step, a1, Option.bind_eq_bind, Option.bind_some, specStep], a2⟩
  | erase l e =>
    obtain ⟨s', a1, a2⟩ := h.erase hok.1 hok.2
    exact ⟨s', by simp only [step, a1, Option.bind_eq_bind, Option.bind_some, specStep], a2⟩
  | eraseRange l b e =>
    obtain ⟨s', a1, a2⟩ := h.eraseRange hok.1 hok.2
    exact ⟨s', by simp only [step, a1, Option.bind_eq_bind, Option.bind_some, specStep], a2⟩
  | extract l e =>
    obtain ⟨s', a1, a2⟩ := h.extract hok.1 hok.2
    exact ⟨s', by simp only [step, a1, Option.bind_eq_bind, Option.bind_some, specStep], a2⟩
  | extractRange l b e =>
    obtain ⟨s', a1, a2⟩ := h.extractRange hok.1 hok.2
    exact ⟨s', by simp only [step, a1, Option.bind_eq_bind, Option.bind_some, specStep], a2⟩
  | clear l d =>
    obtain ⟨s', a1, a2⟩ := Sim.clearLoop hok d (st.seq l) h rfl
    exact ⟨s', by simp only [step, clear, a1, Option.bind_eq_bind, Option.bind_some, specStep], a2⟩
  | front l => exact ⟨s, by simp only [step, h.front hok, Option.bind_eq_bind, Option.bind_some, specStep], h⟩
  | begin l =>
    have : begin' c s l = Sll.front c s l := rfl
    exact ⟨s, by simp only [step, this, h.front hok, Option.bind_eq_bind, Option.bind_some, specStep], h⟩
  | next l e => exact ⟨s, by simp only [step, h.next hok.1 hok.2, Option.bind_eq_bind, Option.bind_some, specStep], h⟩
  | beginElem l => exact ⟨s, by simp only [step, beginElem, h.head hok, Option.bind_eq_bind, Option.bind_some, specStep], h⟩
  | beginSentinel l => exact ⟨s, rfl, h⟩
  | endIter l => exact ⟨s, rfl, h⟩
  | size l => exact ⟨s, by simp only [step, size, h.sz l hok, specStep], h⟩
  | isEmpty l =>
    refine ⟨s, ?_, h⟩
    simp only [step, isEmpty, h.sz l hok, specStep]
    cases st.seq l <;> rfl
  | validate l => exact ⟨s, by simp only [step, h.validate hok, Option.bind_eq_bind, Option.bind_some, specStep], h⟩

theorem run_sim : ∀ (ops : List (Op α)) {s : Sll α} {st : St α}, Sim c s st → okRun c.lists c.alloc st ops →
    ∃ s', run c s ops = some (s', (specRun c.alloc st ops).2) ∧ Sim c s' (specRun c.alloc st ops).1
  | [], s, st, h, _ => ⟨s, rfl, h⟩
  | op :: ops, s, st, h, hok => by
    obtain ⟨s1, a1, a2⟩ := step_sim h op hok.1
    obtain ⟨s2, b1, b2⟩ := run_sim ops a2 hok.2
    exact ⟨s2, by simp only [run, a1, b1, Option.bind_eq_bind, Option.bind_some, specRun], b2⟩

end CCC.Sll
