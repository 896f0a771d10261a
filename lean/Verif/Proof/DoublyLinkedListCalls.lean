import Verif.Proof.DoublyLinkedList
/-
The doubly linked list: every call does what the specification says.
-/
namespace CCC.Dll
open CCC Seq DllSpec

variable {α : Type} {c : Cfg} {s : Dll α} {st : St α} {z : Nat → Bool}

theorem headD_eq {B : List Nat} {l : Nat} (hl : l ∉ B) :
    (if some (B.headD l) = some l then some none else structBase c (some (B.headD l))) = some B.head? := by
  cases B with
  | nil => simp
  | cons b B =>
    have : b ≠ l := fun e => hl (by simp [e])
    simp [this, structBase]

theorem ret_eq {B : List Nat} {l : Nat} (hl : l ∉ B) (t : Dll α) :
    (if some (B.headD l) = some l then some (t, (none : Slot)) else (structBase c (some (B.headD l))).bind fun r => some (t, r)) =
      some (t, B.head?) := by
  cases B with
  | nil => simp
  | cons b B =>
    have : b ≠ l := fun e => hl (by simp [e])
    simp [this, structBase]

theorem lastD_eq {A : List Nat} {l : Nat} (hl : l ∉ A) :
    (if some (A.getLastD l) = some l then some none else structBase c (some (A.getLastD l))) = some A.getLast? := by
  rcases List.eq_nil_or_concat A with rfl | ⟨A', x, rfl⟩
  · simp
  · have : x ≠ l := fun e => hl (by simp [e])
    simp [this, structBase]

theorem not_mem_of_nodup {M : List Nat} {e : Nat} (nd : (M ++ [e]).Nodup) : e ∉ M :=
  fun h => (List.nodup_append.1 nd).2.2 e h e (by simp) rfl

theorem good_iff {l pos : Nat} : Good st z l pos ↔ exc st z l ≠ some pos := by
  refine ⟨good_exc, fun h hz e => h ?_⟩
  unfold exc
  rw [if_pos hz, e]

/-- A position splits its list. -/
theorem split_pos {l pos : Nat} {t : List Nat} (nd : (l :: t).Nodup) (hp : pos = l ∨ pos ∈ t) :
    ∃ P Q, t = P ++ Q ∧ Q.headD l = pos ∧ ∀ xs, putBefore pos xs t = P ++ (xs ++ Q) := by
  have nd' := List.nodup_cons.1 nd
  rcases hp with rfl | hp
  · refine ⟨t, [], by simp, rfl, fun xs => ?_⟩
    rw [putBefore, upto_none nd'.1, onward_none nd'.1]; simp
  · obtain ⟨A, B, rfl, hA, _⟩ := split_mem hp nd'.2
    refine ⟨A, pos :: B, rfl, rfl, fun xs => ?_⟩
    rw [putBefore, upto_append B hA, onward_append B hA]; simp

/-- A range without its end splits its list. -/
theorem split_between {l b e : Nat} {t : List Nat} (nd : (l :: t).Nodup) (hb : b ∈ t) (he : e = l ∨ e ∈ onward b t) (hne : b ≠ e) :
    ∃ A M e' B, t = A ++ (M ++ e' :: B) ∧ M.headD e' = b ∧ B.headD l = e ∧ between b e t = M ++ [e'] := by
  have nd' := List.nodup_cons.1 nd
  obtain ⟨A, D, rfl, hA, hD⟩ := split_mem hb nd'.2
  rw [onward_append D hA] at he
  have key : ∃ D1 D2, D = D1 ++ D2 ∧ D2.headD l = e ∧ upto e (b :: D) = b :: D1 := by
    rcases he with rfl | he
    · refine ⟨D, [], by simp, rfl, upto_none fun h => nd'.1 ?_⟩
      exact List.mem_append_right _ h
    · have heD : e ∈ D := by
        rcases List.mem_cons.1 he with h | h
        · exact absurd h.symm hne
        · exact h
      have ndD : (b :: D).Nodup := (List.nodup_append.1 nd'.2).2.1
      obtain ⟨D1, D2, rfl, hD1, _⟩ := split_mem heD (List.nodup_cons.1 ndD).2
      refine ⟨D1, e :: D2, rfl, rfl, ?_⟩
      rw [← List.cons_append]
      refine upto_append D2 ?_
      simp only [List.mem_cons, not_or]
      exact ⟨fun h => hne h.symm, hD1⟩
  obtain ⟨D1, D2, rfl, h2, h3⟩ := key
  obtain ⟨M, e', hM⟩ := (List.eq_nil_or_concat (b :: D1)).resolve_left (by simp)
  rw [List.concat_eq_append] at hM
  refine ⟨A, M, e', D2, ?_, ?_, h2, ?_⟩
  · rw [← List.cons_append, hM]; simp
  · cases M with
    | nil => simp at hM; simp [hM.1]
    | cons x M => simp at hM; simp [hM.1]
  · rw [between, onward_append _ hA, h3, hM]

theorem Sim.empty_iff (h : Sim c s st z) {l : Nat} (hl : l ∈ c.lists) : s.sz l = 0 ↔ st.seq l = [] := by
  rw [h.sz l hl, List.length_eq_zero_iff]

theorem Core.setSz (h : Core c s st z) (l n : Nat) : Core c (s.setSz l n) st z := ⟨h.val, h.live, h.shape, h.ring, h.own, h.nolist⟩

theorem Core.head (h : Core c s st z) {l : Nat} (hl : l ∈ c.lists) : s.nx l = some (some ((st.seq l).headD l)) :=
  h.nxt hl (P := []) rfl

/-- A list changed, its size adjusted. -/
theorem Core.sized {t : Dll α} {l : Nat} {u : List Nat} {z' : Nat → Bool} (hc : Core c t (st.set l u) z') (h : Sim c s st z) (ht : t.sz = s.sz) {n : Nat}
    (hn : n = u.length) : Sim c (t.setSz l n) (st.set l u) z' := by
  refine ⟨hc.setSz _ _, fun k hk => ?_⟩
  show upd t.sz l n k = (upd st.seq l u k).length
  by_cases e : k = l
  · subst e; rw [upd_same, upd_same, hn]
  · rw [upd_ne _ _ e, upd_ne _ _ e, ht, h.sz k hk]

theorem Sim.sz_ne (h : Sim c s st z) {l e : Nat} (hl : l ∈ c.lists) (he : e ∈ st.seq l) : s.sz l ≠ 0 := fun h0 => by
  have := (h.empty_iff hl).1 h0; rw [this] at he; cases he

theorem Core.ne_list (h : Core c s st z) {l e : Nat} (hl : l ∈ c.lists) (he : e ∈ st.seq l) : e ≠ l :=
  fun e' => h.shape.out l hl e he (e' ▸ hl)

/-! ### New elements -/

theorem Sim.make (h : Sim c s st z) {e : Nat} (he : Loose c.lists st e) (x : α) (n p : Slot) :
    Sim c { s with val := upd s.val e (some x), nx := upd s.nx e (some n), pv := upd s.pv e (some p) }
      { st with val := upd st.val e (some x) } z := by
  have hc := (h.toCore.looseN he n).looseP he p
  refine ⟨⟨by simp only [h.val], fun a ha => ?_, hc.shape, hc.ring, fun k hk a ha => ?_, fun k hk => ?_⟩, h.sz⟩
  · by_cases e' : a = e
    · rw [e']; simp
    · simp only [upd_ne _ _ e'] at ha
      exact hc.live a ha
  · show upd st.val _ _ a ≠ none
    by_cases e' : a = e
    · rw [e', upd_same]; simp
    · rw [upd_ne _ _ e']; exact h.own k hk a ha
  · show upd st.val _ _ k = none
    have : k ≠ e := fun e' => he.1 (e' ▸ hk)
    rw [upd_ne _ _ this]; exact h.nolist k hk

/-- A struct in no list is put between two neighbours. -/
theorem Sim.put (h : Sim c s st z) {l e : Nat} (hl : l ∈ c.lists) (he : Loose c.lists st e) (hv : st.val e ≠ none) {P Q : List Nat}
    (hs : st.seq l = P ++ Q) {z' : Nat → Bool} (hz : ∀ k, k ≠ l → z' k = z k) (h1 : P = [] → z' l = false) (h2 : P ≠ [] → z' l = z l) :
    Sim c ((pasteSt s (P.getLastD l) e e (Q.headD l)).setSz l (s.sz l + 1)) (st.set l (P ++ e :: Q)) z' := by
  have hp := h.toCore.paste (M := []) hl hs trivial (by simp) (by intro a ha; simp at ha; subst ha; exact ⟨he, hv⟩) hz h1 h2
  refine Core.sized hp h rfl ?_
  rw [h.sz l hl, hs]
  simp only [List.length_append, List.length_cons, List.nil_append]
  omega

theorem Sim.pushFrontNode (h : Sim c s st z) {l e : Nat} (hl : l ∈ c.lists) (he : Loose c.lists st e) (hv : st.val e ≠ none) :
    ∃ s', Dll.pushFrontNode s l e = some s' ∧ Sim c s' (st.set l (e :: st.seq l)) (upd z l false) ∧ s'.nx l = some (some e) := by
  have hne : l ≠ e := fun e' => he.1 (e' ▸ hl)
  have hput := h.put hl he hv (P := []) (Q := st.seq l) rfl (z' := upd z l false) (fun k hk => upd_ne _ _ hk) (fun _ => upd_same _ _ _)
    (fun h => absurd rfl h)
  refine ⟨_, ?_, hput, ?_⟩
  · have hf := h.pv_live hl (a := (st.seq l).headD l) (by
      have := headD_ring (l := l) (P := []) (Q := st.seq l)
      simpa using this)
    have r2 : upd s.nx e (some (some ((st.seq l).headD l))) l = some (some ((st.seq l).headD l)) := by
      rw [upd_ne _ _ hne]; exact h.head hl
    simp only [Dll.pushFrontNode, Option.bind_eq_bind]
    rw [setP_eq' (h.live e hv).2]
    simp only [Option.bind_some, h.head hl]
    rw [setN_eq' (s := { s with pv := upd s.pv e _ }) (h.live e hv).1]
    simp only [Option.bind_some, r2]
    rw [setP_eq' (s := { s with pv := upd s.pv e _, nx := upd s.nx e _ }) (upd_live hf)]
    simp only [Option.bind_some]
    rw [setN_eq' (s := { s with pv := upd (upd s.pv e _) _ _, nx := upd s.nx e _ }) (by show upd s.nx e _ l ≠ none; rw [r2]; simp)]
    rfl
  · show upd _ l _ l = _
    exact upd_same _ _ _

theorem good_nil {l : Nat} {P Q : List Nat} (hs : st.seq l = P ++ Q) (hg : Good st z l (Q.headD l)) (hP : P = []) : z l = false := by
  cases hz : z l with
  | false => rfl
  | true => exact absurd (by rw [hs, hP]; rfl) (hg hz)

/-- A struct in no list is put before a position. -/
theorem Sim.putNode (h : Sim c s st z) {l e : Nat} (hl : l ∈ c.lists) (he : Loose c.lists st e) (hv : st.val e ≠ none) {P Q : List Nat}
    (hs : st.seq l = P ++ Q) (hg : Good st z l (Q.headD l)) :
    ∃ s1 s2 s3 s4, s.setN e (some (Q.headD l)) = some s1 ∧ s1.pv (Q.headD l) = some (some (P.getLastD l)) ∧
      s1.setP e (some (P.getLastD l)) = some s2 ∧ s2.pv (Q.headD l) = some (some (P.getLastD l)) ∧
      s2.setN (P.getLastD l) (some e) = some s3 ∧ s3.setP (Q.headD l) (some e) = some s4 ∧
      Sim c (s4.setSz l (s4.sz l + 1)) (st.set l (P ++ e :: Q)) z ∧ s4.pv (Q.headD l) = some (some e) := by
  have hpos : Q.headD l ∈ l :: st.seq l := by rw [hs]; exact headD_ring
  have hi : P.getLastD l ∈ l :: st.seq l := by rw [hs]; exact lastD_ring
  have hne : Q.headD l ≠ e := by
    intro e'
    rw [e'] at hpos
    rcases List.mem_cons.1 hpos with h1 | h1
    · exact he.1 (h1 ▸ hl)
    · exact he.2 l hl h1
  obtain ⟨s1, s2, s3, a1, a2, a3, a4, a5, a6⟩ := paste_writes (h.prv hl hs hg) (h.live e hv).1 (h.live e hv).2 (h.nx_live hl hi) hne
  refine ⟨s1, s2, s3, _, a1, a2, a3, a4, a5, a6, ?_, ?_⟩
  · exact h.put hl he hv hs (fun _ _ => rfl) (good_nil hs hg) (fun _ => rfl)
  · show upd _ (Q.headD l) _ (Q.headD l) = _
    exact upd_same _ _ _

theorem Sim.pushBackNode (h : Sim c s st z) {l e : Nat} (hl : l ∈ c.lists) (he : Loose c.lists st e) (hv : st.val e ≠ none)
    (hg : Good st z l l) :
    ∃ s', Dll.pushBackNode s l e = some s' ∧ Sim c s' (st.set l (st.seq l ++ [e])) z ∧ s'.pv l = some (some e) := by
  obtain ⟨s1, s2, s3, s4, a1, a2, a3, a4, a5, a6, a7, a8⟩ := h.putNode hl he hv (P := st.seq l) (Q := []) (by simp) hg
  simp only [List.headD_nil] at a1 a2 a3 a4 a5 a6 a7 a8
  exact ⟨_, by simp only [Dll.pushBackNode, Option.bind_eq_bind, Option.bind_some, a1, a2, a3, a4, a5, a6], a7, a8⟩

theorem release_same {l : Nat} {t : List Nat} (st : St α) (v : Nat → Option α) :
    ({ st with val := v } : St α).set l t = { st with val := v, seq := upd st.seq l t } := rfl

/-- The allocation and the copy. -/
theorem Sim.withCopy (h : Sim c s st z) {l e : Nat} {ans : Slot} (hl : l ∈ c.lists) (hv : st.val e ≠ none)
    (ho : if c.alloc l then Fresh c.lists st ans else Loose c.lists st e) {f : Dll α → Nat → Option (Dll α × Slot)} {put : Nat → List Nat}
    {z' : Nat → Bool}
    (hf : ∀ {s : Dll α} {st' : St α} {e : Nat}, Sim c s st' z → st'.seq = st.seq → Loose c.lists st' e → st'.val e ≠ none →
      ∃ s', f s e = some (s', some e) ∧ Sim c s' (st'.set l (put e)) z') :
    ∃ s' r, Dll.withCopy c s l e ans f = some (s', r) ∧ Sim c s' (DllSpec.St.insert c.alloc st l e ans put).1 (if c.alloc l && ans.isNone then z else z') ∧
      (DllSpec.St.insert c.alloc st l e ans put).2 = .ptr r := by
  by_cases ha : c.alloc l = true
  · simp only [Dll.withCopy, DllSpec.St.insert, ha, if_true]
    rw [if_pos ha] at ho
    cases ans with
    | none => exact ⟨s, none, rfl, by simpa using h, rfl⟩
    | some n =>
      obtain ⟨h1, h2⟩ := ho n rfl
      obtain ⟨x, hx⟩ := Option.ne_none_iff_exists'.1 hv
      obtain ⟨kn, hkn⟩ := Option.ne_none_iff_exists'.1 (h.live e hv).1
      obtain ⟨kp, hkp⟩ := Option.ne_none_iff_exists'.1 (h.live e hv).2
      have hn : Loose c.lists st n := ⟨h1, fun m hm hnm => h.own m hm n hnm h2⟩
      obtain ⟨s', a1, a2⟩ := hf (h.make hn x kn kp) rfl ⟨h1, hn.2⟩ (by simp)
      refine ⟨s', some n, ?_, ?_, rfl⟩
      · simp only [show s.val e = some x by rw [h.val, hx], hkn, hkp, Option.bind_eq_bind, Option.bind_some, a1]
      · rw [hx]; exact a2
  · rw [if_neg ha] at ho
    simp only [Dll.withCopy, DllSpec.St.insert, ha]
    obtain ⟨s', a1, a2⟩ := hf h rfl ho hv
    exact ⟨s', some e, by simpa using a1, by simpa using a2, by simp⟩

theorem Sim.pushFront (h : Sim c s st z) {l e : Nat} {ans : Slot} (hok : okOp c.lists c.alloc st (.pushFront l e ans)) :
    ∃ s' r, Dll.pushFront c s l e ans = some (s', r) ∧ Sim c s' (specStep c.alloc st (.pushFront l e ans)).1 (stale c.alloc st z (.pushFront l e ans)) ∧
      (specStep c.alloc st (.pushFront l e ans)).2 = .ptr r := by
  obtain ⟨hl, hv, ho⟩ := hok
  refine h.withCopy hl hv ho (put := (· :: st.seq l)) (z' := upd z l false) ?_
  intro s st' e h' hq he hv
  obtain ⟨s', a1, a2, a3⟩ := h'.pushFrontNode hl he hv
  rw [hq] at a2
  exact ⟨s', by simp [a1, a3, structBase], a2⟩

theorem Sim.pushBack (h : Sim c s st z) {l e : Nat} {ans : Slot} (hok : okOp c.lists c.alloc st (.pushBack l e ans)) (hg : Good st z l l) :
    ∃ s' r, Dll.pushBack c s l e ans = some (s', r) ∧ Sim c s' (specStep c.alloc st (.pushBack l e ans)).1 z ∧
      (specStep c.alloc st (.pushBack l e ans)).2 = .ptr r := by
  obtain ⟨hl, hv, ho⟩ := hok
  have := h.withCopy hl hv ho (put := (st.seq l ++ [·])) (z' := z) (f := fun s e => do
    let s ← Dll.pushBackNode s l e
    let r ← s.pv l
    let r ← structBase c r
    some (s, r)) (by
      intro s st' e h' hq he hv
      obtain ⟨s', a1, a2, a3⟩ := h'.pushBackNode hl he hv (by rw [good_iff] at hg ⊢; simpa [exc, hq] using hg)
      rw [hq] at a2
      exact ⟨s', by simp [a1, a3, structBase], a2⟩)
  rw [ite_self] at this
  exact this

theorem Sim.insert (h : Sim c s st z) {l pos e : Nat} {ans : Slot} (hok : okOp c.lists c.alloc st (.insert l pos e ans)) (hg : Good st z l pos) :
    ∃ s' r, Dll.insert c s l pos e ans = some (s', r) ∧ Sim c s' (specStep c.alloc st (.insert l pos e ans)).1 z ∧
      (specStep c.alloc st (.insert l pos e ans)).2 = .ptr r := by
  obtain ⟨hl, hp, hv, ho⟩ := hok
  obtain ⟨P, Q, hs, hQ, hput⟩ := split_pos (h.shape.ring hl) hp
  have r1 : s.pv pos = some (some (P.getLastD l)) := by
    rw [← hQ] at hg ⊢; exact h.prv hl hs hg
  have r2 : ∃ n, s.nx pos = some (some n) := by
    rcases hp with rfl | hp
    · exact ⟨_, h.head hl⟩
    · obtain ⟨A, B, hs', _, _⟩ := split_mem hp (h.shape.nd l hl)
      exact ⟨_, h.at_ hl hs'⟩
  obtain ⟨n, hn⟩ := r2
  have := h.withCopy hl hv ho (put := (putBefore pos [·] (st.seq l))) (z' := z) (f := fun s e => do
      let s ← s.setN e (some pos)
      let p ← s.pv pos
      let s ← s.setP e p
      let p ← s.pv pos
      let i ← p
      let s ← s.setN i (some e)
      let s ← s.setP pos (some e)
      let s := s.setSz l (s.sz l + 1)
      let r ← structBase c (some e)
      some (s, r)) (by
    intro s st' e h' hq he hv
    obtain ⟨s1, s2, s3, s4, a1, a2, a3, a4, a5, a6, a7, _⟩ := h'.putNode hl he hv (P := P) (Q := Q) (by rw [hq, hs])
      (by rw [good_iff] at hg ⊢; rw [hQ]; simpa [exc, hq] using hg)
    rw [hQ] at a1 a2 a4 a6
    refine ⟨s4.setSz l (s4.sz l + 1), ?_, ?_⟩
    · simp only [a1, a2, a3, a4, a5, a6, structBase, Option.bind_eq_bind, Option.bind_some]
      rw [if_neg (by simp)]; rfl
    · show Sim c _ (st'.set l (putBefore pos [e] (st.seq l))) z
      rw [hput]; exact a7)
  rw [ite_self] at this
  obtain ⟨s', r, b1, b2, b3⟩ := this
  refine ⟨s', r, ?_, b2, b3⟩
  simp only [Dll.insert, hn, r1, Option.bind_eq_bind, Option.bind_some]
  rw [if_neg (by simp)]
  exact b1

theorem Sim.emplaceFront (h : Sim c s st z) {l : Nat} {x : α} {kn kp ans : Slot} (hok : okOp c.lists c.alloc st (.emplaceFront l x kn kp ans)) :
    ∃ s' r, Dll.emplaceFront c s l x kn kp ans = some (s', r) ∧ Sim c s' (specStep c.alloc st (.emplaceFront l x kn kp ans)).1
      (stale c.alloc st z (.emplaceFront l x kn kp ans)) ∧ (specStep c.alloc st (.emplaceFront l x kn kp ans)).2 = .ptr r := by
  obtain ⟨hl, ho⟩ := hok
  simp only [Dll.emplaceFront, specStep, DllSpec.St.emplace, stale]
  by_cases ha : c.alloc l = true
  · simp only [ha, if_true]
    cases ans with
    | none => exact ⟨s, none, rfl, by simpa using h, rfl⟩
    | some n =>
      obtain ⟨h1, h2⟩ := ho ha n rfl
      have hn : Loose c.lists st n := ⟨h1, fun m hm hnm => h.own m hm n hnm h2⟩
      obtain ⟨s', a1, a2, a3⟩ := (h.make hn x kn kp).pushFrontNode hl ⟨h1, hn.2⟩ (by simp)
      exact ⟨s', some n, by simp only [a1, Option.bind_eq_bind, Option.bind_some], a2, rfl⟩
  · exact ⟨s, none, by simp [ha], by simpa [ha] using h, by simp [ha]⟩

theorem Sim.emplaceBack (h : Sim c s st z) {l : Nat} {x : α} {kn kp ans : Slot} (hok : okOp c.lists c.alloc st (.emplaceBack l x kn kp ans))
    (hg : Good st z l l) :
    ∃ s' r, Dll.emplaceBack c s l x kn kp ans = some (s', r) ∧ Sim c s' (specStep c.alloc st (.emplaceBack l x kn kp ans)).1 z ∧
      (specStep c.alloc st (.emplaceBack l x kn kp ans)).2 = .ptr r := by
  obtain ⟨hl, ho⟩ := hok
  simp only [Dll.emplaceBack, specStep, DllSpec.St.emplace]
  by_cases ha : c.alloc l = true
  · simp only [ha, if_true]
    cases ans with
    | none => exact ⟨s, none, rfl, by simpa using h, rfl⟩
    | some n =>
      obtain ⟨h1, h2⟩ := ho ha n rfl
      have hn : Loose c.lists st n := ⟨h1, fun m hm hnm => h.own m hm n hnm h2⟩
      obtain ⟨s', a1, a2, a3⟩ := (h.make hn x kn kp).pushBackNode hl ⟨h1, hn.2⟩ (by simp) hg
      exact ⟨s', some n, by simp only [a1, Option.bind_eq_bind, Option.bind_some], a2, rfl⟩
  · exact ⟨s, none, by simp [ha], by simpa [ha] using h, by simp [ha]⟩

/-! ### Removing -/

theorem Sim.drop (h : Sim c s st z) {X : List Nat} (hX : ∀ a ∈ X, Loose c.lists st a) : Sim c (dropAll s X) (st.drop X) z :=
  ⟨h.toCore.dropAll hX, h.sz⟩

theorem Sim.freeIf (h : Sim c s st z) {e : Nat} (he : Loose c.lists st e) (b : Bool) :
    Sim c (if b then free s e else s) (st.release b [e]) z := by
  cases b with
  | false => exact h
  | true =>
    simp only [if_true, St.release]
    rw [← dropAll_one]
    exact h.drop (by intro a ha; simp at ha; subst ha; exact he)

theorem Sim.popNode (h : Sim c s st z) {l e : Nat} (hl : l ∈ c.lists) {t : List Nat} (hs : st.seq l = e :: t) :
    ∃ s', popFrontNode s l = some (s', e) ∧ Sim c s' (st.set l t) (upd z l true) ∧ Loose c.lists (st.set l t) e := by
  have nd := h.shape.ring hl
  rw [hs] at nd
  have nde := nd_end nd
  have hel : e ≠ l := h.ne_list hl (by rw [hs]; simp)
  have h1 : s.nx l = some (some e) := by rw [h.head hl, hs]; rfl
  have h2 := h.at_ hl (A := []) hs
  have hmem : e ∈ st.seq l := by rw [hs]; simp
  have hv := h.own l hl e hmem
  have hr := h.ring l hl
  rw [hs] at hr
  have hloose : Loose c.lists (st.set l t) e := by
    refine ⟨h.shape.out l hl e hmem, fun k hk hm => ?_⟩
    change e ∈ upd st.seq l t k at hm
    by_cases e' : k = l
    · subst e'; rw [upd_same] at hm
      exact (List.nodup_cons.1 (List.nodup_cons.1 nd).2).1 hm
    · rw [upd_ne _ _ e'] at hm
      exact e' (h.shape.disj k hk l hl e hm hmem)
  have he1 : t.headD l ≠ e := by
    intro e'
    exact (List.nodup_cons.1 nde).1 (e' ▸ headD_mem t l)
  have hexc : ∀ b, b ≠ e → exc st z l ≠ some b := by
    intro b hb
    unfold exc
    split
    · rw [hs]; exact fun e' => hb (Option.some.inj e').symm
    · simp
  have hcore : Core c { s with nx := upd s.nx l (some (some (t.headD l))) } (st.set l t) (upd z l true) := by
    refine ⟨h.val, fun a ha => ⟨upd_live (h.live a ha).1, (h.live a ha).2⟩, h.shape.sub hl (by rw [hs]; exact List.sublist_cons_self _ _), fun k hk => ?_,
      fun k hk a ha => ?_, h.nolist⟩
    · show Seg _ k (upd st.seq l t k) k
      by_cases e' : k = l
      · subst e'
        have hx : exc (st.set k t) (upd z k true) k = some (t.headD k) := by
          unfold exc
          rw [if_pos (upd_same _ _ _)]
          show some ((upd st.seq k t k).headD k) = _
          rw [upd_same]
        rw [hx, upd_same]
        refine hr.2.start' ⟨upd_same _ _ _, ?_⟩ fun a ha b hb hab => ?_
        · rw [if_pos rfl]
          exact ⟨e, he1.symm, hr.2.head.p (hexc _ he1)⟩
        · have hak : a ≠ k := fun e' => (List.nodup_cons.1 nd).1 (by rw [← e']; exact List.mem_cons_of_mem _ ha)
          have htne : t ≠ [] := by rintro rfl; cases ha
          have hbe : b ≠ e := by
            rintro rfl
            refine (List.nodup_cons.1 nde).1 ?_
            rcases List.mem_append.1 hb with h | h
            · exact List.mem_append_left _ (List.mem_of_mem_tail h)
            · exact List.mem_append_right _ h
          refine ⟨?_, ?_⟩
          · show upd s.nx k _ a = _
            rw [upd_ne _ _ hak]; exact hab.1
          · rw [if_neg (fun e' => headD_not_tail (List.nodup_cons.1 nde).2 htne hb (Option.some.inj e').symm)]
            exact hab.p (hexc b hbe)
      · rw [upd_ne _ _ e']
        have hx : exc (st.set l t) (upd z l true) k = exc st z k := by
          unfold exc
          rw [upd_ne _ _ e']
          show (if z k = true then some ((upd st.seq l t k).headD k) else none) = _
          rw [upd_ne _ _ e']
        rw [hx]
        refine (h.ring k hk).mono fun a ha b _ hab => ⟨?_, hab.2⟩
        show upd s.nx l _ a = _
        rw [upd_ne _ _ (fun e'' => e' (h.mem_ring hk hl ha (by rw [e'']; simp)))]
        exact hab.1
    · refine h.own k hk a ?_
      change a ∈ upd st.seq l t k at ha
      by_cases e' : k = l
      · subst e'; rw [upd_same] at ha; rw [hs]; simp [ha]
      · rwa [upd_ne _ _ e'] at ha
  have hc2 := (hcore.looseP hloose none).looseN hloose none
  refine ⟨({ s with nx := upd (upd s.nx l (some (some (t.headD l)))) e (some none), pv := upd s.pv e (some none) } : Dll α).setSz l (s.sz l - 1), ?_,
    Core.sized hc2 h rfl (by rw [h.sz l hl, hs]; simp), hloose⟩
  simp only [popFrontNode, h1, Option.bind_eq_bind, Option.bind_some]
  rw [setP_eq' (h.live e hv).2]
  simp only [Option.bind_some, h2]
  rw [setN_eq' (s := { s with pv := upd s.pv e _ }) (by rw [h1]; simp)]
  simp only [Option.bind_some]
  rw [setP_eq' (s := { s with nx := upd s.nx l _, pv := upd s.pv e _ }) (upd_live (h.live e hv).2)]
  simp only [Option.bind_some]
  rw [setN_eq' (s := { s with nx := upd s.nx l _, pv := upd (upd s.pv e _) e _ }) (upd_live (h.live e hv).1)]
  simp only [Option.bind_some, upd_upd]

theorem Sim.popFront (h : Sim c s st z) {l : Nat} (hl : l ∈ c.lists) :
    ∃ s' r, Dll.popFront c s l = some (s', r) ∧ Sim c s' (specStep c.alloc st (.popFront l)).1 (stale c.alloc st z (.popFront l)) ∧
      (specStep c.alloc st (.popFront l)).2 = .res r := by
  simp only [Dll.popFront, specStep, stale]
  cases hs : st.seq l with
  | nil =>
    rw [if_pos ((h.empty_iff hl).2 hs)]
    exact ⟨s, _, rfl, by simpa using h, rfl⟩
  | cons e t =>
    obtain ⟨s', a1, a2, a3⟩ := h.popNode hl hs
    simp only [if_neg (h.sz_ne hl (e := e) (by rw [hs]; simp)), a1, Option.bind_eq_bind, Option.bind_some]
    refine ⟨_, _, rfl, ?_, rfl⟩
    simpa using a2.freeIf a3 (c.alloc l)

/-- The position after a range whose first back link is good. -/
theorem Core.good_end (h : Core c s st z) {m e : Nat} (hm : m ∈ c.lists) {A M B : List Nat} (hs : st.seq m = A ++ (M ++ e :: B))
    (hg : Good st z m (M.headD e)) : Good st z m (B.headD m) := by
  intro hz e'
  have nd := nd_end (h.shape.ring hm)
  rw [hs] at e' nd
  cases A with
  | nil => exact hg hz (by rw [hs]; simp [headD_append])
  | cons a A =>
    simp only [List.cons_append, List.headD_cons] at e'
    refine (List.nodup_cons.1 nd).1 ?_
    rw [← e']
    have := headD_mem B m
    simp only [List.mem_append, List.mem_cons] at this ⊢
    rcases this with h | h <;> simp_all

theorem without_range {m e : Nat} {A M B : List Nat} (h : Core c s st z) (hm : m ∈ c.lists) (hs : st.seq m = A ++ (M ++ e :: B)) :
    without (M ++ [e]) (st.seq m) = A ++ B := by
  have nd := h.shape.nd m hm
  rw [hs] at nd ⊢
  rw [show M ++ e :: B = (M ++ [e]) ++ B by simp] at nd ⊢
  exact without_append nd

/-- What the code reads and writes when it takes a range out. -/
theorem Core.cutFacts (h : Core c s st z) {m e : Nat} (hm : m ∈ c.lists) {A M B : List Nat} (hs : st.seq m = A ++ (M ++ e :: B))
    (hg : Good st z m (M.headD e)) : s.nx e = some (some (B.headD m)) ∧ s.pv (M.headD e) = some (some (A.getLastD m)) ∧
      ∃ s1, s.setP (B.headD m) (some (A.getLastD m)) = some s1 ∧ s1.pv (M.headD e) = some (some (A.getLastD m)) ∧
      s1.nx e = some (some (B.headD m)) ∧ s1.setN (A.getLastD m) (some (B.headD m)) = some (cutSt s (A.getLastD m) (B.headD m)) := by
  have hs' : st.seq m = (A ++ M) ++ e :: B := by rw [hs, List.append_assoc]
  have hs2 : st.seq m = (A ++ (M ++ [e])) ++ B := by rw [hs]; simp
  have r1 := h.at_ hm hs'
  have r2 := h.prv hm hs (by rw [headD_append]; exact hg)
  rw [headD_append] at r2
  obtain ⟨_, _, hne, _⟩ := h.cut hm hs hg
  obtain ⟨w1, w2, w3, w4⟩ := cut_writes r1 r2 (h.pv_live hm (by rw [hs2]; exact headD_ring)) (h.nx_live hm (by rw [hs]; exact lastD_ring))
    (hne _ (headD_mem M e)).2
  exact ⟨r1, r2, _, w1, w2, w3, w4⟩

theorem cut_live {i j a : Nat} (h1 : s.nx a ≠ none) (h2 : s.pv a ≠ none) : (cutSt s i j).nx a ≠ none ∧ (cutSt s i j).pv a ≠ none :=
  ⟨upd_live h1, upd_live h2⟩

theorem list_notin (h : Core c s st z) {l : Nat} (hl : l ∈ c.lists) {A B : List Nat} (hs : st.seq l = A ++ B) : l ∉ B :=
  fun hb => (List.nodup_cons.1 (h.shape.ring hl)).1 (by rw [hs]; simp [hb])

theorem Sim.extract (h : Sim c s st z) {l e : Nat} (hl : l ∈ c.lists) (he : e ∈ st.seq l) (hg : Good st z l e) :
    ∃ s', Dll.extract c s l e = some (s', after e (st.seq l)) ∧ Sim c s' (st.set l (without [e] (st.seq l))) z := by
  obtain ⟨A, B, hs, hA, _⟩ := split_mem he (h.shape.nd l hl)
  obtain ⟨r1, r2, s1, w1, w2, w3, w4⟩ := h.cutFacts hl (M := []) hs hg
  obtain ⟨hc, _, _, hlo, _⟩ := h.toCore.cut hl (M := []) hs hg
  have hlo := hlo e (by simp)
  have hv := h.own l hl e he
  obtain ⟨l1, l2⟩ := cut_live (i := A.getLastD l) (j := B.headD l) (h.live e hv).1 (h.live e hv).2
  rw [show [e] = [] ++ [e] from rfl, without_range h.toCore hl (M := []) hs, hs, after_append B hA]
  have hc2 := (hc.looseP hlo none).looseN hlo none
  refine ⟨_, ?_, Core.sized hc2 h rfl (n := s.sz l - 1) (by rw [h.sz l hl, hs]; simp only [List.length_append, List.length_cons]; omega)⟩
  simp only [List.headD_nil] at r2 w2
  simp only [Dll.extract, r1, r2, Option.bind_eq_bind, Option.bind_some]
  rw [if_neg (by simp; exact h.sz_ne hl he)]
  simp only [w1, w2, w3, w4, Option.bind_some]
  rw [setP_eq' l2]
  simp only [Option.bind_some]
  rw [setN_eq' (s := { cutSt s (A.getLastD l) (B.headD l) with pv := upd (cutSt s (A.getLastD l) (B.headD l)).pv e _ }) l1]
  simp only [Option.bind_some]
  exact ret_eq (list_notin h.toCore hl (A := A ++ [e]) (by rw [hs]; simp)) _

theorem Sim.erase (h : Sim c s st z) {l e : Nat} (hl : l ∈ c.lists) (he : e ∈ st.seq l) (hg : Good st z l e) :
    ∃ s', Dll.erase c s l e = some (s', eraseAns e (st.seq l)) ∧
      Sim c s' ((st.set l (without [e] (st.seq l))).release (c.alloc l) [e]) z := by
  obtain ⟨A, B, hs, hA, _⟩ := split_mem he (h.shape.nd l hl)
  obtain ⟨r1, r2, s1, w1, w2, w3, w4⟩ := h.cutFacts hl (M := []) hs hg
  obtain ⟨hc, _, hne, hlo, _⟩ := h.toCore.cut hl (M := []) hs hg
  have hlo := hlo e (by simp)
  have hw : without [e] (st.seq l) = A ++ B := without_range h.toCore hl (M := []) hs
  rw [hw]
  have hsim := Core.sized hc h rfl (n := s.sz l - 1) (by rw [h.sz l hl, hs]; simp only [List.length_append, List.length_cons]; omega)
  have hn : (cutSt s (A.getLastD l) (B.headD l)).nx e = some (some (B.headD l)) := by
    show upd s.nx _ _ e = _
    rw [upd_ne _ _ (hne e (by simp)).1]; exact r1
  refine ⟨_, ?_, hsim.freeIf hlo (c.alloc l)⟩
  simp only [List.headD_nil] at r2 w2
  simp only [Dll.erase, if_neg (h.sz_ne hl he), r1, r2, Option.bind_eq_bind, Option.bind_some, w1, w2, w3, w4, hn]
  have e1 : (if some (B.headD l) = some l then none else some e) = eraseAns e (st.seq l) := by
    rw [eraseAns, hs, after_append B hA]
    have := list_notin h.toCore hl (A := A ++ [e]) (B := B) (by rw [hs]; simp)
    cases B with
    | nil => simp
    | cons b B =>
      have : b ≠ l := fun e => this (by simp [e])
      simp [this]
  rw [e1]
  cases c.alloc l <;> rfl

theorem Sim.popBack (h : Sim c s st z) {l : Nat} (hl : l ∈ c.lists) (hg : Good st z l ((st.seq l).getLastD l) ∨ st.seq l = []) :
    ∃ s' r, Dll.popBack c s l = some (s', r) ∧ Sim c s' (specStep c.alloc st (.popBack l)).1 z ∧
      (specStep c.alloc st (.popBack l)).2 = .res r := by
  simp only [Dll.popBack, specStep]
  rcases List.eq_nil_or_concat (st.seq l) with hs | ⟨A, e, hs⟩
  · rw [if_pos ((h.empty_iff hl).2 hs), hs]
    exact ⟨s, _, rfl, h, rfl⟩
  · rw [List.concat_eq_append] at hs
    have hg : Good st z l e := by
      rcases hg with h | h
      · rw [hs] at h; simpa using h
      · rw [hs] at h; simp at h
    have he : e ∈ st.seq l := by rw [hs]; simp
    have hel := h.ne_list hl he
    obtain ⟨r1, r2, -⟩ := h.cutFacts hl (M := []) (B := []) hs hg
    obtain ⟨hc, _, hne, hlo, _⟩ := h.toCore.cut hl (M := []) (B := []) hs hg
    have hlo := hlo e (by simp)
    have hv := h.own l hl e he
    have r0 : s.pv l = some (some e) := by
      have := h.prv hl (P := st.seq l) (Q := []) (by simp) (h.good_end hl (M := []) (B := []) hs hg)
      rw [hs] at this
      simpa using this
    have hi : s.nx (A.getLastD l) ≠ none := h.nx_live hl (by rw [hs]; exact lastD_ring)
    simp only [List.headD_nil, List.append_nil] at r1 r2 hc hne hlo
    rw [if_neg (h.sz_ne hl he)]
    simp only [r0, r2, Option.bind_eq_bind, Option.bind_some]
    rw [setN_eq' hi]
    simp only [r2, Option.bind_some]
    rw [setP_eq' (s := { s with nx := upd s.nx _ _ }) (by rw [r0]; simp)]
    simp only [Option.bind_some]
    rw [setP_eq' (s := { s with nx := upd s.nx _ _, pv := upd s.pv _ _ }) (upd_live (h.live e hv).2)]
    simp only [Option.bind_some]
    rw [setN_eq' (s := { s with nx := upd s.nx _ _, pv := upd (upd s.pv _ _) _ _ }) (upd_live (h.live e hv).1)]
    simp only [Option.bind_some]
    have hc2 := (hc.looseP hlo none).looseN hlo none
    have hsim := Core.sized hc2 h rfl (n := s.sz l - 1) (by rw [h.sz l hl, hs]; simp)
    refine ⟨_, _, rfl, ?_, by rw [hs]; simp⟩
    have := hsim.freeIf hlo (c.alloc l)
    rw [hs]
    simp only [List.getLast?_concat, List.dropLast_concat]
    cases ha : c.alloc l <;> rw [ha] at this <;> exact this

/-- Taking a range out, in the code. -/
theorem Sim.unlinkRange (h : Sim c s st z) {m e : Nat} (hm : m ∈ c.lists) {A M B : List Nat} (hs : st.seq m = A ++ (M ++ e :: B))
    (hg : Good st z m (M.headD e)) :
    Dll.unlinkRange s (M.headD e) (B.headD m) = some (cutSt s (A.getLastD m) (B.headD m), e) ∧ s.pv (B.headD m) = some (some e) := by
  obtain ⟨r1, r2, s1, w1, w2, w3, w4⟩ := h.cutFacts hm hs hg
  have r0 := h.prv hm (P := A ++ (M ++ [e])) (Q := B) (by rw [hs]; simp) (h.good_end hm hs hg)
  have r0 : s.pv (B.headD m) = some (some e) := by
    rw [r0]; simp
  refine ⟨?_, r0⟩
  simp only [Dll.unlinkRange, r0, r1, r2, Option.bind_eq_bind, Option.bind_some, w1, w2, w3, w4]

theorem Sim.noLinks (h : Sim c s st z) {m e : Nat} (hm : m ∈ c.lists) {A M B : List Nat} (hs : st.seq m = A ++ (M ++ e :: B))
    (hg : Good st z m (M.headD e)) : Dll.noLinks s (M.headD e) (B.headD m) = some false := by
  have hmem : M.headD e ∈ st.seq m := by
    rw [hs]
    have := headD_mem M e
    simp only [List.mem_append, List.mem_cons, List.not_mem_nil, or_false] at this ⊢
    rcases this with h | h
    · exact Or.inr (Or.inl h)
    · exact Or.inr (Or.inr (Or.inl h))
  obtain ⟨A', B', hs', _, _⟩ := split_mem hmem (h.shape.nd m hm)
  have r1 := h.at_ hm hs'
  obtain ⟨_, r2, _⟩ := h.cutFacts hm hs hg
  obtain ⟨_, r3⟩ := h.unlinkRange hm hs hg
  have r4 : ∃ n, s.nx (B.headD m) = some (some n) := by
    cases B with
    | nil => exact ⟨_, h.head hm⟩
    | cons b B => exact ⟨_, h.at_ hm (A := A ++ (M ++ [e])) (B := B) (by rw [hs]; simp)⟩
  obtain ⟨n, r4⟩ := r4
  simp only [Dll.noLinks, r1, r2, r3, r4, Option.bind_eq_bind, Option.bind_some]
  rfl

theorem Sim.noLinks_one (h : Sim c s st z) {m e : Nat} (hm : m ∈ c.lists) (he : e ∈ st.seq m) (hg : Good st z m e) :
    Dll.noLinks s e e = some false := by
  obtain ⟨A, B, hs, _, _⟩ := split_mem he (h.shape.nd m hm)
  obtain ⟨r1, r2, _⟩ := h.cutFacts hm (M := []) hs hg
  simp only [List.headD_nil] at r2
  simp only [Dll.noLinks, r1, r2, Option.bind_eq_bind, Option.bind_some]
  rfl

theorem Sim.cutSz (h : Sim c s st z) {m e : Nat} (hm : m ∈ c.lists) {A M B : List Nat} (hs : st.seq m = A ++ (M ++ e :: B)) :
    M.length + 1 ≤ s.sz m ∧ s.sz m - (1 + M.length) = (A ++ B).length := by
  rw [h.sz m hm, hs]
  simp only [List.length_append, List.length_cons]
  omega

theorem Sim.extractNodes (h : Sim c s st z) {l e : Nat} (hl : l ∈ c.lists) {A M B : List Nat} (hs : st.seq l = A ++ (M ++ e :: B))
    (hg : Good st z l (M.headD e)) : ∃ s', Dll.extractNodes (cutSt s (A.getLastD l) (B.headD l)) l (M.headD e) e = some (s', 1 + M.length) ∧
      s'.sz = s.sz ∧ Core c s' (st.set l (A ++ B)) z ∧ Path (Nk s') (M ++ [e]) ∧ s'.nx e = some none := by
  obtain ⟨hc, hp, _, hlo, nd⟩ := h.toCore.cut hl hs hg
  have hmem : ∀ a ∈ M ++ [e], a ∈ st.seq l := by
    intro a ha; rw [hs]
    simp only [List.mem_append, List.mem_cons, List.not_mem_nil, or_false] at ha ⊢
    rcases ha with h | h <;> simp [h]
  have hx := hmem _ (headD_mem M e)
  have he := hmem e (by simp)
  have l2 := (cut_live (i := A.getLastD l) (j := B.headD l) (h.live _ (h.own l hl _ hx)).1 (h.live _ (h.own l hl _ hx)).2).2
  have l1 := (cut_live (i := A.getLastD l) (j := B.headD l) (h.live _ (h.own l hl _ he)).1 (h.live _ (h.own l hl _ he)).2).1
  have hp' : Path (Nk { cutSt s (A.getLastD l) (B.headD l) with pv := upd (cutSt s (A.getLastD l) (B.headD l)).pv (M.headD e) (some none) }) (M ++ [e]) :=
    path_nk (s := cutSt s (A.getLastD l) (B.headD l)) hp
  have hlen := len_spec (s := { cutSt s (A.getLastD l) (B.headD l) with pv := upd (cutSt s (A.getLastD l) (B.headD l)).pv (M.headD e) (some none) })
    (l := l) (k := 1) hp' (not_mem_of_nodup nd) (by show _ ≤ s.sz l + 1; have := (h.cutSz hl hs).1; omega)
  refine ⟨{ cutSt s (A.getLastD l) (B.headD l) with pv := upd (cutSt s (A.getLastD l) (B.headD l)).pv (M.headD e) (some none),
                                                     nx := upd (cutSt s (A.getLastD l) (B.headD l)).nx e (some none) }, ?_, rfl,
    (hc.looseP (hlo _ (headD_mem M e)) none).looseN (hlo e (by simp)) none, ?_, upd_same _ _ _⟩
  · simp only [Dll.extractNodes, Option.bind_eq_bind]
    rw [setP_eq' l2]
    simp only [Option.bind_some, len, hlen]
    rw [if_neg (h.ne_list hl he)]
    rw [setN_eq' (s := { cutSt s (A.getLastD l) (B.headD l) with pv := upd (cutSt s (A.getLastD l) (B.headD l)).pv (M.headD e) _ }) l1]
    rfl
  · refine (path_nk hp).mono fun a ha b _ hab => ?_
    rw [List.dropLast_concat] at ha
    show upd _ e _ a = _
    have hae : a ≠ e := fun e' => not_mem_of_nodup nd (e' ▸ ha)
    rw [upd_ne _ _ hae]
    exact hab

theorem ret_end {l e : Nat} {A X B : List Nat} (h : Core c s st z) (hl : l ∈ c.lists) (hs : st.seq l = A ++ B) (he : B.headD l = e) :
    (if e = l then (none : Slot) else some e) = B.head? := by
  subst he
  have := list_notin h hl hs
  cases B with
  | nil => simp
  | cons b B =>
    have : b ≠ l := fun e => this (by simp [e])
    simp [this]

theorem Sim.extractRange (h : Sim c s st z) {l b e : Nat} (hl : l ∈ c.lists) (hr : IsRange st l b e) (hg : Good st z l b) :
    ∃ s' r, Dll.extractRange c s l b e = some (s', r) ∧ Sim c s' (specStep c.alloc st (.extractRange l b e)).1 z ∧
      (specStep c.alloc st (.extractRange l b e)).2 = .ptr r := by
  simp only [specStep]
  by_cases hbe : b = e
  · subst hbe
    obtain ⟨s', a1, a2⟩ := h.extract hl hr.1 hg
    refine ⟨s', after b (st.seq l), ?_, by simpa using a2, by simp⟩
    simp only [Dll.extractRange, h.noLinks_one hl hr.1 hg, Option.bind_eq_bind, Option.bind_some]
    rw [if_neg (by simp; exact h.sz_ne hl hr.1), if_pos trivial]
    exact a1
  · obtain ⟨A, M, e', B, hs, hb, hB, hbt⟩ := split_between (h.shape.ring hl) hr.1 hr.2 hbe
    have hg' : Good st z l (M.headD e') := by rw [hb]; exact hg
    obtain ⟨s', a1, a2, a3, _, _⟩ := h.extractNodes hl hs hg'
    have u := (h.unlinkRange hl hs hg').1
    have n := h.noLinks hl hs hg'
    rw [hb] at a1 u n
    rw [hB] at u n a1
    obtain ⟨z1, z2⟩ := h.cutSz hl hs
    have hk : 1 + M.length ≤ s'.sz l := by rw [a2]; omega
    rw [if_neg hbe, hbt, without_range h.toCore hl hs]
    refine ⟨s'.setSz l (s'.sz l - (1 + M.length)), _, ?_, Core.sized a3 h a2 (by rw [a2]; exact z2), rfl⟩
    simp only [Dll.extractRange, n, Option.bind_eq_bind, Option.bind_some]
    rw [if_neg (by simp; exact h.sz_ne hl hr.1), if_neg hbe]
    simp only [u, a1, Option.bind_some, if_pos hk]

theorem Sim.eraseRange (h : Sim c s st z) {l b e : Nat} (hl : l ∈ c.lists) (hr : IsRange st l b e) (hg : Good st z l b) :
    ∃ s' r, Dll.eraseRange c s l b e = some (s', r) ∧ Sim c s' (specStep c.alloc st (.eraseRange l b e)).1 z ∧
      (specStep c.alloc st (.eraseRange l b e)).2 = .ptr r := by
  simp only [specStep]
  by_cases hbe : b = e
  · subst hbe
    obtain ⟨s', a1, a2⟩ := h.erase hl hr.1 hg
    refine ⟨s', eraseAns b (st.seq l), ?_, by simpa using a2, by simp⟩
    simp only [Dll.eraseRange, h.noLinks_one hl hr.1 hg, Option.bind_eq_bind, Option.bind_some]
    rw [if_neg (by simp; exact h.sz_ne hl hr.1), if_pos trivial]
    exact a1
  · obtain ⟨A, M, e', B, hs, hb, hB, hbt⟩ := split_between (h.shape.ring hl) hr.1 hr.2 hbe
    have hg' : Good st z l (M.headD e') := by rw [hb]; exact hg
    have u := (h.unlinkRange hl hs hg').1
    have n := h.noLinks hl hs hg'
    obtain ⟨z1, z2⟩ := h.cutSz hl hs
    rw [if_neg hbe, hbt, without_range h.toCore hl hs]
    by_cases ha : c.alloc l = true
    · obtain ⟨hc, hp, _, hlo, nd⟩ := h.toCore.cut hl hs hg'
      have hmem : ∀ a ∈ M ++ [e'], a ∈ st.seq l := by
        intro a ha; rw [hs]
        simp only [List.mem_append, List.mem_cons, List.not_mem_nil, or_false] at ha ⊢
        rcases ha with h | h <;> simp [h]
      have hx := hmem _ (headD_mem M e')
      have he := hmem e' (by simp)
      have l2 := (cut_live (i := A.getLastD l) (j := B.headD l) (h.live _ (h.own l hl _ hx)).1 (h.live _ (h.own l hl _ hx)).2).2
      have l1 := (cut_live (i := A.getLastD l) (j := B.headD l) (h.live _ (h.own l hl _ he)).1 (h.live _ (h.own l hl _ he)).2).1
      have hp' : Path (Nk { cutSt s (A.getLastD l) (B.headD l) with pv := upd (cutSt s (A.getLastD l) (B.headD l)).pv (M.headD e') (some none) }) (M ++ [e']) :=
        path_nk (s := cutSt s (A.getLastD l) (B.headD l)) hp
      have hfr := freeLoop_spec (s := { cutSt s (A.getLastD l) (B.headD l) with pv := upd (cutSt s (A.getLastD l) (B.headD l)).pv (M.headD e') (some none) })
        (l := l) (k := 1) hp' nd l1 (by show _ ≤ s.sz l + 1; omega)
      have hc2 := (hc.looseP (hlo _ (headD_mem M e')) none).dropAll hlo
      refine ⟨(Dll.dropAll { cutSt s (A.getLastD l) (B.headD l) with pv := upd (cutSt s (A.getLastD l) (B.headD l)).pv (M.headD e') (some none) } (M ++ [e'])).setSz l (s.sz l - (1 + M.length)),
        _, ?_, ?_, rfl⟩
      · simp only [← hb, ← hB] at n u ⊢
        simp only [Dll.eraseRange, n, Option.bind_eq_bind, Option.bind_some]
        rw [if_neg (by simp; exact h.sz_ne hl hr.1), if_neg (by rw [hb, hB]; exact hbe)]
        simp only [u, eraseNodes, ha, Bool.not_true, Bool.false_eq_true, if_false, Option.bind_eq_bind, Option.bind_some]
        rw [setP_eq' l2]
        simp only [Option.bind_some, hfr]
        rw [if_pos (by show _ ≤ s.sz l; omega)]
        rfl
      · have := (Core.sized (hc.looseP (hlo _ (headD_mem M e')) none) h rfl z2).drop hlo
        rw [ha]
        exact this
    · have ha' : c.alloc l = false := by simpa using ha
      obtain ⟨s', a1, a2, a3, _, _⟩ := h.extractNodes hl hs hg'
      rw [hb] at a1 u n
      rw [hB] at u n a1
      have hk : 1 + M.length ≤ s'.sz l := by rw [a2]; omega
      rw [ha']
      refine ⟨s'.setSz l (s'.sz l - (1 + M.length)), _, ?_, Core.sized a3 h a2 (by rw [a2]; exact z2), rfl⟩
      simp only [Dll.eraseRange, n, Option.bind_eq_bind, Option.bind_some]
      rw [if_neg (by simp; exact h.sz_ne hl hr.1), if_neg hbe]
      simp only [u, eraseNodes, ha', Bool.not_false, if_true, a1, Option.bind_some, if_pos hk]

/-! ### Moving -/

theorem putBefore_nil (pos : Nat) (t : List Nat) : putBefore pos [] t = t := by
  simp [putBefore, upto, onward, List.takeWhile_append_dropWhile]

theorem without_nil (t : List Nat) : without [] t = t := by simp [without]

theorem move_nil (st : St α) (l pos m : Nat) : DllSpec.St.move st l pos m [] = st := by
  simp only [DllSpec.St.move, List.not_mem_nil, if_false, without_nil, putBefore_nil, St.set, upd_self]

/-- A range moved to the position after it. -/
theorem Core.move_noop (h : Core c s st z) {l pos m e : Nat} (hl : l ∈ c.lists) (hm : m ∈ c.lists) {A M B : List Nat}
    (hs : st.seq m = A ++ (M ++ e :: B)) (hp : pos = l ∨ pos ∈ st.seq l) (hn : B.headD m = pos) :
    DllSpec.St.move st l pos m (M ++ [e]) = st := by
  unfold DllSpec.St.move
  split
  · rfl
  have hlm : l = m := by
    refine h.mem_ring (a := pos) hl hm (List.mem_cons.2 hp) ?_
    rw [← hn, hs, show A ++ (M ++ e :: B) = (A ++ (M ++ [e])) ++ B by simp]
    exact headD_ring
  subst hlm
  have hw := without_range h hl hs
  have key : putBefore pos (M ++ [e]) (A ++ B) = st.seq l := by
    have nd := nd_end (h.shape.ring hl)
    rw [hs] at nd
    have hA : pos ∉ A := by
      intro ha
      have hmem : pos ∈ (M ++ e :: B) ++ [l] := by
        have := headD_mem B l
        rw [hn] at this
        simp only [List.mem_append, List.mem_cons] at this ⊢
        rcases this with h | h <;> simp_all
      rw [List.append_assoc] at nd
      exact (List.nodup_append.1 nd).2.2 pos ha pos hmem rfl
    cases B with
    | nil =>
      rw [putBefore, List.append_nil, upto_none hA, onward_none hA, hs]; simp
    | cons b B =>
      simp only [List.headD_cons] at hn
      subst hn
      rw [putBefore, upto_append B hA, onward_append B hA, hs]; simp
  simp only [hw, St.set, upd_same, key]
  rw [upd_upd, upd_self]

/-- Moving a range. -/
theorem Sim.move (h : Sim c s st z) {l pos m e : Nat} (hl : l ∈ c.lists) (hm : m ∈ c.lists) {A M B : List Nat}
    (hs : st.seq m = A ++ (M ++ e :: B)) (hp : pos = l ∨ pos ∈ st.seq l) (hx : pos ∉ M ++ [e]) (hgl : Good st z l pos)
    (hgm : Good st z m (M.headD e)) :
    ∃ i s1 s2 s3 s4, (cutSt s (A.getLastD m) (B.headD m)).pv pos = some (some i) ∧
      (cutSt s (A.getLastD m) (B.headD m)).setP (M.headD e) (some i) = some s1 ∧ s1.setN e (some pos) = some s2 ∧
      s2.pv pos = some (some i) ∧ s2.setN i (some (M.headD e)) = some s3 ∧ s3.setP pos (some e) = some s4 ∧ s4.sz = s.sz ∧
      Core c s4 (DllSpec.St.move st l pos m (M ++ [e])) z ∧
      (∀ k ∈ c.lists, ((DllSpec.St.move st l pos m (M ++ [e])).seq k).length =
        if l = m then (st.seq k).length else
          if k = l then (st.seq k).length + (M.length + 1) else if k = m then (st.seq k).length - (M.length + 1) else (st.seq k).length) ∧
      Path (Nk s4) (M ++ [e]) ∧ (M ++ [e]).Nodup := by
  obtain ⟨hc, hpath, hne, hloose, nd⟩ := h.toCore.cut hm hs hgm
  have hsub := without_range h.toCore hm hs
  have hp' : pos = l ∨ pos ∈ (st.set m (A ++ B)).seq l := by
    rcases hp with h1 | h1
    · exact .inl h1
    · right
      show pos ∈ upd st.seq m (A ++ B) l
      by_cases e' : l = m
      · subst e'
        rw [upd_same]
        rw [hs] at h1
        simp only [List.mem_append, List.mem_cons, List.not_mem_nil, or_false, not_or] at h1 hx ⊢
        rcases h1 with h1 | h1 | h1 | h1
        · exact .inl h1
        · exact absurd h1 hx.1
        · exact absurd h1 hx.2
        · exact .inr h1
      · rw [upd_ne _ _ e']; exact h1
  obtain ⟨P, Q, hPQ, hQ, hput⟩ := split_pos (hc.shape.ring hl) hp'
  have hgl' : Good (st.set m (A ++ B)) z l (Q.headD l) := by
    rw [good_iff, exc_cut hs hgm, hQ]
    exact good_exc hgl
  have hmem : ∀ a ∈ M ++ [e], a ∈ st.seq m := by
    intro a ha; rw [hs]
    simp only [List.mem_append, List.mem_cons, List.not_mem_nil, or_false] at ha ⊢
    rcases ha with h | h <;> simp [h]
  have hval : ∀ a ∈ M ++ [e], st.val a ≠ none := fun a ha => h.own m hm a (hmem a ha)
  have hpaste := hc.paste hl hPQ hpath nd (fun a ha => ⟨hloose a ha, hval a ha⟩) (fun _ _ => rfl) (good_nil hPQ hgl') (fun _ => rfl)
  have hpv := hc.prv hl hPQ hgl'
  have hmv : DllSpec.St.move st l pos m (M ++ [e]) = (st.set m (A ++ B)).set l (P ++ (M ++ e :: Q)) := by
    unfold DllSpec.St.move
    rw [if_neg hx]
    simp only [hsub]
    rw [hput]; simp
  have hxX := headD_mem M e
  have lx := (cut_live (i := A.getLastD m) (j := B.headD m) (h.live _ (hval _ hxX)).1 (h.live _ (hval _ hxX)).2).2
  have le := (cut_live (i := A.getLastD m) (j := B.headD m) (h.live e (hval e (by simp))).1 (h.live e (hval e (by simp))).2).1
  obtain ⟨s1, s2, s3, w1, w2, w3, w4, w5⟩ := paste_writes' hpv le lx (hc.nx_live hl (by rw [hPQ]; exact lastD_ring))
    (fun e' => hx (by rw [← hQ, e']; exact hxX))
  rw [hQ] at hpv w2 w3 w5
  have hlen : (st.seq m).length = A.length + (M.length + (B.length + 1)) := by rw [hs]; simp
  refine ⟨P.getLastD l, s1, s2, s3, _, hpv, w1, w2, w3, w4, w5, rfl, ?_, fun k hk => ?_, ?_, nd⟩
  · rw [hmv, ← hQ]; exact hpaste
  · rw [hmv]
    show (upd (upd st.seq m (A ++ B)) l (P ++ (M ++ e :: Q)) k).length = _
    have hPQ' : upd st.seq m (A ++ B) l = P ++ Q := hPQ
    by_cases e1 : l = m
    · subst e1
      rw [if_pos rfl]
      by_cases e2 : k = l
      · subst e2
        rw [upd_same] at hPQ'
        rw [upd_same, hlen]
        have := congrArg List.length hPQ'
        simp only [List.length_append, List.length_cons] at this ⊢
        omega
      · rw [upd_ne _ _ e2, upd_ne _ _ e2]
    · rw [if_neg e1]
      rw [upd_ne _ _ e1] at hPQ'
      by_cases e2 : k = l
      · subst e2
        rw [upd_same, if_pos rfl, hPQ']
        simp only [List.length_append, List.length_cons]
        omega
      · rw [upd_ne _ _ e2, if_neg e2]
        by_cases e3 : k = m
        · subst e3
          rw [upd_same, if_pos rfl, hlen]
          simp only [List.length_append]
          omega
        · rw [upd_ne _ _ e3, if_neg e3]
  · have hr := hpaste.ring l hl
    rw [show ((st.set m (A ++ B)).set l (P ++ (M ++ e :: Q))).seq l = P ++ (M ++ e :: Q) from upd_same _ _ _, hQ] at hr
    exact path_nk (seg_split.1 (seg_append.1 hr).2).2.1

theorem Sim.moved {s4 : Dll α} (h : Sim c s st z) {l m n : Nat} {st' : St α} (hl : l ∈ c.lists) (hm : m ∈ c.lists) (hc : Core c s4 st' z) (hsz : s4.sz = s.sz)
    (hlen : ∀ k ∈ c.lists, (st'.seq k).length = if l = m then (st.seq k).length else
          if k = l then (st.seq k).length + n else if k = m then (st.seq k).length - n else (st.seq k).length) :
    (l = m → Sim c s4 st' z) ∧
      (l ≠ m → Sim c ((s4.setSz l (s4.sz l + n)).setSz m ((s4.setSz l (s4.sz l + n)).sz m - n)) st' z) := by
  refine ⟨fun h3 => ⟨hc, fun k hk => ?_⟩, fun h3 => ⟨(hc.setSz _ _).setSz _ _, fun k hk => ?_⟩⟩
  · rw [hlen k hk, if_pos h3, hsz]; exact h.sz k hk
  · rw [hlen k hk, if_neg h3]
    show upd (upd s4.sz l (s4.sz l + n)) m (upd s4.sz l (s4.sz l + n) m - n) k = _
    rw [upd_ne _ _ (Ne.symm h3), hsz]
    by_cases e2 : k = m
    · subst e2; rw [upd_same, if_neg (Ne.symm h3), if_pos rfl, h.sz k hk]
    · rw [upd_ne _ _ e2]
      by_cases e1 : k = l
      · subst e1; rw [upd_same, if_pos rfl, h.sz k hk]
      · rw [upd_ne _ _ e1, if_neg e1, if_neg e2, h.sz k hk]

theorem Sim.splice (h : Sim c s st z) {l pos m e : Nat} (hok : okOp c.lists c.alloc st (.splice l pos m e))
    (hsafe : safeOp st z (.splice l pos m e)) :
    ∃ s', Dll.splice s l pos m e = some (s', .ok) ∧ Sim c s' (DllSpec.St.move st l pos m [e]) z := by
  obtain ⟨hl, hm, hp, he⟩ := hok
  unfold Dll.splice
  by_cases h1 : pos = e
  · rw [if_pos h1]
    refine ⟨s, rfl, ?_⟩
    unfold DllSpec.St.move
    rw [if_pos (by simp [h1])]; exact h
  rw [if_neg h1]
  obtain ⟨A, B, hs, hA, _⟩ := split_mem he (h.shape.nd m hm)
  have hn : s.nx e = some (some (B.headD m)) := h.at_ hm hs
  simp only [hn, Option.bind_eq_bind, Option.bind_some]
  by_cases h2 : B.headD m = pos
  · rw [if_pos (.inl (by rw [h2]))]
    refine ⟨s, rfl, ?_⟩
    rw [show [e] = [] ++ [e] from rfl, h.move_noop hl hm (M := []) hs hp h2]
    exact h
  rw [if_neg (fun h' => h'.elim (fun h' => h2 (Option.some.inj h')) (h.ne_list hm he))]
  obtain ⟨g1, g2⟩ : Good st z l pos ∧ Good st z m e := by
    rcases hsafe with h' | h' | h'
    · exact absurd h' h1
    · rw [hs, after_append B hA] at h'
      cases B with
      | nil => simp at h'
      | cons b B => exact absurd (Option.some.inj h') h2
    · exact h'
  obtain ⟨_, r2, t1, w1, w2, w3, w4⟩ := h.cutFacts hm (M := []) hs g2
  obtain ⟨i, s1, s2, s3, s4, b1, b2, b3, b4, b5, b6, b7, b8, b9, _, _⟩ := h.move hl hm (M := []) hs hp (by simpa using h1) g1 g2
  simp only [List.headD_nil, List.nil_append, List.length_nil, Nat.zero_add] at r2 w2 b2 b5 b8 b9
  obtain ⟨m1, m2⟩ := h.moved hl hm b8 b7 b9
  simp only [r2, w1, w2, w3, w4, b1, b2, b3, b4, b5, b6, Option.bind_some]
  by_cases h3 : l = m
  · rw [if_neg (by simpa using h3)]
    exact ⟨_, rfl, m1 h3⟩
  · rw [if_pos h3]
    exact ⟨_, rfl, m2 h3⟩

theorem between_self {b : Nat} {t : List Nat} (hb : b ∈ t) (nd : t.Nodup) : between b b t = [] := by
  obtain ⟨A, D, rfl, hA, _⟩ := split_mem hb nd
  rw [between, onward_append D hA]
  simp [upto]

theorem Sim.spliceRange (h : Sim c s st z) {l pos m b e : Nat} (hok : okOp c.lists c.alloc st (.spliceRange l pos m b e))
    (hsafe : safeOp st z (.spliceRange l pos m b e)) :
    ∃ s', Dll.spliceRange s l pos m b e = some (s', .ok) ∧ Sim c s' (DllSpec.St.move st l pos m (between b e (st.seq m))) z := by
  obtain ⟨hl, hm, hp, hr, hx⟩ := hok
  unfold Dll.spliceRange
  by_cases h3 : b = e
  · rw [if_pos (.inr (.inr (.inl h3)))]
    subst h3
    rw [between_self hr.1 (h.shape.nd m hm), move_nil]
    exact ⟨s, rfl, h⟩
  obtain ⟨A, M, e', B, hs, hb, hB, hbt⟩ := split_between (h.shape.ring hm) hr.1 hr.2 h3
  rw [hbt] at hx ⊢
  by_cases h1 : pos = b
  · rw [if_pos (.inl h1)]
    refine ⟨s, rfl, ?_⟩
    unfold DllSpec.St.move
    rw [if_pos (by rw [h1, ← hb]; exact headD_mem M e')]
    exact h
  by_cases h2 : pos = e
  · rw [if_pos (.inr (.inl h2))]
    rw [h.move_noop hl hm hs hp (hB.trans h2.symm)]
    exact ⟨s, rfl, h⟩
  rw [if_neg (fun h' => h'.elim h1 fun h' => h'.elim h2 fun h' => h'.elim h3 (h.ne_list hm hr.1))]
  obtain ⟨g1, g2, g3⟩ : Good st z l pos ∧ Good st z m b ∧ (l ≠ m → (between b e (st.seq m)).length ≤ (st.seq l).length + 1) := by
    rcases hsafe with h' | h' | h' | h'
    · exact absurd h' h1
    · exact absurd h' h2
    · exact absurd h' h3
    · exact h'
  rw [← hb] at g2
  obtain ⟨u, r0⟩ := h.unlinkRange hm hs g2
  obtain ⟨i, s1, s2, s3, s4, b1, b2, b3, b4, b5, b6, b7, b8, b9, b10, nd⟩ := h.move hl hm hs hp (fun h' => h1 (hx h')) g1 g2
  have he'm : e' ≠ m := h.ne_list hm (by rw [hs]; simp)
  have hcs := (h.cutSz hm hs).1
  obtain ⟨m1, m2⟩ := h.moved hl hm b8 b7 b9
  rw [hb] at u b2 b5
  rw [hB] at u r0 b1 b2
  simp only [r0, Option.bind_eq_bind, Option.bind_some]
  rw [if_neg (fun h' => he'm (Option.some.inj h'))]
  simp only [u, b1, b2, b3, b4, b5, b6, Option.bind_some]
  by_cases h4 : l = m
  · rw [if_neg (by simpa using h4)]
    exact ⟨_, rfl, m1 h4⟩
  · rw [if_pos h4]
    have g3 := g3 h4
    rw [hbt] at g3
    simp only [List.length_append, List.length_cons, List.length_nil, Nat.zero_add] at g3
    have hlen := len_spec (l := l) (k := 1) b10 (not_mem_of_nodup nd) (by rw [b7, h.sz l hl]; omega)
    rw [hb] at hlen
    simp only [len, hlen, Option.bind_some]
    rw [if_pos (by rw [b7]; omega)]
    refine ⟨_, rfl, ?_⟩
    rw [Nat.add_comm 1]
    exact m2 h4

/-! ### The other calls -/

theorem Sim.front (h : Sim c s st z) {l : Nat} (hl : l ∈ c.lists) : Dll.front c s l = some (st.seq l).head? := by
  unfold Dll.front
  cases hs : st.seq l with
  | nil => rw [if_pos ((h.empty_iff hl).2 hs)]; rfl
  | cons e t =>
    rw [if_neg (h.sz_ne hl (e := e) (by rw [hs]; simp))]
    simp [h.head hl, hs, structBase]

theorem Sim.begin' (h : Sim c s st z) {l : Nat} (hl : l ∈ c.lists) : Dll.begin' c s l = some (st.seq l).head? := by
  simp only [Dll.begin', h.head hl, Option.bind_eq_bind, Option.bind_some]
  exact headD_eq (list_notin h.toCore hl (A := []) rfl)

theorem Sim.last (h : Sim c s st z) {l : Nat} (hl : l ∈ c.lists) (hg : Good st z l l) : s.pv l = some (some ((st.seq l).getLastD l)) :=
  h.prv hl (P := st.seq l) (Q := []) (by simp) hg

theorem Sim.back (h : Sim c s st z) {l : Nat} (hl : l ∈ c.lists) : Dll.back c s l = some (st.seq l).getLast? := by
  unfold Dll.back
  rcases List.eq_nil_or_concat (st.seq l) with hs | ⟨A, e, hs⟩
  · rw [if_pos ((h.empty_iff hl).2 hs), hs]; rfl
  · rw [if_neg (h.sz_ne hl (e := e) (by rw [hs]; simp))]
    have hg : Good st z l l := by
      intro _ e'
      have : (st.seq l).headD l ∈ st.seq l := by
        cases A <;> simp [hs]
      rw [← e'] at this
      exact h.shape.out l hl l this hl
    simp [h.last hl hg, hs, structBase]

theorem Sim.rbegin (h : Sim c s st z) {l : Nat} (hl : l ∈ c.lists) (hg : Good st z l l) : Dll.rbegin c s l = some (st.seq l).getLast? := by
  simp only [Dll.rbegin, h.last hl hg, Option.bind_eq_bind, Option.bind_some]
  exact lastD_eq (list_notin h.toCore hl (A := []) rfl)

theorem Sim.next (h : Sim c s st z) {l e : Nat} (hl : l ∈ c.lists) (he : e ∈ st.seq l) : Dll.next c s l e = some (after e (st.seq l)) := by
  obtain ⟨A, B, hs, hA, _⟩ := split_mem he (h.shape.nd l hl)
  rw [hs, after_append B hA]
  simp only [Dll.next, h.at_ hl hs, Option.bind_eq_bind, Option.bind_some]
  exact headD_eq (list_notin h.toCore hl (A := A ++ [e]) (by rw [hs]; simp))

theorem Sim.rnext (h : Sim c s st z) {l e : Nat} (hl : l ∈ c.lists) (he : e ∈ st.seq l) (hg : Good st z l e) :
    Dll.rnext c s l e = some (previous e (st.seq l)) := by
  obtain ⟨A, B, hs, hA, _⟩ := split_mem he (h.shape.nd l hl)
  rw [previous, hs, upto_append B hA]
  have := h.prv hl (Q := e :: B) hs hg
  simp only [List.headD_cons] at this
  simp only [Dll.rnext, this, Option.bind_eq_bind, Option.bind_some]
  exact lastD_eq fun ha => (List.nodup_cons.1 (h.shape.ring hl)).1 (by rw [hs]; simp [ha])

theorem drop_drop (st : St α) (a : Nat) (X : List Nat) : (st.drop [a]).drop X = st.drop (a :: X) := by
  simp only [St.drop, St.mk.injEq, and_true]
  funext j
  by_cases h : j = a
  · subst h; simp
  · simp [h]

theorem drop_set (st : St α) (X : List Nat) (l : Nat) (t : List Nat) : (st.drop X).set l t = (st.set l t).drop X := rfl

theorem set_set (st : St α) (l : Nat) (t u : List Nat) : (st.set l t).set l u = st.set l u := by
  simp only [St.set, upd_upd]

theorem Sim.clearLoop {l : Nat} (hl : l ∈ c.lists) (d : Bool) : ∀ (t : List Nat) {s : Dll α} {st : St α} {z : Nat → Bool}, Sim c s st z → st.seq l = t →
    ∃ s', Dll.clearLoop c s l d = some (s', if d then t else []) ∧ Sim c s' ((st.set l []).release (c.alloc l) t) (if t = [] then z else upd z l true)
  | [], s, st, z, h, hs => by
    rw [Dll.clearLoop]
    have : isEmpty s l = true := by simp [isEmpty, (h.empty_iff hl).2 hs]
    rw [if_pos this]
    refine ⟨s, by simp, ?_⟩
    have e1 : st.set l [] = st := by simp only [St.set, ← hs, upd_self]
    rw [e1]
    have e2 : st.drop [] = st := by simp [St.drop]
    unfold St.release
    rw [if_pos rfl]
    split
    · rw [e2]; exact h
    · exact h
  | e :: t, s, st, z, h, hs => by
    rw [Dll.clearLoop]
    have : ¬ isEmpty s l = true := by
      intro h0
      have h0 : s.sz l = 0 := by simpa [isEmpty] using h0
      have := (h.empty_iff hl).1 h0; rw [hs] at this; cases this
    rw [if_neg this]
    obtain ⟨s1, a1, a2, a3⟩ := h.popNode hl hs
    have hz : (if t = [] then upd z l true else upd (upd z l true) l true) = upd z l true := by
      rw [upd_upd, ite_self]
    simp only [a1, Option.bind_eq_bind, Option.bind_some]
    rw [if_neg (List.cons_ne_nil e t)]
    by_cases ha : c.alloc l = true
    · have a4 := a2.drop (X := [e]) (by intro a ha; simp at ha; subst ha; exact a3)
      rw [dropAll_one] at a4
      obtain ⟨s2, b1, b2⟩ := Sim.clearLoop hl d t a4 (upd_same _ _ _)
      simp only [ha, if_true, b1, Option.bind_some]
      refine ⟨s2, by cases d <;> simp, ?_⟩
      rw [ha, hz] at b2
      simp only [St.release, if_true] at b2 ⊢
      rw [drop_set, drop_drop, set_set] at b2
      exact b2
    · have ha' : c.alloc l = false := by simpa using ha
      obtain ⟨s2, b1, b2⟩ := Sim.clearLoop hl d t a2 (upd_same _ _ _)
      simp only [ha', Bool.false_eq_true, if_false, b1, Option.bind_some]
      refine ⟨s2, by cases d <;> simp, ?_⟩
      rw [ha', hz] at b2
      simp only [St.release, Bool.false_eq_true, if_false] at b2 ⊢
      rw [set_set] at b2
      exact b2

theorem validateLoop_spec {l : Nat} {o : Slot} : ∀ {t : List Nat} {p k : Nat}, Seg (Dk s o) p t l → (p :: t).Nodup → l ∉ t → s.sz l = k + t.length →
    validateLoop s l (some (t.headD l)) k = some true
  | [], p, k, h, _, _, hk => by rw [validateLoop]; simp [hk]
  | a :: t, p, k, h, nd, hl, hk => by
    have hne : a ≠ l := fun e => hl (by simp [e])
    have h1 : s.nx a = some (some (t.headD l)) := h.2.head.1
    have hk' : ¬ k ≥ s.sz l := by simp only [List.length_cons] at hk; omega
    have nd' := (List.nodup_cons.1 nd).2
    have h2 : some (t.headD l) ≠ some a := by
      intro h'
      have h' : t.headD l = a := Option.some.inj h'
      cases t with
      | nil => exact hne h'.symm
      | cons b t => exact (List.nodup_cons.1 nd').1 (by simp at h'; simp [h'])
    have h3 : ∃ y, s.pv a = some (some y) ∧ y ≠ a := by
      have := h.1.2
      split at this
      · obtain ⟨y, hy, hp⟩ := this; exact ⟨y, hp, hy⟩
      · exact ⟨p, this, fun e => (List.nodup_cons.1 nd).1 (by simp [e])⟩
    obtain ⟨y, hy, hya⟩ := h3
    show validateLoop s l (some a) k = some true
    rw [validateLoop.eq_def, if_neg (fun e => hne (Option.some.inj e)), if_neg hk']
    simp only [h1, hy, Option.bind_eq_bind, Option.bind_some]
    rw [if_neg (by
      rintro (h' | h' | h' | h')
      · cases h'
      · cases h'
      · exact h2 h'
      · exact hya (Option.some.inj h'))]
    exact validateLoop_spec h.2 nd' (fun h => hl (by simp [h])) (by simp only [List.length_cons] at hk; omega)

theorem Sim.validate (h : Sim c s st z) {l : Nat} (hl : l ∈ c.lists) : Dll.validate s l = some true := by
  simp only [Dll.validate, h.head hl, Option.bind_eq_bind, Option.bind_some]
  have nd := h.shape.ring hl
  exact validateLoop_spec (h.ring l hl) nd (List.nodup_cons.1 nd).1 (by rw [h.sz l hl]; simp)

theorem init_sim : Sim c (init c) (St.empty : St α) (fun _ => false) := by
  refine ⟨⟨rfl, fun a ha => absurd rfl ha, ⟨fun l _ => List.nodup_nil, fun l _ a ha => (by cases ha), fun l _ m _ a ha => (by cases ha)⟩,
    fun l hl => ?_, fun l _ a ha => (by cases ha), fun l _ => rfl⟩, fun l _ => rfl⟩
  show Dk (init c) (exc St.empty (fun _ => false) l) l l
  simp [Dk, exc, init, hl]

/-- Every allowed and safe call does what the specification says. -/
theorem step_sim (h : Sim c s st z) (op : Op α) (hok : okOp c.lists c.alloc st op) (hsafe : safeOp st z op) :
    ∃ s', step c s op = some (s', (specStep c.alloc st op).2) ∧ Sim c s' (specStep c.alloc st op).1 (stale c.alloc st z op) := by
  cases op with
  | make e x n p => exact ⟨_, rfl, h.make hok x n p⟩
  | drop e =>
    have := h.drop (X := [e]) (by intro a ha; simp at ha; subst ha; exact hok)
    rw [dropAll_one] at this
    have e1 : st.drop [e] = { st with val := upd st.val e none } := by
      simp only [St.drop, St.mk.injEq, and_true]
      funext j; simp [upd]
    rw [e1] at this
    exact ⟨_, rfl, this⟩
  | pushFront l e ans =>
    obtain ⟨s', r, a1, a2, a3⟩ := h.pushFront hok
    exact ⟨s', by rw [a3]; simp only [step, a1, Option.bind_eq_bind, Option.bind_some], a2⟩
  | pushBack l e ans =>
    obtain ⟨s', r, a1, a2, a3⟩ := h.pushBack hok hsafe
    exact ⟨s', by rw [a3]; simp only [step, a1, Option.bind_eq_bind, Option.bind_some], a2⟩
  | insert l pos e ans =>
    obtain ⟨s', r, a1, a2, a3⟩ := h.insert hok hsafe
    exact ⟨s', by rw [a3]; simp only [step, a1, Option.bind_eq_bind, Option.bind_some], a2⟩
  | emplaceFront l x n p ans =>
    obtain ⟨s', r, a1, a2, a3⟩ := h.emplaceFront hok
    exact ⟨s', by rw [a3]; simp only [step, a1, Option.bind_eq_bind, Option.bind_some], a2⟩
  | emplaceBack l x n p ans =>
    obtain ⟨s', r, a1, a2, a3⟩ := h.emplaceBack hok hsafe
    exact ⟨s', by rw [a3]; simp only [step, a1, Option.bind_eq_bind, Option.bind_some], a2⟩
  | popFront l =>
    obtain ⟨s', r, a1, a2, a3⟩ := h.popFront hok
    exact ⟨s', by rw [a3]; simp only [step, a1, Option.bind_eq_bind, Option.bind_some], a2⟩
  | popBack l =>
    obtain ⟨s', r, a1, a2, a3⟩ := h.popBack hok hsafe
    exact ⟨s', by rw [a3]; simp only [step, a1, Option.bind_eq_bind, Option.bind_some], a2⟩
  | splice l pos m e =>
    obtain ⟨s', a1, a2⟩ := h.splice hok hsafe
    exact ⟨s', by simp only [step, a1, Option.bind_eq_bind, Option.bind_some, specStep], a2⟩
  | spliceRange l pos m b e =>
    obtain ⟨s', a1, a2⟩ := h.spliceRange hok hsafe
    exact ⟨s', by simp only [step, a1, Option.bind_eq_bind, Option.bind_some, specStep], a2⟩
  | erase l e =>
    obtain ⟨s', a1, a2⟩ := h.erase hok.1 hok.2 hsafe
    exact ⟨s', by simp only [step, a1, Option.bind_eq_bind, Option.bind_some, specStep], a2⟩
  | eraseRange l b e =>
    obtain ⟨s', r, a1, a2, a3⟩ := h.eraseRange hok.1 hok.2 hsafe
    exact ⟨s', by rw [a3]; simp only [step, a1, Option.bind_eq_bind, Option.bind_some], a2⟩
  | extract l e =>
    obtain ⟨s', a1, a2⟩ := h.extract hok.1 hok.2 hsafe
    exact ⟨s', by simp only [step, a1, Option.bind_eq_bind, Option.bind_some, specStep], a2⟩
  | extractRange l b e =>
    obtain ⟨s', r, a1, a2, a3⟩ := h.extractRange hok.1 hok.2 hsafe
    exact ⟨s', by rw [a3]; simp only [step, a1, Option.bind_eq_bind, Option.bind_some], a2⟩
  | clear l d =>
    obtain ⟨s', a1, a2⟩ := Sim.clearLoop hok d (st.seq l) h rfl
    exact ⟨s', by simp only [step, clear, a1, Option.bind_eq_bind, Option.bind_some, specStep], a2⟩
  | front l => exact ⟨s, by simp only [step, h.front hok, Option.bind_eq_bind, Option.bind_some, specStep], h⟩
  | back l => exact ⟨s, by simp only [step, h.back hok, Option.bind_eq_bind, Option.bind_some, specStep], h⟩
  | begin l => exact ⟨s, by simp only [step, h.begin' hok, Option.bind_eq_bind, Option.bind_some, specStep], h⟩
  | rbegin l => exact ⟨s, by simp only [step, h.rbegin hok hsafe, Option.bind_eq_bind, Option.bind_some, specStep], h⟩
  | next l e => exact ⟨s, by simp only [step, h.next hok.1 hok.2, Option.bind_eq_bind, Option.bind_some, specStep], h⟩
  | rnext l e => exact ⟨s, by simp only [step, h.rnext hok.1 hok.2 hsafe, Option.bind_eq_bind, Option.bind_some, specStep], h⟩
  | beginElem l => exact ⟨s, by simp only [step, beginElem, h.head hok, Option.bind_eq_bind, Option.bind_some, specStep], h⟩
  | endElem l => exact ⟨s, by simp only [step, endElem, h.last hok hsafe, Option.bind_eq_bind, Option.bind_some, specStep], h⟩
  | endSentinel l => exact ⟨s, rfl, h⟩
  | endIter l => exact ⟨s, rfl, h⟩
  | rend l => exact ⟨s, rfl, h⟩
  | size l => exact ⟨s, by simp only [step, size, h.sz l hok, specStep], h⟩
  | isEmpty l =>
    refine ⟨s, ?_, h⟩
    simp only [step, isEmpty, h.sz l hok, specStep]
    cases st.seq l <;> rfl
  | validate l => exact ⟨s, by simp only [step, h.validate hok, Option.bind_eq_bind, Option.bind_some, specStep], h⟩

end CCC.Dll
