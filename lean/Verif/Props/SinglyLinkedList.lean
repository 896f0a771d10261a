import Verif.Proof.SinglyLinkedListCalls
import Verif.Proof.Iter
/-
Properties of the singly linked list (`src/singly_linked_list.c`).

Any number of lists share the user's structs.  `step c s op` is one call, or something the user does with a struct outside
the lists; `none` would be undefined behaviour, a failed assertion or a loop that does not end.  `Reach c s st` says that
`s` is the state of the program and `st` that of the specification (`Verif/Spec/SinglyLinkedList.lean`: the structs and one
sequence of structs for each list) after some history of calls that the documentation allows (`okOp`).
-/
namespace CCC.Sll
open CCC Seq SllSpec

variable {α : Type} {c : Cfg} {s : Sll α} {st : St α}

/-- The states of the program and of the specification after some history. -/
inductive Reach (c : Cfg) : Sll α → St α → Prop
  | init : Reach c (init c) St.empty
  | step {s s' : Sll α} {st : St α} {op : Op α} {out : Out} : Reach c s st → okOp c.lists c.alloc st op →
      step c s op = some (s', out) → Reach c s' (specStep c.alloc st op).1

theorem Reach.sim (h : Reach c s st) : Sim c s st := by
  induction h with
  | init => exact init_sim
  | step _ hok hst ih =>
    obtain ⟨s1, h1, h2⟩ := step_sim ih _ hok
    rw [hst] at h1
    simp only [Option.some.injEq, Prod.mk.injEq] at h1
    obtain ⟨rfl, _⟩ := h1
    exact h2

/-- **C20** (singly linked list).  After every history every allowed call goes through, answers what the specification
says, and leaves the sequences the specification says.  The specification puts spliced elements after `pos` and takes `end`
as part of a range, as the code does; see `C20_sll_violated_splice` and `C20_sll_violated_range` for what the documentation
says. -/
theorem C20_sll_step_partial (h : Reach c s st) (op : Op α) (hok : okOp c.lists c.alloc st op) :
    ∃ s', step c s op = some (s', (specStep c.alloc st op).2) ∧ Reach c s' (specStep c.alloc st op).1 := by
  obtain ⟨s', h1, _⟩ := step_sim h.sim op hok
  exact ⟨s', h1, .step h hok h1⟩

theorem reach_run (ops : List (Op α)) {s : Sll α} {st : St α} (h : Reach c s st) (hok : okRun c.lists c.alloc st ops) :
    ∃ s', run c s ops = some (s', (specRun c.alloc st ops).2) ∧ Reach c s' (specRun c.alloc st ops).1 := by
  induction ops generalizing s st with
  | nil => exact ⟨s, rfl, h⟩
  | cons op ops ih =>
    obtain ⟨s1, a1, a2⟩ := C20_sll_step_partial h op hok.1
    obtain ⟨s2, b1, b2⟩ := ih a2 hok.2
    exact ⟨s2, by simp only [run, a1, b1, Option.bind_eq_bind, Option.bind_some, specRun], b2⟩

/-- **C20** (singly linked list).  Whole histories: the answers are those of the specification. -/
theorem C20_sll_history_partial (ops : List (Op α)) (hok : okRun c.lists c.alloc St.empty ops) :
    ∃ s', run c (init c) ops = some (s', (specRun c.alloc St.empty ops).2) := by
  obtain ⟨s', h, _⟩ := reach_run ops .init hok
  exact ⟨s', h⟩

/-- **C20** (singly linked list).  Iterating from begin to end visits exactly the sequence, which holds no element twice;
size is its length; the lists have no element in common; the links run through the elements back to the sentinel. -/
theorem C20_sll_iterate (h : Reach c s st) {l : Nat} (hl : l ∈ c.lists) :
    (∃ b, begin' c s l = some b ∧ iterate (next c s l) endIter b = some (st.seq l)) ∧ size s l = (st.seq l).length ∧
      (isEmpty s l = true ↔ st.seq l = []) ∧ (st.seq l).Nodup ∧ (∀ m ∈ c.lists, m ≠ l → ∀ e ∈ st.seq l, e ∉ st.seq m) ∧
      Linked (fun a b => s.lnk a = some (some b)) (l :: st.seq l ++ [l]) := by
  have hs := h.sim
  refine ⟨⟨(st.seq l).head?, hs.front hl, ?_⟩, hs.sz l hl, ?_, hs.shape.nd l hl, fun m hm hne e he he' => ?_, ?_⟩
  · have := iterate_spec (next := Sll.next c s l) (hs.shape.nd l hl) (fun pre a post hp => by
      have ha : a ∈ st.seq l := by rw [hp]; simp
      rw [hs.next hl ha]
      have nd := hs.shape.nd l hl
      rw [hp] at nd ⊢
      rw [after_append post (fun h => (List.nodup_append.1 nd).2.2 a h a (by simp) rfl)])
      (pre := []) (m := st.seq l) (post := []) (by simp)
    simpa [endIter] using this
  · rw [isEmpty, beq_iff_eq]; exact hs.empty_iff hl
  · exact hne (hs.shape.disj l hl m hm e he he').symm
  · have : ∀ (t : List Nat) (p q : Nat), Seg (Lk s) p t q → Linked (fun a b => s.lnk a = some (some b)) (p :: t ++ [q]) := by
      intro t
      induction t with
      | nil => intro p q h; exact ⟨h, trivial⟩
      | cons a t ih => intro p q h; exact ⟨h.1, ih a q h.2⟩
    exact this _ _ _ (hs.ring l hl)

/-- **C20** (singly linked list).  Values: the structs hold what the user put there, also those copied into an allocating
list. -/
theorem C20_sll_values (h : Reach c s st) : s.val = st.val ∧ ∀ l ∈ c.lists, ∀ e ∈ st.seq l, st.val e ≠ none :=
  ⟨h.sim.val, h.sim.own⟩

/-- **C20** (singly linked list).  An empty list, and the sentinel as an element, are refused. -/
theorem C20_sll_refuse {l b e : Nat} (h : s.sz l = 0) :
    popFront c s l = some (s, .inputErr) ∧ erase c s l e = some (s, none) ∧ extract c s l e = some (s, none) ∧
      eraseRange c s l b e = some (s, none) ∧ extractRange c s l b e = some (s, none) := by
  simp [popFront, erase, extract, eraseRange, extractRange, h]

theorem C20_sll_refuse_sentinel (l b : Nat) : erase c s l l = some (s, none) ∧ extract c s l l = some (s, none) ∧
    eraseRange c s l l b = some (s, none) ∧ eraseRange c s l b l = some (s, none) ∧ extractRange c s l l b = some (s, none) ∧
    extractRange c s l b l = some (s, none) := by
  simp [erase, extract, eraseRange, extractRange]

/-- **C46** (singly linked list).  Validation accepts every reachable list. -/
theorem C46_sll_validate (h : Reach c s st) {l : Nat} (hl : l ∈ c.lists) : validate s l = some true := h.sim.validate hl

/-- **C51** (singly linked list).  `clear` hands every element to the destructor exactly once and in order; afterwards
the list is empty, an allocating list has given its elements away, other lists are as before, and later calls answer as for
an empty list. -/
theorem C51_sll_clear (h : Reach c s st) {l : Nat} (hl : l ∈ c.lists) :
    ∃ s', clear c s l true = some (s', st.seq l, .ok) ∧ size s' l = 0 ∧
      Reach c s' { val := fun a => if c.alloc l = true ∧ a ∈ st.seq l then none else st.val a, seq := fun m => if m = l then [] else st.seq m } ∧
      (∀ e ∈ st.seq l, s'.val e = if c.alloc l then none else s.val e) := by
  obtain ⟨s', h1, h2⟩ := C20_sll_step_partial h (.clear l true) hl
  have e1 : (specStep c.alloc st (.clear l true)).1 =
      { val := fun a => if c.alloc l = true ∧ a ∈ st.seq l then none else st.val a, seq := fun m => if m = l then [] else st.seq m } := by
    have e2 : upd st.seq l [] = fun m => if m = l then [] else st.seq m := rfl
    simp only [specStep, St.release, St.set, St.drop, e2]
    cases c.alloc l <;> simp
  rw [e1] at h2
  have hs := h2.sim
  cases h3 : clear c s l true with
  | none => rw [step, h3] at h1; cases h1
  | some r =>
    obtain ⟨t, ds, r⟩ := r
    rw [step, h3] at h1
    simp only [Option.bind_eq_bind, Option.bind_some, specStep, if_true, Option.some.injEq, Prod.mk.injEq, Out.gone.injEq] at h1
    obtain ⟨rfl, rfl, rfl⟩ := h1
    refine ⟨t, rfl, by have := hs.sz l hl; simpa [size] using this, h2, fun e he => ?_⟩
    rw [hs.val]
    simp only [he, and_true, h.sim.val]

/-! ### Extracted ranges -/

/-- **C56** (singly linked list).  If the handle is the first field of the user's struct, an extracted range can be
iterated like a list. -/
theorem C56_sll_extracted_partial (h : Reach c s st) {l b e : Nat} (hl : l ∈ c.lists) (hr : InRange (st.seq l) b e) (h0 : c.off = 0) :
    ∃ s', extractRange c s l b e = some (s', after e (st.seq l)) ∧
      iterate (next c s' l) endIter (some b) = some (through b e (st.seq l)) := by
  have hs := h.sim
  obtain ⟨A, M, B, hs', hb, a1, a2, a3, a4, a5, a6, hp, nd, a7, a8, a9, a10, a11, a12, _⟩ := hs.unlinkRange hl hr
  rw [a7, a9]
  have hlen := len_spec (l := l) (k := 1) hp (not_mem_of_nodup nd) (by show _ ≤ s.sz l + 1; omega)
  rw [hb] at hlen
  have hk : 1 + M.length ≤ ({ cutSt s l A B with lnk := upd (cutSt s l A B).lnk e (some none) } : Sll α).sz l := by
    show _ ≤ s.sz l; omega
  refine ⟨({ cutSt s l A B with lnk := upd (cutSt s l A B).lnk e (some none) } : Sll α).setSz l (s.sz l - (1 + M.length)), ?_, ?_⟩
  · simp only [extractRange, if_neg a12, a1, a2, a3, Option.bind_eq_bind, Option.bind_some, extractNodes, len, hlen, a4, if_pos hk]
    exact ret_eq a10 _
  · have he : e ∉ M := not_mem_of_nodup nd
    have key := iterate_spec (next := Sll.next c (({ cutSt s l A B with lnk := upd (cutSt s l A B).lnk e (some none) } : Sll α).setSz l
        (s.sz l - (1 + M.length))) l) nd (fun pre a post hpp => by
      simp only [Sll.next]
      rcases List.eq_nil_or_concat post with rfl | ⟨post', x, rfl⟩
      · -- the last element
        have : a = e := by
          have := congrArg List.getLast? hpp
          simpa using this.symm
        subst this
        show Option.bind (upd _ a _ a) _ = _
        rw [upd_same]
        simp [structBase, h0]
      · simp only [List.concat_eq_append] at hpp ⊢
        have hpp' : M ++ [e] = (pre ++ a :: post') ++ [x] := by simpa using hpp
        obtain ⟨hM, hxe⟩ := List.append_inj' hpp' rfl
        have hxe : x = e := by simpa using hxe.symm
        subst hxe
        have hax : a ≠ x := fun e' => he (by rw [hM, ← e']; simp)
        have hlk : (cutSt s l A B).lnk a = some (some (post'.headD x)) := by
          have hp' : Path (Lk (cutSt s l A B)) (pre ++ a :: (post' ++ [x])) := by
            rw [hM] at hp; simpa using hp
          clear hpp hpp' hM hp hlen hk a7 a8 a9 a5 a6 nd a11 hax he hs' hb a1 a2 a3 a4 hr
          induction pre with
          | nil => cases post' with
            | nil => exact hp'.1
            | cons y t => exact hp'.1
          | cons z pre ih =>
            refine ih ?_
            cases pre with
            | nil => exact hp'.2
            | cons w pre => exact hp'.2
        show Option.bind (upd _ x _ a) _ = _
        rw [upd_ne _ _ hax, hlk]
        have hin : post'.headD x ≠ l := by
          intro e'
          have : post'.headD x ∈ M ++ [x] := by rw [hM]; cases post' <;> simp
          exact (a6 _ this).1 (e' ▸ hl)
        simp only [Option.bind_some]
        rw [if_neg (fun h => hin (Option.some.inj h))]
        cases post' <;> simp [structBase])
      (pre := []) (m := M ++ [e]) (post := []) (by simp)
    have e1 : (M ++ [e] ++ []).head? = some b := by rw [← hb]; cases M <;> simp
    rw [e1] at key
    exact key

/-! ### Validation accepts nothing else -/

theorem validateLoop_true {l : Nat} : ∀ (n : Nat) {e : Slot} {k : Nat}, s.sz l - k = n → validateLoop s l e k = some true →
    ∃ t : List Nat, e = some (t.headD l) ∧ s.sz l = k + t.length ∧ l ∉ t ∧ ∀ p, Lk s p (t.headD l) → Seg (Lk s) p t l
  | n, e, k, hn, h => by
    rw [validateLoop.eq_def] at h
    by_cases h1 : e = some l
    · rw [if_pos h1] at h
      refine ⟨[], h1, ?_, by simp, fun p hp => hp⟩
      have : k = s.sz l := by simpa using h
      simp [this]
    rw [if_neg h1] at h
    by_cases h2 : k ≥ s.sz l
    · rw [if_pos h2] at h; cases h
    rw [if_neg h2] at h
    cases e with
    | none => cases h
    | some a =>
      simp only [Option.bind_eq_bind] at h
      cases h3 : s.lnk a with
      | none => rw [h3] at h; cases h
      | some x =>
        rw [h3] at h
        simp only [Option.bind_some] at h
        by_cases h4 : x = none ∨ x = some a
        · rw [if_pos h4] at h; cases h
        rw [if_neg h4] at h
        have hlt : s.sz l - (k + 1) < n := by omega
        obtain ⟨t, t1, t2, t3, t4⟩ := validateLoop_true (s.sz l - (k + 1)) rfl h
        refine ⟨a :: t, rfl, by simp only [List.length_cons]; omega, ?_, fun p hp => ⟨hp, t4 a ?_⟩⟩
        · simp only [List.mem_cons, not_or]
          exact ⟨fun e => h1 (by rw [e]), t3⟩
        · show s.lnk a = _
          rw [h3, t1]
termination_by n => n

theorem seg_det : ∀ {t u : List Nat} {p l : Nat}, Seg (Lk s) p t l → Seg (Lk s) p u l → l ∉ t → l ∉ u → t = u
  | [], [], _, _, _, _, _, _ => rfl
  | [], b :: u, p, l, h1, h2, _, h4 => by
    have e1 : s.lnk p = some (some l) := h1
    have e2 : s.lnk p = some (some b) := h2.1
    rw [e1] at e2
    simp at e2
    exact absurd (by simp [e2]) h4
  | a :: t, [], p, l, h1, h2, h3, _ => by
    have e1 : s.lnk p = some (some a) := h1.1
    have e2 : s.lnk p = some (some l) := h2
    rw [e1] at e2
    simp at e2
    exact absurd (by simp [e2]) h3
  | a :: t, b :: u, p, l, h1, h2, h3, h4 => by
    have e1 : s.lnk p = some (some a) := h1.1
    have e2 : s.lnk p = some (some b) := h2.1
    rw [e1] at e2
    simp at e2
    subst e2
    simp only [List.mem_cons, not_or] at h3 h4
    rw [seg_det h1.2 h2.2 h3.2 h4.2]

theorem seg_nodup {l : Nat} : ∀ {t : List Nat} {p : Nat}, Seg (Lk s) p t l → l ∉ t → t.Nodup
  | [], _, _, _ => List.nodup_nil
  | a :: t, p, h, hl => by
    simp only [List.mem_cons, not_or] at hl
    refine List.nodup_cons.2 ⟨fun ha => ?_, seg_nodup h.2 hl.2⟩
    obtain ⟨A, B, rfl⟩ := List.append_of_mem ha
    have h1 := (seg_append.1 h.2).2.2
    have := seg_det h.2 h1 hl.2 (fun hb => hl.2 (by simp [hb]))
    have := congrArg List.length this
    simp only [List.length_append, List.length_cons] at this
    omega

/-- **C57** (singly linked list).  Whatever the state of memory, reachable or not: if validation accepts a list then
iterating it ends, visits no element twice, and visits as many as size says. -/
theorem C57_sll_validate {l : Nat} (h : validate s l = some true) :
    ∃ (b : Slot) (t : List Nat), begin' c s l = some b ∧ iterate (next c s l) endIter b = some t ∧ t.Nodup ∧ size s l = t.length ∧
      Linked (fun a b => s.lnk a = some (some b)) (l :: t ++ [l]) := by
  simp only [validate, Option.bind_eq_bind] at h
  cases h1 : s.lnk l with
  | none => rw [h1] at h; cases h
  | some x =>
    rw [h1] at h
    obtain ⟨t, t1, t2, t3, t4⟩ := validateLoop_true _ rfl h
    rw [t1] at h1
    have hseg := t4 l h1
    have nd := seg_nodup hseg t3
    refine ⟨t.head?, t, ?_, ?_, nd, by simp [size, t2], ?_⟩
    · simp only [begin', h1, Option.bind_eq_bind, Option.bind_some]
      exact headD_eq t3
    · have := iterate_spec (next := Sll.next c s l) nd (fun pre a post hp => by
        rw [hp] at hseg
        have ha : s.lnk a = some (some (post.headD l)) := ((seg_append.1 hseg).2.2).head
        simp only [Sll.next, ha, Option.bind_eq_bind, Option.bind_some]
        exact headD_eq (fun hb => t3 (by rw [hp]; simp [hb])))
        (pre := []) (m := t) (post := []) (by simp)
      simpa [endIter] using this
    · have : ∀ (t : List Nat) (p q : Nat), Seg (Lk s) p t q → Linked (fun a b => s.lnk a = some (some b)) (p :: t ++ [q]) := by
        intro t
        induction t with
        | nil => intro p q h; exact ⟨h, trivial⟩
        | cons a t ih => intro p q h; exact ⟨h.1, ih a q h.2⟩
      exact this _ _ _ hseg

/-! ### Concrete cases, and what the documentation says -/

/-- Two lists at addresses 100 and 200, the second with an allocation function; the handle is not the first field. -/
def cfg : Cfg := ⟨[100, 200], fun l => l == 200, 8⟩

/-- The history used below: `n` structs are made at 0, 1, … and pushed. -/
def fill : Nat → List (Op Nat)
  | 0 => []
  | n + 1 => .make n (10 * n) none :: .pushFront 100 n none :: fill n

theorem fill_ok : ∀ (n : Nat) (st : St Nat), n ≤ 50 → (∀ e, e < n → Loose cfg.lists st e) →
    okRun cfg.lists cfg.alloc st (fill n)
  | 0, _, _, _ => trivial
  | n + 1, st, hn, h => by
    have h1 := h n (by omega)
    refine ⟨h1, ⟨by simp [cfg], by simp [specStep], ?_⟩, fill_ok n _ (by omega) fun e he => ⟨(h e (by omega)).1, fun l hl => ?_⟩⟩
    · simp only [cfg]; exact h1
    · have hl' := (h e (by omega)).2 l hl
      show e ∉ upd st.seq 100 (n :: st.seq 100) l
      by_cases e1 : l = 100
      · subst e1; rw [upd_same]; simp only [List.mem_cons, not_or]; exact ⟨by omega, hl'⟩
      · rw [upd_ne _ _ e1]; exact hl'

theorem fill_reach (n : Nat) (hn : n ≤ 50) : ∃ s, Reach cfg s (specRun cfg.alloc St.empty (fill n)).1 := by
  obtain ⟨s, _, h⟩ := reach_run (fill n) (.init (c := cfg)) (fill_ok n _ hn fun e he => ⟨by simp [cfg]; omega, fun l _ => by simp [St.empty]⟩)
  exact ⟨s, h⟩

example : (specRun cfg.alloc St.empty (fill 4)).1.seq 100 = [0, 1, 2, 3] := rfl

/-- A concrete case for the theorems above: a range moved within a list and into an allocating one, an element copied. -/
example : okRun cfg.lists cfg.alloc (specRun cfg.alloc St.empty (fill 4)).1
    [.spliceRange 100 3 100 1 2, .splice 200 200 100 0, .pushFront 200 1 (some 7), .eraseRange 200 7 0] ∧
    (specRun cfg.alloc (specRun cfg.alloc St.empty (fill 4)).1
      [.spliceRange 100 3 100 1 2, .splice 200 200 100 0, .pushFront 200 1 (some 7)]).1.seq 100 = [3, 1, 2] ∧
    (specRun cfg.alloc (specRun cfg.alloc St.empty (fill 4)).1
      [.spliceRange 100 3 100 1 2, .splice 200 200 100 0, .pushFront 200 1 (some 7)]).1.seq 200 = [7, 0] := by
  refine ⟨⟨⟨by decide, by decide, by decide, ⟨by decide, by decide⟩, by decide⟩, ⟨by decide, by decide, by decide, by decide⟩,
    ⟨by decide, by decide, ?_⟩, ⟨by decide, by decide, by decide⟩, trivial⟩, by decide, by decide⟩
  intro n hn
  cases hn
  exact ⟨by decide, by decide⟩

/-- **C20 is violated.**  The documentation of `ccc_sll_splice` says that the element is put before `pos`: in the list
0, 1, 2, 3, element 3 put before element 1 should give 0, 3, 1, 2; it gives 0, 1, 3, 2. -/
theorem C20_sll_violated_splice : ∃ (s s' : Sll Nat) (st st' : St Nat), Reach cfg s st ∧ st.seq 100 = [0, 1, 2, 3] ∧
    splice s 100 1 100 3 = some (s', .ok) ∧ Reach cfg s' st' ∧ st'.seq 100 = [0, 1, 3, 2] ∧
    docSplice 1 3 (st.seq 100) = [0, 3, 1, 2] ∧
    ∃ b, begin' cfg s' 100 = some b ∧ iterate (next cfg s' 100) endIter b = some [0, 1, 3, 2] := by
  obtain ⟨s, hs⟩ := fill_reach 4 (by omega)
  obtain ⟨s', h1, h2⟩ := C20_sll_step_partial hs (.splice 100 1 100 3) ⟨by decide, by decide, by decide, by decide⟩
  have h3 : splice s 100 1 100 3 = some (s', .ok) := by
    cases h4 : splice s 100 1 100 3 with
    | none => rw [step, h4] at h1; cases h1
    | some r =>
      rw [step, h4] at h1
      simp only [Option.bind_eq_bind, Option.bind_some, specStep, Option.some.injEq, Prod.mk.injEq, Out.res.injEq] at h1
      rw [← h1.1, ← h1.2]
  exact ⟨s, s', _, _, hs, by decide, h3, h2, by decide, by decide, (C20_sll_iterate h2 (by decide)).1⟩

/-- **C20 is violated.**  The documentation of the range calls says that `end` is not part of the range: erasing from 1
to 3 should leave 0 and 3 in the list; it leaves 0 only. -/
theorem C20_sll_violated_range : ∃ (s s' : Sll Nat) (st st' : St Nat), Reach cfg s st ∧ st.seq 100 = [0, 1, 2, 3] ∧
    eraseRange cfg s 100 1 3 = some (s', none) ∧ Reach cfg s' st' ∧ st'.seq 100 = [0] ∧
    without (between 1 3 (st.seq 100)) (st.seq 100) = [0, 3] ∧
    ∃ b, begin' cfg s' 100 = some b ∧ iterate (next cfg s' 100) endIter b = some [0] := by
  obtain ⟨s, hs⟩ := fill_reach 4 (by omega)
  obtain ⟨s', h1, h2⟩ := C20_sll_step_partial hs (.eraseRange 100 1 3) ⟨by decide, by decide, by decide⟩
  have h3 : eraseRange cfg s 100 1 3 = some (s', none) := by
    cases h4 : eraseRange cfg s 100 1 3 with
    | none => rw [step, h4] at h1; cases h1
    | some r =>
      rw [step, h4] at h1
      simp only [Option.bind_eq_bind, Option.bind_some, Option.some.injEq, Prod.mk.injEq] at h1
      obtain ⟨e1, e2⟩ := h1
      have e3 : Out.ptr r.2 = Out.ptr none := e2.trans (by decide)
      simp only [Out.ptr.injEq] at e3
      rw [← e1, ← e3]
  exact ⟨s, s', _, _, hs, by decide, h3, h2, by decide, by decide, (C20_sll_iterate h2 (by decide)).1⟩

/-- **C20 is violated.**  The documentation of `ccc_sll_begin_elem` says NULL for an empty list; it is the sentinel. -/
theorem C20_sll_violated_begin_elem {l : Nat} (h : Reach c s st) (hl : l ∈ c.lists) (he : st.seq l = []) :
    beginElem s l = some (some l) := by
  have := h.sim.head hl
  rw [he] at this
  exact this

/-- **C56 is violated.**  If the handle is not the first field of the user's struct, the last element of an extracted
range has no end: `next` computes an address from NULL. -/
theorem C56_sll_violated : ∃ (s s' : Sll Nat) (st : St Nat), Reach cfg s st ∧ InRange (st.seq 100) 1 2 ∧
    extractRange cfg s 100 1 2 = some (s', some 3) ∧ next cfg s' 100 2 = none := by
  obtain ⟨s, hs⟩ := fill_reach 4 (by omega)
  have hr : InRange ((specRun cfg.alloc St.empty (fill 4)).1.seq 100) 1 2 := ⟨by decide, by decide⟩
  obtain ⟨A, M, B, hs', hb, a1, a2, a3, a4, a5, a6, hp, nd, a7, a8, a9, a10, a11, a12, _⟩ := hs.sim.unlinkRange (by decide) hr
  have hlen := len_spec (l := 100) (k := 1) hp (not_mem_of_nodup nd) (by show _ ≤ s.sz 100 + 1; omega)
  rw [hb] at hlen
  have hk : 1 + M.length ≤ ({ cutSt s 100 A B with lnk := upd (cutSt s 100 A B).lnk 2 (some none) } : Sll Nat).sz 100 := by
    show _ ≤ s.sz 100; omega
  refine ⟨s, ({ cutSt s 100 A B with lnk := upd (cutSt s 100 A B).lnk 2 (some none) } : Sll Nat).setSz 100 (s.sz 100 - (1 + M.length)),
    _, hs, hr, ?_, ?_⟩
  · simp only [extractRange, if_neg a12, a1, a2, a3, Option.bind_eq_bind, Option.bind_some, extractNodes, len, hlen, a4, if_pos hk]
    rw [ret_eq a10, ← a9]
    rfl
  · simp only [Sll.next]
    show Option.bind (upd (cutSt s 100 A B).lnk 2 (some none) 2) _ = _
    rw [upd_same]
    simp [structBase, cfg]

end CCC.Sll
