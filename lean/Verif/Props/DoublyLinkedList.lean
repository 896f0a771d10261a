import Verif.Proof.DoublyLinkedListCalls
import Verif.Proof.Iter
/-
Properties of the doubly linked list (`src/doubly_linked_list.c`).

Any number of lists share the user's structs.  `step c s op` is one call, or something the user does with a struct outside
the lists; `none` would be undefined behaviour, a failed assertion or a loop that does not end.

The list is broken: `pop_front` and `clear` leave a back link at the removed element, see the theorems `…_violated…`.  What
holds in spite of that is proved for histories of calls that do not use such a link.  `Reach c s st z` says that `s` is the
state of the program and `st` that of the specification (`Verif/Spec/DoublyLinkedList.lean`: the structs and one sequence of
structs for each list) after some history of calls that the documentation allows (`okOp`) and that are safe (`safeOp`); `z`
says of each list whether its first back link is stale, that is, whether the front was popped since the last push at the
front.
-/
namespace CCC.Dll
open CCC Seq DllSpec

variable {α : Type} {c : Cfg} {s : Dll α} {st : St α} {z : Nat → Bool}

/-- The states of the program and of the specification after some history. -/
inductive Reach (c : Cfg) : Dll α → St α → (Nat → Bool) → Prop
  | init : Reach c (init c) St.empty (fun _ => false)
  | step {s s' : Dll α} {st : St α} {z : Nat → Bool} {op : Op α} {out : Out} : Reach c s st z → okOp c.lists c.alloc st op → safeOp st z op →
      step c s op = some (s', out) → Reach c s' (specStep c.alloc st op).1 (stale c.alloc st z op)

theorem Reach.sim (h : Reach c s st z) : Sim c s st z := by
  induction h with
  | init => exact init_sim
  | step _ hok hsafe hst ih =>
    obtain ⟨s1, h1, h2⟩ := step_sim ih _ hok hsafe
    rw [hst] at h1
    simp only [Option.some.injEq, Prod.mk.injEq] at h1
    obtain ⟨rfl, _⟩ := h1
    exact h2

/-- **C21**, for safe calls.  After every history every allowed and safe call goes through, answers what the specification
says, and leaves the sequences the specification says.  Missing are the calls that use a stale back link and
`ccc_dll_splice_range` into a list shorter than the range, which do not; and the specification follows the code in what the
range calls and `ccc_dll_erase` answer. -/
theorem C21_dll_step_partial (h : Reach c s st z) (op : Op α) (hok : okOp c.lists c.alloc st op) (hsafe : safeOp st z op) :
    ∃ s', step c s op = some (s', (specStep c.alloc st op).2) ∧ Reach c s' (specStep c.alloc st op).1 (stale c.alloc st z op) := by
  obtain ⟨s', h1, _⟩ := step_sim h.sim op hok hsafe
  exact ⟨s', h1, .step h hok hsafe h1⟩

theorem reach_run (ops : List (Op α)) {s : Dll α} {st : St α} {z : Nat → Bool} (h : Reach c s st z) (hok : okRun c.lists c.alloc st z ops) :
    ∃ s', run c s ops = some (s', (specRun c.alloc st ops).2) ∧ Reach c s' (specRun c.alloc st ops).1 (staleRun c.alloc st z ops) := by
  induction ops generalizing s st z with
  | nil => exact ⟨s, rfl, h⟩
  | cons op ops ih =>
    obtain ⟨s1, a1, a2⟩ := C21_dll_step_partial h op hok.1 hok.2.1
    obtain ⟨s2, b1, b2⟩ := ih a2 hok.2.2
    exact ⟨s2, by simp only [run, a1, b1, Option.bind_eq_bind, Option.bind_some, specRun], b2⟩

/-- **C21**, for safe calls.  Whole histories: the answers are those of the specification. -/
theorem C21_dll_history_partial (ops : List (Op α)) (hok : okRun c.lists c.alloc St.empty (fun _ => false) ops) :
    ∃ s', run c (init c) ops = some (s', (specRun c.alloc St.empty ops).2) := by
  obtain ⟨s', h, _⟩ := reach_run ops .init hok
  exact ⟨s', h⟩

/-- No call of the history pops the front, or clears. -/
def NoPop : Op α → Bool
  | .popFront _ | .clear _ _ => false
  | _ => true

/-- The allowed calls of a history without such pops, apart from `ccc_dll_splice_range` between lists, need no other
condition. -/
def Short (st : St α) : Op α → Prop
  | .spliceRange l _ m b e => l ≠ m → (between b e (st.seq m)).length ≤ (st.seq l).length + 1
  | _ => True

theorem noPop_safe (st : St α) (z : Nat → Bool) (op : Op α) (hz : ∀ l, z l = false) (hn : NoPop op = true) (hs : Short st op) :
    safeOp st z op ∧ ∀ l, stale c.alloc st z op l = false := by
  have g : ∀ l pos, Good st z l pos := fun l pos h => absurd h (by rw [hz l]; simp)
  have u : ∀ l k, upd z l false k = false := fun l k => by by_cases e : k = l <;> simp [upd, e, hz]
  refine ⟨?_, ?_⟩
  · cases op <;> first | exact trivial | exact g _ _ | exact Or.inl (g _ _) | exact Or.inr (Or.inr ⟨g _ _, g _ _⟩) |
      exact Or.inr (Or.inr (Or.inr ⟨g _ _, g _ _, hs⟩))
  · intro l
    cases op <;> first | exact hz l | (simp [NoPop] at hn; done) | (simp only [stale]; split <;> first | exact hz l | exact u _ l)

/-- **C21**, for histories without `ccc_dll_pop_front` and `ccc_dll_clear`.  Nothing but what the documentation says is
asked of the calls, apart from the length of a range spliced into another list. -/
theorem C21_dll_nopop_partial (ops : List (Op α)) (hn : ∀ op ∈ ops, NoPop op = true)
    (hok : ∀ pre op post, ops = pre ++ op :: post → okOp c.lists c.alloc (specRun c.alloc St.empty pre).1 op ∧ Short (specRun c.alloc St.empty pre).1 op) :
    ∃ s', run c (init c) ops = some (s', (specRun c.alloc St.empty ops).2) := by
  suffices ∀ (ops : List (Op α)) (st : St α) (z : Nat → Bool), (∀ l, z l = false) → (∀ op ∈ ops, NoPop op = true) →
      (∀ pre op post, ops = pre ++ op :: post → okOp c.lists c.alloc (specRun c.alloc st pre).1 op ∧ Short (specRun c.alloc st pre).1 op) →
      okRun c.lists c.alloc st z ops from C21_dll_history_partial ops (this ops _ _ (fun _ => rfl) hn hok)
  intro ops
  induction ops with
  | nil => intros; trivial
  | cons op ops ih =>
    intro st z hz hn hok
    obtain ⟨h1, h2⟩ := hok [] op ops rfl
    obtain ⟨h3, h4⟩ := noPop_safe (c := c) st z op hz (hn op (by simp)) h2
    refine ⟨h1, h3, ih _ _ h4 (fun o ho => hn o (by simp [ho])) fun pre o post hp => ?_⟩
    exact hok (op :: pre) o post (by rw [hp]; rfl)

theorem seg_linked {R : Nat → Nat → Prop} : ∀ (t : List Nat) (p q : Nat), Seg R p t q → Linked R (p :: t ++ [q])
  | [], _, _, h => ⟨h, trivial⟩
  | _ :: t, _, q, h => ⟨h.1, seg_linked t _ q h.2⟩

/-- **C21**.  Iterating from begin to end visits exactly the sequence, which holds no element twice; size is its length; the
lists have no element in common; the links run through the elements back to the sentinel. -/
theorem C21_dll_iterate (h : Reach c s st z) {l : Nat} (hl : l ∈ c.lists) :
    (∃ b, begin' c s l = some b ∧ iterate (next c s l) endIter b = some (st.seq l)) ∧ size s l = (st.seq l).length ∧
      (isEmpty s l = true ↔ st.seq l = []) ∧ (st.seq l).Nodup ∧ (∀ m ∈ c.lists, m ≠ l → ∀ e ∈ st.seq l, e ∉ st.seq m) ∧
      Linked (fun a b => s.nx a = some (some b)) (l :: st.seq l ++ [l]) := by
  have hs := h.sim
  refine ⟨⟨(st.seq l).head?, hs.begin' hl, ?_⟩, hs.sz l hl, ?_, hs.shape.nd l hl, fun m hm hne e he he' => ?_, ?_⟩
  · have := iterate_spec (next := Dll.next c s l) (hs.shape.nd l hl) (fun pre a post hp => by
      have ha : a ∈ st.seq l := by rw [hp]; simp
      rw [hs.next hl ha]
      have nd := hs.shape.nd l hl
      rw [hp] at nd ⊢
      rw [after_append post (fun h => (List.nodup_append.1 nd).2.2 a h a (by simp) rfl)])
      (pre := []) (m := st.seq l) (post := []) (by simp)
    simpa [endIter] using this
  · rw [isEmpty, beq_iff_eq]; exact hs.empty_iff hl
  · exact hne (hs.shape.disj l hl m hm e he he').symm
  · exact seg_linked _ _ _ ((hs.ring l hl).mono fun a _ b _ h => h.1)

/-- **C21**, reverse, if the front was not popped since the last push at the front.  Iterating from rbegin to rend visits
exactly the reverse of the sequence; the back links are the reverse of the links. -/
theorem C21_dll_reverse_partial (h : Reach c s st z) {l : Nat} (hl : l ∈ c.lists) (hz : z l = false) :
    (∃ b, rbegin c s l = some b ∧ iterate (rnext c s l) endIter b = some (st.seq l).reverse) ∧
      Linked (fun a b => s.pv b = some (some a)) (l :: st.seq l ++ [l]) := by
  have hs := h.sim
  have g : ∀ pos, Good st z l pos := fun pos h => absurd h (by rw [hz]; simp)
  refine ⟨⟨(st.seq l).getLast?, hs.rbegin hl (g l), ?_⟩, ?_⟩
  · have nd := hs.shape.nd l hl
    have ndr : (st.seq l).reverse.Nodup := by
      rw [List.Nodup, List.pairwise_reverse]; exact nd.imp fun h => Ne.symm h
    have := iterate_spec (next := Dll.rnext c s l) ndr (fun pre a post hp => by
      have hp' : st.seq l = post.reverse ++ a :: pre.reverse := by
        have := congrArg List.reverse hp
        simpa using this
      have ha : a ∈ st.seq l := by rw [hp']; simp
      rw [hs.rnext hl ha (g a)]
      rw [hp'] at nd ⊢
      rw [previous, upto_append _ (fun h => (List.nodup_append.1 nd).2.2 a h a (by simp) rfl)]
      simp [List.getLast?_reverse])
      (pre := []) (m := (st.seq l).reverse) (post := []) (by simp)
    simpa [endIter, List.head?_reverse] using this
  · refine seg_linked _ _ _ ((hs.ring l hl).mono fun a _ b _ h => ?_)
    exact h.p (by simp [exc, hz])

/-- **C21**, reverse, in general: all back links but the first are right, so the reverse iteration visits the elements up to
the front. -/
theorem C21_dll_reverse_tail_partial (h : Reach c s st z) {l : Nat} (hl : l ∈ c.lists) {pre post : List Nat} {a b : Nat}
    (hs : st.seq l = pre ++ a :: b :: post) :
    back c s l = some (st.seq l).getLast? ∧ rbegin c s l = some (st.seq l).getLast? ∧ rnext c s l b = some (some a) := by
  have h' := h.sim
  have nd := h'.shape.ring hl
  rw [hs] at nd
  have hg : Good st z l l := by
    intro _ e'
    have : (st.seq l).headD l ∈ st.seq l := by rw [hs]; cases pre <;> simp
    rw [← e'] at this
    exact h'.shape.out l hl l this hl
  have hb : b ∉ pre ++ [a] := by
    intro hb
    have : ((pre ++ [a]) ++ (b :: post)).Nodup := by simpa using (List.nodup_cons.1 nd).2
    exact (List.nodup_append.1 this).2.2 b hb b (by simp) rfl
  refine ⟨h'.back hl, h'.rbegin hl hg, ?_⟩
  rw [h'.rnext hl (by rw [hs]; simp) (fun _ e' => ?_), previous, hs, show pre ++ a :: b :: post = (pre ++ [a]) ++ b :: post by simp,
    upto_append _ hb]
  · simp
  · rw [hs] at e'
    apply hb
    rw [e']
    cases pre <;> simp

/-- **C21**.  Values: the structs hold what the user put there, also those copied into an allocating list. -/
theorem C21_dll_values (h : Reach c s st z) : s.val = st.val ∧ ∀ l ∈ c.lists, ∀ e ∈ st.seq l, st.val e ≠ none :=
  ⟨h.sim.val, h.sim.own⟩

/-- **C21**.  An empty list is refused. -/
theorem C21_dll_refuse {l e : Nat} (h : s.sz l = 0) :
    popFront c s l = some (s, .inputErr) ∧ popBack c s l = some (s, .inputErr) ∧ erase c s l e = some (s, none) ∧
      front c s l = some none ∧ back c s l = some none := by
  simp [popFront, popBack, erase, front, back, h]

/-- **C22**, in part.  `ccc_dll_erase` removes exactly the element and answers NULL if and only if it was the last one. -/
theorem C22_dll_erase_partial (h : Reach c s st z) {l e : Nat} (hl : l ∈ c.lists) (he : e ∈ st.seq l) (hg : Good st z l e) :
    ∃ s' r, erase c s l e = some (s', r) ∧ Reach c s' ((st.set l ((st.seq l).erase e)).release (c.alloc l) [e]) z ∧
      (r = none ↔ (st.seq l).getLast? = some e) := by
  obtain ⟨s', h1, h2⟩ := C21_dll_step_partial h (.erase l e) ⟨hl, he⟩ hg
  obtain ⟨t, h3, _⟩ := h.sim.erase hl he hg
  simp only [step, h3, Option.bind_eq_bind, Option.bind_some, Option.some.injEq, Prod.mk.injEq] at h1
  obtain ⟨rfl, _⟩ := h1
  have nd := h.sim.shape.nd l hl
  obtain ⟨A, B, hs, hA, _⟩ := split_mem he nd
  have e1 : without [e] (st.seq l) = (st.seq l).erase e := by
    rw [nd.erase_eq_filter]
    simp only [without]
    congr 1
    funext a
    simp only [List.contains_cons, List.contains_nil, Bool.or_false]
    rfl
  refine ⟨t, _, h3, by rw [← e1]; exact h2, ?_⟩
  rw [eraseAns, hs, after_append B hA]
  rw [hs] at nd
  have hB : e ∉ B := (List.nodup_cons.1 (List.nodup_append.1 nd).2.1).1
  rcases List.eq_nil_or_concat B with rfl | ⟨B', x, rfl⟩
  · simp
  · have : x ≠ e := fun e' => hB (by simp [e'])
    rw [show A ++ e :: B'.concat x = (A ++ e :: B') ++ [x] by simp, List.getLast?_concat]
    simp [this]

/-- **C22 is violated** for every element that is not the last: the answer is the erased element itself, not the one after
it, and in an allocating list that struct is no longer there. -/
theorem C22_dll_violated (h : Reach c s st z) {l e f : Nat} (hl : l ∈ c.lists) (he : e ∈ st.seq l) (hg : Good st z l e)
    (hf : after e (st.seq l) = some f) :
    ∃ s', erase c s l e = some (s', some e) ∧ e ≠ f ∧ (c.alloc l = true → s'.val e = none) := by
  obtain ⟨t, h3, h4⟩ := h.sim.erase hl he hg
  have nd := h.sim.shape.nd l hl
  obtain ⟨A, B, hs, hA, hB⟩ := split_mem he nd
  refine ⟨t, by rw [h3, eraseAns, hf]; simp, ?_, fun ha => ?_⟩
  · rw [hs, after_append B hA] at hf
    rintro rfl
    exact hB (List.mem_of_head? hf)
  · rw [h4.val, ha]
    simp [St.release, St.drop]

/-- **C46** (doubly linked list).  Validation accepts every list reachable by safe calls. -/
theorem C46_dll_validate_partial (h : Reach c s st z) {l : Nat} (hl : l ∈ c.lists) : validate s l = some true := h.sim.validate hl

/-- **C51** (doubly linked list), in part.  `clear` hands every element to the destructor exactly once and in order;
afterwards the list is empty, an allocating list has given its elements away, other lists are as before.  Missing: the list
is not like a fresh one, see `C51_dll_violated`. -/
theorem C51_dll_clear_partial (h : Reach c s st z) {l : Nat} (hl : l ∈ c.lists) :
    ∃ s', clear c s l true = some (s', st.seq l, .ok) ∧ size s' l = 0 ∧
      Reach c s' { val := fun a => if c.alloc l = true ∧ a ∈ st.seq l then none else st.val a, seq := fun m => if m = l then [] else st.seq m }
        (if st.seq l = [] then z else fun m => if m = l then true else z m) ∧
      (∀ e ∈ st.seq l, s'.val e = if c.alloc l then none else s.val e) := by
  obtain ⟨s', h1, h2⟩ := C21_dll_step_partial h (.clear l true) hl trivial
  have e1 : (specStep c.alloc st (.clear l true)).1 =
      { val := fun a => if c.alloc l = true ∧ a ∈ st.seq l then none else st.val a, seq := fun m => if m = l then [] else st.seq m } := by
    have e2 : upd st.seq l [] = fun m => if m = l then [] else st.seq m := rfl
    simp only [specStep, St.release, St.set, St.drop, e2]
    cases c.alloc l <;> simp
  rw [e1] at h2
  have hs := h2.sim
  cases h3 : clear c s l true with
  | none => rw [step, h3] at h1; cases h1
  | some r =>
    obtain ⟨t, ds, r⟩ := r
    rw [step, h3] at h1
    simp only [Option.bind_eq_bind, Option.bind_some, specStep, if_true, Option.some.injEq, Prod.mk.injEq, Out.gone.injEq] at h1
    obtain ⟨rfl, rfl, rfl⟩ := h1
    refine ⟨t, rfl, by have := hs.sz l hl; simpa [size] using this, h2, fun e he => ?_⟩
    rw [hs.val]
    simp only [he, and_true, h.sim.val]

/-! ### Extracted ranges -/

theorem path_at {R : Nat → Nat → Prop} : ∀ {pre : List Nat} {a b : Nat} {post : List Nat}, Path R (pre ++ a :: b :: post) → R a b
  | [], _, _, _, h => h.1
  | _ :: [], _, _, _, h => path_at (pre := []) h.2
  | _ :: y :: pre, _, _, _, h => path_at (pre := y :: pre) h.2

/-- What `ccc_dll_extract_range` leaves in the extracted structs. -/
theorem extracted (h : Reach c s st z) {l b e : Nat} (hl : l ∈ c.lists) (hr : IsRange st l b e) (hg : Good st z l b) (hbe : b ≠ e) :
    ∃ s' M e', extractRange c s l b e = some (s', if e = l then none else some e) ∧ between b e (st.seq l) = M ++ [e'] ∧ M.headD e' = b ∧
      (M ++ [e']).Nodup ∧ l ∉ M ++ [e'] ∧ Path (Nk s') (M ++ [e']) ∧ s'.nx e' = some none := by
  have h := h.sim
  obtain ⟨A, M, e', B, hs, hb, hB, hbt⟩ := split_between (h.shape.ring hl) hr.1 hr.2 hbe
  have hg' : Good st z l (M.headD e') := by rw [hb]; exact hg
  obtain ⟨s', a1, a2, a3, a4, a5⟩ := h.extractNodes hl hs hg'
  obtain ⟨_, _, _, _, nd⟩ := h.toCore.cut hl hs hg'
  have u := (h.unlinkRange hl hs hg').1
  have n := h.noLinks hl hs hg'
  rw [hb] at a1 u n
  rw [hB] at u n a1
  obtain ⟨z1, z2⟩ := h.cutSz hl hs
  have hk : 1 + M.length ≤ s'.sz l := by rw [a2]; omega
  refine ⟨s'.setSz l (s'.sz l - (1 + M.length)), M, e', ?_, hbt, hb, nd, ?_, a4, a5⟩
  · simp only [Dll.extractRange, n, Option.bind_eq_bind, Option.bind_some]
    rw [if_neg (by simp; exact h.sz_ne hl hr.1), if_neg hbe]
    simp only [u, a1, Option.bind_some, if_pos hk]
  · intro hm
    have hd := h.shape.ring hl
    rw [hs] at hd
    refine (List.nodup_cons.1 hd).1 ?_
    simp only [List.mem_append, List.mem_cons, List.not_mem_nil, or_false] at hm ⊢
    rcases hm with h | h <;> simp [h]

/-- **C56** (doubly linked list).  If the handle is the first field of the user's struct, an extracted range can be
iterated like a list. -/
theorem C56_dll_extracted_partial (h : Reach c s st z) {l b e : Nat} (hl : l ∈ c.lists) (hr : IsRange st l b e) (hg : Good st z l b)
    (hbe : b ≠ e) (h0 : c.off = 0) :
    ∃ s' r, extractRange c s l b e = some (s', r) ∧ iterate (next c s' l) endIter (some b) = some (between b e (st.seq l)) := by
  obtain ⟨s', M, e', h1, hbt, hb, nd, hlm, hp, hn⟩ := extracted h hl hr hg hbe
  refine ⟨s', _, h1, ?_⟩
  rw [hbt]
  have he : e' ∉ M := not_mem_of_nodup nd
  have key := iterate_spec (next := Dll.next c s' l) nd (fun pre a post hpp => by
      simp only [Dll.next]
      cases post with
      | nil =>
        have : a = e' := by
          have := congrArg List.getLast? hpp
          simpa using this.symm
        subst this
        rw [hn]
        simp [structBase, h0]
      | cons x post =>
        rw [hpp] at hp
        have hx : s'.nx a = some (some x) := path_at hp
        rw [hx]
        have hxl : x ≠ l := fun e' => hlm (by rw [hpp]; simp [e'])
        simp [structBase, hxl])
      (pre := []) (m := M ++ [e']) (post := []) (by simp)
  have e1 : (M ++ [e'] ++ []).head? = some b := by rw [← hb]; cases M <;> simp
  rw [e1] at key
  exact key

/-- **C56 is violated.**  If the handle is not the first field of the user's struct, the last element of an extracted range
has no end: `next` computes an address from NULL. -/
theorem C56_dll_violated (h : Reach c s st z) {l b e : Nat} (hl : l ∈ c.lists) (hr : IsRange st l b e) (hg : Good st z l b)
    (hbe : b ≠ e) (h0 : c.off ≠ 0) :
    ∃ s' r x, extractRange c s l b e = some (s', r) ∧ (between b e (st.seq l)).getLast? = some x ∧ next c s' l x = none := by
  obtain ⟨s', M, e', h1, hbt, hb, nd, hlm, hp, hn⟩ := extracted h hl hr hg hbe
  refine ⟨s', _, e', h1, by rw [hbt]; simp, ?_⟩
  simp [Dll.next, hn, structBase, h0]

/-! ### Validation accepts nothing else, forwards -/

theorem validateLoop_true {l : Nat} : ∀ (n : Nat) {e : Slot} {k : Nat}, s.sz l - k = n → validateLoop s l e k = some true →
    ∃ t : List Nat, e = some (t.headD l) ∧ s.sz l = k + t.length ∧ l ∉ t ∧ ∀ p, Nk s p (t.headD l) → Seg (Nk s) p t l
  | n, e, k, hn, h => by
    rw [validateLoop.eq_def] at h
    by_cases h1 : e = some l
    · rw [if_pos h1] at h
      refine ⟨[], h1, ?_, by simp, fun p hp => hp⟩
      have : k = s.sz l := by simpa using h
      simp [this]
    rw [if_neg h1] at h
    by_cases h2 : k ≥ s.sz l
    · rw [if_pos h2] at h; cases h
    rw [if_neg h2] at h
    cases e with
    | none => cases h
    | some a =>
      simp only [Option.bind_eq_bind] at h
      cases h3 : s.nx a with
      | none => rw [h3] at h; cases h
      | some x =>
        rw [h3] at h
        cases h5 : s.pv a with
        | none => rw [h5] at h; cases h
        | some y =>
        rw [h5] at h
        simp only [Option.bind_some] at h
        by_cases h4 : x = none ∨ y = none ∨ x = some a ∨ y = some a
        · rw [if_pos h4] at h; cases h
        rw [if_neg h4] at h
        have hlt : s.sz l - (k + 1) < n := by omega
        obtain ⟨t, t1, t2, t3, t4⟩ := validateLoop_true (s.sz l - (k + 1)) rfl h
        refine ⟨a :: t, rfl, by simp only [List.length_cons]; omega, ?_, fun p hp => ⟨hp, t4 a ?_⟩⟩
        · simp only [List.mem_cons, not_or]
          exact ⟨fun e => h1 (by rw [e]), t3⟩
        · show s.nx a = _
          rw [h3, t1]
termination_by n => n

theorem seg_det : ∀ {t u : List Nat} {p l : Nat}, Seg (Nk s) p t l → Seg (Nk s) p u l → l ∉ t → l ∉ u → t = u
  | [], [], _, _, _, _, _, _ => rfl
  | [], b :: u, p, l, h1, h2, _, h4 => by
    have e1 : s.nx p = some (some l) := h1
    have e2 : s.nx p = some (some b) := h2.1
    rw [e1] at e2
    simp at e2
    exact absurd (by simp [e2]) h4
  | a :: t, [], p, l, h1, h2, h3, _ => by
    have e1 : s.nx p = some (some a) := h1.1
    have e2 : s.nx p = some (some l) := h2
    rw [e1] at e2
    simp at e2
    exact absurd (by simp [e2]) h3
  | a :: t, b :: u, p, l, h1, h2, h3, h4 => by
    have e1 : s.nx p = some (some a) := h1.1
    have e2 : s.nx p = some (some b) := h2.1
    rw [e1] at e2
    simp at e2
    subst e2
    simp only [List.mem_cons, not_or] at h3 h4
    rw [seg_det h1.2 h2.2 h3.2 h4.2]

theorem seg_nodup {l : Nat} : ∀ {t : List Nat} {p : Nat}, Seg (Nk s) p t l → l ∉ t → t.Nodup
  | [], _, _, _ => List.nodup_nil
  | a :: t, p, h, hl => by
    simp only [List.mem_cons, not_or] at hl
    refine List.nodup_cons.2 ⟨fun ha => ?_, seg_nodup h.2 hl.2⟩
    obtain ⟨A, B, rfl⟩ := List.append_of_mem ha
    have h1 := (seg_append.1 h.2).2.2
    have := seg_det h.2 h1 hl.2 (fun hb => hl.2 (by simp [hb]))
    have := congrArg List.length this
    simp only [List.length_append, List.length_cons] at this
    omega

/-- **C57** (doubly linked list), forwards.  Whatever the state of memory, reachable or not: if validation accepts a list
then iterating it ends, visits no element twice, and visits as many as size says.  Missing: reverse iteration, see
`C57_dll_violated_reverse`. -/
theorem C57_dll_validate_partial {l : Nat} (h : validate s l = some true) :
    ∃ (b : Slot) (t : List Nat), begin' c s l = some b ∧ iterate (next c s l) endIter b = some t ∧ t.Nodup ∧ size s l = t.length ∧
      Linked (fun a b => s.nx a = some (some b)) (l :: t ++ [l]) := by
  simp only [validate, Option.bind_eq_bind] at h
  cases h1 : s.nx l with
  | none => rw [h1] at h; cases h
  | some x =>
    rw [h1] at h
    obtain ⟨t, t1, t2, t3, t4⟩ := validateLoop_true _ rfl h
    rw [t1] at h1
    have hseg := t4 l h1
    have nd := seg_nodup hseg t3
    refine ⟨t.head?, t, ?_, ?_, nd, by simp [size, t2], seg_linked _ _ _ hseg⟩
    · simp only [begin', h1, Option.bind_eq_bind, Option.bind_some]
      exact headD_eq t3
    · have := iterate_spec (next := Dll.next c s l) nd (fun pre a post hp => by
        rw [hp] at hseg
        have ha : s.nx a = some (some (post.headD l)) := ((seg_append.1 hseg).2.2).head
        simp only [Dll.next, ha, Option.bind_eq_bind, Option.bind_some]
        exact headD_eq (fun hb => t3 (by rw [hp]; simp [hb])))
        (pre := []) (m := t) (post := []) (by simp)
      simpa [endIter] using this

/-! ### What goes wrong -/

/-- **C21 is violated.**  After the only element of a list is popped, or after a list is cleared, a push at the back loses
the element: whenever it goes through, iteration of the list visits nothing although size is 1. -/
theorem C21_dll_violated_push_back (h : Reach c s st z) {l e : Nat} (hl : l ∈ c.lists) (ha : c.alloc l = false) (he : Loose c.lists st e)
    (hv : st.val e ≠ none) (h0 : st.seq l = []) (hz : z l = true) :
    okOp c.lists c.alloc st (.pushBack l e none) ∧
      ∀ s' r, pushBack c s l e none = some (s', r) → size s' l = 1 ∧ begin' c s' l = some none := by
  refine ⟨⟨hl, hv, by rw [ha]; exact he⟩, fun s' r h1 => ?_⟩
  have hs := h.sim
  have hel : l ≠ e := fun e' => he.1 (e' ▸ hl)
  have hr := hs.ring l hl
  rw [h0] at hr
  have hx : exc st z l = some l := by simp [exc, hz, h0]
  have hr : Dk s (some l) l l := hx ▸ hr
  obtain ⟨hn, hp⟩ := hr
  rw [if_pos rfl] at hp
  obtain ⟨y, hy, hp⟩ := hp
  simp only [pushBack, withCopy, ha, Bool.false_eq_true, if_false, pushBackNode, Option.bind_eq_bind] at h1
  rw [setN_eq' (hs.live e hv).1] at h1
  simp only [Option.bind_some, hp] at h1
  rw [setP_eq' (s := { s with nx := upd s.nx e _ }) (hs.live e hv).2] at h1
  have hp2 : upd s.pv e (some (some y)) l = some (some y) := by rw [upd_ne _ _ hel]; exact hp
  simp only [Option.bind_some, hp2] at h1
  by_cases hy' : ({ s with nx := upd s.nx e (some (some l)), pv := upd s.pv e (some (some y)) } : Dll α).nx y = none
  · rw [show Dll.setN _ y _ = none from by
      show Option.bind (upd s.nx e _ y) _ = none
      rw [show upd s.nx e (some (some l)) y = none from hy']; rfl] at h1
    cases h1
  · rw [setN_eq' hy'] at h1
    simp only [Option.bind_some] at h1
    rw [setP_eq' (s := { s with nx := upd (upd s.nx e (some (some l))) y (some (some e)), pv := upd s.pv e (some (some y)) }) (by
      show upd s.pv e _ l ≠ none; rw [hp2]; simp)] at h1
    simp only [Dll.setSz, upd_same, Option.bind_some, structBase] at h1
    rw [if_neg (by simp)] at h1
    simp only [Option.bind_some, Option.some.injEq, Prod.mk.injEq] at h1
    obtain ⟨rfl, _⟩ := h1
    refine ⟨?_, ?_⟩
    · show upd s.sz l _ l = _
      rw [upd_same, hs.sz l hl, h0]; rfl
    · show Option.bind (upd (upd s.nx e _) y _ l) _ = _
      rw [upd_ne _ _ (Ne.symm hy), upd_ne _ _ hel, hn]
      simp

/-- Two lists at addresses 100 and 200, the second with an allocation function; the handle is not the first field. -/
def cfg : Cfg := ⟨[100, 200], fun l => l == 200, 8⟩

/-- The history used below: structs are made at 0, 1, … and pushed at the front, from `n - 1` to 0. -/
def fill : Nat → List (Op Nat)
  | 0 => []
  | n + 1 => .make n (10 * n) none none :: .pushFront 100 n none :: fill n

theorem fill_ok : ∀ (n : Nat) (st : St Nat) (z : Nat → Bool), n ≤ 50 → (∀ e, e < n → Loose cfg.lists st e) →
    okRun cfg.lists cfg.alloc st z (fill n)
  | 0, _, _, _, _ => trivial
  | n + 1, st, z, hn, h => by
    have h1 := h n (by omega)
    refine ⟨h1, trivial, ⟨by simp [cfg], by simp [specStep], ?_⟩, trivial, fill_ok n _ _ (by omega) fun e he => ⟨(h e (by omega)).1, fun l hl => ?_⟩⟩
    · simp only [cfg]; exact h1
    · have hl' := (h e (by omega)).2 l hl
      show e ∉ upd st.seq 100 (n :: st.seq 100) l
      by_cases e1 : l = 100
      · subst e1; rw [upd_same]; simp only [List.mem_cons, not_or]; exact ⟨by omega, hl'⟩
      · rw [upd_ne _ _ e1]; exact hl'

theorem fill_ok' (n : Nat) (hn : n ≤ 50) : okRun cfg.lists cfg.alloc St.empty (fun _ => false) (fill n) :=
  fill_ok n _ _ hn fun e he => ⟨by simp [cfg]; omega, fun l _ => by simp [St.empty]⟩

theorem fill_stale : ∀ (n : Nat) (st : St Nat), staleRun cfg.alloc st (fun _ => false) (fill n) = fun _ => false
  | 0, _ => rfl
  | n + 1, st => by
    have : upd (fun _ => false) 100 false = fun (_ : Nat) => false := by
      funext k; simp [upd]
    show staleRun cfg.alloc _ (upd (fun _ => false) 100 false) (fill n) = _
    rw [this]
    exact fill_stale n _

theorem fill_reach (n : Nat) (hn : n ≤ 50) : ∃ s, run cfg (init cfg) (fill n) = some (s, (specRun cfg.alloc St.empty (fill n)).2) ∧
    Reach cfg s (specRun cfg.alloc St.empty (fill n)).1 (fun _ => false) := by
  have := reach_run (fill n) (.init (c := cfg)) (fill_ok' n hn)
  rwa [fill_stale] at this

example : (specRun cfg.alloc St.empty (fill 4)).1.seq 100 = [0, 1, 2, 3] := rfl

/-- The history of the next example. -/
def demo : List (Op Nat) :=
  [.spliceRange 100 100 100 1 3, .splice 200 200 100 0, .pushBack 200 1 (some 7), .popFront 100, .insert 100 100 3 none, .popBack 100,
    .rnext 100 2, .pushFront 100 3 none, .eraseRange 200 0 7, .extract 100 1]

theorem demo_ok : okRun cfg.lists cfg.alloc (specRun cfg.alloc St.empty (fill 4)).1 (fun _ => false) demo := by
  have hl : ∀ {st : St Nat}, 3 ∉ cfg.lists → 3 ∉ st.seq 100 → 3 ∉ st.seq 200 → Loose cfg.lists st 3 := by
    intro st h1 h2 h3
    refine ⟨h1, fun l hl => ?_⟩
    simp only [cfg, List.mem_cons, List.not_mem_nil, or_false] at hl
    rcases hl with rfl | rfl
    · exact h2
    · exact h3
  refine ⟨⟨by decide, by decide, .inl rfl, ⟨by decide, .inr (by decide)⟩, by decide⟩, ?_,
    ⟨by decide, by decide, .inl rfl, by decide⟩, ?_, ⟨by decide, by decide, ?_⟩, ?_, List.mem_cons_self, trivial,
    ⟨by decide, .inl rfl, by decide, ?_⟩, ?_, List.mem_cons_self, ?_, ⟨by decide, by decide⟩, ?_,
    ⟨by decide, by decide, ?_⟩, trivial, ⟨by decide, by decide, by decide⟩, ?_, ⟨by decide, by decide⟩, ?_, trivial⟩
  · exact .inr (.inr (.inr ⟨(by intro h; cases h), (by intro h; cases h), fun h => absurd rfl h⟩))
  · exact .inr (.inr ⟨(by intro h; cases h), (by intro h; cases h)⟩)
  · intro n hn
    cases hn
    exact ⟨by decide, by decide⟩
  · intro h; cases h
  · exact hl (by decide) (by decide) (by decide)
  · exact fun _ => by decide
  · exact .inl fun _ => by decide
  · exact fun _ => by decide
  · exact hl (by decide) (by decide) (by decide)
  · intro h; cases h
  · exact fun _ => by decide

/-- A concrete case for the theorems above: a range moved within a list and into an allocating one, an element copied, the
front popped and calls that are still safe. -/
example : ∃ s z, Reach cfg s (specRun cfg.alloc (specRun cfg.alloc St.empty (fill 4)).1 demo).1 z ∧
    (specRun cfg.alloc (specRun cfg.alloc St.empty (fill 4)).1 (demo.take 8)).1.seq 100 = [3, 1, 2] ∧
    (specRun cfg.alloc (specRun cfg.alloc St.empty (fill 4)).1 (demo.take 8)).1.seq 200 = [0, 7] := by
  obtain ⟨s, _, h⟩ := fill_reach 4 (by omega)
  obtain ⟨s, _, h⟩ := reach_run demo h demo_ok
  exact ⟨s, _, h, by decide, by decide⟩

/-- A case for `C21_dll_nopop_partial`. -/
example : ∃ s', run cfg (init cfg) (fill 50) = some (s', (specRun cfg.alloc St.empty (fill 50)).2) :=
  C21_dll_history_partial _ (fill_ok' 50 (by omega))

/-- The state after a history that is allowed and safe. -/
theorem concrete {β : Type} (ops : List (Op Nat)) (hok : okRun cfg.lists cfg.alloc St.empty (fun _ => false) ops) (f : Dll Nat → Option β) {x : β}
    (hf : (run cfg (init cfg) ops).bind (fun r => f r.1) = some x) :
    ∃ s, Reach cfg s (specRun cfg.alloc St.empty ops).1 (staleRun cfg.alloc St.empty (fun _ => false) ops) ∧ f s = some x := by
  obtain ⟨s, h1, h2⟩ := reach_run ops .init hok
  rw [h1] at hf
  exact ⟨s, h2, hf⟩

/-- 0 is pushed and popped; 1 is a struct in no list. -/
def popped : List (Op Nat) := [.make 1 10 none none, .make 0 0 none none, .pushFront 100 0 none, .popFront 100]

theorem loose_of {st : St Nat} {e : Nat} (h : e ≠ 100 ∧ e ≠ 200) (h1 : e ∉ st.seq 100) (h2 : e ∉ st.seq 200) : Loose cfg.lists st e := by
  refine ⟨by simp [cfg, h], fun l hl => ?_⟩
  simp only [cfg, List.mem_cons, List.not_mem_nil, or_false] at hl
  rcases hl with rfl | rfl
  · exact h1
  · exact h2

theorem popped_ok : okRun cfg.lists cfg.alloc St.empty (fun _ => false) popped :=
  ⟨loose_of (by decide) (by decide) (by decide), trivial, loose_of (by decide) (by decide) (by decide), trivial,
    ⟨by decide, by decide, loose_of (by decide) (by decide) (by decide)⟩, trivial, List.mem_cons_self, trivial, trivial⟩

/-- **C21 is violated**: an instance of `C21_dll_violated_push_back` where the call goes through.  0 is pushed and popped,
then 1 is pushed at the back: it is not in the list, whose front is the list itself. -/
theorem C21_dll_violated_lost : ∃ (s s' : Dll Nat) (st : St Nat) (z : Nat → Bool), Reach cfg s st z ∧ st.seq 100 = [] ∧ validate s 100 = some true ∧
    okOp cfg.lists cfg.alloc st (.pushBack 100 1 none) ∧ pushBack cfg s 100 1 none = some (s', some 1) ∧ size s' 100 = 1 ∧
    begin' cfg s' 100 = some none ∧ front cfg s' 100 = some (some 100) := by
  obtain ⟨s, h1, h2⟩ := concrete popped popped_ok (fun s => (pushBack cfg s 100 1 none).bind fun q => (begin' cfg q.1 100).bind fun b =>
    (front cfg q.1 100).bind fun f => some (q.2, size q.1 100, b, f)) (x := (some 1, 1, none, some 100)) rfl
  cases h3 : pushBack cfg s 100 1 none with
  | none => rw [h3] at h2; cases h2
  | some q =>
    simp only [h3, Option.bind_some] at h2
    cases h4 : begin' cfg q.1 100 with
    | none => rw [h4] at h2; cases h2
    | some b =>
      cases h5 : front cfg q.1 100 with
      | none => rw [h4, h5] at h2; cases h2
      | some f =>
        simp only [h4, h5, Option.bind_some, Option.some.injEq, Prod.mk.injEq] at h2
        obtain ⟨e1, e2, rfl, rfl⟩ := h2
        exact ⟨s, q.1, _, _, h1, rfl, h1.sim.validate (by decide),
          ⟨by decide, by decide, loose_of (by decide) (by decide) (by decide)⟩, by rw [h3, ← e1], e2, h4, h5⟩

/-- **C21 is violated.**  In an allocating list the same push at the back writes to memory that was given away. -/
theorem C21_dll_violated_freed : ∃ (s : Dll Nat) (st : St Nat) (z : Nat → Bool), Reach cfg s st z ∧
    okOp cfg.lists cfg.alloc st (.emplaceBack 200 5 none none (some 8)) ∧ emplaceBack cfg s 200 5 none none (some 8) = none := by
  obtain ⟨s, h1, h2⟩ := concrete [.emplaceFront 200 3 none none (some 7), .popFront 200]
    ⟨⟨by decide, fun _ n hn => by cases hn; exact ⟨by decide, rfl⟩⟩, trivial, List.mem_cons_of_mem _ List.mem_cons_self, trivial, trivial⟩
    (fun s => some (emplaceBack cfg s 200 5 none none (some 8)).isNone) (x := true) rfl
  refine ⟨s, _, _, h1, ⟨by decide, fun _ n hn => by cases hn; exact ⟨by decide, rfl⟩⟩, ?_⟩
  simpa using h2

/-- 0 and 1 are pushed, 0 is popped. -/
def poppedOne : List (Op Nat) := fill 2 ++ [.popFront 100]

theorem poppedOne_ok : okRun cfg.lists cfg.alloc St.empty (fun _ => false) poppedOne :=
  ⟨loose_of (by decide) (by decide) (by decide), trivial, ⟨by decide, by decide, loose_of (by decide) (by decide) (by decide)⟩, trivial,
    loose_of (by decide) (by decide) (by decide), trivial, ⟨by decide, by decide, loose_of (by decide) (by decide) (by decide)⟩, trivial,
    List.mem_cons_self, trivial, trivial⟩

/-- **C21 is violated.**  After the front is popped, the reverse iteration does not end at the new front: it goes on to the
popped element and then computes an address from NULL. -/
theorem C21_dll_violated_reverse : ∃ (s : Dll Nat) (st : St Nat) (z : Nat → Bool), Reach cfg s st z ∧ st.seq 100 = [1] ∧
    rbegin cfg s 100 = some (some 1) ∧ rnext cfg s 100 1 = some (some 0) ∧ rnext cfg s 100 0 = none := by
  obtain ⟨s, h1, h2⟩ := concrete poppedOne poppedOne_ok (fun s => some (rbegin cfg s 100, rnext cfg s 100 1, rnext cfg s 100 0))
    (x := (some (some 1), some (some 0), none)) rfl
  simp only [Option.some.injEq, Prod.mk.injEq] at h2
  exact ⟨s, _, _, h1, by decide, h2.1, h2.2.1, h2.2.2⟩

/-- **C57 is violated** for reverse iteration: validation accepts the list of `C21_dll_violated_reverse`. -/
theorem C57_dll_violated_reverse : ∃ (s : Dll Nat), validate s 100 = some true ∧ size s 100 = 1 ∧
    rbegin cfg s 100 = some (some 1) ∧ rnext cfg s 100 1 = some (some 0) ∧ rnext cfg s 100 0 = none := by
  obtain ⟨s, st, z, h1, h2, h3, h4, h5⟩ := C21_dll_violated_reverse
  exact ⟨s, h1.sim.validate (by decide), by rw [size, h1.sim.sz 100 (by decide), h2]; rfl, h3, h4, h5⟩

/-- **C21 is violated.**  After the front is popped, popping the last element from the back leaves it in the list: size is 0
but iteration visits it. -/
theorem C21_dll_violated_pop_back : ∃ (s s' : Dll Nat) (st : St Nat) (z : Nat → Bool), Reach cfg s st z ∧ st.seq 100 = [1] ∧
    popBack cfg s 100 = some (s', .ok) ∧ size s' 100 = 0 ∧ begin' cfg s' 100 = some (some 1) := by
  obtain ⟨s, h1, h2⟩ := concrete poppedOne poppedOne_ok (fun s => (popBack cfg s 100).bind fun q => some (q.2, size q.1 100, begin' cfg q.1 100))
    (x := (.ok, 0, some (some 1))) rfl
  cases h3 : popBack cfg s 100 with
  | none => rw [h3] at h2; cases h2
  | some q =>
    simp only [h3, Option.bind_some, Option.some.injEq, Prod.mk.injEq] at h2
    exact ⟨s, q.1, _, _, h1, by decide, by rw [h3, ← h2.1], h2.2.1, h2.2.2⟩

/-- **C21 is violated.**  After the front is popped, an element inserted before the new front is not in the list. -/
theorem C21_dll_violated_insert : ∃ (s s' : Dll Nat) (st : St Nat) (z : Nat → Bool), Reach cfg s st z ∧ st.seq 100 = [1] ∧
    okOp cfg.lists cfg.alloc st (.insert 100 1 0 none) ∧
    insert cfg s 100 1 0 none = some (s', some 0) ∧ size s' 100 = 2 ∧ begin' cfg s' 100 = some (some 1) ∧ next cfg s' 100 1 = some none := by
  obtain ⟨s, h1, h2⟩ := concrete poppedOne poppedOne_ok (fun s => (insert cfg s 100 1 0 none).bind fun q =>
    some (q.2, size q.1 100, begin' cfg q.1 100, next cfg q.1 100 1)) (x := (some 0, 2, some (some 1), some none)) rfl
  cases h3 : insert cfg s 100 1 0 none with
  | none => rw [h3] at h2; cases h2
  | some q =>
    simp only [h3, Option.bind_some, Option.some.injEq, Prod.mk.injEq] at h2
    exact ⟨s, q.1, _, _, h1, by decide, ⟨by decide, .inr (by decide), by decide, loose_of (by decide) (by decide) (by decide)⟩,
      by rw [h3, ← h2.1], h2.2.1, h2.2.2.1, h2.2.2.2⟩

/-- **C51 is violated.**  After `clear` of a list with elements, an element pushed at the back is not in the list. -/
theorem C51_dll_violated (h : Reach c s st z) {l e : Nat} (hl : l ∈ c.lists) (ha : c.alloc l = false) (hne : st.seq l ≠ [])
    (he : Loose c.lists st e) (hv : st.val e ≠ none) :
    ∃ s1, clear c s l true = some (s1, st.seq l, .ok) ∧
      ∀ s2 r, pushBack c s1 l e none = some (s2, r) → size s2 l = 1 ∧ begin' c s2 l = some none := by
  obtain ⟨s1, h1, _, h2, _⟩ := C51_dll_clear_partial h hl
  refine ⟨s1, h1, (C21_dll_violated_push_back h2 hl ha ⟨he.1, fun k hk hm => ?_⟩ (by simpa [ha] using hv) (by simp) ?_).2⟩
  · simp only at hm
    split at hm
    · cases hm
    · exact he.2 k hk hm
  · rw [if_neg hne]; simp

/-- Cases for C22, C51 and C56: in 0, 1, 2, 3 the element 1 has 2 after it, 1 to 3 is a range, and no back link is stale. -/
example : ∃ (s : Dll Nat) (st : St Nat) (z : Nat → Bool), Reach cfg s st z ∧ 1 ∈ st.seq 100 ∧ Good st z 100 1 ∧ after 1 (st.seq 100) = some 2 ∧
    (st.seq 100).erase 1 = [0, 2, 3] ∧ IsRange st 100 1 3 ∧ between 1 3 (st.seq 100) = [1, 2] ∧ cfg.off ≠ 0 ∧ st.seq 100 ≠ [] := by
  obtain ⟨s, _, h⟩ := fill_reach 4 (by omega)
  exact ⟨s, _, _, h, by decide, (by intro h; cases h), by decide, by decide, ⟨by decide, .inr (by decide)⟩, by decide, by decide, by decide⟩

/-- For C51: a struct in no list while another is in the list. -/
example : ∃ (s : Dll Nat) (st : St Nat) (z : Nat → Bool), Reach cfg s st z ∧ st.seq 100 = [0] ∧ Loose cfg.lists st 1 ∧ st.val 1 ≠ none := by
  obtain ⟨s, h, _⟩ := concrete (popped.take 3) ⟨popped_ok.1, popped_ok.2.1, popped_ok.2.2.1, popped_ok.2.2.2.1, popped_ok.2.2.2.2.1, trivial, trivial⟩
    (fun _ => some ()) (x := ()) rfl
  exact ⟨s, _, _, h, by decide, loose_of (by decide) (by decide) (by decide), by decide⟩

/-- The loop of `len` runs into its assertion. -/
theorem lenLoop_fail {l : Nat} : ∀ {M : List Nat} {e k : Nat}, Path (Nk s) (M ++ [e]) → e ∉ M → s.sz l + 1 < k + M.length →
    k ≤ s.sz l + 1 → lenLoop s l (M.headD e) e k = none
  | [], e, k, _, _, h3, h4 => by simp at h3; omega
  | a :: M, e, k, h1, h2, h3, h4 => by
    have hne : a ≠ e := fun e' => h2 (by simp [e'])
    show lenLoop s l a e k = none
    rw [lenLoop, if_neg hne]
    by_cases hk : k ≤ s.sz l
    · rw [if_pos hk]
      have hn : s.nx a = some (some (M.headD e)) := by cases M <;> exact h1.1
      have h1' : Path (Nk s) (M ++ [e]) := by
        cases M with
        | nil => trivial
        | cons b M => exact h1.2
      simp only [hn, Option.bind_eq_bind, Option.bind_some]
      exact lenLoop_fail h1' (fun h => h2 (by simp [h])) (by simp only [List.length_cons] at h3; omega) (by omega)
    · rw [if_neg hk]

/-- **C21 is violated.**  `ccc_dll_splice_range` into another list fails an assertion whenever the range has at least two more
elements than that list. -/
theorem C21_dll_violated_splice_range (h : Reach c s st z) {l pos m b e : Nat} (hok : okOp c.lists c.alloc st (.spliceRange l pos m b e))
    (hgl : Good st z l pos) (hgm : Good st z m b) (hlm : l ≠ m) (hbe : b ≠ e) (hlen : (st.seq l).length + 1 < (between b e (st.seq m)).length) :
    spliceRange s l pos m b e = none := by
  obtain ⟨hl, hm, hp, hr, hx⟩ := hok
  have h := h.sim
  obtain ⟨A, M, e', B, hs, hb, hB, hbt⟩ := split_between (h.shape.ring hm) hr.1 hr.2 hbe
  rw [hbt] at hx hlen
  have hpm : ∀ x ∈ m :: st.seq m, pos ≠ x := by
    rintro x hx' rfl
    exact hlm (h.mem_ring hl hm (List.mem_cons.2 hp) hx')
  have h1 : pos ≠ b := hpm b (by simp [hr.1])
  have h2 : pos ≠ e := hpm e (by
    rw [← hB, hs, show A ++ (M ++ e' :: B) = (A ++ (M ++ [e'])) ++ B by simp]; exact headD_ring)
  unfold spliceRange
  rw [if_neg (fun h' => h'.elim h1 fun h' => h'.elim h2 fun h' => h'.elim hbe (h.ne_list hm hr.1))]
  rw [← hb] at hgm
  obtain ⟨u, r0⟩ := h.unlinkRange hm hs hgm
  obtain ⟨i, s1, s2, s3, s4, b1, b2, b3, b4, b5, b6, b7, b8, b9, b10, nd⟩ := h.move hl hm hs hp (fun h' => h1 (hx h')) hgl hgm
  have he'm : e' ≠ m := h.ne_list hm (by rw [hs]; simp)
  rw [hb] at u b2 b5
  rw [hB] at u r0 b1 b2
  simp only [r0, Option.bind_eq_bind, Option.bind_some]
  rw [if_neg (fun h' => he'm (Option.some.inj h'))]
  simp only [u, b1, b2, b3, b4, b5, b6, Option.bind_some]
  rw [if_pos hlm]
  simp only [List.length_append, List.length_cons, List.length_nil, Nat.zero_add] at hlen
  have hl' := lenLoop_fail (l := l) (k := 1) b10 (not_mem_of_nodup nd) (by rw [b7, h.sz l hl]; omega) (by omega)
  rw [hb] at hl'
  simp only [len, hl', Option.bind_none]

/-- A case for it: the whole list 0, 1, 2, 3 moved into an empty one. -/
example : ∃ (s : Dll Nat) (st : St Nat) (z : Nat → Bool), Reach cfg s st z ∧ st.seq 100 = [0, 1, 2, 3] ∧ st.seq 200 = [] ∧
    okOp cfg.lists cfg.alloc st (.spliceRange 200 200 100 0 100) ∧ spliceRange s 200 200 100 0 100 = none := by
  obtain ⟨s, _, h⟩ := fill_reach 4 (by omega)
  have hok : okOp cfg.lists cfg.alloc (specRun cfg.alloc St.empty (fill 4)).1 (.spliceRange 200 200 100 0 100) :=
    ⟨by decide, by decide, .inl rfl, ⟨by decide, .inl rfl⟩, by decide⟩
  exact ⟨s, _, _, h, by decide, by decide, hok,
    C21_dll_violated_splice_range h hok (by intro h; cases h) (by intro h; cases h) (by decide) (by decide) (by decide)⟩

/-- **C21 is violated.**  The documentation of the range calls says that the answer is the element after `elem_end` and that
`elem_end` is erased too; it is `elem_end` itself and stays: erasing from 0 to 2 in 0, 1, 2, 3. -/
theorem C21_dll_violated_range : ∃ (s s' : Dll Nat) (st st' : St Nat) (z z' : Nat → Bool), Reach cfg s st z ∧ st.seq 100 = [0, 1, 2, 3] ∧
    eraseRange cfg s 100 0 2 = some (s', some 2) ∧ after 2 (st.seq 100) = some 3 ∧ Reach cfg s' st' z' ∧ st'.seq 100 = [2, 3] := by
  obtain ⟨s, _, h⟩ := fill_reach 4 (by omega)
  obtain ⟨s', h1, h2⟩ := C21_dll_step_partial h (.eraseRange 100 0 2) ⟨by decide, by decide, .inr (by decide)⟩ (by intro h; cases h)
  refine ⟨s, s', _, _, _, _, h, by decide, ?_, by decide, h2, by decide⟩
  cases h4 : eraseRange cfg s 100 0 2 with
  | none => rw [step, h4] at h1; cases h1
  | some r =>
    rw [step, h4] at h1
    simp only [Option.bind_eq_bind, Option.bind_some, Option.some.injEq, Prod.mk.injEq] at h1
    obtain ⟨e1, e2⟩ := h1
    have e3 : Out.ptr r.2 = Out.ptr (some 2) := e2.trans (by decide)
    simp only [Out.ptr.injEq] at e3
    rw [← e1, ← e3]

end CCC.Dll
