import Verif.Proof.PriorityQueueValidate
/-
Properties of the pairing heap priority queue (`src/priority_queue.c`).

The user makes structs, pushes them, and calls the interface; `step c s op` is one such action, `none` would be undefined
behaviour (use of NULL or of memory given away) or a loop that does not end.  `Reach c s st` says that `s` is the state of
the program and `st` that of the specification (`Verif/Spec/PriorityQueue.lean`: the structs, which are in the queue, and
which is at the front) after some history in which each action is one the documentation allows (`okOp`) and avoids what
the code gets wrong (`safeOp`); the theorems `..._violated` show what happens otherwise.
-/
namespace CCC.Pq
open CCC PrioQ

variable {α : Type} {c : Cfg α} {s : Pq α} {st : St α}

/-- A queue with user owned structs and a proper comparison function and order. -/
structure Lawful (c : Cfg α) : Prop where
  cmp : LawfulCmp c.cmp
  order : IsOrder c.order
  alloc : c.alloc = false

/-- The states of the program and of the specification after some history. -/
inductive Reach (c : Cfg α) : Pq α → St α → Prop
  | init : Reach c (init fun _ => none) St.empty
  | step {s s' : Pq α} {st : St α} {op : Op α} {out : Out} : Reach c s st → okOp c.cmp st op → safeOp c.order st op →
      step c s op = some (s', out) → Reach c s' (specStep c.order st (front s') op).1

theorem spec_front (o : Cmp) (st : St α) (f : Slot) (op : Op α) : (specStep o st f op).1.front = f := by
  cases op <;> try rfl
  simp only [specStep]
  split <;> rfl

theorem Reach.sim (hl : Lawful c) (h : Reach c s st) : Sim c s st := by
  induction h with
  | init => exact init_sim
  | step _ hok hs hst ih =>
    obtain ⟨s1, f, h1, _, h2⟩ := step_sim hl.cmp hl.order hl.alloc ih _ hok hs
    rw [hst] at h1
    simp only [Option.some.injEq, Prod.mk.injEq] at h1
    obtain ⟨rfl, _⟩ := h1
    have : front _ = f := h2.root.trans (spec_front _ _ _ _)
    rw [this]; exact h2

/-- A queue of numbers with the greatest at the front, and one with the least. -/
def maxCfg : Cfg Nat := ⟨natCmp, .grt, false, 0⟩
def minCfg : Cfg Nat := ⟨natCmp, .les, false, 0⟩
theorem maxCfg_lawful : Lawful maxCfg := ⟨natCmp_lawful, .inr rfl, rfl⟩
theorem minCfg_lawful : Lawful minCfg := ⟨natCmp_lawful, .inl rfl, rfl⟩

/-- **C18** (pairing heap).  After every history the front is an element of the queue that no other element beats; there
is none exactly if the queue is empty. -/
theorem C18_pq_front_partial (hl : Lawful c) (h : Reach c s st) :
    (front s = none ↔ st.q = []) ∧ ∀ f, front s = some f → f ∈ st.q ∧ ∃ v, st.val f = some v ∧
      ∀ e ∈ st.q, ∃ w, st.val e = some w ∧ ¬ Beats c.cmp c.order w v := by
  have hs := h.sim hl
  have hf := hs.isFront ⟨hl.cmp.swo hl.order⟩
  have hlive : ∀ e ∈ st.q, ∃ w, st.val e = some w := by
    intro e he
    have := hs.live he
    rw [hs.val] at this
    exact Option.ne_none_iff_exists'.1 this
  have hroot : front s = st.front := hs.root
  unfold IsFront at hf
  rw [hroot]
  refine ⟨⟨fun h0 => by rw [h0] at hf; exact hf, fun hq => ?_⟩, fun f hf' => ?_⟩
  · cases h0 : st.front with
    | none => rfl
    | some f => rw [h0, hq] at hf; simp at hf
  · rw [hf'] at hf
    obtain ⟨v, hv⟩ := hlive f hf.1
    refine ⟨hf.1, v, hv, fun e he => ?_⟩
    obtain ⟨w, hw⟩ := hlive e he
    exact ⟨w, hw, hf.2 e he v w hv hw⟩

/-- **C19** (pairing heap).  After every history every allowed action goes through, answers what the specification says,
and leaves the elements the specification says. -/
theorem C19_pq_step_partial (hl : Lawful c) (h : Reach c s st) (op : Op α) (hok : okOp c.cmp st op) (hs : safeOp c.order st op) :
    ∃ s', step c s op = some (s', (specStep c.order st (front s') op).2) ∧ Reach c s' (specStep c.order st (front s') op).1 ∧
      IsFront c.cmp c.order (specStep c.order st (front s') op).1 ∧ (keepsFront op → front s' = front s) := by
  have hsm := h.sim hl
  obtain ⟨s1, f, h1, h2, h3⟩ := step_sim hl.cmp hl.order hl.alloc hsm op hok hs
  have hf : front s1 = f := h3.root.trans (spec_front _ _ _ _)
  refine ⟨s1, by rw [hf]; exact h1, .step h hok hs h1, by rw [hf]; exact h3.isFront ⟨hl.cmp.swo hl.order⟩, fun hk => ?_⟩
  rw [hf, h2 hk]; exact hsm.root.symm

/-- **C19** (pairing heap).  Whole histories: the answers are those of the specification. -/
theorem C19_pq_history_partial (hl : Lawful c) (ops : List (Op α)) (hok : safeRun c.cmp c.order St.empty ops) :
    ∃ s outs st, run c (init fun _ => none) ops = some (s, outs) ∧ SpecRun c.cmp c.order St.empty ops outs st := by
  obtain ⟨s, outs, st, h1, h2, _⟩ := run_sim hl.cmp hl.order hl.alloc ops init_sim hok
  exact ⟨s, outs, st, h1, h2⟩

/-- **C19** (pairing heap).  The size is the number of elements, none of which is in the queue twice, and the structs hold
what the user put there. -/
theorem C19_pq_size_partial (hl : Lawful c) (h : Reach c s st) :
    size s = st.q.length ∧ isEmpty s = (st.q.length == 0) ∧ st.q.Nodup ∧ ∀ e, (s.mem e).map Elem.val = st.val e := by
  have hs := h.sim hl
  obtain ⟨kids, sh, _⟩ := hs.heap
  exact ⟨hs.sz, by simp [isEmpty, hs.sz], sh.nodup, fun e => congrFun hs.val e⟩

/-- **C19** (pairing heap).  Handles known not to be in a queue (fresh or extracted: no siblings) are refused, and an empty
queue refuses to pop. -/
theorem C19_pq_refuse {e : Nat} {x : Elem α} (he : s.mem e = some x) (hn : x.next = none ∨ x.prev = none) (f : α → α) :
    extract c s e = some (s, none) ∧ erase c s e = some (s, .inputErr) ∧ update c s e f = some (s, false) ∧
      increase c s e f = some (s, false) ∧ decrease c s e f = some (s, false) ∧ (s.root = none → pop c s = some (s, .inputErr)) := by
  refine ⟨?_, ?_, ?_, ?_, ?_, fun hr => by simp [pop, hr]⟩
  · simp only [extract, he, if_pos hn, Option.bind_eq_bind, Option.bind_some, ite_self]
  · simp only [erase, he, if_pos hn, Option.bind_eq_bind, Option.bind_some, ite_self]
  · simp only [update, change, he, if_pos hn, Option.bind_eq_bind, Option.bind_some]
  · simp only [increase, change, he, if_pos hn, Option.bind_eq_bind, Option.bind_some]
  · simp only [decrease, change, he, if_pos hn, Option.bind_eq_bind, Option.bind_some]

/-- … and extracted or popped structs are such handles. -/
theorem C19_pq_extracted (hl : Lawful c) (h : Reach c s st) {e : Nat} (he : e ∈ st.q) :
    ∃ s' x, extract c s e = some (s', some e) ∧ s'.mem e = some x ∧ x.next = none ∧ x.prev = none ∧ x.left = none ∧ x.par = none := by
  have hs := h.sim hl
  have hg : Good c := ⟨hl.cmp.swo hl.order⟩
  obtain ⟨x, hx, hn, hrn⟩ := hs.sibs he
  obtain ⟨s1, f, a1, c1, sm, v1⟩ := delete_sim hg hs he
  obtain ⟨s2, y, hy, a2, b2, c2, d2⟩ := mod_view (s := { s1 with root := f, sz := s1.sz - 1 }) (a := e) (by
    show s1.v.vl e ≠ none; rw [v1]; exact hs.live he) (fun x => { x with left := none, next := none, prev := none, par := none })
  have a3 : clearNode { s1 with root := f, sz := s1.sz - 1 } e = some s2 := a2
  obtain ⟨z, hz⟩ := live_of (s := s2) (a := e) (by rw [d2]; simp)
  obtain ⟨z1, z2, z3, z4, _⟩ := view_mem hz
  rw [d2] at z1 z2 z3 z4
  refine ⟨s2, z, ?_, hz, ?_, ?_, ?_, ?_⟩
  · simp only [extract, if_neg hrn, hx, if_neg hn, a1, Option.bind_eq_bind, Option.bind_some, a3]
  · rw [← z1]; exact upd_same _ _ _
  · rw [← z2]; exact upd_same _ _ _
  · rw [← z3]; exact upd_same _ _ _
  · rw [← z4]; exact upd_same _ _ _

/-- The loop `while (!is_empty) { *out++ = front(); pop(); }`, as a history of `n` rounds. -/
def drainOps : Nat → List (Op α)
  | 0 => []
  | n + 1 => .front :: .pop :: drainOps n

/-- **C54** (pairing heap).  Draining yields every element once, no element beating an earlier one. -/
theorem C54_pq_drain_partial (hl : Lawful c) (h : Reach c s st) :
    ∃ (s' : Pq α) (es : List Nat), run c s (drainOps st.q.length) = some (s', es.flatMap fun e => [.ptr (some e), .res .ok]) ∧ es.Perm st.q ∧
      es.Pairwise (fun a b => ∀ v w, st.val a = some v → st.val b = some w → ¬ Beats c.cmp c.order w v) ∧ isEmpty s' = true := by
  have hg : Good c := ⟨hl.cmp.swo hl.order⟩
  have main : ∀ (n : Nat) {s : Pq α} {st : St α}, Sim c s st → st.q.length = n →
      ∃ (s' : Pq α) (es : List Nat), run c s (drainOps n) = some (s', es.flatMap fun e => [.ptr (some e), .res .ok]) ∧ es.Perm st.q ∧
      es.Pairwise (fun a b => ∀ v w, st.val a = some v → st.val b = some w → ¬ Beats c.cmp c.order w v) ∧ isEmpty s' = true := by
    intro n
    induction n with
    | zero =>
      intro s st h hn
      have hq : st.q = [] := List.length_eq_zero_iff.1 hn
      exact ⟨s, [], rfl, by rw [hq], .nil, by simp [isEmpty, h.sz, hn]⟩
    | succ n ih =>
      intro s st h hn
      have hfr := h.isFront hg
      cases hf : st.front with
      | none =>
        unfold IsFront at hfr
        rw [hf] at hfr
        rw [hfr] at hn; simp at hn
      | some e =>
        unfold IsFront at hfr
        rw [hf] at hfr
        obtain ⟨s1, f, a1, h1⟩ := pop_sim hg hl.alloc h hf
        obtain ⟨s2, es, a2, p2, q2, e2⟩ := ih h1 (by
          show (st.q.erase e).length = n
          rw [List.length_erase_of_mem hfr.1]; omega)
        refine ⟨s2, e :: es, ?_, (p2.cons e).trans (List.perm_cons_erase hfr.1).symm, List.pairwise_cons.2 ⟨fun b hb => ?_, q2⟩, e2⟩
        · have hr : front s = some e := h.root.trans hf
          simp [drainOps, run, step, hr, a1, a2]
        · exact hfr.2 b (List.mem_of_mem_erase (p2.subset hb))
  exact main _ (h.sim hl) rfl

/-- **C51** (pairing heap).  `clear` hands every element to the destructor once (in order), then the queue is empty and
behaves as after emptying it otherwise; without a destructor nothing is destroyed. -/
theorem C51_pq_clear (hl : Lawful c) (h : Reach c s st) (d : Bool) :
    ∃ s' es, clear c s d = some (s', es, .ok) ∧ (d = true → es.Perm st.q) ∧ (d = false → es = []) ∧ front s' = none ∧ size s' = 0 ∧
      isEmpty s' = true ∧ Reach c s' { st with q := [], front := none, stale := false } := by
  have hg : Good c := ⟨hl.cmp.swo hl.order⟩
  obtain ⟨s', ds, h1, h2, h3, h4⟩ := clearLoop_sim hg hl.alloc d _ (h.sim hl) rfl
  have hc : clear c s d = some (s', ds, .ok) := by simp [clear, h1]
  have hr : front s' = none := h2.root
  refine ⟨s', ds, hc, fun hd => (h3 hd).1, h4, hr, h2.sz, by simp [isEmpty, h2.sz], ?_⟩
  have := Reach.step (op := .clear d) (out := .res .ok) (s' := s') h trivial trivial (by simp [step, hc])
  rw [hr] at this
  exact this

/-- **C46** (pairing heap).  `validate` accepts every reachable queue whose front element was not brought there by
`update`, `increase` or `decrease`. -/
theorem C46_pq_validate_partial (hl : Lawful c) (h : Reach c s st) (hs : st.stale = false) : validate c s = some true :=
  validate_sim hl.cmp hl.order (h.sim hl) hs

/-! ### A concrete history meets the hypotheses -/

/-- Four structs, pushed; the third is raised to the front. -/
def sampleOps : List (Op Nat) :=
  [.make 0 10 none none none none, .make 1 1 none none none none, .make 2 2 none none none none, .make 3 3 none none none none,
   .push 0, .push 1, .push 2, .push 3, .increase 2 (fun _ => 20)]

/-- The state of the specification after the first eight. -/
def sampleSt : St Nat where
  val := fun e => if e = 3 then some 3 else if e = 2 then some 2 else if e = 1 then some 1 else if e = 0 then some 10 else none
  q := [3, 2, 1, 0]
  front := some 0
  stale := false

theorem sample_reach : ∃ s, run maxCfg (init fun _ => none) (sampleOps.take 8) =
    some (s, [.unit, .unit, .unit, .unit, .ptr (some 0), .ptr (some 1), .ptr (some 2), .ptr (some 3)]) ∧
    Reach maxCfg s sampleSt := by
  refine ⟨_, rfl, ?_⟩
  have h := Reach.init (c := maxCfg)
  have h1 := Reach.step (op := .make 0 10 none none none none) h (by show (0 : Nat) ∉ []; simp) trivial rfl
  have h2 := Reach.step (op := .make 1 1 none none none none) h1 (by show (1 : Nat) ∉ []; simp) trivial rfl
  have h3 := Reach.step (op := .make 2 2 none none none none) h2 (by show (2 : Nat) ∉ []; simp) trivial rfl
  have h4 := Reach.step (op := .make 3 3 none none none none) h3 (by show (3 : Nat) ∉ []; simp) trivial rfl
  have h5 := Reach.step (op := .push 0) h4 ⟨by show (0 : Nat) ∉ []; simp, by show (some 10 : Option Nat) ≠ none; simp⟩ trivial rfl
  have h6 := Reach.step (op := .push 1) h5 ⟨by show (1 : Nat) ∉ [0]; simp, by show (some 1 : Option Nat) ≠ none; simp⟩ trivial rfl
  have h7 := Reach.step (op := .push 2) h6 ⟨by show (2 : Nat) ∉ [1, 0]; simp, by show (some 2 : Option Nat) ≠ none; simp⟩ trivial rfl
  exact Reach.step (op := .push 3) h7 ⟨by show (3 : Nat) ∉ [2, 1, 0]; simp, by show (some 3 : Option Nat) ≠ none; simp⟩ trivial rfl

/-- The same queue after `increase(2, 20)`; the element is at the front. -/
theorem sample_raised : ∃ s outs, run maxCfg (init fun _ => none) sampleOps = some (s, outs) ∧ front s = some 2 ∧
    Reach maxCfg s (sampleSt.change 2 (fun _ => 20) (some 2)) := by
  obtain ⟨s, h1, h2⟩ := sample_reach
  refine ⟨_, _, rfl, rfl, ?_⟩
  cases h1
  exact Reach.step (op := .increase 2 (fun _ => 20)) h2 ⟨by show (2 : Nat) ∈ [3, 2, 1, 0]; simp, by
    intro v hv
    have : (some 2 : Option Nat) = some v := hv
    cases this
    show natCmp 20 2 ≠ .les
    simp [natCmp]⟩ (by intro _ hf; cases hf) rfl

/-- The hypotheses of the theorems above are met, by a queue of four elements with a front brought there by a push or by
`increase`. -/
example : ∃ s st, Reach maxCfg s st ∧ st.q = [3, 2, 1, 0] ∧ st.stale = false :=
  let ⟨s, _, h⟩ := sample_reach; ⟨s, _, h, rfl, rfl⟩
example : ∃ s st, Reach maxCfg s st ∧ st.q = [3, 2, 1, 0] ∧ front s = some 2 :=
  let ⟨s, _, _, hf, h⟩ := sample_raised; ⟨s, _, h, rfl, hf⟩

/-! ### What the code gets wrong -/

/-- **C46 fails**: `validate` rejects a queue after a correct use of `increase`, since the element brought to the front
keeps the links to its former siblings. -/
theorem C46_pq_violated : ∃ s st, Reach maxCfg s st ∧ validate maxCfg s = some false := by
  obtain ⟨s, outs, h1, h2, h3⟩ := sample_raised
  refine ⟨s, _, h3, ?_⟩
  cases h1
  simp only [validate, hasValidLinks]
  rw [linksLoop.eq_def]
  rfl

/-- **C19 fails**: if the element at the front after `increase` is increased again, the queue writes through the links to
its former siblings, even if their memory was given away meanwhile. -/
theorem C19_pq_violated : ∃ s st, Reach maxCfg s st ∧ okOp maxCfg.cmp st (.increase 2 id) ∧ step maxCfg s (.increase 2 id) = none := by
  obtain ⟨s, outs, h1, h2, h3⟩ := sample_raised
  cases h1
  have h4 := Reach.step (op := .extract 3) h3 (by show 3 ∈ [3, 2, 1, 0]; simp) trivial rfl
  have h5 := Reach.step (op := .drop 3) h4 (by show 3 ∉ [2, 1, 0]; simp) trivial rfl
  refine ⟨_, _, h5, ⟨by show 2 ∈ [2, 1, 0]; simp, fun v _ => ?_⟩, rfl⟩
  show natCmp v v ≠ .les
  simp [natCmp]

/-- A memory of four structs, to compute with. -/
def mem4 (a b d e : Option (Elem Nat)) (i : Nat) : Option (Elem Nat) :=
  if i = 0 then a else if i = 1 then b else if i = 2 then d else if i = 3 then e else none

theorem mem4_0 (a b d e) : mem4 a b d e 0 = a := rfl
theorem mem4_1 (a b d e) : mem4 a b d e 1 = b := rfl
theorem mem4_2 (a b d e) : mem4 a b d e 2 = d := rfl
theorem mem4_3 (a b d e) : mem4 a b d e 3 = e := rfl
theorem mem4_u0 (a b d e x) : upd (mem4 a b d e) 0 x = mem4 x b d e := by funext i; simp only [upd, mem4]; grind
theorem mem4_u1 (a b d e x) : upd (mem4 a b d e) 1 x = mem4 a x d e := by funext i; simp only [upd, mem4]; grind
theorem mem4_u2 (a b d e x) : upd (mem4 a b d e) 2 x = mem4 a b x e := by funext i; simp only [upd, mem4]; grind
theorem mem4_u3 (a b d e x) : upd (mem4 a b d e) 3 x = mem4 a b d x := by funext i; simp only [upd, mem4]; grind
theorem mem4_none : (fun _ => none) = mem4 none none none none := by funext i; simp only [mem4]; grind

/-- **C18 fails**: in the same way an element that was erased comes back to the front. -/
theorem C18_pq_violated : ∃ s st, Reach maxCfg s st ∧ okOp maxCfg.cmp st (.increase 2 (fun _ => 21)) ∧ st.q = [2, 1, 0] ∧
    (run maxCfg s [.increase 2 (fun _ => 21), .pop, .pop, .front]).map Prod.snd =
      some [.flag true, .res .ok, .res .ok, .ptr (some 3)] := by
  obtain ⟨s, outs, h1, h2, h3⟩ := sample_raised
  simp [sampleOps, mem4_none, init, run, step, push, initNode, Pq.mod, mem4_0, mem4_1, mem4_2, mem4_3, mem4_u0, mem4_u1, mem4_u2, mem4_u3,
    maxCfg, merge, natCmp, linkChild, increase, change, fixup, cutChild] at h1
  obtain ⟨rfl, _⟩ := h1
  have hs : step maxCfg ⟨mem4 (some ⟨10, some 3, some 0, some 0, some 2⟩) (some ⟨1, none, some 3, some 3, some 0⟩)
      (some ⟨20, some 0, some 3, some 1, none⟩) (some ⟨3, none, some 1, some 1, some 0⟩), some 2, 4⟩ (.erase 3) =
      some (⟨mem4 (some ⟨10, some 1, some 0, some 0, some 2⟩) (some ⟨1, none, some 1, some 1, some 0⟩)
        (some ⟨20, some 0, some 3, some 1, none⟩) (some ⟨3, none, some 1, some 1, none⟩), some 2, 3⟩, .res .ok) := by
    simp [step, erase, deleteNode, deleteMin, cutChild, Pq.mod, mem4_0, mem4_1, mem4_2, mem4_3, mem4_u0, mem4_u1, mem4_u2, mem4_u3, merge, maxCfg]
  have h4 := Reach.step (op := .erase 3) h3 (by show 3 ∈ [3, 2, 1, 0]; simp) trivial hs
  refine ⟨_, _, h4, ⟨by show 2 ∈ [2, 1, 0]; simp, fun v hv => ?_⟩, rfl, ?_⟩
  · have : (some 20 : Option Nat) = some v := hv
    cases this
    show natCmp 21 20 ≠ .les
    simp [natCmp]
  · simp [run, step, Pq.mod, mem4_0, mem4_1, mem4_2, mem4_3, mem4_u0, mem4_u1, mem4_u2, mem4_u3, increase, change, fixup, cutChild, merge,
      maxCfg, pop, deleteMin, clearNode, front]
    rw [pairLoop]
    simp [mem4_0, mem4_1, mem4_2, mem4_3, mem4_u0, mem4_u1, mem4_u2, mem4_u3]
    rw [pairLoop]
    simp [Pq.mod, mem4_0, mem4_1, mem4_2, mem4_3, mem4_u0, mem4_u1, mem4_u2, mem4_u3, natCmp, linkChild]

/-- **C55 fails**: with an allocation function `push` copies the struct, but links the caller's struct instead of the copy;
the answer, the copy, is not in the queue. -/
theorem C55_pq_violated {c : Cfg α} (ha : c.alloc = true) (ho : c.off = 0) {e n : Nat} {x : Elem α} {mem : Nat → Option (Elem α)}
    (he : mem e = some x) :
    ∃ s', push c (init mem) e (some n) = some (s', some n) ∧ front s' = some e := by
  simp [push, initNode, Pq.mod, init, he, ha, ho, merge, front]

/-- … unless the handle is not the first field: then what is linked is not even a handle. -/
theorem C55_pq_violated_offset {c : Cfg α} (ha : c.alloc = true) (ho : c.off ≠ 0) {e n : Nat} {x : Elem α} (he : s.mem e = some x) :
    push c s e (some n) = none := by
  simp [push, initNode, Pq.mod, he, ha, ho]

/-- … and `emplace` has two structs allocated, of which the second is in no queue. -/
theorem C55_pq_violated_emplace {c : Cfg α} (ha : c.alloc = true) (ho : c.off = 0) {n m : Nat} (_hm : m ≠ n) (x : α)
    (mem : Nat → Option (Elem α)) :
    ∃ s' y, emplace c (init mem) x (some n) (some m) = some (s', some n) ∧ front s' = some n ∧ size s' = 1 ∧ s'.mem m = some y := by
  simp [emplace, push, initNode, Pq.mod, init, ha, ho, merge, front, size]

/-- What holds: if memory is refused, the queue stays as it is, and `push` and `emplace` answer NULL. -/
theorem C55_pq_refused_partial {c : Cfg α} (ha : c.alloc = true) {e : Nat} {x : Elem α} (he : s.mem e = some x) (y : α) :
    (∃ s', push c s e none = some (s', none) ∧ front s' = front s ∧ size s' = size s ∧ ∀ a, a ≠ e → s'.mem a = s.mem a) ∧
      emplace c s y none none = some (s, none) := by
  refine ⟨⟨{ s with mem := upd s.mem e (some ⟨x.val, none, some e, some e, none⟩) },
    by simp only [push, initNode, Pq.mod, he, ha, Option.bind_eq_bind, Option.bind_some, if_true], rfl, rfl,
    fun a h => upd_ne _ _ h⟩, by simp [emplace, ha]⟩

example : ∃ (c : Cfg Nat) (s : Pq Nat) (x : Elem Nat), c.alloc = true ∧ c.off = 0 ∧ s.mem 3 = some x :=
  ⟨{ maxCfg with alloc := true }, init fun _ => some ⟨7, none, none, none, none⟩, _, rfl, rfl, rfl⟩

end CCC.Pq
