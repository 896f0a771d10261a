import Verif.Proof.MultiStep
import Verif.Proof.Iter
/-
Properties of the ordered multimap (`src/ordered_multimap.c`), a splay tree over user structs in which every node carries a
ring of the structs with the same key.

`run cmp key (init br par mem al off) ops` executes a history of calls on a fresh multimap; `none` would be undefined
behaviour (access to memory that is no element), a failed assertion or a loop that does not end.  `specRun` is the same
history on the list of the stored elements in the order of their insertion (`Verif/Spec/Multimap.lean`).  `okRun` is what
the documentation asks of the caller, and that no call is made that is known to fail: the theorems named `_violated` show
what those calls do.
-/
namespace CCC.Omm
open CCC Links Tree MultiSpec
open CCC.PtrMap (addAt)
open CCC.MapSpec (segment_split)

variable {α κ : Type} {cmp : κ → κ → Cmp} {key : α → κ} {al : Bool} {off : Nat} {s : Omm α} {st : St α}

/-- Nothing stored, nothing handed out. -/
abbrev none_ (α : Type) : St α := ⟨[], [], []⟩

/-- The reachable states: after a history of allowed and safe calls, with what the specification says about it. -/
def Reach (cmp : κ → κ → Cmp) (key : α → κ) (al : Bool) (off : Nat) (s : Omm α) (st : St α) : Prop :=
  ∃ br par mem ops, okRun cmp key al off (none_ α) ops ∧
    (∃ outs, run cmp key (init br par mem al off) ops = some (s, outs)) ∧ (specRun cmp key al (none_ α) ops).1 = st

theorem run_sim (hc : LawfulCmp cmp) (ops : List (Op α κ)) : ∀ {s : Omm α} {st : St α}, Sim cmp key al off s st →
    okRun cmp key al off st ops →
    ∃ s', run cmp key s ops = some (s', (specRun cmp key al st ops).2) ∧ Sim cmp key al off s' (specRun cmp key al st ops).1 := by
  induction ops with
  | nil => intro s st h _; exact ⟨s, rfl, h⟩
  | cons o os ih =>
    intro s st h ok
    obtain ⟨s1, h1, h2⟩ := step_sim hc h o ok.1 ok.2.1
    obtain ⟨s2, h3, h4⟩ := ih h2 ok.2.2
    exact ⟨s2, by simp only [run, h1, Option.bind_eq_bind, Option.bind_some, h3, specRun], h4⟩

theorem Reach.sim (hc : LawfulCmp cmp) (h : Reach cmp key al off s st) : Sim cmp key al off s st := by
  obtain ⟨br, par, mem, ops, hok, ⟨outs, hr⟩, rfl⟩ := h
  obtain ⟨s', h1, h2⟩ := run_sim hc ops (init_sim (cmp := cmp) (key := key) br par mem) hok
  rw [h1] at hr
  simp only [Option.some.injEq, Prod.mk.injEq] at hr
  rw [← hr.1]; exact h2

theorem run_append (ops ops' : List (Op α κ)) : ∀ {s s1 : Omm α} {o1 : List (PtrMap.Out α)},
    run cmp key s ops = some (s1, o1) →
    run cmp key s (ops ++ ops') = (run cmp key s1 ops').map (fun r => (r.1, o1 ++ r.2)) := by
  induction ops with
  | nil =>
    intro s s1 o1 h
    simp only [run, Option.some.injEq, Prod.mk.injEq] at h
    obtain ⟨rfl, rfl⟩ := h
    simp
  | cons o os ih =>
    intro s s1 o1 h
    simp only [run, Option.bind_eq_bind, Option.bind_eq_some_iff] at h
    obtain ⟨⟨s2, r⟩, h1, ⟨s3, rs⟩, h2, h3⟩ := h
    simp only [Option.some.injEq, Prod.mk.injEq] at h3
    obtain ⟨rfl, rfl⟩ := h3
    simp only [List.cons_append, run, h1, Option.bind_eq_bind, Option.bind_some, ih h2]
    cases run cmp key s3 ops' <;> rfl

theorem okRun_append (ops ops' : List (Op α κ)) : ∀ {st : St α}, okRun cmp key al off st (ops ++ ops') ↔
    okRun cmp key al off st ops ∧ okRun cmp key al off (specRun cmp key al st ops).1 ops' := by
  induction ops with
  | nil => intro st; simp [okRun, specRun]
  | cons o os ih => intro st; simp only [List.cons_append, okRun, specRun, ih, and_assoc]

theorem specRun_append (ops ops' : List (Op α κ)) : ∀ {st : St α}, (specRun cmp key al st (ops ++ ops')).1 =
    (specRun cmp key al (specRun cmp key al st ops).1 ops').1 := by
  induction ops with
  | nil => intro st; rfl
  | cons o os ih => intro st; simp only [List.cons_append, specRun, ih]

/-- One more allowed and safe call keeps a state reachable. -/
theorem Reach.step {s' : Omm α} {op : Op α κ} {out : PtrMap.Out α} (h : Reach cmp key al off s st)
    (ok : okOp cmp key al st op) (sf : safeOp cmp key al off st op)
    (hs : Omm.step cmp key s op = some (s', out)) : Reach cmp key al off s' (specStep cmp key al st op).1 := by
  obtain ⟨br, par, mem, ops, hok, ⟨outs, hr⟩, hl⟩ := h
  refine ⟨br, par, mem, ops ++ [op], ?_, ⟨outs ++ [out], ?_⟩, ?_⟩
  · rw [okRun_append]; exact ⟨hok, by rw [hl]; exact ⟨ok, sf, trivial⟩⟩
  · rw [run_append ops [op] hr]; simp [run, hs]
  · rw [specRun_append, hl]; rfl

/-- The call, its answer and what is reachable by it. -/
theorem Reach.does (hc : LawfulCmp cmp) (h : Reach cmp key al off s st) (op : Op α κ)
    (ok : okOp cmp key al st op) (sf : safeOp cmp key al off st op) :
    ∃ s', Omm.step cmp key s op = some (s', (specStep cmp key al st op).2) ∧
      Reach cmp key al off s' (specStep cmp key al st op).1 := by
  obtain ⟨s', h1, _⟩ := step_sim hc (h.sim hc) op ok sf
  exact ⟨s', h1, h.step ok sf h1⟩

/-! ### C34: histories -/

/-- Every history: all answers, statuses and returned pointers are those of the list of elements in insertion order.
Missing for the full C34: the calls that `safeOp` excludes. -/
theorem C34_omm_history_partial (hc : LawfulCmp cmp) (br : Nat → Bool → Slot) (par : Nat → Slot) (mem : Nat → α) (al : Bool)
    (off : Nat) (ops : List (Op α κ)) (hok : okRun cmp key al off (none_ α) ops) :
    ∃ s, run cmp key (init br par mem al off) ops = some (s, (specRun cmp key al (none_ α) ops).2) := by
  obtain ⟨s, h, _⟩ := run_sim hc ops (init_sim (cmp := cmp) (key := key) br par mem) hok
  exact ⟨s, h⟩

/-- Calls that always do what is specified when there is no allocation function. -/
def plain : Op α κ → Prop
  | .contains _ | .max | .min | .extract _ | .update _ _ => False
  | _ => True

/-- Without allocation function and without `contains`, `max`, `min`, `extract` and `update` nothing is excluded that the
documentation allows. -/
theorem C34_omm_history (hc : LawfulCmp cmp) (br : Nat → Bool → Slot) (par : Nat → Slot) (mem : Nat → α)
    (off : Nat) (ops : List (Op α κ)) (hp : ∀ o ∈ ops, plain o)
    (hok : ∀ pre o post, ops = pre ++ o :: post → okOp cmp key false (specRun cmp key false (none_ α) pre).1 o) :
    ∃ s, run cmp key (init br par mem false off) ops = some (s, (specRun cmp key false (none_ α) ops).2) := by
  apply C34_omm_history_partial hc
  have : ∀ (ops : List (Op α κ)) (st : St α), (∀ o ∈ ops, plain o) →
      (∀ pre o post, ops = pre ++ o :: post → okOp cmp key false (specRun cmp key false st pre).1 o) →
      okRun cmp key false off st ops := by
    intro ops
    induction ops with
    | nil => intros; trivial
    | cons o os ih =>
      intro st hp h
      refine ⟨h [] o os rfl, ?_, ih _ (fun x hx => hp x (by simp [hx])) ?_⟩
      · have := hp o (by simp)
        cases o <;> simp_all [safeOp, plain]
      · intro pre x post e
        exact h (o :: pre) x post (by rw [e]; rfl)
  exact this ops _ hp hok

/-- A history used to show that hypotheses are met: structs at 1..7, four of them with the key 5, an extraction of the
third of them, an update that moves an element behind its equals, and a pop. -/
def sampleOps : List (Op (Nat × Nat) Nat) :=
  [.insert 1 (5, 0) none, .insert 2 (3, 0) none, .insert 3 (5, 1) none, .insert 4 (5, 2) none, .insert 5 (8, 0) none,
   .insert 6 (5, 3) none, .tryInsert 7 (1, 0) none, .extract 4, .update 1 (fun x => (x.1, x.2 + 7)), .popMin, .get 5,
   .begin, .next 5]

theorem sampleOps_ok : okRun natCmp Prod.fst false 0 (none_ _) sampleOps := by
  simp [sampleOps, okRun, okOp, safeOp, specStep, oldest, without, addAt, St.add, St.forget, St.take, PtrMap.fresh, goodAns,
    ascending, arrange, putBehind, natCmp, isLater, equals]

/-- What the sample history stores at its end, oldest first. -/
def sampleElems : List (Nat × (Nat × Nat)) := [(2, (3, 0)), (3, (5, 1)), (5, (8, 0)), (6, (5, 3)), (1, (5, 7))]

theorem sample_reach : ∃ s st, Reach natCmp (Prod.fst : Nat × Nat → Nat) false 0 s st ∧ st.elems = sampleElems ∧
    st.out = [7, 4] ∧ st.later = [4] := by
  obtain ⟨s, h⟩ := C34_omm_history_partial natCmp_lawful (fun _ _ => none) (fun _ => none) (fun _ => ((0, 0) : Nat × Nat)) false 0
    sampleOps sampleOps_ok
  exact ⟨s, _, ⟨_, _, _, sampleOps, sampleOps_ok, ⟨_, h⟩, rfl⟩, by decide, by decide, by decide⟩

example : ∃ s, run natCmp Prod.fst (init (fun _ _ => none) (fun _ => none) (fun _ => (0, 0)) false 0)
      [.insert 1 (5, 0) none, .insert 2 (5, 1) none, .popMax, .removeEntry (5 : Nat)] =
    some (s, [.ent Stat.vacant (some (1, (5, 0))), .ent Stat.occupied (some (2, (5, 1))), .result .ok,
      .ent Stat.occupied (some (2, (5, 1)))]) := by
  refine C34_omm_history natCmp_lawful _ _ _ 0 [.insert 1 (5, 0) none, .insert 2 (5, 1) none, .popMax, .removeEntry (5 : Nat)]
    (by simp [plain]) ?_
  intro pre o post e
  match pre, e with
  | [], e => cases e; simp [okOp, specRun, PtrMap.fresh, goodAns]
  | [_], e => cases e; simp [okOp, specRun, PtrMap.fresh, goodAns, specStep, addAt, St.add, St.forget]
  | [_, _], e => cases e; trivial
  | [_, _, _], e => cases e; trivial
  | _ :: _ :: _ :: _ :: _, e => simp at e

/-! ### C34: which element is meant -/

/-- An element is the oldest of the greatest: all older ones are less, no younger one is greater. -/
def OldestMax (cmp : κ → κ → Cmp) (key : α → κ) (l : List (Nat × α)) (e : Nat × α) : Prop :=
  ∃ older younger, l = older ++ e :: younger ∧ (∀ d ∈ older, cmp (key d.2) (key e.2) = .les) ∧
    ∀ d ∈ younger, cmp (key d.2) (key e.2) ≠ .grt

/-- An element is the oldest of the least. -/
def OldestMin (cmp : κ → κ → Cmp) (key : α → κ) (l : List (Nat × α)) (e : Nat × α) : Prop :=
  ∃ older younger, l = older ++ e :: younger ∧ (∀ d ∈ older, cmp (key d.2) (key e.2) = .grt) ∧
    ∀ d ∈ younger, cmp (key d.2) (key e.2) ≠ .les

theorem head_max (hc : LawfulCmp cmp) {l : List (Nat × α)} (hne : l ≠ []) :
    ∃ e, (descending cmp key l).head? = some e ∧ OldestMax cmp key l e := by
  cases h : (descending cmp key l).head? with
  | none =>
    have h1 : (descending cmp key l).length = l.length := length_arrange
    rw [List.head?_eq_none_iff] at h
    rw [h] at h1
    exact absurd (List.eq_nil_of_length_eq_zero h1.symm) hne
  | some e =>
    obtain ⟨pre, post, e1, e2, e3⟩ := arrange_head (desc_pre hc) h
    refine ⟨e, rfl, pre, post, e1, ?_, ?_⟩
    · intro d hd; have := e2 d hd; simpa using this
    · intro d hd
      have := e3 d hd
      rw [ne_eq, hc.grt_iff]
      simpa using this

theorem head_min (hc : LawfulCmp cmp) {l : List (Nat × α)} (hne : l ≠ []) :
    ∃ e, (ascending cmp key l).head? = some e ∧ OldestMin cmp key l e := by
  cases h : (ascending cmp key l).head? with
  | none =>
    have h1 : (ascending cmp key l).length = l.length := length_arrange
    rw [List.head?_eq_none_iff] at h
    rw [h] at h1
    exact absurd (List.eq_nil_of_length_eq_zero h1.symm) hne
  | some e =>
    obtain ⟨pre, post, e1, e2, e3⟩ := arrange_head (asc_pre hc) h
    refine ⟨e, rfl, pre, post, e1, ?_, ?_⟩
    · intro d hd; have := e2 d hd; simpa using this
    · intro d hd
      have := e3 d hd
      simp only [bne_iff_ne, ne_eq, hc.grt_iff] at this
      exact this

/-- `ccc_omm_max` answers the oldest of the greatest elements and `ccc_omm_pop_max` removes it and nothing else. -/
theorem C34_omm_max (hc : LawfulCmp cmp) (h : Reach cmp key al off s st) (hne : st.elems ≠ []) :
    ∃ e, OldestMax cmp key st.elems e ∧
      (∃ s', maxMin s .grt = some (s', some e.1) ∧ s'.val e.1 = e.2 ∧ Reach cmp key al off s' st) ∧
      (∃ s' st', popMax cmp key s = some (s', .ok) ∧ Reach cmp key al off s' st' ∧ st'.elems = without e.1 st.elems) := by
  obtain ⟨e, h1, h2⟩ := head_max (cmp := cmp) (key := key) hc hne
  refine ⟨e, h2, ?_, ?_⟩
  · obtain ⟨s', r1, r2⟩ := h.does hc .max trivial hne
    simp only [Omm.step, specStep, h1, Option.bind_eq_bind, Option.bind_eq_some_iff] at r1
    obtain ⟨⟨s1, p⟩, r1, r3⟩ := r1
    simp only [Option.some.injEq, Prod.mk.injEq, PtrMap.Out.ptr.injEq] at r3
    obtain ⟨rfl, r3⟩ := r3
    cases p with
    | none => cases r3
    | some a => cases r3; exact ⟨s1, r1, rfl, r2⟩
  · obtain ⟨s', r1, r2⟩ := h.does hc .popMax trivial trivial
    simp only [Omm.step, specStep, h1, Option.bind_eq_bind, Option.bind_eq_some_iff] at r1 r2
    obtain ⟨⟨s1, p⟩, r1, r3⟩ := r1
    simp only [Option.some.injEq, Prod.mk.injEq, PtrMap.Out.result.injEq] at r3
    obtain ⟨rfl, rfl⟩ := r3
    exact ⟨s1, _, r1, r2, by unfold St.take; split <;> rfl⟩

/-- `ccc_omm_min` answers the oldest of the least elements and `ccc_omm_pop_min` removes it and nothing else.  Missing: with
an allocation function `pop_min` needs the intrusive element at the beginning of the user type, see
`C58_omm_violated_pop_min`. -/
theorem C34_omm_min_partial (hc : LawfulCmp cmp) (h : Reach cmp key al off s st) (hne : st.elems ≠ []) :
    ∃ e, OldestMin cmp key st.elems e ∧
      (∃ s', maxMin s .les = some (s', some e.1) ∧ s'.val e.1 = e.2 ∧ Reach cmp key al off s' st) ∧
      ((al = true → off = 0) →
        ∃ s' st', popMin cmp key s = some (s', .ok) ∧ Reach cmp key al off s' st' ∧ st'.elems = without e.1 st.elems) := by
  obtain ⟨e, h1, h2⟩ := head_min (cmp := cmp) (key := key) hc hne
  refine ⟨e, h2, ?_, ?_⟩
  · obtain ⟨s', r1, r2⟩ := h.does hc .min trivial hne
    simp only [Omm.step, specStep, h1, Option.bind_eq_bind, Option.bind_eq_some_iff] at r1
    obtain ⟨⟨s1, p⟩, r1, r3⟩ := r1
    simp only [Option.some.injEq, Prod.mk.injEq, PtrMap.Out.ptr.injEq] at r3
    obtain ⟨rfl, r3⟩ := r3
    cases p with
    | none => cases r3
    | some a => cases r3; exact ⟨s1, r1, rfl, r2⟩
  · intro ho
    obtain ⟨s', r1, r2⟩ := h.does hc .popMin trivial (fun ha => Or.inl (ho ha))
    simp only [Omm.step, specStep, h1, Option.bind_eq_bind, Option.bind_eq_some_iff] at r1 r2
    obtain ⟨⟨s1, p⟩, r1, r3⟩ := r1
    simp only [Option.some.injEq, Prod.mk.injEq, PtrMap.Out.result.injEq] at r3
    obtain ⟨rfl, rfl⟩ := r3
    exact ⟨s1, _, r1, r2, by unfold St.take; split <;> rfl⟩

/-- A lookup answers the oldest element with an equal key, or NULL if there is none, and changes no element. -/
theorem C34_omm_get (hc : LawfulCmp cmp) (h : Reach cmp key al off s st) (k : κ) :
    ∃ s' p, find cmp key s k = some (s', p) ∧ Reach cmp key al off s' st ∧
      ((p = none ∧ ∀ d ∈ st.elems, cmp k (key d.2) ≠ .eql) ∨
       ∃ e older younger, p = some e.1 ∧ s'.val e.1 = e.2 ∧ st.elems = older ++ e :: younger ∧ cmp k (key e.2) = .eql ∧
         ∀ d ∈ older, cmp k (key d.2) ≠ .eql) := by
  obtain ⟨s', r1, r2⟩ := h.does hc (.get k) trivial trivial
  simp only [Omm.step, specStep, Option.bind_eq_bind, Option.bind_eq_some_iff] at r1
  obtain ⟨⟨s1, p⟩, r1, r3⟩ := r1
  simp only [Option.some.injEq, Prod.mk.injEq, PtrMap.Out.ptr.injEq] at r3
  obtain ⟨rfl, r3⟩ := r3
  refine ⟨s1, p, r1, r2, ?_⟩
  cases ho : oldest cmp key k st.elems with
  | none =>
    rw [ho] at r3
    cases p with
    | some a => cases r3
    | none =>
      refine Or.inl ⟨rfl, fun d hd => ?_⟩
      have := List.find?_eq_none.1 ho d hd
      simpa using this
  | some e =>
    rw [ho] at r3
    cases p with
    | none => cases r3
    | some a =>
      cases r3
      obtain ⟨h1, older, younger, h2, h3⟩ := List.find?_eq_some_iff_append.1 ho
      refine Or.inr ⟨_, older, younger, rfl, rfl, h2, by simpa using h1, ?_⟩
      intro d hd
      have := h3 d hd
      simpa using this

/-- Removing by key removes the oldest element with an equal key and nothing else. -/
theorem C34_omm_remove (hc : LawfulCmp cmp) (h : Reach cmp key al off s st) {k : κ} {a : Nat} {v : α} {older younger : List (Nat × α)}
    (hl : st.elems = older ++ (a, v) :: younger) (hk : cmp k (key v) = .eql) (ho : ∀ d ∈ older, cmp k (key d.2) ≠ .eql) :
    ∃ s' st' e, Omm.step cmp key s (.removeEntry k) = some (s', .ent Stat.occupied e) ∧ Reach cmp key al off s' st' ∧
      st'.elems = without a st.elems ∧ (al = false → e = some (a, v)) := by
  have hf : oldest cmp key k st.elems = some (a, v) := by
    refine List.find?_eq_some_iff_append.2 ⟨by simpa using hk, older, younger, hl, ?_⟩
    intro d hd
    have := ho d hd
    simpa using this
  obtain ⟨s', r1, r2⟩ := h.does hc (.removeEntry k) trivial trivial
  simp only [specStep, hf] at r1 r2
  refine ⟨s', _, _, r1, r2, ?_, ?_⟩
  · unfold St.take; split <;> rfl
  · rintro rfl; rfl

/-- Inserting puts the element behind all that are stored, whatever their keys. -/
theorem C34_omm_insert (hc : LawfulCmp cmp) (h : Reach cmp key al off s st) {e : Nat} {x : α} {ans : Slot}
    (hf : PtrMap.fresh st.elems e) (ga : goodAns st ans e) {n : Nat} (hn : n = e ∧ al = false ∨ ans = some n ∧ al = true) :
    ∃ s' st', Omm.step cmp key s (.insert e x ans) =
        some (s', .ent (if st.elems.any (fun d => cmp (key x) (key d.2) == .eql) then Stat.occupied else Stat.vacant) (some (n, x))) ∧
      Reach cmp key al off s' st' ∧ st'.elems = st.elems ++ [(n, x)] := by
  obtain ⟨s', r1, r2⟩ := h.does hc (.insert e x ans) ⟨hf, ga⟩ trivial
  have ha : addAt al (some e) ans = some n := by
    rcases hn with ⟨rfl, rfl⟩ | ⟨rfl, rfl⟩ <;> rfl
  simp only [specStep, ha] at r1 r2
  refine ⟨s', _, ?_, r2, rfl⟩
  rw [r1]
  simp only [oldest, List.find?_isSome, List.any_eq_true]

example : ∃ s st s1 s2, Reach natCmp (Prod.fst : Nat × Nat → Nat) false 0 s st ∧ st.elems = sampleElems ∧
    popMax natCmp Prod.fst s = some (s1, .ok) ∧ popMin natCmp Prod.fst s = some (s2, .ok) := by
  obtain ⟨s, st, h, he, _⟩ := sample_reach
  obtain ⟨_, _, _, s1, _, h1, _⟩ := C34_omm_max natCmp_lawful h (by rw [he]; decide)
  obtain ⟨_, _, _, h2⟩ := C34_omm_min_partial natCmp_lawful h (by rw [he]; decide)
  obtain ⟨s2, _, h2, _⟩ := h2 (by decide)
  exact ⟨s, st, s1, s2, h, he, h1, h2⟩

example : ∃ s st s' st', Reach natCmp (Prod.fst : Nat × Nat → Nat) false 0 s st ∧
    Omm.step natCmp Prod.fst s (.removeEntry 5) = some (s', .ent Stat.occupied (some (3, (5, 1)))) ∧
    Reach natCmp (Prod.fst : Nat × Nat → Nat) false 0 s' st' ∧ st'.elems = [(2, (3, 0)), (5, (8, 0)), (6, (5, 3)), (1, (5, 7))] := by
  obtain ⟨s, st, h, he, _⟩ := sample_reach
  obtain ⟨s', st', e, h1, h2, h3, h4⟩ := C34_omm_remove natCmp_lawful h (k := 5) (a := 3) (v := (5, 1)) (older := [(2, (3, 0))])
    (by rw [he]; rfl) (by decide) (by decide)
  rw [h4 rfl] at h1
  exact ⟨s, st, s', st', h, h1, h2, by rw [h3, he]; decide⟩

example : ∃ s st s' st', Reach natCmp (Prod.fst : Nat × Nat → Nat) false 0 s st ∧
    Omm.step natCmp (Prod.fst : Nat × Nat → Nat) s (.insert 9 (5, 9) none) = some (s', .ent Stat.occupied (some (9, (5, 9)))) ∧
    Reach natCmp (Prod.fst : Nat × Nat → Nat) false 0 s' st' ∧ st'.elems = sampleElems ++ [(9, (5, 9))] := by
  obtain ⟨s, st, h, he, _⟩ := sample_reach
  obtain ⟨s', st', h1, h2, h3⟩ := C34_omm_insert natCmp_lawful h (e := 9) (x := (5, 9)) (ans := none) (n := 9)
    (by rw [he]; exact ⟨by decide, by decide⟩) (by intro n hn; cases hn) (Or.inl ⟨rfl, rfl⟩)
  rw [he] at h1 h3
  exact ⟨s, st, s', st', h, h1, h2, h3⟩

/-! ### C35: iteration -/

theorem Reach.walk (hc : LawfulCmp cmp) (h : Reach cmp key al off s st) (d : Bool) :
    ∃ l : List Nat, l = ((if d then ascending cmp key st.elems else descending cmp key st.elems)).map Prod.fst ∧ l.Nodup ∧
      (∀ pre a post, l = pre ++ a :: post → next s a d = some post.head?) ∧
      (if d then rbegin s else begin_ s) = some l.head? := by
  obtain ⟨A, D, h', T, m⟩ := h.sim hc
  refine ⟨flat d D T, ?_, m.core.flat_nodup d, fun pre a post e => m.core.next hc d e, ?_⟩
  · cases d
    · simp only [Bool.false_eq_true, if_false, m.descending hc, List.map_map]
      simp [cell, Function.comp_def]
    · simp only [if_true, m.ascending hc, List.map_map]
      simp [cell, Function.comp_def]
  · cases d
    · exact m.core.begin_ m.sz
    · exact m.core.rbegin m.sz

/-- `for (p = begin; p != end; p = next(p))` visits every stored element exactly once, greatest keys first, and those with
equal keys from the oldest to the youngest. -/
theorem C35_omm_iteration (hc : LawfulCmp cmp) (h : Reach cmp key al off s st) :
    ∃ l : List (Nat × α), (do let p ← begin_ s; iterate (fun a => next s a false) none p) = some (l.map Prod.fst) ∧ l.Perm st.elems ∧
      l.Pairwise (fun a b => cmp (key a.2) (key b.2) ≠ .les) ∧
      ∀ z ∈ st.elems, l.filter (fun a => cmp (key z.2) (key a.2) == .eql) = st.elems.filter (fun a => cmp (key z.2) (key a.2) == .eql) := by
  obtain ⟨l, rfl, nd, hn, hb⟩ := h.walk hc false
  simp only [Bool.false_eq_true, if_false] at nd hn hb
  refine ⟨descending cmp key st.elems, ?_, arrange_perm _, ?_, ?_⟩
  · simp only [hb, Option.bind_eq_bind, Option.bind_some]
    have := iterate_spec nd hn (pre := []) (m := (descending cmp key st.elems).map Prod.fst) (post := []) (by simp)
    simpa using this
  · exact (arrange_spec (desc_pre hc) st.elems).1.imp (fun h => by simpa using h)
  · intro z _
    have := (arrange_spec (desc_pre hc (f := fun e : Nat × α => key e.2)) st.elems).2 z
    simp only [funext (desc_same hc (f := fun e : Nat × α => key e.2) z)] at this
    exact this

/-- The reverse iteration visits every stored element exactly once, least keys first, and those with equal keys again from
the oldest to the youngest. -/
theorem C35_omm_reverse (hc : LawfulCmp cmp) (h : Reach cmp key al off s st) :
    ∃ l : List (Nat × α), (do let p ← rbegin s; iterate (fun a => next s a true) none p) = some (l.map Prod.fst) ∧ l.Perm st.elems ∧
      l.Pairwise (fun a b => cmp (key a.2) (key b.2) ≠ .grt) ∧
      ∀ z ∈ st.elems, l.filter (fun a => cmp (key z.2) (key a.2) == .eql) = st.elems.filter (fun a => cmp (key z.2) (key a.2) == .eql) := by
  obtain ⟨l, rfl, nd, hn, hb⟩ := h.walk hc true
  simp only [if_true] at nd hn hb
  refine ⟨ascending cmp key st.elems, ?_, arrange_perm _, ?_, ?_⟩
  · simp only [hb, Option.bind_eq_bind, Option.bind_some]
    have := iterate_spec nd hn (pre := []) (m := (ascending cmp key st.elems).map Prod.fst) (post := []) (by simp)
    simpa using this
  · exact (arrange_spec (asc_pre hc) st.elems).1.imp (fun h => by simpa using h)
  · intro z _
    have := (arrange_spec (asc_pre hc (f := fun e : Nat × α => key e.2)) st.elems).2 z
    simp only [funext (asc_same hc (f := fun e : Nat × α => key e.2) z)] at this
    exact this

example : ∃ s st, Reach natCmp (Prod.fst : Nat × Nat → Nat) false 0 s st ∧
    (do let p ← begin_ s; iterate (fun a => next s a false) none p) = some [5, 3, 6, 1, 2] ∧
    (do let p ← rbegin s; iterate (fun a => next s a true) none p) = some [2, 3, 6, 1, 5] := by
  obtain ⟨s, st, h, he, _⟩ := sample_reach
  refine ⟨s, st, h, ?_, ?_⟩
  · obtain ⟨l, e, nd, hn, hb⟩ := h.walk natCmp_lawful false
    have e' : l = [5, 3, 6, 1, 2] := by rw [e, he]; decide
    simp only [Bool.false_eq_true, if_false] at hb
    simp only [hb, Option.bind_eq_bind, Option.bind_some]
    have := iterate_spec nd hn (pre := []) (m := l) (post := []) (by simp)
    rw [← e']; simpa using this
  · obtain ⟨l, e, nd, hn, hb⟩ := h.walk natCmp_lawful true
    have e' : l = [2, 3, 6, 1, 5] := by rw [e, he]; decide
    simp only [if_true] at hb
    simp only [hb, Option.bind_eq_bind, Option.bind_some]
    have := iterate_spec nd hn (pre := []) (m := l) (post := []) (by simp)
    rw [← e']; simpa using this

theorem view_fst (s : Omm α) (p : Slot) : (view s p).map Prod.fst = p := by cases p <;> rfl

/-- Iterating between two positions of a walk. -/
theorem walk_range {l : List (Nat × α)} (d : Bool) {P Q : Nat × α → Bool} {p q : Slot} (nd : (l.map Prod.fst).Nodup)
    (hn : ∀ pre a post, l.map Prod.fst = pre ++ a :: post → next s a d = some post.head?)
    (hp : view s p = l.find? P) (hq : view s q = l.find? Q)
    (h : ∃ pre post, l = pre ++ l.filter (fun x => P x && !Q x) ++ post ∧
      (l.filter (fun x => P x && !Q x) ++ post).head? = l.find? P ∧ post.head? = l.find? Q) :
    iterate (fun a => next s a d) q p = some ((l.filter (fun x => P x && !Q x)).map Prod.fst) := by
  obtain ⟨pre, post, f1, f2, f3⟩ := h
  have h1 : p = ((l.filter (fun x => P x && !Q x)).map Prod.fst ++ post.map Prod.fst).head? := by
    rw [← List.map_append, List.head?_map, f2, ← hp, view_fst]
  have h2 : q = (post.map Prod.fst).head? := by
    rw [List.head?_map, f3, ← hq, view_fst]
  rw [h1, h2]
  exact iterate_spec nd hn (pre := pre.map Prod.fst) (by rw [← List.map_append, ← List.map_append]; exact congrArg _ f1)

/-- The loop over `ccc_omm_equal_range(b, e)` visits exactly the elements with keys from `b` down to `e`, both included, in
the order of iteration. -/
theorem C35_omm_range (hc : LawfulCmp cmp) (h : Reach cmp key al off s st) {b e : κ} (hbe : cmp e b ≠ .grt) :
    (do let r ← equalRange cmp key s b e false; overRange (fun a => next r.1 a false) r.2) =
      some (((descending cmp key st.elems).filter (fun x => cmp b (key x.2) != .les && cmp e (key x.2) != .grt)).map Prod.fst) := by
  obtain ⟨s', r1, r2⟩ := h.does hc (.equalRange b e) trivial trivial
  simp only [Omm.step, specStep, Option.bind_eq_bind, Option.bind_eq_some_iff] at r1
  obtain ⟨⟨s1, p, q⟩, r1, r3⟩ := r1
  simp only [Option.some.injEq, Prod.mk.injEq, PtrMap.Out.range.injEq] at r3
  obtain ⟨rfl, r3, r4⟩ := r3
  obtain ⟨l, rfl, nd, hn, _⟩ := r2.walk hc false
  have hs := (arrange_spec (desc_pre hc (f := fun e : Nat × α => key e.2)) st.elems).1
  simp only [r1, Option.bind_eq_bind, Option.bind_some]
  refine walk_range false nd hn r3 r4 (segment_split ?_ ?_ ?_)
  · exact hs.imp (fun {x y} h hx => by
      simp only [bne_iff_ne, ne_eq] at h hx ⊢
      intro hh
      exact hx (hc.lt_le hh (fun h2 => h (hc.grt_iff.1 h2))))
  · exact hs.imp (fun {x y} h hx => by
      simp only [beq_iff_eq, bne_iff_ne, ne_eq] at h hx ⊢
      rw [hc.grt_iff] at hx ⊢
      exact hc.le_lt (fun h2 => h (hc.grt_iff.1 h2)) hx)
  · exact fun x _ hx => by
      simp only [beq_iff_eq, bne_iff_ne, ne_eq] at hx ⊢
      rw [hc.grt_iff] at hx
      intro hh
      have h1 := hc.le_lt hbe hh
      rw [hc.flip, hx] at h1; cases h1

/-- The loop over `ccc_omm_equal_rrange(b, e)` visits exactly the elements with keys from `b` up to `e`, both included, in
the order of the reverse iteration. -/
theorem C35_omm_rrange (hc : LawfulCmp cmp) (h : Reach cmp key al off s st) {b e : κ} (hbe : cmp b e ≠ .grt) :
    (do let r ← equalRange cmp key s b e true; overRange (fun a => next r.1 a true) r.2) =
      some (((ascending cmp key st.elems).filter (fun x => cmp b (key x.2) != .grt && cmp e (key x.2) != .les)).map Prod.fst) := by
  obtain ⟨s', r1, r2⟩ := h.does hc (.equalRrange b e) trivial trivial
  simp only [Omm.step, specStep, Option.bind_eq_bind, Option.bind_eq_some_iff] at r1
  obtain ⟨⟨s1, p, q⟩, r1, r3⟩ := r1
  simp only [Option.some.injEq, Prod.mk.injEq, PtrMap.Out.range.injEq] at r3
  obtain ⟨rfl, r3, r4⟩ := r3
  obtain ⟨l, rfl, nd, hn, _⟩ := r2.walk hc true
  have hs := (arrange_spec (asc_pre hc (f := fun e : Nat × α => key e.2)) st.elems).1
  simp only [r1, Option.bind_eq_bind, Option.bind_some]
  refine walk_range true nd hn r3 r4 (segment_split ?_ ?_ ?_)
  · exact hs.imp (fun {x y} h hx => by
      simp only [bne_iff_ne, ne_eq] at h hx ⊢
      exact hc.trans _ _ _ hx h)
  · exact hs.imp (fun {x y} h hx => by
      simp only [beq_iff_eq, bne_iff_ne, ne_eq] at h hx ⊢
      exact hc.lt_le hx h)
  · exact fun x _ hx => by
      simp only [beq_iff_eq, bne_iff_ne, ne_eq] at hx ⊢
      rw [hc.le_lt hbe hx]; simp

example : ∃ s st, Reach natCmp (Prod.fst : Nat × Nat → Nat) false 0 s st ∧
    (do let r ← equalRange natCmp Prod.fst s 7 4 false; overRange (fun a => next r.1 a false) r.2) = some [3, 6, 1] ∧
    (do let r ← equalRange natCmp Prod.fst s 4 8 true; overRange (fun a => next r.1 a true) r.2) = some [3, 6, 1, 5] := by
  obtain ⟨s, st, h, he, _⟩ := sample_reach
  refine ⟨s, st, h, ?_, ?_⟩
  · rw [C35_omm_range natCmp_lawful h (by decide), he]; rfl
  · rw [C35_omm_rrange natCmp_lawful h (by decide), he]; rfl

/-- **C59 is violated**: `ccc_omm_begin` answers the oldest of the greatest elements and not, as documented, the oldest of the
least ones; `ccc_omm_rbegin` the other way round. -/
theorem C59_omm_violated (hc : LawfulCmp cmp) (h : Reach cmp key al off s st) (hne : st.elems ≠ []) :
    ∃ e d, begin_ s = some (some e.1) ∧ OldestMax cmp key st.elems e ∧ rbegin s = some (some d.1) ∧ OldestMin cmp key st.elems d := by
  obtain ⟨e, h1, h2⟩ := head_max (cmp := cmp) (key := key) hc hne
  obtain ⟨d, h3, h4⟩ := head_min (cmp := cmp) (key := key) hc hne
  obtain ⟨_, rfl, _, _, b1⟩ := h.walk hc false
  obtain ⟨_, rfl, _, _, b2⟩ := h.walk hc true
  simp only [Bool.false_eq_true, if_false, if_true, List.head?_map, h1, h3, Option.map_some] at b1 b2
  exact ⟨e, d, b1, h2, b2, h4⟩

/-- A multimap where the two differ: the documentation promises the element at 2, with the key 3, and gets that at 5, with
the key 8. -/
theorem C59_omm_violated_sample : ∃ s st, Reach natCmp (Prod.fst : Nat × Nat → Nat) false 0 s st ∧ st.elems = sampleElems ∧
    OldestMin natCmp Prod.fst sampleElems (2, (3, 0)) ∧ begin_ s = some (some 5) := by
  obtain ⟨s, st, h, he, _⟩ := sample_reach
  refine ⟨s, st, h, he, ⟨[], [(3, (5, 1)), (5, (8, 0)), (6, (5, 3)), (1, (5, 7))], rfl, by decide, by decide⟩, ?_⟩
  obtain ⟨l, e, nd, hn, hb⟩ := h.walk natCmp_lawful false
  have e' : l = [5, 3, 6, 1, 2] := by rw [e, he]; decide
  simp only [Bool.false_eq_true, if_false] at hb
  rw [hb, e']; rfl

/-! ### C36: any handle -/

theorem later_step {st : St α} (h : ∀ a ∈ st.later, a ∈ st.out) (op : Op α κ) :
    ∀ a ∈ (specStep cmp key al st op).1.later, a ∈ (specStep cmp key al st op).1.out := by
  have hf : ∀ {st : St α} (b : Nat), (∀ a ∈ st.later, a ∈ st.out) → ∀ a ∈ (st.forget b).later, a ∈ (st.forget b).out := by
    intro st b h a ha
    simp only [St.forget, List.mem_filter] at ha ⊢
    exact ⟨h a ha.1, ha.2⟩
  have hg : ∀ (b : Nat) (x : α), ∀ a ∈ (st.add b x).later, a ∈ (st.add b x).out := fun b x => hf b h
  have ht : ∀ (g lt : Bool) (b : Nat), ∀ a ∈ (st.take g lt b).later, a ∈ (st.take g lt b).out := by
    intro g lt b a ha
    cases g
    · simp only [St.take, Bool.false_eq_true, if_false, List.mem_cons] at ha ⊢
      cases lt
      · exact Or.inr (h a (by simpa using ha))
      · simp only [if_true, List.mem_cons] at ha
        exact ha.imp id (h a)
    · simp only [St.take, if_true] at ha ⊢; exact h a ha
  cases op <;> simp only [specStep]
  case clear =>
    intro a ha
    split
    · exact h a ha
    · simp [h a ha]
  all_goals
    repeat' split
    all_goals first | exact h | exact hg _ _ | exact ht _ _ _ | exact hf _ h | exact hf _ (ht _ _ _)

theorem Reach.later (h : Reach cmp key al off s st) : ∀ a ∈ st.later, a ∈ st.out := by
  obtain ⟨_, _, _, ops, _, _, rfl⟩ := h
  have : ∀ (ops : List (Op α κ)) (st : St α), (∀ a ∈ st.later, a ∈ st.out) →
      ∀ a ∈ (specRun cmp key al st ops).1.later, a ∈ (specRun cmp key al st ops).1.out := by
    intro ops
    induction ops with
    | nil => intro st h; exact h
    | cons o os ih => intro st h; exact ih _ (later_step h o)
  exact this ops _ (by simp)

/-- No struct is stored twice, and a stored struct is not out. -/
theorem Reach.addresses (hc : LawfulCmp cmp) (h : Reach cmp key al off s st) :
    (st.elems.map Prod.fst).Nodup ∧ ∀ e ∈ st.elems, e.1 ∉ st.out ∧ e.1 ∉ st.later := by
  have hl := h.later
  obtain ⟨A, D, h', T, m⟩ := h.sim hc
  refine ⟨?_, ?_⟩
  · rw [m.elems, List.map_map]
    simpa [Function.comp_def] using m.core.nodupA hc
  · intro e he
    have h1 : e.1 ∉ st.out := fun hh => (m.out _ hh).2.2 (m.mem.1 ⟨e, he, rfl⟩)
    exact ⟨h1, fun hh => h1 (hl _ hh)⟩

theorem find_at {l pre post : List (Nat × α)} {a : Nat} {x : α} (nd : (l.map Prod.fst).Nodup) (he : l = pre ++ (a, x) :: post) :
    l.find? (fun e => e.1 == a) = some (a, x) ∧ without a l = pre ++ post := by
  have nA : ∀ d ∈ pre ++ post, d.1 ≠ a := by
    rw [he, List.map_append, List.map_cons] at nd
    obtain ⟨_, h2, h3⟩ := List.nodup_append.1 nd
    intro d hd hh
    rcases List.mem_append.1 hd with hd | hd
    · exact h3 d.1 (List.mem_map.2 ⟨d, hd, rfl⟩) a (by simp) hh
    · exact (List.nodup_cons.1 h2).1 (List.mem_map.2 ⟨d, hd, hh⟩)
  constructor
  · refine List.find?_eq_some_iff_append.2 ⟨by simp, pre, post, he, ?_⟩
    intro d hd
    have := nA d (by simp [hd])
    simpa using this
  · have f : ∀ l : List (Nat × α), (∀ d ∈ l, d.1 ≠ a) → l.filter (fun e => e.1 != a) = l := by
      intro l hl
      rw [List.filter_eq_self]; intro d hd; simpa using hl d hd
    unfold without
    rw [he, List.filter_append, List.filter_cons, f pre (fun d hd => nA d (by simp [hd])), f post (fun d hd => nA d (by simp [hd]))]
    simp

/-- `ccc_omm_extract` of any stored element, whatever its place in the tree or in a ring: it answers the element, and exactly
that element is gone; the others keep their order and their data. -/
theorem C36_omm_extract (hc : LawfulCmp cmp) (h : Reach cmp key al off s st) {a : Nat} {x : α} {pre post : List (Nat × α)}
    (he : st.elems = pre ++ (a, x) :: post) :
    ∃ s' st', eraseNode cmp key s a = some (s', some a) ∧ s'.val a = x ∧ Reach cmp key al off s' st' ∧ st'.elems = pre ++ post := by
  have hm : (a, x) ∈ st.elems := by rw [he]; simp
  obtain ⟨nd, no⟩ := h.addresses hc
  obtain ⟨s', r1, r2⟩ := h.does hc (.extract a) (Or.inl ⟨_, hm, rfl⟩) (Or.inl (no _ hm).2)
  obtain ⟨hf, hw⟩ := find_at nd he
  simp only [Omm.step, specStep, hf, Option.bind_eq_bind, Option.bind_eq_some_iff] at r1 r2
  obtain ⟨⟨s1, p⟩, r1, r3⟩ := r1
  simp only [Option.some.injEq, Prod.mk.injEq, PtrMap.Out.ptr.injEq] at r3
  obtain ⟨rfl, r3⟩ := r3
  cases p with
  | none => cases r3
  | some b =>
    cases r3
    exact ⟨s1, _, r1, rfl, r2, by simp only [St.take, Bool.false_eq_true, if_false]; exact hw⟩

/-- `ccc_omm_update`, `ccc_omm_increase` and `ccc_omm_decrease` of any stored element with any function, which may change its
key: the element is stored with the new data as the youngest; the others keep their order and their data. -/
theorem C36_omm_update (hc : LawfulCmp cmp) (h : Reach cmp key al off s st) {a : Nat} {x : α} {pre post : List (Nat × α)}
    (he : st.elems = pre ++ (a, x) :: post) (f : α → α) :
    ∃ s' st', update cmp key s a f = some (s', true) ∧ Reach cmp key al off s' st' ∧ st'.elems = pre ++ post ++ [(a, f x)] := by
  have hm : (a, x) ∈ st.elems := by rw [he]; simp
  obtain ⟨nd, no⟩ := h.addresses hc
  obtain ⟨s', r1, r2⟩ := h.does hc (.update a f) (Or.inl ⟨_, hm, rfl⟩) (Or.inl (no _ hm).2)
  obtain ⟨hf, hw⟩ := find_at nd he
  simp only [Omm.step, specStep, hf, Option.bind_eq_bind, Option.bind_eq_some_iff] at r1 r2
  obtain ⟨⟨s1, p⟩, r1, r3⟩ := r1
  simp only [Option.some.injEq, Prod.mk.injEq, PtrMap.Out.flag.injEq] at r3
  obtain ⟨rfl, rfl⟩ := r3
  exact ⟨s1, _, r1, r2, by simp only [hw]⟩

/-- A struct that has left the multimap is not extracted again: the answer is NULL and nothing changes.  Missing: structs
that were extracted while at least two older elements with the same key were stored, see `C36_omm_violated`. -/
theorem C36_omm_again_partial (hc : LawfulCmp cmp) (h : Reach cmp key al off s st) {a : Nat} (ha : a ∈ st.out)
    (hl : a ∉ st.later ∨ st.elems = []) (f : α → α) :
    eraseNode cmp key s a = some (s, none) ∧ update cmp key s a f = some (s, false) := by
  obtain ⟨A, D, h', T, m⟩ := h.sim hc
  exact ⟨m.extractOut ha hl, m.updateOut f ha hl⟩

example : ∃ s st s1 st1 s2 st2, Reach natCmp (Prod.fst : Nat × Nat → Nat) false 0 s st ∧ st.elems = sampleElems ∧
    eraseNode natCmp Prod.fst s 6 = some (s1, some 6) ∧ Reach natCmp (Prod.fst : Nat × Nat → Nat) false 0 s1 st1 ∧
    st1.elems = [(2, (3, 0)), (3, (5, 1)), (5, (8, 0)), (1, (5, 7))] ∧
    update natCmp Prod.fst s 3 (fun x => (9, x.2)) = some (s2, true) ∧ Reach natCmp (Prod.fst : Nat × Nat → Nat) false 0 s2 st2 ∧
    st2.elems = [(2, (3, 0)), (5, (8, 0)), (6, (5, 3)), (1, (5, 7)), (3, (9, 1))] ∧
    eraseNode natCmp Prod.fst s 7 = some (s, none) := by
  obtain ⟨s, st, h, he, ho, hl⟩ := sample_reach
  obtain ⟨s1, st1, a1, _, a2, a3⟩ := C36_omm_extract natCmp_lawful h (a := 6) (x := (5, 3))
    (pre := [(2, (3, 0)), (3, (5, 1)), (5, (8, 0))]) (post := [(1, (5, 7))]) he
  obtain ⟨s2, st2, b1, b2, b3⟩ := C36_omm_update natCmp_lawful h (a := 3) (x := (5, 1)) (pre := [(2, (3, 0))])
    (post := [(5, (8, 0)), (6, (5, 3)), (1, (5, 7))]) he (fun x => (9, x.2))
  exact ⟨s, st, s1, st1, s2, st2, h, he, a1, a2, a3, b1, b2, b3,
    (C36_omm_again_partial natCmp_lawful h (by rw [ho]; decide) (Or.inl (by rw [hl]; decide)) id).1⟩

/-- **C36 is violated**: an element with at least two older ones of the same key is extracted as it should be, but its links are
not reset, and extracting it a second time fails an assertion instead of answering NULL. -/
theorem C36_omm_violated (hc : LawfulCmp cmp) (h : Reach cmp key al off s st) {a : Nat} {x : α} {pre post : List (Nat × α)}
    (he : st.elems = pre ++ (a, x) :: post) (h2 : 2 ≤ (pre.filter (fun e => cmp (key x) (key e.2) == .eql)).length) :
    ∃ s', eraseNode cmp key s a = some (s', some a) ∧ eraseNode cmp key s' a = none := by
  obtain ⟨nd, _⟩ := h.addresses hc
  obtain ⟨A, D, h', T, m⟩ := h.sim hc
  have ha : a ∈ A := m.mem.1 ⟨(a, x), by rw [he]; simp, rfl⟩
  obtain ⟨n, hn, hh⟩ := m.core.find_node ha
  have hL := m.core.likes hc hn hh
  have hx : s.val a = x := by
    have : (a, x) ∈ st.elems := by rw [he]; simp
    rw [m.elems] at this
    obtain ⟨b, _, e⟩ := List.mem_map.1 this
    cases e; rfl
  have hA : A = st.elems.map Prod.fst := by rw [m.elems, List.map_map]; simp [Function.comp_def]
  have hL2 : n :: D n = ((pre.filter (fun e => cmp (key x) (key e.2) == .eql)).map Prod.fst) ++
      a :: ((post.filter (fun e => cmp (key x) (key e.2) == .eql)).map Prod.fst) := by
    rw [← hL]
    unfold likes
    have hv : ∀ e ∈ st.elems, s.val e.1 = e.2 := by
      intro e hm
      rw [m.elems] at hm
      obtain ⟨b, _, rfl⟩ := List.mem_map.1 hm
      rfl
    rw [hA, List.filter_map, hx]
    have : st.elems.filter ((fun b => cmp (key x) (key (s.val b)) == .eql) ∘ Prod.fst) =
        st.elems.filter (fun e => cmp (key x) (key e.2) == .eql) := by
      apply List.filter_congr
      intro e hm
      simp only [Function.comp, hv e hm]
    rw [this, he, List.filter_append, List.filter_cons, if_pos (by simp [hc.refl]), List.map_append]
    rfl
  have hlen : (pre.filter (fun e => cmp (key x) (key e.2) == .eql)).map Prod.fst ≠ [] := by
    intro hq
    rw [List.map_eq_nil_iff] at hq
    rw [hq] at h2; simp at h2
  match hp : (pre.filter (fun e => cmp (key x) (key e.2) == .eql)).map Prod.fst with
  | [] => exact absurd hp hlen
  | [_] =>
    have := congrArg List.length hp
    rw [List.length_map] at this
    rw [this] at h2; simp at h2
  | b :: y :: ys =>
    rw [hp] at hL2
    simp only [List.cons_append, List.cons.injEq] at hL2
    exact m.core.extractTwice m.sz hn hL2.2

example : ∃ s st s', Reach natCmp (Prod.fst : Nat × Nat → Nat) false 0 s st ∧
    eraseNode natCmp Prod.fst s 1 = some (s', some 1) ∧ eraseNode natCmp Prod.fst s' 1 = none := by
  obtain ⟨s, st, h, he, _⟩ := sample_reach
  obtain ⟨s', h1, h2⟩ := C36_omm_violated natCmp_lawful h (a := 1) (x := (5, 7))
    (pre := [(2, (3, 0)), (3, (5, 1)), (5, (8, 0)), (6, (5, 3))]) (post := []) he (by decide)
  exact ⟨s, st, s', h, h1, h2⟩

/-! ### C26: empty multimaps -/

theorem Reach.empty_state (hc : LawfulCmp cmp) (h : Reach cmp key al off s st) (he : st.elems = []) :
    s.sz = 0 ∧ s.root = 0 ∧ s.live 0 = true := by
  obtain ⟨A, D, h', T, m⟩ := h.sim hc
  have hA : A = [] := by have := m.elems; rw [he] at this; simpa using this.symm
  have hT := m.core.nil_iff.2 hA
  refine ⟨by rw [m.sz, hA]; rfl, by rw [m.core.root, hT]; rfl, m.core.rel.live 0 m.core.rel.zero⟩

/-- What holds of C26: these calls report absence on an empty multimap whatever the comparison function is: it is not called.
Missing: `contains`, `max` and `min`, see `C26_omm_violated_contains` and `C26_omm_violated_ends`. -/
theorem C26_omm_empty_partial (cmp' : κ → κ → Cmp) (hc : LawfulCmp cmp) (h : Reach cmp key al off s st) (he : st.elems = []) (k k' : κ) :
    find cmp' key s k = some (s, none) ∧ entry cmp' key s k = some (s, ⟨none, Stat.vacant⟩) ∧
    begin_ s = some none ∧ rbegin s = some none ∧
    equalRange cmp' key s k k' false = some (s, none, none) ∧ equalRange cmp' key s k k' true = some (s, none, none) ∧
    popMax cmp' key s = some (s, .inputErr) ∧ popMin cmp' key s = some (s, .inputErr) ∧ remove cmp' key s 0 = some (s, ⟨none, Stat.vacant⟩) := by
  obtain ⟨hz, hr, h0⟩ := h.empty_state hc he
  have hE : isEmpty s = true := by simp [isEmpty, hz]
  refine ⟨?_, ?_, ?_, ?_, ?_, ?_, ?_, ?_, ?_⟩
  · simp [find, hr]
  · simp [entry, find, hr]
  · simp [begin_, hE, hz]
  · simp [rbegin, hE, hz]
  · simp [equalRange, hE, hz]
  · simp [equalRange, hE, hz]
  · simp [popMax, eraseMaxOrMin, hE]
  · simp [popMin, eraseMaxOrMin, hE]
  · simp [remove, erase, hE]

/-- **C26 is violated** for `contains`: on every empty multimap it goes on to compare the key with the multimap's own sentinel,
which is no element. -/
theorem C26_omm_violated_contains (hc : LawfulCmp cmp) (h : Reach cmp key al off s st) (he : st.elems = []) (k : κ) :
    contains cmp key s k = none ∧ ∀ c : Nat → Option Cmp, c 0 = none → splay s c s.root = none := by
  obtain ⟨hz, hr, h0⟩ := h.empty_state hc he
  have key0 : ∀ c : Nat → Option Cmp, c 0 = none → splay s c s.root = none := by
    intro c hc0
    simp only [splay, hr, setBr, setPar, h0, if_true, Option.bind_eq_bind, Option.bind_some]
    rw [splayLoop]
    simp [hc0]
  refine ⟨?_, key0⟩
  simp only [contains, splayTo, key0 _ (show cmpAt cmp key s k 0 = none by simp [cmpAt])]
  rfl

/-- **C26 is violated** for `max` and `min`: on every empty multimap they answer a pointer to a struct around the multimap's own
sentinel instead of NULL. -/
theorem C26_omm_violated_ends (hc : LawfulCmp cmp) (h : Reach cmp key al off s st) (he : st.elems = []) :
    (∃ s', maxMin s .grt = some (s', some 0)) ∧ ∃ s', maxMin s .les = some (s', some 0) := by
  obtain ⟨hz, hr, h0⟩ := h.empty_state hc he
  constructor
  · simp only [maxMin, splay, hr, setBr, setPar, h0, if_true, Option.bind_eq_bind, Option.bind_some]
    rw [splayLoop]
    simp [force, branch, getBr, h0, link, setBr, hasDups, setPar]
  · simp only [maxMin, splay, hr, setBr, setPar, h0, if_true, Option.bind_eq_bind, Option.bind_some]
    rw [splayLoop]
    simp [force, branch, getBr, h0, link, setBr, hasDups, setPar]

/-- Not only the fresh multimap is empty: so is one whose elements were removed. -/
example : ∃ s st, Reach natCmp (Prod.fst : Nat × Nat → Nat) false 0 s st ∧ st.elems = [] ∧ find natCmp Prod.fst s 5 = some (s, none) ∧
    contains natCmp Prod.fst s 5 = none ∧ ∃ s', maxMin s .grt = some (s', some 0) := by
  have ok : okRun natCmp Prod.fst false 0 (none_ _) [Op.insert 1 (5, 7) none, .insert 2 (5, 8) none, .removeEntry (5 : Nat), .popMax] := by
    simp [okRun, safeOp, okOp, PtrMap.fresh, goodAns, specStep, addAt, St.add]
  obtain ⟨s, h⟩ := C34_omm_history_partial natCmp_lawful (fun _ _ => none) (fun _ => none) (fun _ => ((5, 7) : Nat × Nat)) false 0 _ ok
  have hr : Reach natCmp (Prod.fst : Nat × Nat → Nat) false 0 s _ := ⟨_, _, _, _, ok, ⟨_, h⟩, rfl⟩
  have he : (specRun natCmp Prod.fst false (none_ _) [Op.insert 1 (5, 7) none, .insert 2 (5, 8) none, .removeEntry (5 : Nat), .popMax]).1.elems = [] := by
    decide
  exact ⟨s, _, hr, he, (C26_omm_empty_partial natCmp natCmp_lawful hr he 5 5).1, (C26_omm_violated_contains natCmp_lawful hr he 5).1,
    (C26_omm_violated_ends natCmp_lawful hr he).1⟩

/-! ### C46, C51: validation and clearing -/

/-- `ccc_omm_validate` accepts every reachable multimap. -/
theorem C46_omm_validate (hc : LawfulCmp cmp) (h : Reach cmp key al off s st) : validate cmp key s = some true := by
  obtain ⟨A, D, h', T, m⟩ := h.sim hc
  exact m.core.validate hc m.sz

/-- `ccc_omm_clear` hands every stored element to the destructor exactly once, least keys first and equal keys oldest first; it
leaves an empty multimap, from which every later history runs as specified. -/
theorem C51_omm_clear (hc : LawfulCmp cmp) (h : Reach cmp key al off s st) :
    ∃ s' d st', clear cmp key s = some (s', d, .ok) ∧ d.Perm st.elems ∧ d.Pairwise (fun a b => cmp (key a.2) (key b.2) ≠ .grt) ∧
      Reach cmp key al off s' st' ∧ st'.elems = [] ∧ size s' = 0 ∧
      ∀ ops, okRun cmp key al off st' ops → ∃ s'', run cmp key s' ops = some (s'', (specRun cmp key al st' ops).2) := by
  obtain ⟨s', h1, h2⟩ := (h.sim hc).clear hc
  have hr : Reach cmp key al off s' (specStep cmp key al st .clear).1 :=
    h.step (op := .clear) (out := .result .ok) trivial trivial (by
      simp only [Omm.step, h1, Option.bind_eq_bind, Option.bind_some])
  refine ⟨s', _, _, h1, arrange_perm _, ?_, hr, rfl, (hr.empty_state hc rfl).1, ?_⟩
  · exact (arrange_spec (asc_pre hc) st.elems).1.imp (fun h => by simpa using h)
  · intro ops hok
    obtain ⟨s'', h3, _⟩ := run_sim hc ops h2 hok
    exact ⟨s'', h3⟩

example : ∃ s st s' d, Reach natCmp (Prod.fst : Nat × Nat → Nat) false 0 s st ∧ validate natCmp Prod.fst s = some true ∧
    clear natCmp Prod.fst s = some (s', d, .ok) ∧ d.Perm sampleElems := by
  obtain ⟨s, st, h, he, _⟩ := sample_reach
  obtain ⟨s', d, _, h1, h2, _⟩ := C51_omm_clear natCmp_lawful h
  exact ⟨s, st, s', d, h, C46_omm_validate natCmp_lawful h, h1, he ▸ h2⟩

/-! ### C50: the lazy macros -/

/-- **C50 is violated**: whenever the lazy `ccc_omm_try_insert_w` or `ccc_omm_insert_or_assign_w` store a new element, the entry they
return reports an insertion error. -/
theorem C50_omm_violated (hc : LawfulCmp cmp) (h : Reach cmp key true off s st) {k : κ} {x : α} {n : Nat}
    (ga : goodAns st (some n) 0) (hk : cmp k (key x) = .eql) (hn : ∀ d ∈ st.elems, cmp k (key d.2) ≠ .eql) :
    ∃ s' st', tryInsertW cmp key s k x (some n) = some (s', ⟨some n, Stat.insertError⟩) ∧
      insertOrAssignW cmp key s k x (some n) = some (s', ⟨some n, Stat.insertError⟩) ∧
      Reach cmp key true off s' st' ∧ st'.elems = st.elems ++ [(n, x)] := by
  have ho : oldest cmp key k st.elems = none := List.find?_eq_none.2 (fun d hd => by simpa using hn d hd)
  obtain ⟨A, D, h', T, m⟩ := h.sim hc
  obtain ⟨H1, h1, T1, m1, o1, hr⟩ := m.entryC hc k
  rcases hr with ⟨_, run1⟩ | ⟨a, _, e1, _⟩
  · rcases m1.keyVal hc (x := x) ga with ⟨e2, _⟩ | ⟨n', H2, e2, run2, _, _⟩
    · cases e2
    · cases e2
      have t1 : tryInsertW cmp key s k x (some n) = some (H2, ⟨some n, Stat.insertError⟩) := by
        simp only [tryInsertW, run1, Option.bind_eq_bind, Option.bind_some, vac_has, Bool.not_false, if_true, insertAndCopyKey, run2]
      refine ⟨H2, _, t1, ?_, h.step (op := .tryInsertW k x (some n)) (out := .ptr (view H2 (some n))) ⟨ga, hk⟩ trivial ?_, ?_⟩
      · simp only [insertOrAssignW, run1, Option.bind_eq_bind, Option.bind_some, vac_has, Bool.not_false, if_true, insertAndCopyKey, run2]
      · simp only [Omm.step, t1, Option.bind_eq_bind, Option.bind_some, unwrap_err]
      · simp only [specStep, ho]; rfl
  · rw [ho] at e1; cases e1

/-- What holds of C50: an occupied entry and a refused allocation are reported correctly, and the pointer is right in all cases. -/
theorem C50_omm_partial (hc : LawfulCmp cmp) (h : Reach cmp key al off s st) {k : κ} {x : α} {ans : Slot}
    (ga : goodAns st ans 0) :
    ∃ s' e, tryInsertW cmp key s k x ans = some (s', e) ∧
      match oldest cmp key k st.elems, addAt al none ans with
      | some (a, v), _ => e = ⟨some a, Stat.occupied⟩ ∧ s'.val a = v ∧ s'.sz = s.sz
      | none, some n => e.e = some n ∧ s'.val n = x ∧ s'.sz = s.sz + 1
      | none, none => e = ⟨none, Stat.insertError⟩ ∧ s'.sz = s.sz := by
  obtain ⟨A, D, h', T, m⟩ := h.sim hc
  obtain ⟨H1, h1, T1, m1, o1, hr⟩ := m.entryC hc k
  rcases hr with ⟨e0, run1⟩ | ⟨a, ha, e1, _, run1⟩
  · rcases m1.keyVal hc (x := x) ga with ⟨e2, run2⟩ | ⟨n', H2, e2, run2, m2, v2⟩
    · refine ⟨H1, ⟨none, Stat.insertError⟩, ?_, ?_⟩
      · simp only [tryInsertW, run1, Option.bind_eq_bind, Option.bind_some, vac_has, Bool.not_false, if_true, insertAndCopyKey, run2]
      · rw [e0, e2]; exact ⟨rfl, by rw [m1.sz, m.sz]⟩
    · refine ⟨H2, ⟨some n', Stat.insertError⟩, ?_, ?_⟩
      · simp only [tryInsertW, run1, Option.bind_eq_bind, Option.bind_some, vac_has, Bool.not_false, if_true, insertAndCopyKey, run2]
      · rw [e0, e2]
        refine ⟨rfl, v2, ?_⟩
        obtain ⟨A2, _, _, _, m2⟩ := m2
        have : (st.add n' x).elems.length = A2.length := by rw [m2.elems, List.length_map]
        rw [m2.sz, ← this, m.sz]
        simp [St.add, m.elems]
  · refine ⟨H1, ⟨some a, Stat.occupied⟩, ?_, ?_⟩
    · simp only [tryInsertW, run1, Option.bind_eq_bind, Option.bind_some, if_true, occ_has, Bool.not_true,
          Bool.false_eq_true, if_false]
    · rw [e1]; exact ⟨rfl, by rw [o1.val.1], by rw [m1.sz, m.sz]⟩

/-! ### C58: memory -/

/-- An allocating multimap with elements: copies of structs the user keeps on the stack (9), made at 1 and 2, and one at 3. -/
def allocOps : List (Op (Nat × Nat) Nat) :=
  [.insert 9 (5, 0) (some 1), .insert 9 (5, 1) (some 2), .orInsertW 7 (7, 7) (some 3)]

theorem allocOps_ok : okRun natCmp Prod.fst true 8 (none_ _) allocOps := by
  simp [allocOps, okRun, okOp, safeOp, specStep, oldest, addAt, St.add, St.forget, PtrMap.fresh, goodAns, natCmp]

theorem alloc_reach : ∃ s st, Reach natCmp (Prod.fst : Nat × Nat → Nat) true 8 s st ∧
    st = ⟨[(1, (5, 0)), (2, (5, 1)), (3, (7, 7))], [], []⟩ := by
  obtain ⟨s, h⟩ := C34_omm_history_partial natCmp_lawful (fun _ _ => none) (fun _ => none) (fun _ => ((0, 0) : Nat × Nat)) true 8
    allocOps allocOps_ok
  exact ⟨s, _, ⟨_, _, _, allocOps, allocOps_ok, ⟨_, h⟩, rfl⟩, rfl⟩

example : ∃ s s', Reach natCmp (Prod.fst : Nat × Nat → Nat) true 8 s ⟨[(1, (5, 0)), (2, (5, 1)), (3, (7, 7))], [], []⟩ ∧
    tryInsertW natCmp Prod.fst s 6 (6, 6) (some 4) = some (s', ⟨some 4, Stat.insertError⟩) := by
  obtain ⟨s, st, h, rfl⟩ := alloc_reach
  obtain ⟨s', _, h1, _⟩ := C50_omm_violated natCmp_lawful h (k := 6) (x := (6, 6)) (n := 4)
    (by intro n hn; cases hn; exact ⟨⟨by decide, by decide⟩, by decide, by decide⟩) (by decide) (by decide)
  exact ⟨s, s', h, h1⟩

/-- With an allocation function every stored element is in memory that came from it, and so every call that frees an element gives back
what it got: none of the calls in `C34_omm_history_partial` fails.  Missing: the calls below. -/
theorem C58_omm_owned_partial (hc : LawfulCmp cmp) (h : Reach cmp key true off s st) : ∀ e ∈ st.elems, s.own e.1 = true := by
  obtain ⟨A, D, h', T, m⟩ := h.sim hc
  intro e he
  exact m.own rfl _ (m.mem.1 ⟨e, he, rfl⟩)

/-- **C58 is violated**: with an allocation function `ccc_omm_try_insert` stores the caller's struct itself instead of a copy in
allocated memory.  If it did not come from the allocation function, removing the element by its key then frees memory that was never
allocated. -/
theorem C58_omm_violated_try_insert (hc : LawfulCmp cmp) (h : Reach cmp key true off s st) {e : Nat} {x : α}
    (hf : PtrMap.fresh st.elems e) (ho : s.own e = false) (hn : ∀ d ∈ st.elems, cmp (key x) (key d.2) ≠ .eql) :
    ∃ s', tryInsert cmp key (put s e x) e = some (s', ⟨some e, Stat.vacant⟩) ∧
      (do let (s, i) ← entry cmp key s' (key x); removeEntry cmp key s i) = none := by
  obtain ⟨A, D, h', T, m⟩ := h.sim hc
  have hfr := m.fresh.1 hf
  have mp := m.put hc (n := e) (x := x) hfr.1 hfr.2
  have hold : oldest cmp key (key x) st.elems = none := List.find?_eq_none.2 (fun d hd => by simpa using hn d hd)
  obtain ⟨H1, h1, T1, m1, o1, hr⟩ := mp.findC hc (key x)
  rcases hr with ⟨e0, run1⟩ | ⟨a, _, e1, _⟩
  · have hv : H1.val e = x := by rw [o1.val.1]; exact upd_same ..
    have hl : H1.live e = true := by rw [o1.val.2.1]; exact upd_same ..
    obtain ⟨H2, D2, h2, T2, run2, c2, o2⟩ := m1.core.insert hc m1.sz hfr.1 hl hfr.2
    have hfirst : first cmp key H1.val (key x) A = none := by
      have := m1.oldest (key x)
      rw [e0] at this
      simpa using this.symm
    rw [hv, hfirst] at run2
    have hz : H2.sz = (A ++ [e]).length := by rw [o2.val.2.2.2.1, m1.sz]; simp
    have hfirst2 : first cmp key H2.val (key x) (A ++ [e]) = some e := by
      rw [o2.val.1]
      unfold first at hfirst ⊢
      rw [List.find?_append, hfirst]
      simp [hv, hc.refl]
    refine ⟨H2, ?_, ?_⟩
    · have : key ((put s e x).val e) = key x := by simp [put]
      simp only [tryInsert, this, run1, Option.bind_eq_bind, Option.bind_some, Option.isSome_none, Bool.false_eq_true, if_false, run2]
      rfl
    · obtain ⟨H3, h3, T3, run3, c3, o3, _, _⟩ := c2.find hc (key x)
      have hz3 : H3.sz = (A ++ [e]).length := by rw [o3.val.2.2.2.1, hz]
      rw [hfirst2] at run3
      simp only [entry, run3, Option.bind_eq_bind, Option.bind_some, Option.isSome_some, if_true, removeEntry]
      have hk3 : key (H3.val e) = key x := by rw [o3.val.1, o2.val.1, hv]
      rw [hk3]
      rcases c3.erase hc hz3 (key x) with ⟨e4, _⟩ | ⟨r, H4, D4, h4, T4, e4, run4, _, o4⟩
      · rw [o3.val.1, hfirst2] at e4; cases e4
      · rw [o3.val.1, hfirst2] at e4
        cases e4
        simp only [run4, Option.bind_some]
        have ha : H4.alloc = true := by
          rw [o4.val.2.2.2.2.1, o3.val.2.2.2.2.1, o2.val.2.2.2.2.1, m1.alloc]
        have hown : H4.own e = false := by
          rw [o4.val.2.2.1, o3.val.2.2.1, o2.val.2.2.1, o1.val.2.2.1]; exact ho
        rw [if_pos ha]
        simp [free, hown]
  · rw [hold] at e1; cases e1

/-- **C58 is violated**: with an allocation function, if the intrusive element is not at the beginning of the user type, `ccc_omm_pop_min`
of any multimap that is not empty frees a wrong address. -/
theorem C58_omm_violated_pop_min (hc : LawfulCmp cmp) (h : Reach cmp key true off s st) (hne : st.elems ≠ []) (ho : off ≠ 0) :
    popMin cmp key s = none := by
  obtain ⟨A, D, h', T, m⟩ := h.sim hc
  rcases m.eraseEnd hc false with ⟨e, _⟩ | ⟨r, H1, D1, h1, T1, _, _, run, m1, _⟩
  · exact absurd e hne
  · simp only [Bool.false_eq_true, if_false] at run
    simp only [popMin, run, Option.bind_eq_bind, Option.bind_some]
    rw [if_pos m1.alloc, if_neg (by rw [m1.off]; exact ho)]

example : ∃ s s', Reach natCmp (Prod.fst : Nat × Nat → Nat) true 8 s ⟨[(1, (5, 0)), (2, (5, 1)), (3, (7, 7))], [], []⟩ ∧
    popMax natCmp Prod.fst s = some (s', .ok) ∧ popMin natCmp Prod.fst s = none := by
  obtain ⟨s, st, h, rfl⟩ := alloc_reach
  obtain ⟨_, _, _, s', _, h1, _⟩ := C34_omm_max natCmp_lawful h (by decide)
  exact ⟨s, s', h, h1, C58_omm_violated_pop_min natCmp_lawful h (by decide) (by decide)⟩

/-- The fresh allocating multimap: storing a struct from the stack and removing it. -/
example : ∃ s s', Reach natCmp (Prod.fst : Nat × Nat → Nat) true 0 s (none_ _) ∧
    tryInsert natCmp Prod.fst (put s 9 (5, 5)) 9 = some (s', ⟨some 9, Stat.vacant⟩) ∧
    (do let (s, i) ← entry natCmp Prod.fst s' 5; removeEntry natCmp Prod.fst s i) = none := by
  have hr : Reach natCmp (Prod.fst : Nat × Nat → Nat) true 0 (init (fun _ _ => none) (fun _ => none) (fun _ => (0, 0)) true 0) (none_ _) :=
    ⟨_, _, _, [], trivial, ⟨_, rfl⟩, rfl⟩
  obtain ⟨s', h1, h2⟩ := C58_omm_violated_try_insert natCmp_lawful hr (e := 9) (x := (5, 5)) ⟨by decide, by decide⟩ rfl (by decide)
  exact ⟨_, s', hr, h1, h2⟩

/-- **C60 is violated**: `ccc_omm_insert_entry` with an occupied entry is documented to overwrite the existing element; it stores a
duplicate behind it and leaves the existing one as it is. -/
theorem C60_omm_violated (hc : LawfulCmp cmp) (h : Reach cmp key false off s st) {k : κ} {e : Nat} {x : α} (hf : PtrMap.fresh st.elems e)
    (hk : cmp k (key x) = .eql) :
    ∃ s' st', Omm.step cmp key s (.insertEntry k e x none) = some (s', .ptr (some (e, x))) ∧ Reach cmp key false off s' st' ∧
      st'.elems = st.elems ++ [(e, x)] := by
  obtain ⟨s', r1, r2⟩ := h.does hc (.insertEntry k e x none) ⟨hf, (by intro n hn; cases hn), hk⟩ rfl
  exact ⟨s', _, r1, r2, rfl⟩

example : ∃ s st s' st', Reach natCmp (Prod.fst : Nat × Nat → Nat) false 0 s st ∧
    Omm.step natCmp (Prod.fst : Nat × Nat → Nat) s (.insertEntry 3 9 (3, 9) none) = some (s', .ptr (some (9, (3, 9)))) ∧
    Reach natCmp (Prod.fst : Nat × Nat → Nat) false 0 s' st' ∧
    st'.elems = [(2, (3, 0)), (3, (5, 1)), (5, (8, 0)), (6, (5, 3)), (1, (5, 7)), (9, (3, 9))] := by
  obtain ⟨s, st, h, he, _⟩ := sample_reach
  obtain ⟨s', st', h1, h2, h3⟩ := C60_omm_violated natCmp_lawful h (k := 3) (e := 9) (x := (3, 9))
    (by rw [he]; exact ⟨by decide, by decide⟩) (by decide)
  rw [he] at h3
  exact ⟨s, st, s', st', h, h1, h2, h3⟩

end CCC.Omm
