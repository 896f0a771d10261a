import Verif.Proof.FlatOrderedMapStep
import Verif.Props.FlatRealtimeMap
import Verif.Props.OrderedMap
/-
Properties of the flat ordered map (`src/flat_ordered_map.c`).

`run cmp key (init mem n al) ops` executes a history of calls on a fresh map over a buffer of `n` slots of arbitrary
memory, with or without an allocation function; `none` would be undefined behaviour (access to a slot not in use), a
failed assertion or a loop that does not end.  `specRunS cmp key al ⟨[], n, false⟩ ops` is the same history on a list of
elements in key order (`Verif/Spec/FlatMap.lean`).  `okRunS` is what the documentation asks of the caller; `safeRun` adds
that `contains` is not called on an empty map, see `C26_fom_violated`.
-/
namespace CCC.Fom
open CCC MapSpec FlatMap
open CCC.Rom (elems)
open CCC.Frm (Frm Junk inUse setSize growTo bufAllocBack setVal sizeSet destroyLoop asRom view Same destroyLoop_spec
  destroyLoop_ub sampleJunk)

variable {α κ : Type} {cmp : κ → κ → Cmp} {key : α → κ}

/-- The reachable states: after a history in which the caller followed the documentation (and did not call `contains` on
an empty map), with the contents the specification says. -/
def Reach (cmp : κ → κ → Cmp) (key : α → κ) (s : Fom α) (st : St α) : Prop :=
  ∃ mem n al ops, safeRun cmp key al ⟨[], n, false⟩ ops ∧ (∃ outs, run cmp key (init mem n al) ops = some (s, outs)) ∧
    (specRunS cmp key al ⟨[], n, false⟩ ops).1 = st

theorem Reach.sim {s : Fom α} {st : St α} (hc : LawfulCmp cmp) (h : Reach cmp key s st) : Sim cmp key s st := by
  obtain ⟨mem, n, al, ops, hok, ⟨outs, hr⟩, rfl⟩ := h
  obtain ⟨s', h1, h2, _⟩ := run_spec hc ops ⟨_, init_ok (cmp := cmp) (key := key) mem n al⟩ hok
  rw [h1] at hr
  simp only [Option.some.injEq, Prod.mk.injEq] at hr
  rw [← hr.1]; exact h2

theorem run_append (ops ops' : List (Op α κ (Junk α))) : ∀ {s s1 : Fom α} {o1 : List (Out α)},
    run cmp key s ops = some (s1, o1) →
    run cmp key s (ops ++ ops') = (run cmp key s1 ops').map (fun r => (r.1, o1 ++ r.2)) := by
  induction ops with
  | nil =>
    intro s s1 o1 h
    simp only [run, Option.some.injEq, Prod.mk.injEq] at h
    obtain ⟨rfl, rfl⟩ := h
    simp
  | cons o os ih =>
    intro s s1 o1 h
    simp only [run, Option.bind_eq_bind, Option.bind_eq_some_iff] at h
    obtain ⟨⟨s2, r⟩, h1, ⟨s3, rs⟩, h2, h3⟩ := h
    simp only [Option.some.injEq, Prod.mk.injEq] at h3
    obtain ⟨rfl, rfl⟩ := h3
    simp only [List.cons_append, run, h1, Option.bind_eq_bind, Option.bind_some, ih h2]
    cases run cmp key s3 ops' <;> rfl

/-- One more allowed call keeps a state reachable. -/
theorem Reach.step {s s' : Fom α} {st : St α} {op : Op α κ (Junk α)} {out : Out α} (hc : LawfulCmp cmp)
    (h : Reach cmp key s st) (ok : okOpS cmp key st op) (sf : safeOp st op) (hs : step cmp key s op = some (s', out)) :
    Reach cmp key s' (specStepS cmp key s.hasAlloc st op).1 := by
  obtain ⟨mem, n, al, ops, hok, ⟨outs, hr⟩, hl⟩ := h
  have hal : s.hasAlloc = al := by
    obtain ⟨s2, h1, _, h2⟩ := run_spec hc ops ⟨_, init_ok (cmp := cmp) (key := key) mem n al⟩ hok
    rw [h1] at hr
    simp only [Option.some.injEq, Prod.mk.injEq] at hr
    rw [← hr.1, h2]; rfl
  refine ⟨mem, n, al, ops ++ [op], ?_, ⟨outs ++ [out], ?_⟩, ?_⟩
  · rw [safeRun_append]; exact ⟨hok, by rw [hl]; exact ⟨ok, sf, trivial⟩⟩
  · rw [run_append ops [op] hr]; simp [run, hs]
  · rw [specRunS_append, hl, ← hal]; rfl

/-- A history used to show that hypotheses are met: a map that starts without memory, grows once, refuses once, replaces
an element and removes one in the middle. -/
def sampleOps : List (Op (Nat × Nat) Nat (Junk (Nat × Nat))) :=
  [.insert (5, 0) none, .end_, .insert (5, 0) (some sampleJunk), .tryInsert (3, 1) none, .insertOrAssign (8, 2) none,
   .tryInsertW 1 (1, 3) none, .orInsert 9 (9, 4) none, .insertOrAssign (3, 7) none, .insert (9, 5) none, .removeEntry 5,
   .get 3, .begin, .next 2, .equalRange 2 8, .andModify 8 (fun x => (x.1, x.2 + 1)), .size]

theorem sampleOps_ok : safeRun natCmp Prod.fst true ⟨[], 0, false⟩ sampleOps := by
  simp [sampleOps, safeRun, safeOp, okOpS, okOp, specStepS, specStep, lookup, add, room, grow, place, write, drop, MapSpec.erase, natCmp, ekey]

/-- Every history, with growth and refused allocations: all answers, statuses and returned pointers are those of the
sorted list.  Missing: histories with `contains` on an empty map, see `C26_fom_violated`. -/
theorem C28_fom_history_partial (hc : LawfulCmp cmp) (mem : Junk α) (n : Nat) (al : Bool) (ops : List (Op α κ (Junk α)))
    (hok : safeRun cmp key al ⟨[], n, false⟩ ops) :
    ∃ s, run cmp key (init mem n al) ops = some (s, (specRunS cmp key al ⟨[], n, false⟩ ops).2) := by
  obtain ⟨s, h, _⟩ := run_spec hc ops ⟨_, init_ok (cmp := cmp) (key := key) mem n al⟩ hok
  exact ⟨s, h⟩

example : ∃ s, run natCmp Prod.fst (init sampleJunk 0 true) sampleOps =
    some (s, (specRunS natCmp Prod.fst true ⟨[], 0, false⟩ sampleOps).2) :=
  C28_fom_history_partial natCmp_lawful _ _ _ _ sampleOps_ok

/-- What the sample history stores at its end: key 9, stored last, took over slot 1. -/
def sampleSt : St (Nat × Nat) := ⟨[(4, (1, 3)), (2, (3, 7)), (3, (8, 3)), (1, (9, 5))], 8, true⟩

theorem sample_reach : ∃ s, Reach natCmp (Prod.fst : Nat × Nat → Nat) s sampleSt := by
  obtain ⟨s, h⟩ := C28_fom_history_partial natCmp_lawful sampleJunk 0 true sampleOps sampleOps_ok
  exact ⟨s, _, _, _, sampleOps, sampleOps_ok, ⟨_, h⟩, by
    simp [sampleSt, sampleOps, specRunS, specStepS, specStep, lookup, add, room, grow, place, write, drop, MapSpec.erase, natCmp, ekey]⟩

/-- The specification's list is always in strictly ascending key order: no two stored elements have equal keys. -/
theorem C28_fom_sorted (hc : LawfulCmp cmp) {s : Fom α} {st : St α} (h : Reach cmp key s st) :
    Sorted cmp (ekey key) st.l := by
  obtain ⟨T, o⟩ := h.sim hc
  obtain ⟨_, ⟨_, o⟩ | ⟨_, hl, _⟩⟩ := o
  · exact o.ok.sorted
  · rw [hl]; exact List.Pairwise.nil

/-- The stored elements occupy exactly the slots `1, ..., size`, all of them inside the buffer, and each slot holds
the data of its element. -/
theorem C28_fom_compact (hc : LawfulCmp cmp) {s : Fom α} {st : St α} (h : Reach cmp key s st) :
    (st.l.map Prod.fst).Nodup ∧ (∀ a, a ∈ st.l.map Prod.fst ↔ 1 ≤ a ∧ a ≤ size s) ∧ size s = st.l.length ∧
    (∀ e ∈ st.l, e.1 < s.cap ∧ s.val e.1 = e.2) := by
  obtain ⟨T, o⟩ := h.sim hc
  have hsz := size_eq o
  obtain ⟨_, ⟨_, o⟩ | ⟨_, hl, _⟩⟩ := o
  · have hids : st.l.map Prod.fst = T.ids := by
      rw [o.ok.list]; exact Rom.ids_elems _ _
    rw [hids, hsz]
    refine ⟨o.ok.nodup, fun a => o.mem_iff, rfl, fun e he => ?_⟩
    rw [o.ok.list, Rom.mem_elems] at he
    have := o.mem_iff.1 he.1
    have := o.sz
    have := o.le
    exact ⟨by omega, he.2.symm⟩
  · rw [hsz, hl]
    refine ⟨List.nodup_nil, fun a => ?_, rfl, by simp⟩
    simp; omega

example : ∃ s, Reach natCmp (Prod.fst : Nat × Nat → Nat) s sampleSt ∧
    (sampleSt.l.map Prod.fst).Nodup ∧ size s = 4 ∧ s.val 1 = (9, 5) := by
  obtain ⟨s, h⟩ := sample_reach
  obtain ⟨h1, _, h3, h4⟩ := C28_fom_compact natCmp_lawful h
  exact ⟨s, h, h1, h3, (h4 (1, (9, 5)) (by simp [sampleSt])).2⟩

/-- Where the iteration starts and how it proceeds; slot 0 is the end of a map in use, NULL the end of one never used. -/
theorem Sim.next_walk {s : Fom α} {st : St α} (h : Sim cmp key s st) :
    (st.l.map Prod.fst).Nodup ∧
    (∀ pre a post, st.l.map Prod.fst = pre ++ a :: post → next s a true = some (post.head?.or (end_ s))) ∧
    (∀ pre a post, (st.l.map Prod.fst).reverse = pre ++ a :: post → next s a false = some (post.head?.or (end_ s))) ∧
    begin_ s false = some ((st.l.map Prod.fst).head?.or (end_ s)) ∧
    begin_ s true = some ((st.l.map Prod.fst).reverse.head?.or (end_ s)) := by
  obtain ⟨T, _, ⟨_, o⟩ | ⟨_, hl, _, o⟩⟩ := h
  · have hids : st.l.map Prod.fst = T.ids := by rw [o.ok.list]; exact Rom.ids_elems _ _
    have hsz := o.sz_ne
    have he : end_ s = some 0 := by rw [end_, if_neg hsz]
    have hz : ∀ m : List Nat, some (m.headD 0) = m.head?.or (end_ s) := by
      intro m; rw [he]; cases m <;> rfl
    have hz' : ∀ m : List Nat, some (m.getLastD 0) = m.reverse.head?.or (end_ s) := by
      intro m; rw [← hz]; simp
    rw [hids]
    refine ⟨o.ok.nodup, ?_, ?_, ?_, ?_⟩
    · intro pre a post e
      have hn : Wavl.next s.t a true = some (post.headD 0) := Wavl.next_whole o.ok.whole e true
      simp only [next, if_neg hsz, hn, Option.bind_eq_bind, Option.bind_some]
      rw [hz]
    · intro pre a post e
      have e' : T.ids = post.reverse ++ a :: pre.reverse := by
        have := congrArg List.reverse e
        simpa using this
      have hn : Wavl.next s.t a false = some (post.reverse.getLastD 0) := Wavl.next_whole o.ok.whole e' false
      simp only [next, if_neg hsz, hn, Option.bind_eq_bind, Option.bind_some]
      rw [hz', List.reverse_reverse]
    · have hm : Wavl.minMaxFrom s.t s.t.root false = some (T.ids.headD 0) := Wavl.minMaxFrom_whole o.ok.whole false
      simp only [begin_, if_neg hsz, hm, Option.bind_eq_bind, Option.bind_some]
      rw [hz]
    · have hm : Wavl.minMaxFrom s.t s.t.root true = some (T.ids.getLastD 0) := Wavl.minMaxFrom_whole o.ok.whole true
      simp only [begin_, if_neg hsz, hm, Option.bind_eq_bind, Option.bind_some]
      rw [hz']
  · rw [hl]
    refine ⟨List.nodup_nil, by simp, by simp, ?_, ?_⟩ <;> simp [begin_, end_, o.sz]

theorem Sim.end_ne {s : Fom α} {st : St α} (h : Sim cmp key s st) : ∀ a ∈ st.l.map Prod.fst, end_ s ≠ some a := by
  obtain ⟨T, _, ⟨_, o⟩ | ⟨_, hl, _, o⟩⟩ := h
  · have hids : st.l.map Prod.fst = T.ids := by rw [o.ok.list]; exact Rom.ids_elems _ _
    rw [hids]
    intro a ha
    rw [end_, if_neg (o.sz_ne)]
    intro hh
    exact o.ok.ne_zero ha (Option.some.inj hh).symm
  · rw [hl]; simp

/-- `for (p = begin; p != end; p = next(p))` visits exactly the stored elements, in key order, and the reverse loop in
the opposite order. -/
theorem C28_fom_iteration (hc : LawfulCmp cmp) {s : Fom α} {st : St α} (h : Reach cmp key s st) :
    (do let p ← begin_ s false; iterate (next s · true) (end_ s) p) = some (st.l.map Prod.fst) ∧
    (do let p ← begin_ s true; iterate (next s · false) (end_ s) p) = some (st.l.map Prod.fst).reverse := by
  have hs := h.sim hc
  obtain ⟨hn, hnx, hrn, hb, hrb⟩ := hs.next_walk
  have he := hs.end_ne
  constructor
  · simp only [hb, Option.bind_eq_bind, Option.bind_some]
    have := iterate_spec' he hn hnx (pre := []) (m := st.l.map Prod.fst) (post := []) (by simp)
    simpa using this
  · simp only [hrb, Option.bind_eq_bind, Option.bind_some]
    have := iterate_spec' (by simpa using he) (nodup_reverse' hn) hrn (pre := []) (m := (st.l.map Prod.fst).reverse)
      (post := []) (by simp)
    simpa using this


/-- The nodes of a range query's result, on the state it leaves. -/
theorem Reach.range {s : Fom α} {st : St α} (hc : LawfulCmp cmp) (h : Reach cmp key s st) (b e : κ) (hne : st.l ≠ []) :
    (∃ s', Reach cmp key s' st ∧ equalRange cmp key s b e true =
      some (s', ((firstNotLess cmp (ekey key) b st.l).map Prod.fst).or (end_ s'),
        ((firstGreater cmp (ekey key) e st.l).map Prod.fst).or (end_ s'))) ∧
    (∃ s', Reach cmp key s' st ∧ equalRange cmp key s b e false =
      some (s', ((lastNotGreater cmp (ekey key) b st.l).map Prod.fst).or (end_ s'),
        ((lastLess cmp (ekey key) e st.l).map Prod.fst).or (end_ s'))) := by
  obtain ⟨T, o⟩ := h.sim hc
  have hemp : st.l.isEmpty = false := by
    cases hl : st.l with
    | nil => exact absurd hl hne
    | cons => rfl
  have hE : ∀ s' : Fom α, Reach cmp key s' st → end_ s' = some 0 ∧ ∀ x ∈ st.l, x.1 ≠ 0 := by
    intro s' r'
    obtain ⟨T', o'⟩ := r'.sim hc
    obtain ⟨_, h', _⟩ := o'.startd hne
    refine ⟨by rw [end_, if_neg h'.sz_ne], fun x hx => ?_⟩
    rw [h'.ok.list, Rom.mem_elems] at hx
    exact h'.ok.ne_zero hx.1
  obtain ⟨⟨s1, h1, _⟩, s2, h2, _⟩ := step_range hc o (b := b) (e := e)
  have r1 := h.step hc (op := .equalRange b e) trivial trivial h1
  have r2 := h.step hc (op := .equalRrange b e) trivial trivial h2
  simp only [specStepS, specStep, hemp, Bool.false_eq_true, if_false] at r1 r2
  have hv : ∀ (s' : Fom α) (p : Slot) (q : Option (Nat × α)), (∀ x, q = some x → x.1 ≠ 0) → view s' p = look .fin q →
      p = (q.map Prod.fst).or (some 0) := by
    intro s' p q hq hpq
    cases p with
    | none =>
      cases q with
      | none => cases hpq
      | some x => cases hpq
    | some a =>
      cases q with
      | none =>
        cases a with
        | zero => rfl
        | succ a => cases hpq
      | some x =>
        have := hq x rfl
        cases a with
        | zero => cases hpq
        | succ a =>
          simp only [Frm.view, look, View.elem.injEq] at hpq
          simp [hpq.1]
  have hm : ∀ (p : Nat × α → Bool) (m : List (Nat × α)), (∀ x ∈ m, x ∈ st.l) → ∀ x, m.find? p = some x → x.1 ≠ 0 :=
    fun p m hm x hx => (hE s h).2 x (hm x (List.mem_of_find?_eq_some hx))
  have hrev : ∀ x ∈ st.l.reverse, x ∈ st.l := fun x hx => List.mem_reverse.1 hx
  simp only [Fom.step, specStepS, specStep, hemp, Bool.false_eq_true, if_false, Option.bind_eq_bind] at h1 h2
  constructor
  · cases hr : equalRange cmp key s b e true with
    | none => rw [hr] at h1; simp at h1
    | some r =>
      rw [hr] at h1
      simp only [Option.bind_some, Option.some.injEq, Prod.mk.injEq, Out.range.injEq] at h1
      refine ⟨s1, r1, ?_⟩
      have g1 := hv _ _ (firstNotLess cmp (ekey key) b st.l) (hm _ _ (fun x hx => hx)) h1.2.1
      have g2 := hv _ _ (firstGreater cmp (ekey key) e st.l) (hm _ _ (fun x hx => hx)) h1.2.2
      rw [(hE s1 r1).1, ← g1, ← g2, ← h1.1]
  · cases hr : equalRange cmp key s b e false with
    | none => rw [hr] at h2; simp at h2
    | some r =>
      rw [hr] at h2
      simp only [Option.bind_some, Option.some.injEq, Prod.mk.injEq, Out.range.injEq] at h2
      refine ⟨s2, r2, ?_⟩
      have g1 := hv _ _ (lastNotGreater cmp (ekey key) b st.l) (hm _ _ hrev) h2.2.1
      have g2 := hv _ _ (lastLess cmp (ekey key) e st.l) (hm _ _ hrev) h2.2.2
      rw [(hE s2 r2).1, ← g1, ← g2, ← h2.1]

theorem Sim.range_nil {s : Fom α} {st : St α} (h : Sim cmp key s st) (cmp' : κ → κ → Cmp) (b e : κ) (hl : st.l = [])
    (trav : Bool) : equalRange cmp' key s b e trav = some (s, none, none) := by
  obtain ⟨T, o⟩ := h
  have hemp := isEmpty_eq o
  rw [hl] at hemp
  rw [equalRange, if_pos (by rw [hemp]; rfl)]

/-- `equal_range` and `equal_rrange` return the specified end points, for every pair of keys, and change no
membership. -/
theorem C25_fom_range_ends (hc : LawfulCmp cmp) {s : Fom α} {st : St α} (h : Reach cmp key s st) (b e : κ)
    (hne : st.l ≠ []) :
    (∃ s', Reach cmp key s' st ∧ equalRange cmp key s b e true =
      some (s', ((firstNotLess cmp (ekey key) b st.l).map Prod.fst).or (end_ s'),
        ((firstGreater cmp (ekey key) e st.l).map Prod.fst).or (end_ s'))) ∧
    (∃ s', Reach cmp key s' st ∧ equalRange cmp key s b e false =
      some (s', ((lastNotGreater cmp (ekey key) b st.l).map Prod.fst).or (end_ s'),
        ((lastLess cmp (ekey key) e st.l).map Prod.fst).or (end_ s'))) :=
  h.range hc b e hne

/-- Iterating over the range visits exactly the elements with keys in `[b, e]`, in order. -/
theorem C25_fom_range (hc : LawfulCmp cmp) {s : Fom α} {st : St α} (h : Reach cmp key s st) {b e : κ}
    (hbe : cmp b e ≠ .grt) :
    (do let r ← equalRange cmp key s b e true; overRange (next r.1 · true) r.2) =
      some ((st.l.filter (fun x => cmp b (key x.2) != .grt && cmp e (key x.2) != .les)).map Prod.fst) := by
  by_cases hne : st.l = []
  · rw [(h.sim hc).range_nil cmp b e hne, hne]
    simp only [Option.bind_eq_bind, Option.bind_some]
    rw [overRange, iterate.eq_def]; simp [Range.begin_, Range.end_]
  · obtain ⟨s', r', hrun⟩ := (h.range hc b e hne).1
    have hs := r'.sim hc
    obtain ⟨hn, hnx, _⟩ := hs.next_walk
    obtain ⟨pre, post, e1, e2, e3⟩ := range_split hc (C28_fom_sorted hc h) hbe
    simp only [hrun, Option.bind_eq_bind, Option.bind_some, ← e2, ← e3, ← List.head?_map, List.map_append]
    exact iterate_spec' hs.end_ne hn hnx (pre := pre.map Prod.fst) (by
      rw [← List.map_append, ← List.map_append]; exact congrArg _ e1)

/-- Iterating backwards over the reverse range visits exactly the elements with keys in `[e, b]`, descending. -/
theorem C25_fom_rrange (hc : LawfulCmp cmp) {s : Fom α} {st : St α} (h : Reach cmp key s st) {b e : κ}
    (hbe : cmp e b ≠ .grt) :
    (do let r ← equalRange cmp key s b e false; overRange (next r.1 · false) r.2) =
      some ((st.l.filter (fun x => cmp b (key x.2) != .les && cmp e (key x.2) != .grt)).map Prod.fst).reverse := by
  by_cases hne : st.l = []
  · rw [(h.sim hc).range_nil cmp b e hne, hne]
    simp only [Option.bind_eq_bind, Option.bind_some]
    rw [overRange, iterate.eq_def]; simp [Range.begin_, Range.end_]
  · obtain ⟨s', r', hrun⟩ := (h.range hc b e hne).2
    have hs := r'.sim hc
    obtain ⟨hn, _, hrn, _⟩ := hs.next_walk
    obtain ⟨pre, post, e1, e2, e3⟩ := rrange_split hc (C28_fom_sorted hc h) hbe
    simp only [hrun, Option.bind_eq_bind, Option.bind_some, ← e2, ← e3, ← List.head?_map, List.map_append]
    rw [List.map_reverse]
    exact iterate_spec' (by simpa using hs.end_ne) (nodup_reverse' hn) hrn (pre := pre.map Prod.fst) (by
      rw [← List.map_reverse, ← List.map_reverse, ← List.map_append, ← List.map_append]; exact congrArg _ e1)

example : ∃ s, Reach natCmp (Prod.fst : Nat × Nat → Nat) s sampleSt ∧
    (do let p ← begin_ s false; iterate (next s · true) (end_ s) p) = some [4, 2, 3, 1] ∧
    (do let r ← equalRange natCmp Prod.fst s 2 8 true; overRange (next r.1 · true) r.2) = some [2, 3] := by
  obtain ⟨s, h⟩ := sample_reach
  refine ⟨s, h, (C28_fom_iteration natCmp_lawful h).1, ?_⟩
  rw [C25_fom_range natCmp_lawful h (by decide)]
  rfl

/-! ### Empty maps -/

theorem Reach.empty_root (hc : LawfulCmp cmp) {s : Fom α} {st : St α} (h : Reach cmp key s st) (hl : st.l = []) :
    s.t.root = 0 := by
  obtain ⟨T, _, ⟨_, o⟩ | ⟨_, _, _, o⟩⟩ := h.sim hc
  · have hT := o.nil_iff.1 hl
    subst hT
    exact o.ok.whole.ctx
  · exact o.root

/-- What holds of C26: every query but `contains` reports absence on an empty map, used before or not, whatever the
comparison function is: it is not called.  Missing: `contains`, see `C26_fom_violated`. -/
theorem C26_fom_empty_partial (cmp' : κ → κ → Cmp) (hc : LawfulCmp cmp) {s : Fom α} {st : St α} (h : Reach cmp key s st)
    (hl : st.l = []) (k k' : κ) (x : α) :
    get cmp' key s k = some (s, none) ∧ entry cmp' key s k = some (s, ⟨0, Stat.vacant⟩) ∧
    begin_ s false = some (end_ s) ∧ begin_ s true = some (end_ s) ∧
    equalRange cmp' key s k k' true = some (s, none, none) ∧ equalRange cmp' key s k k' false = some (s, none, none) ∧
    remove cmp' key s x = some (s, ⟨none, Stat.vacant⟩) := by
  have hs := h.sim hc
  obtain ⟨_, _, _, hb, hrb⟩ := hs.next_walk
  rw [hl] at hb hrb
  have hr := h.empty_root hc hl
  have hemp : isEmpty s = true := by
    obtain ⟨T, o⟩ := hs
    rw [isEmpty_eq o, hl]; rfl
  refine ⟨?_, ?_, by simpa using hb, by simpa using hrb, hs.range_nil cmp' k k' hl true, hs.range_nil cmp' k k' hl false, ?_⟩
  · simp [get, find, hr]
  · simp [entry, find, hr]
  · simp [remove, erase, hemp]

/-- C26 fails for `contains`: on an empty map that was used before it compares the key with whatever data lie in the
library's own slot 0, and answers from that; on one never used there is no such slot and it reads outside the used part
of the buffer. -/
theorem C26_fom_violated (hc : LawfulCmp cmp) {s : Fom α} {st : St α} (h : Reach cmp key s st) (hl : st.l = []) (k : κ) :
    (contains cmp key s k).map Prod.snd =
      if st.started then some (cmp k (key (s.val 0)) == .eql) else none := by
  have hr := h.empty_root hc hl
  have hgo : ∀ q, cmpAt cmp key s k 0 = some q → ∀ t : Links, t.br 0 false = 0 → t.br 0 true = 0 → t.live 0 = true →
      Splay.splayLoop t (cmpAt cmp key s k) (fun _ => 0) 0 = some (t, (fun _ => 0), 0) := by
    intro q hq t h1 h2 h3
    rw [Splay.splayLoop, hq]
    simp only [Option.bind_eq_bind, Option.bind_some]
    by_cases he : q = .eql
    · simp [he]
    · cases hd : decide (q = .grt) <;> simp [he, Links.getBr, h1, h2, h3]
  obtain ⟨T, _, ⟨hst, o⟩ | ⟨hst, _, _, o⟩⟩ := h.sim hc
  · have l0 : s.t.live 0 = true := o.ok.whole.live0
    have hc0 : cmpAt cmp key s k 0 = some (cmp k (key (s.val 0))) := by simp [cmpAt, l0]
    simp only [contains, splayTo, Splay.splay, hr, Links.setBr, Links.setPar, l0, if_true, Option.bind_eq_bind,
      Option.bind_some]
    rw [hgo _ hc0 _ (by simp) (by simp) (by exact l0)]
    simp [hc0, Splay.link, Links.setBr, Links.setPar, Links.getBr, Links.setRoot, l0, cmpAt, hst]
  · have l0 : s.t.live 0 = false := by rw [o.live, o.sz]; simp [inUse]
    simp [contains, splayTo, Splay.splay, hr, Links.setBr, l0, hst]

/-- The data that removals leave in slot 0. -/
theorem Reach.removed {s : Fom α} {st : St α} (hc : LawfulCmp cmp) (h : Reach cmp key s st) {x v : α} {r : Nat}
    (hl : lookup cmp (ekey key) (key x) st.l = some (r, v)) :
    ∃ s' out, Fom.step cmp key s (.remove x) = some (s', out) ∧
      Reach cmp key s' { st with l := drop cmp key (key x) r st.l } ∧
      s'.val 0 = if r = st.l.length then s.val 0 else v := by
  obtain ⟨T, o⟩ := h.sim hc
  rcases erase_spec o hc (key x) with ⟨r', s', T', run, hlk, _, _, _, n0, h0⟩ | ⟨t, T', run, o', hlk⟩
  · rw [hl] at hlk
    simp only [Option.some.injEq, Prod.mk.injEq] at hlk
    obtain ⟨rfl, rfl⟩ := hlk
    have hstep : ∃ out, Fom.step cmp key s (.remove x) = some (s', out) :=
      ⟨_, by simp only [Fom.step, Fom.remove, run, Option.bind_eq_bind, Option.bind_some]; rfl⟩
    obtain ⟨out, hstep⟩ := hstep
    have r' := h.step hc (op := .remove x) trivial trivial hstep
    simp only [specStepS, hl] at r'
    exact ⟨s', out, hstep, r', h0⟩
  · rw [hl] at hlk; cases hlk

/-- The consequence: inserting 5 and 6 and removing 5 and 6 leaves an empty map that says it contains 5. -/
theorem C26_fom_violated_history (mem : Junk (Nat × Nat)) (n : Nat) (al : Bool) (a b : Nat) :
    ∃ s, Reach natCmp Prod.fst s ⟨[], n + 3, true⟩ ∧
    (∃ outs, run natCmp Prod.fst (init mem (n + 3) al)
      [.insert (5, a) none, .insert (6, b) none, .remove (5, 0), .remove (6, 0)] = some (s, outs)) ∧
    size s = 0 ∧ (contains natCmp Prod.fst s 5).map Prod.snd = some true := by
  have ok : safeRun natCmp Prod.fst al ⟨[], n + 3, false⟩
      ([.insert (5, a) none, .insert (6, b) none] : List (Op (Nat × Nat) Nat (Junk (Nat × Nat)))) := by
    simp [safeRun, safeOp, okOpS, okOp]
  obtain ⟨s, h⟩ := C28_fom_history_partial natCmp_lawful mem (n + 3) al _ ok
  have hr : Reach natCmp (Prod.fst : Nat × Nat → Nat) s ⟨[(1, (5, a)), (2, (6, b))], n + 3, true⟩ :=
    ⟨_, _, _, _, ok, ⟨_, h⟩, by
      simp [specRunS, specStepS, specStep, lookup, add, room, grow, place, natCmp, ekey]⟩
  obtain ⟨s1, o1, h1, r1, z1⟩ := hr.removed natCmp_lawful (x := (5, 0)) (r := 1) (v := (5, a)) rfl
  have e1 : drop natCmp Prod.fst 5 1 [(1, (5, a)), (2, (6, b))] = [(1, (6, b))] := rfl
  simp only [e1, List.length_cons, List.length_nil] at r1 z1
  obtain ⟨s2, o2, h2, r2, z2⟩ := r1.removed natCmp_lawful (x := (6, 0)) (r := 1) (v := (6, b)) rfl
  have e2 : drop natCmp Prod.fst 6 1 [(1, (6, b))] = [] := rfl
  simp only [e2, List.length_cons, List.length_nil] at r2 z2
  have hv : s2.val 0 = (5, a) := by rw [z2]; simpa using z1
  have hrun := run_append _ ([.remove (5, 0), .remove (6, 0)]) h
  simp only [List.cons_append, List.nil_append, run, h1, h2, Option.bind_eq_bind, Option.bind_some, Option.map_some] at hrun
  refine ⟨s2, r2, ⟨_, hrun⟩, ?_, ?_⟩
  · obtain ⟨T, o⟩ := r2.sim natCmp_lawful
    rw [size_eq o]; rfl
  · rw [C26_fom_violated natCmp_lawful r2 rfl 5, hv]; rfl

/-! ### Access locality -/

/-- After any call that looks up or inserts the key `k`, after which `k` is stored, the element of `k` is the root;
a lookup of `k` then asks for no other comparison than that of `k` with the root: whatever `cmp'` answers elsewhere,
the lookup finds the element, leaves the same contents, and again with the element at the root. -/
theorem C27_fom_locality (hc : LawfulCmp cmp) {s : Fom α} {st : St α} (h : Reach cmp key s st) (op : Op α κ (Junk α))
    (ok : okOpS cmp key st op) (sf : safeOp st op) {k : κ} (hk : opKey key op = some k) {a : Nat} {v : α}
    (hl : lookup cmp (ekey key) k (specStepS cmp key s.hasAlloc st op).1.l = some (a, v)) :
    ∃ s' out, step cmp key s op = some (s', out) ∧ s'.t.root = a ∧
      ∀ cmp' : κ → κ → Cmp, cmp' k (key v) = .eql → ∃ s'', get cmp' key s' k = some (s'', some a) ∧ s''.t.root = a ∧
        Reach cmp key s'' (specStepS cmp key s.hasAlloc st op).1 := by
  obtain ⟨T, o⟩ := h.sim hc
  obtain ⟨s', h1, ⟨T', o'⟩, a', ht⟩ := step_spec hc o op ok sf
  have r' := h.step hc ok sf h1
  have hroot : s'.t.root = a := by
    rcases ht k hk with ⟨e, he, hr, heq⟩ | hn
    · obtain ⟨m1, q1⟩ := Om.lookup_some hl
      have : e = (a, v) := by
        have hs := C28_fom_sorted hc r'
        by_cases hne : e = (a, v)
        · exact hne
        · rcases Om.sorted_ne hs he m1 hne with hlt | hlt
          · rw [hc.eql_congr_left (hc.symm heq)] at hlt; rw [q1] at hlt; cases hlt
          · rw [hc.eql_congr_left (hc.symm q1)] at hlt; rw [heq] at hlt; cases hlt
      rw [← hr, this]
    · rw [hn] at hl; cases hl
  obtain ⟨m1, q1⟩ := Om.lookup_some hl
  obtain ⟨_, hsd, _⟩ := o'.startd (by intro hh; rw [hh] at m1; cases m1)
  have hva : s'.val a = v ∧ a ∈ T'.ids := by
    rw [hsd.ok.list, Rom.mem_elems] at m1; exact ⟨m1.2.symm, m1.1⟩
  refine ⟨s', _, h1, hroot, fun cmp' hc' => ?_⟩
  have ha0 : s'.t.root ≠ 0 := by rw [hroot]; exact hsd.ok.ne_zero hva.2
  have hlive : s'.t.live a = true := hsd.live_mem hva.2
  rcases o'.find hc k with ⟨t, x, m, A, B, hst, hf, o2, hr, hx, _, _, hlk⟩ | ⟨t, T2, hf, _, hlk⟩
  · rw [hl] at hlk
    simp only [Option.some.injEq, Prod.mk.injEq] at hlk
    obtain ⟨rfl, rfl⟩ := hlk
    have hlv : t.live a = true := o2.live_mem (by simp [Tree.ids])
    refine ⟨{ s' with t := t }, ?_, hr, ?_⟩
    · have hs : Splay.splay s'.t (cmpAt cmp' key s' k) s'.t.root = Splay.splay s'.t (cmpAt cmp key s' k) s'.t.root := by
        apply Om.splay_root
        · simp [cmpAt, hroot, hlive, hc']
        · simp [cmpAt, hroot, hlive, hx]
      rw [find, if_neg ha0, splayTo] at hf
      rw [get, find, if_neg ha0, splayTo, hs]
      cases hsp : Splay.splay s'.t (cmpAt cmp key s' k) s'.t.root with
      | none => rw [hsp] at hf; cases hf
      | some r =>
        rw [hsp] at hf
        simp only [Option.bind_eq_bind, Option.bind_some] at hf ⊢
        cases hq : cmpAt cmp key { s' with t := r.1.setRoot r.2 } k (r.1.setRoot r.2).root with
        | none => rw [hq] at hf; cases hf
        | some q =>
          rw [hq] at hf
          simp only [Option.bind_some, Option.some.injEq, Prod.mk.injEq] at hf
          obtain ⟨e1, e2⟩ := hf
          have et : r.1.setRoot r.2 = t := congrArg (fun s : Fom α => s.t) e1
          rw [et] at hq ⊢
          have hq' : cmpAt cmp' key { s' with t := t } k t.root = some .eql := by
            simp [cmpAt, hr, hlv, hc']
          rw [hq']
          simp [hr]
    · have hg : step cmp key s' (.get k) = some ({ s' with t := t }, .ptr (view { s' with t := t } (some a))) := by
        simp only [step, get, hf, Option.bind_eq_bind, Option.bind_some]
      exact r'.step hc (op := .get k) trivial trivial hg
  · rw [hl] at hlk; cases hlk

example : ∃ s s' out, Reach natCmp (Prod.fst : Nat × Nat → Nat) s sampleSt ∧
    step natCmp Prod.fst s (.get 3) = some (s', out) ∧ s'.t.root = 2 ∧
    ∃ s'', get (fun a b => if b = 3 then natCmp a b else .err) Prod.fst s' 3 = some (s'', some 2) := by
  obtain ⟨s, h⟩ := sample_reach
  obtain ⟨s', out, h1, h2, h3⟩ := C27_fom_locality natCmp_lawful h (.get 3) trivial trivial rfl (a := 2) (v := (3, 7)) rfl
  obtain ⟨s'', h4, _⟩ := h3 (fun a b => if b = 3 then natCmp a b else .err) rfl
  exact ⟨s, s', out, h, h1, h2, s'', h4⟩

/-- `ccc_fom_validate` accepts every reachable map. -/
theorem C46_fom_validate (hc : LawfulCmp cmp) {s : Fom α} {st : St α} (h : Reach cmp key s st) :
    validate cmp key s = some true := by
  obtain ⟨T, o⟩ := h.sim hc
  exact validate_spec hc o

/-! ### Clearing -/

/-- What the destructor is called with. -/
theorem Started.destroyed {s : Fom α} {l : List (Nat × α)} {T : Tree} (o : Started cmp key s l T) (h2 : 1 < s.cap) :
    destroyLoop s (if 1 ≥ s.cap then none else some 1) [] =
      some ((List.range' 1 l.length).map (fun a => (a, s.val a))) ∧
    ((List.range' 1 l.length).map (fun a => (a, s.val a))).Perm l := by
  have hsz := o.sz
  constructor
  · rw [if_neg (by omega), destroyLoop_spec s o.le (by omega) l.length 1 [] (by omega)]; simp
  · have hp : (List.range' 1 l.length).Perm T.ids := by
      rw [List.perm_ext_iff_of_nodup List.nodup_range' o.ok.nodup]
      intro a
      rw [o.mem_iff, List.mem_range'_1]; omega
    have := hp.map (fun a => (a, s.val a))
    have hl : l = T.ids.map (fun a => (a, s.val a)) := o.ok.list
    rw [← hl] at this
    exact this

/-- `ccc_fom_clear` with a destructor, on a map in use with at least two slots (every map with an element): every
stored element is destroyed exactly once, the map is empty and every later history is answered as specified for an
empty map.  The same state results without destructor.  Missing: maps that were never used or have one slot, see
`C51_fom_violated`. -/
theorem C51_fom_clear_partial (hc : LawfulCmp cmp) {s : Fom α} {st : St α} (h : Reach cmp key s st)
    (hst : st.started = true) (h1 : 1 < st.cap) :
    ∃ s' d, clear s true = some (s', d, .ok) ∧ clear s false = some (s', [], .ok) ∧ d.Perm st.l ∧ size s' = 0 ∧
      ∀ ops, safeRun cmp key s'.hasAlloc ⟨[], st.cap, true⟩ ops →
        ∃ s'', run cmp key s' ops = some (s'', (specRunS cmp key s'.hasAlloc ⟨[], st.cap, true⟩ ops).2) := by
  obtain ⟨T, o⟩ := h.sim hc
  obtain ⟨hcap, ⟨_, o⟩ | ⟨hst', _⟩⟩ := o
  · have hc1 : ¬ (1 > s.cap) := by omega
    have hdes := o.destroyed (by omega)
    have hcl := cleared (cmp := cmp) (key := key) (s := s) (by omega)
    refine ⟨{ setSize s 1 with t := (setSize s 1).t.setRoot 0 }, _, ?_, ?_, hdes.2, rfl, ?_⟩
    · simp only [clear, if_true, hdes.1, Option.bind_eq_bind, Option.bind_some, sizeSet, hc1, if_false]
    · simp only [clear, Bool.false_eq_true, if_false, Option.bind_eq_bind, Option.bind_some, sizeSet, hc1]
    · intro ops hok
      obtain ⟨s'', h1, _⟩ := run_spec hc ops ⟨_, hcl.toOk (st := ⟨[], st.cap, true⟩) hcap rfl rfl⟩ hok
      exact ⟨s'', h1⟩
  · rw [hst] at hst'; cases hst'

example : ∃ s s' d, Reach natCmp (Prod.fst : Nat × Nat → Nat) s sampleSt ∧
    clear s true = some (s', d, .ok) ∧ d.Perm sampleSt.l := by
  obtain ⟨s, h⟩ := sample_reach
  obtain ⟨s', d, h1, _, h2, _⟩ := C51_fom_clear_partial natCmp_lawful h rfl (by simp [sampleSt])
  exact ⟨s, s', d, h, h1, h2⟩

/-- C51 fails for a map over a buffer nothing was inserted into: the destructor runs over uninitialised slots and past
the end of the buffer (with one slot: it is called with NULL). -/
theorem C51_fom_violated (mem : Junk α) (n : Nat) (al : Bool) : clear (init mem (n + 1) al) true = none := by
  simp only [clear, if_true]
  by_cases h : n = 0
  · subst h
    rw [destroyLoop.eq_def]
    simp [init, Frm.init]
  · have hn : ¬ (1 ≥ (init mem (n + 1) al).cap) := by simp [init, Frm.init]; omega
    rw [if_neg hn, destroyLoop_ub _ (by simp [init, Frm.init]) _ 1 [] rfl (by simp [init, Frm.init])]
    rfl

/-! ### Freeing -/

/-- `ccc_fom_clear_and_free` before the first use of a map without destructor: the map behaves as a fresh one without
memory.  Missing: every other map, see `C47_fom_violated`. -/
theorem C47_fom_clear_and_free_partial (hc : LawfulCmp cmp) {s : Fom α} {st : St α} (h : Reach cmp key s st)
    (hst : st.started = false) (hal : s.hasAlloc = true) :
    ∃ s', clearAndFree s false = some (s', [], .ok) ∧ size s' = 0 ∧ s'.cap = 0 ∧
      ∀ ops, safeRun cmp key true ⟨[], 0, false⟩ ops →
        ∃ s'', run cmp key s' ops = some (s'', (specRunS cmp key true ⟨[], 0, false⟩ ops).2) := by
  obtain ⟨T, _, ⟨hst', _⟩ | ⟨_, hl, _, o⟩⟩ := h.sim hc
  · rw [hst] at hst'; cases hst'
  · refine ⟨{ s with cap := 0, t := { s.t.setRoot 0 with live := inUse s.sz 0 } }, ?_, ?_, rfl, ?_⟩
    · simp only [clearAndFree, Bool.false_eq_true, if_false, hal, if_true, Option.bind_eq_bind, Option.bind_some]
    · simp [size, o.sz]
    · intro ops hok
      have hsim : Sim cmp key { s with cap := 0, t := { s.t.setRoot 0 with live := inUse s.sz 0 } } ⟨[], 0, false⟩ :=
        ⟨.nil, rfl, Or.inr ⟨rfl, rfl, rfl, ⟨rfl, o.sz, rfl⟩⟩⟩
      obtain ⟨s'', h1, _⟩ := run_spec hc ops hsim (by
        show safeRun cmp key s.hasAlloc _ ops
        rw [hal]; exact hok)
      refine ⟨s'', h1.trans ?_⟩
      show some (s'', (specRunS cmp key s.hasAlloc _ ops).2) = _
      rw [hal]

example : ∃ s s' : Fom (Nat × Nat), Reach natCmp Prod.fst s ⟨[], 4, false⟩ ∧ clearAndFree s false = some (s', [], .ok) := by
  have h : Reach natCmp (Prod.fst : Nat × Nat → Nat) (init sampleJunk 4 true) ⟨[], 4, false⟩ :=
    ⟨_, 4, true, [], trivial, ⟨_, rfl⟩, rfl⟩
  obtain ⟨s', h1, _⟩ := C47_fom_clear_and_free_partial natCmp_lawful h rfl rfl
  exact ⟨_, s', h, h1⟩

/-- C47 fails: after `ccc_fom_clear_and_free` a map that was used still reports its old size, and the next insertion
writes through the freed (NULL) memory. -/
theorem C47_fom_violated (hc : LawfulCmp cmp) {s : Fom α} {st : St α} (h : Reach cmp key s st)
    (hst : st.started = true) (hal : s.hasAlloc = true) :
    ∃ s', clearAndFree s false = some (s', [], .ok) ∧ size s' = st.l.length ∧ s'.cap = 0 ∧
      ∀ x ans, tryInsert cmp key s' x ans = none := by
  obtain ⟨T, o⟩ := h.sim hc
  have hsz := size_eq o
  obtain ⟨_, ⟨_, o⟩ | ⟨hst', _⟩⟩ := o
  · refine ⟨{ s with cap := 0, t := { s.t.setRoot 0 with live := inUse s.sz 0 } }, ?_, hsz, rfl, ?_⟩
    · simp only [clearAndFree, Bool.false_eq_true, if_false, hal, if_true, Option.bind_eq_bind, Option.bind_some]
    · intro x ans
      have hz := o.sz
      have hz0 : s.sz ≠ 0 := by omega
      have hf : find cmp key { s with cap := 0, t := { s.t.setRoot 0 with live := inUse s.sz 0 } } (key x) =
          some ({ s with cap := 0, t := { s.t.setRoot 0 with live := inUse s.sz 0 } }, none) := by
        simp only [find, Links.setRoot, if_true]
      simp only [tryInsert, hf, Option.bind_eq_bind, Option.bind_some, maybeAllocInsert, allocBack, hz0, bufAllocBack,
        if_false, setVal, setSize, inUse]
      simp
  · rw [hst] at hst'; cases hst'

example : ∃ s s' : Fom (Nat × Nat), Reach natCmp Prod.fst s sampleSt ∧ clearAndFree s false = some (s', [], .ok) ∧
    size s' = 4 := by
  obtain ⟨s, h⟩ := C28_fom_history_partial natCmp_lawful sampleJunk 0 true sampleOps sampleOps_ok
  have hr : Reach natCmp (Prod.fst : Nat × Nat → Nat) s sampleSt := ⟨_, _, _, sampleOps, sampleOps_ok, ⟨_, h⟩, by
    simp [sampleSt, sampleOps, specRunS, specStepS, specStep, lookup, add, room, grow, place, write, drop, MapSpec.erase, natCmp, ekey]⟩
  obtain ⟨s2, h2, _, hal⟩ := run_spec natCmp_lawful sampleOps
    ⟨_, init_ok (cmp := natCmp) (key := (Prod.fst : Nat × Nat → Nat)) sampleJunk 0 true⟩ sampleOps_ok
  rw [show (init sampleJunk 0 true).hasAlloc = true from rfl] at h2 hal
  rw [h] at h2
  simp only [Option.some.injEq, Prod.mk.injEq, and_true] at h2
  obtain ⟨s', h1, h3, _⟩ := C47_fom_violated natCmp_lawful hr rfl (by rw [h2]; exact hal)
  exact ⟨s, s', hr, h1, h3⟩

/-! ### Lazy insertion -/

/-- The number of elements after asking for one more. -/
theorem add_length (hc : LawfulCmp cmp) (al ok : Bool) (st : St α) {x : α}
    (hl : lookup cmp (ekey key) (key x) st.l = none) :
    (add cmp key al ok st x).1.l.length =
      if (add cmp key al ok st x).2.isSome then st.l.length + 1 else st.l.length := by
  have hrl : (room al ok st).1.l = st.l := by
    simp only [room]
    split
    · split <;> rfl
    · split
      · rfl
      · split <;> rfl
  rw [add]
  split
  · next heq => rw [heq] at hrl; exact congrArg List.length hrl
  · simp only [Option.isSome_some, if_true]
    exact place_length hc (e := (st.l.length + 1, x)) hl

/-- Whenever the lazy macros store the element, the returned entry reports no insertion error and refers to it. -/
theorem C50_fom_lazy (hc : LawfulCmp cmp) {s s1 s2 : Fom α} {st : St α} (h : Reach cmp key s st) {k : κ} {x : α}
    {ans : Option (Junk α)} {e1 e2 : Ent} (hk : cmp k (key x) = .eql) (hv : lookup cmp (ekey key) k st.l = none)
    (h1 : tryInsertW cmp key s k x ans = some (s1, e1)) (h2 : insertOrAssignW cmp key s k x ans = some (s2, e2)) :
    e1 = e2 ∧ s1 = s2 ∧ (Ent.isInsertError (some e1) = true ↔ size s1 = size s) ∧
    (∀ n, e1.e = some n → size s1 = size s + 1 ∧ s1.val n = x ∧ e1.stats = Stat.vacant) ∧
    (e1.e = none → size s1 = size s) := by
  obtain ⟨T, o⟩ := h.sim hc
  rcases o.find hc k with ⟨t, a, m, A, B, hst, hf, _, hr, ha, _, _, hlk⟩ | ⟨t, T', hf, o1, hlk⟩
  · rw [hlk] at hv; cases hv
  · have hl : lookup cmp (ekey key) (key x) st.l = none := lookup_of_eql hc hk hv
    obtain ⟨s', T', _, o', _, _, _, hW, hval, _⟩ := vacant_forms o1 hc hl ans
    simp only [tryInsertW, insertOrAssignW, entry_vac hf, Option.bind_eq_bind, Option.bind_some, Rom.vac_not_occ,
      Bool.not_false, if_true, hW, Option.some.injEq, Prod.mk.injEq] at h1 h2
    obtain ⟨rfl, rfl⟩ := h1
    obtain ⟨rfl, rfl⟩ := h2
    have z1 := size_eq o
    have z2 := size_eq o'
    have hlen := add_length hc s.hasAlloc ans.isSome st hl
    have z3 : size s1 = (add cmp key s.hasAlloc ans.isSome st x).1.l.length := z2
    rw [hlen] at z3
    have hval' : ∀ n, (add cmp key s.hasAlloc ans.isSome st x).2 = some n → n ≠ 0 ∧ s1.val n = x := hval
    have hie : Stat.has Stat.insertError Stat.insertError = true := by decide
    have hiv : Stat.has Stat.vacant Stat.insertError = false := by decide
    refine ⟨rfl, rfl, ?_⟩
    show (Ent.isInsertError (some ⟨(add cmp key s.hasAlloc ans.isSome st x).2,
      if (add cmp key s.hasAlloc ans.isSome st x).2.isSome then Stat.vacant else Stat.insertError⟩) = true ↔ _) ∧
      (∀ n, (add cmp key s.hasAlloc ans.isSome st x).2 = some n → _ ∧ _ ∧
        (if (add cmp key s.hasAlloc ans.isSome st x).2.isSome then Stat.vacant else Stat.insertError) = _) ∧
      ((add cmp key s.hasAlloc ans.isSome st x).2 = none → _)
    cases hadd : (add cmp key s.hasAlloc ans.isSome st x).2 with
    | none =>
      rw [hadd] at z3
      simp only [Option.isSome_none, Bool.false_eq_true, if_false] at z3
      refine ⟨?_, by simp, fun _ => by rw [z1, z3]⟩
      simp only [Option.isSome_none, Bool.false_eq_true, if_false, Ent.isInsertError, hie, true_iff]
      rw [z1, z3]
    | some n =>
      rw [hadd] at z3
      simp only [Option.isSome_some, if_true] at z3
      refine ⟨?_, ?_, by simp⟩
      · simp only [Option.isSome_some, if_true, Ent.isInsertError, hiv, Bool.false_eq_true, false_iff]
        rw [z1, z3]; omega
      · intro m hm
        simp only [Option.some.injEq] at hm
        subst hm
        exact ⟨by rw [z1, z3], (hval' n hadd).2, rfl⟩

example : ∃ s s1 s2 e1 e2, Reach natCmp (Prod.fst : Nat × Nat → Nat) s sampleSt ∧
    tryInsertW natCmp Prod.fst s 4 (4, 4) (some sampleJunk) = some (s1, e1) ∧
    insertOrAssignW natCmp Prod.fst s 4 (4, 4) (some sampleJunk) = some (s2, e2) ∧
    Ent.isInsertError (some e1) = decide (size s1 = size s) := by
  obtain ⟨s, h⟩ := sample_reach
  obtain ⟨T, o⟩ := h.sim natCmp_lawful
  obtain ⟨s1, h1, _⟩ := step_spec natCmp_lawful o (.tryInsertW 4 (4, 4) (some sampleJunk)) rfl trivial
  obtain ⟨s2, h2, _⟩ := step_spec natCmp_lawful o (.insertOrAssignW 4 (4, 4) (some sampleJunk)) rfl trivial
  simp only [step, Option.bind_eq_bind, Option.bind_eq_some_iff] at h1 h2
  obtain ⟨⟨t1, e1⟩, h1, _⟩ := h1
  obtain ⟨⟨t2, e2⟩, h2, _⟩ := h2
  have := (C50_fom_lazy natCmp_lawful h rfl rfl h1 h2).2.2.1
  refine ⟨s, t1, t2, e1, e2, h, h1, h2, ?_⟩
  by_cases hh : size t1 = size s
  · rw [this.2 hh]; simp [hh]
  · cases hb : Ent.isInsertError (some e1) with
    | true => exact absurd (this.1 hb) hh
    | false => simp [hh]

/-! ### The value replaced by an insertion -/

/-- What `insert` over a stored key returns and leaves. -/
theorem Reach.replaced (hc : LawfulCmp cmp) {s : Fom α} {st : St α} (h : Reach cmp key s st) {x v : α} {a : Nat}
    (ans : Option (Junk α)) (hv : lookup cmp (ekey key) (key x) st.l = some (a, v)) :
    ∃ s' e, insert cmp key s x ans = some (s', e, v) ∧ e.stats = Stat.occupied ∧ size s' = size s ∧
      Ent.unwrap (some e) = some a ∧ s'.val a = x := by
  obtain ⟨T, o⟩ := h.sim hc
  obtain ⟨s', h1, ⟨T', o'⟩, _⟩ := step_insert hc o (x := x) (ans := ans)
  simp only [Fom.step, specStepS, specStep, hv, Option.bind_eq_bind] at h1 o'
  cases hr : insert cmp key s x ans with
  | none => rw [hr] at h1; cases h1
  | some r =>
    obtain ⟨s2, e, d⟩ := r
    rw [hr] at h1
    simp only [Option.bind_some, Option.some.injEq, Prod.mk.injEq, Out.insEnt.injEq] at h1
    obtain ⟨rfl, h2, h3, rfl⟩ := h1
    refine ⟨s2, e, rfl, h2, by rw [size_eq o', size_eq o]; simp [write], ?_, ?_⟩
    · cases hu : Ent.unwrap (some e) with
      | none => rw [hu] at h3; cases h3
      | some b =>
        rw [hu] at h3
        cases b with
        | zero => cases h3
        | succ b => simp only [Frm.view, View.elem.injEq] at h3; rw [h3.1]
    · cases hu : Ent.unwrap (some e) with
      | none => rw [hu] at h3; cases h3
      | some b =>
        rw [hu] at h3
        cases b with
        | zero => cases h3
        | succ b => simp only [Frm.view, View.elem.injEq] at h3; rw [← h3.1]; exact h3.2

/-- `ccc_fom_insert` over a stored key hands the replaced value back in the user's struct.  Missing: the returned entry
does not unwrap to it, see `C52_fom_violated`. -/
theorem C52_fom_insert_partial (hc : LawfulCmp cmp) {s : Fom α} {st : St α} (h : Reach cmp key s st) {x v : α} {a : Nat}
    (ans : Option (Junk α)) (hv : lookup cmp (ekey key) (key x) st.l = some (a, v)) :
    ∃ s' e, insert cmp key s x ans = some (s', e, v) ∧ e.stats = Stat.occupied ∧ size s' = size s := by
  obtain ⟨s', e, h1, h2, h3, _⟩ := h.replaced hc ans hv
  exact ⟨s', e, h1, h2, h3⟩

/-- C52 fails: the entry returned by `ccc_fom_insert` over a stored key unwraps to the slot in the map, which holds the
new value. -/
theorem C52_fom_violated (hc : LawfulCmp cmp) {s : Fom α} {st : St α} (h : Reach cmp key s st) {x v : α} {a : Nat}
    (ans : Option (Junk α)) (hv : lookup cmp (ekey key) (key x) st.l = some (a, v)) :
    ∃ s' e, insert cmp key s x ans = some (s', e, v) ∧ Ent.unwrap (some e) = some a ∧ s'.val a = x := by
  obtain ⟨s', e, h1, _, _, h2, h3⟩ := h.replaced hc ans hv
  exact ⟨s', e, h1, h2, h3⟩

example : ∃ s s' e, Reach natCmp (Prod.fst : Nat × Nat → Nat) s sampleSt ∧
    insert natCmp Prod.fst s (3, 100) none = some (s', e, (3, 7)) ∧ Ent.unwrap (some e) = some 2 ∧ s'.val 2 = (3, 100) := by
  obtain ⟨s, h⟩ := sample_reach
  obtain ⟨s', e, h1, h2, h3⟩ := C52_fom_violated natCmp_lawful h (x := (3, 100)) none
    (show lookup natCmp (ekey Prod.fst) 3 sampleSt.l = some (2, (3, 7)) from rfl)
  exact ⟨s, s', e, h, h1, h2, h3⟩

/-! ### Copies -/

/-- A successful `ccc_fom_copy` makes the destination, whatever it was before, a map with the source's elements: every
later history on it is answered as the same history on the source would be, with the destination's capacity and
allocation permission.  (The source is not written to: the model's `copy` only returns a destination.) -/
theorem C53_fom_copy (hc : LawfulCmp cmp) {src : Fom α} {st : St α} (h : Reach cmp key src st) (dst : Fom α)
    (fn : Option (Option (Junk α))) {d : Fom α} (hcp : copy dst src fn = (d, .ok)) :
    d.hasAlloc = dst.hasAlloc ∧ d.cap = max dst.cap src.cap ∧
    ∀ ops, safeRun cmp key d.hasAlloc { st with cap := d.cap } ops →
      ∃ s', run cmp key d ops = some (s', (specRunS cmp key d.hasAlloc { st with cap := d.cap } ops).2) := by
  have key' : d.hasAlloc = dst.hasAlloc ∧ d.cap = max dst.cap src.cap ∧ d.sz = src.sz ∧ d.t.root = src.t.root ∧
      d.t.live = inUse src.sz d.cap ∧ Same src.cap src d := by
    simp only [copy, Frm.copy] at hcp
    split at hcp
    · simp at hcp
    · split at hcp
      · next hlt =>
        split at hcp
        · simp at hcp
        · simp at hcp
        · simp only [Prod.mk.injEq, and_true] at hcp
          subst hcp
          refine ⟨rfl, ?_, rfl, rfl, rfl, ?_⟩
          · show src.cap = _
            exact (Nat.max_eq_right (Nat.le_of_lt hlt)).symm
          · intro a ha
            simp [ha]
      · next hlt =>
        simp only [Prod.mk.injEq, and_true] at hcp
        subst hcp
        refine ⟨rfl, ?_, rfl, rfl, rfl, ?_⟩
        · show dst.cap = _
          exact (Nat.max_eq_left (Nat.le_of_not_lt hlt)).symm
        · intro a ha
          simp [ha]
  obtain ⟨h1, h2, h3, h4, h5, h6⟩ := key'
  refine ⟨h1, h2, fun ops hok => ?_⟩
  obtain ⟨T, hcap, o⟩ := h.sim hc
  have hsim : Sim cmp key d { st with cap := d.cap } := by
    refine ⟨T, rfl, ?_⟩
    rcases o with ⟨hst, o⟩ | ⟨hst, hl, hT, o⟩
    · refine Or.inl ⟨hst, ?_⟩
      have hle : src.sz ≤ d.cap := by have := o.le; omega
      have := o.transfer h4 (fun a ha => h6 a (by have := o.le; omega)) (fun a ha => by
        rw [h5, Frm.inUse_lt hle]; exact ha)
      refine ⟨?_, by rw [h5, h3], by rw [h3]; exact o.sz, by rw [h3]; exact hle, o.slots⟩
      have e : asRom d = shrink d st.l.length := by
        have := o.sz
        simp only [asRom, shrink, h3, this, Nat.add_sub_cancel]
      rw [e]; exact this
    · exact Or.inr ⟨hst, hl, hT, by rw [h5, h3], h3.trans o.sz, h4.trans o.root⟩
  obtain ⟨s', r, _⟩ := run_spec hc ops hsim hok
  exact ⟨s', r⟩

/-- C53 fails when the allocation is refused: the destination keeps its old memory but takes the source's size and root,
so that it reports the source's elements although it holds none of them.  With a destination without memory, any
lookup then reads through NULL. -/
theorem C53_fom_violated (hc : LawfulCmp cmp) {src : Fom α} {st : St α} (h : Reach cmp key src st) (hne : st.l ≠ [])
    (mem : Junk α) (al : Bool) (k : κ) :
    ∃ d, copy (init mem 0 al) src (some none) = (d, .memErr) ∧ size d = st.l.length ∧ get cmp key d k = none := by
  obtain ⟨T, o⟩ := h.sim hc
  have hz := size_eq o
  obtain ⟨hcap, ⟨hst, o⟩ | ⟨_, hl, _⟩⟩ := o
  · have hsz := o.sz
    have hle := o.le
    have hlt : (init mem 0 al).cap < src.cap := by simp only [init, Frm.init]; omega
    refine ⟨{ init mem 0 al with t := { (init mem 0 al).t with root := src.t.root, live := inUse src.sz (init mem 0 al).cap }, sz := src.sz }, ?_, hz, ?_⟩
    · simp only [copy, Frm.copy, Option.isNone_some, Bool.false_eq_true, and_false, if_false, hlt, if_true]
    · have hr : src.t.root ≠ 0 := by
        have h1 : src.t.root = T.rootId := o.ok.whole.ctx
        rw [h1]
        cases T with
        | nil => exact absurd (by rw [o.ok.list]; rfl) hne
        | node i k l r => exact o.ok.ne_zero (by simp [Tree.ids])
      simp [get, find, hr, splayTo, Splay.splay, Links.setBr, init, Frm.init, inUse]
  · exact absurd hl hne

example : ∃ s d s', Reach natCmp (Prod.fst : Nat × Nat → Nat) s sampleSt ∧
    copy (init sampleJunk 0 false) s (some (some sampleJunk)) = (d, .ok) ∧
    run natCmp Prod.fst d [.size, .get 3] = some (s', [.num 4, .ptr (.elem 2 (3, 7))]) := by
  obtain ⟨s, h⟩ := sample_reach
  have hcap : s.cap = sampleSt.cap := by obtain ⟨T, o⟩ := h.sim natCmp_lawful; exact o.1
  have hlt : (init sampleJunk 0 false).cap < s.cap := by rw [hcap]; decide
  have e : ∃ d, copy (init sampleJunk 0 false) s (some (some sampleJunk)) = (d, .ok) := by
    simp [copy, Frm.copy, hlt]
  obtain ⟨d, e⟩ := e
  obtain ⟨_, _, h3⟩ := C53_fom_copy natCmp_lawful h _ _ e
  obtain ⟨s', h4⟩ := h3 [.size, .get 3] (by simp [safeRun, safeOp, okOpS, okOp])
  exact ⟨s, d, s', h, e, h4⟩

end CCC.Fom
