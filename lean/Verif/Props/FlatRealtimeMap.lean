import Verif.Proof.FlatRealtimeMapStep
import Verif.Proof.WavlBalance
import Verif.Proof.Iter
/-
Properties of the flat realtime ordered map (`src/flat_realtime_ordered_map.c`).

`run cmp key (init mem n al) ops` executes a history of calls on a fresh map over a buffer of `n` slots of arbitrary
memory, with or without an allocation function; `none` would be undefined behaviour (access to a slot not in use), a
failed assertion or a loop that does not end.  `specRun cmp key al ⟨[], n, false⟩ ops` is the same history on a list of
elements in key order (`Verif/Spec/FlatMap.lean`).  `okRun` is what the documentation asks of the caller.
-/
namespace CCC.Frm
open CCC MapSpec FlatMap
open CCC.Rom (elems)

variable {α κ : Type} {cmp : κ → κ → Cmp} {key : α → κ}

/-- The reachable states: after a history in which the caller followed the documentation, with the contents the
specification says.  `okOp` excludes one call the documentation allows: `clear` on a map that has memory but was never
used, see `C46_frm_violated`; the theorems about reachable maps do not cover states after it. -/
def Reach (cmp : κ → κ → Cmp) (key : α → κ) (s : Frm α) (st : St α) : Prop :=
  ∃ mem n al ops, okRun cmp key al ⟨[], n, false⟩ ops ∧ (∃ outs, run cmp key (init mem n al) ops = some (s, outs)) ∧
    (specRun cmp key al ⟨[], n, false⟩ ops).1 = st

theorem Reach.sim {s : Frm α} {st : St α} (hc : LawfulCmp cmp) (h : Reach cmp key s st) : Sim cmp key s st := by
  obtain ⟨mem, n, al, ops, hok, ⟨outs, hr⟩, rfl⟩ := h
  obtain ⟨s', h1, h2, _⟩ := run_spec hc ops ⟨_, init_ok (cmp := cmp) (key := key) mem n al⟩ hok
  rw [h1] at hr
  simp only [Option.some.injEq, Prod.mk.injEq] at hr
  rw [← hr.1]; exact h2

theorem run_append (ops ops' : List (Op α κ (Junk α))) : ∀ {s s1 : Frm α} {o1 : List (Out α)},
    run cmp key s ops = some (s1, o1) →
    run cmp key s (ops ++ ops') = (run cmp key s1 ops').map (fun r => (r.1, o1 ++ r.2)) := by
  induction ops with
  | nil =>
    intro s s1 o1 h
    simp only [run, Option.some.injEq, Prod.mk.injEq] at h
    obtain ⟨rfl, rfl⟩ := h
    simp
  | cons o os ih =>
    intro s s1 o1 h
    simp only [run, Option.bind_eq_bind, Option.bind_eq_some_iff] at h
    obtain ⟨⟨s2, r⟩, h1, ⟨s3, rs⟩, h2, h3⟩ := h
    simp only [Option.some.injEq, Prod.mk.injEq] at h3
    obtain ⟨rfl, rfl⟩ := h3
    simp only [List.cons_append, run, h1, Option.bind_eq_bind, Option.bind_some, ih h2]
    cases run cmp key s3 ops' <;> rfl

/-- One more allowed call keeps a state reachable. -/
theorem Reach.step {s s' : Frm α} {st : St α} {op : Op α κ (Junk α)} {out : Out α} (hc : LawfulCmp cmp)
    (h : Reach cmp key s st) (ok : okOp cmp key st op) (hs : step cmp key s op = some (s', out)) :
    Reach cmp key s' (specStep cmp key s.hasAlloc st op).1 := by
  obtain ⟨mem, n, al, ops, hok, ⟨outs, hr⟩, hl⟩ := h
  have hal : s.hasAlloc = al := by
    obtain ⟨s2, h1, _, h2⟩ := run_spec hc ops ⟨_, init_ok (cmp := cmp) (key := key) mem n al⟩ hok
    rw [h1] at hr
    simp only [Option.some.injEq, Prod.mk.injEq] at hr
    rw [← hr.1, h2]; rfl
  refine ⟨mem, n, al, ops ++ [op], ?_, ⟨outs ++ [out], ?_⟩, ?_⟩
  · rw [okRun_append]; exact ⟨hok, by rw [hl]; exact ⟨ok, trivial⟩⟩
  · rw [run_append ops [op] hr]; simp [run, hs]
  · rw [specRun_append, hl, ← hal]; rfl

/-- Memory with unspecified contents. -/
def sampleJunk : Junk (Nat × Nat) := ⟨fun a _ => a + 3, fun a => a + 7, fun a => a % 2 == 0, fun a => (a, 99)⟩

/-- A history used to show that hypotheses are met: a map that starts without memory, grows once, refuses once, replaces
an element and removes one in the middle. -/
def sampleOps : List (Op (Nat × Nat) Nat (Junk (Nat × Nat))) :=
  [.insert (5, 0) none, .end_, .insert (5, 0) (some sampleJunk), .tryInsert (3, 1) none, .insertOrAssign (8, 2) none,
   .tryInsertW 1 (1, 3) none, .orInsert 9 (9, 4) none, .insertOrAssign (3, 7) none, .insert (9, 5) none, .removeEntry 5,
   .get 3, .begin, .next 2, .equalRange 2 8, .andModify 8 (fun x => (x.1, x.2 + 1)), .size]

theorem sampleOps_ok : okRun natCmp Prod.fst true ⟨[], 0, false⟩ sampleOps := by
  simp [sampleOps, okRun, okOp, specStep, lookup, add, room, grow, place, write, drop, erase, natCmp, ekey]

/-- Every history, with growth and refused allocations: all answers, statuses and returned pointers are those of the
sorted list. -/
theorem C32_frm_history_partial (hc : LawfulCmp cmp) (mem : Junk α) (n : Nat) (al : Bool) (ops : List (Op α κ (Junk α)))
    (hok : okRun cmp key al ⟨[], n, false⟩ ops) :
    ∃ s, run cmp key (init mem n al) ops = some (s, (specRun cmp key al ⟨[], n, false⟩ ops).2) := by
  obtain ⟨s, h, _⟩ := run_spec hc ops ⟨_, init_ok (cmp := cmp) (key := key) mem n al⟩ hok
  exact ⟨s, h⟩

example : ∃ s, run natCmp Prod.fst (init sampleJunk 0 true) sampleOps =
    some (s, (specRun natCmp Prod.fst true ⟨[], 0, false⟩ sampleOps).2) :=
  C32_frm_history_partial natCmp_lawful _ _ _ _ sampleOps_ok

/-- What the sample history stores at its end: key 9, stored last, took over slot 1. -/
def sampleSt : St (Nat × Nat) := ⟨[(4, (1, 3)), (2, (3, 7)), (3, (8, 3)), (1, (9, 5))], 8, true⟩

theorem sample_reach : ∃ s, Reach natCmp (Prod.fst : Nat × Nat → Nat) s sampleSt := by
  obtain ⟨s, h⟩ := C32_frm_history_partial natCmp_lawful sampleJunk 0 true sampleOps sampleOps_ok
  exact ⟨s, _, _, _, sampleOps, sampleOps_ok, ⟨_, h⟩, by
    simp [sampleSt, sampleOps, specRun, specStep, lookup, add, room, grow, place, write, drop, erase, natCmp, ekey]⟩

/-- The specification's list is always in strictly ascending key order: no two stored elements have equal keys. -/
theorem C32_frm_sorted_partial (hc : LawfulCmp cmp) {s : Frm α} {st : St α} (h : Reach cmp key s st) :
    Sorted cmp (ekey key) st.l := by
  obtain ⟨T, o⟩ := h.sim hc
  obtain ⟨_, ⟨_, o⟩ | ⟨_, hl, _⟩⟩ := o
  · exact o.ok.sorted
  · rw [hl]; exact List.Pairwise.nil

/-- The stored elements occupy exactly the slots `1, ..., size`, all of them inside the buffer, and each slot holds
the data of its element. -/
theorem C32_frm_compact_partial (hc : LawfulCmp cmp) {s : Frm α} {st : St α} (h : Reach cmp key s st) :
    (st.l.map Prod.fst).Nodup ∧ (∀ a, a ∈ st.l.map Prod.fst ↔ 1 ≤ a ∧ a ≤ size s) ∧ size s = st.l.length ∧
    (∀ e ∈ st.l, e.1 < s.cap ∧ s.val e.1 = e.2) := by
  obtain ⟨T, o⟩ := h.sim hc
  have hsz := size_eq o
  obtain ⟨_, ⟨_, o⟩ | ⟨_, hl, _⟩⟩ := o
  · have hids : st.l.map Prod.fst = T.ids := by
      rw [o.ok.list]; exact Rom.ids_elems _ _
    rw [hids, hsz]
    refine ⟨o.ok.nodup, fun a => o.mem_iff, rfl, fun e he => ?_⟩
    rw [o.ok.list, Rom.mem_elems] at he
    have := o.mem_iff.1 he.1
    have := o.sz
    have := o.le
    exact ⟨by omega, he.2.symm⟩
  · rw [hsz, hl]
    refine ⟨List.nodup_nil, fun a => ?_, rfl, by simp⟩
    simp; omega

/-- After every history the WAVL rank rules hold for the stored elements. -/
theorem C30_frm_ranks_partial (hc : LawfulCmp cmp) {s : Frm α} {st : St α} (h : Reach cmp key s st) :
    RankRules (st.l.map Prod.fst) s.t.br s.t.parity := by
  obtain ⟨T, o⟩ := h.sim hc
  obtain ⟨_, ⟨_, o⟩ | ⟨_, hl, _⟩⟩ := o
  · have : st.l.map Prod.fst = T.ids := by rw [o.ok.list]; exact Rom.ids_elems _ _
    rw [this]; exact Wavl.rank_rules o.ok.valid o.ok.wv
  · rw [hl]; exact ⟨fun _ => 0, rfl, by simp⟩

/-- After every history every way down from the root that ends at an element, in particular every search, meets at
most `2 * log2 (n + 1)` elements. -/
theorem C30_frm_balanced_partial (hc : LawfulCmp cmp) {s : Frm α} {st : St α} (h : Reach cmp key s st) (ds : List Bool)
    (hd : descend s.t.br s.t.root ds ≠ 0) : 2 ^ (ds.length + 1) ≤ (st.l.length + 1) ^ 2 := by
  obtain ⟨T, o⟩ := h.sim hc
  obtain ⟨_, ⟨_, o⟩ | ⟨_, hl, _, o⟩⟩ := o
  · have hroot : s.t.root = T.rootId := o.ok.wv.whole.ctx
    rw [hroot] at hd
    have h1 := o.ok.valid.descend_le o.ok.wv.whole.tree ds hd
    have h2 := o.ok.valid.size_bound
    have h3 : st.l.length = T.ids.length := by rw [o.ok.list]; simp [elems]
    rw [h3]
    exact Nat.le_trans (Nat.pow_le_pow_right (by omega) h1) h2
  · rw [o.root] at hd
    cases ds <;> simp [descend] at hd

example : ∃ s, Reach natCmp (Prod.fst : Nat × Nat → Nat) s sampleSt ∧
    (sampleSt.l.map Prod.fst).Nodup ∧ size s = 4 ∧ s.val 1 = (9, 5) ∧
    RankRules [4, 2, 3, 1] s.t.br s.t.parity ∧
    ∀ ds, descend s.t.br s.t.root ds ≠ 0 → 2 ^ (ds.length + 1) ≤ 25 := by
  obtain ⟨s, h⟩ := sample_reach
  obtain ⟨h1, _, h3, h4⟩ := C32_frm_compact_partial natCmp_lawful h
  exact ⟨s, h, h1, h3, (h4 (1, (9, 5)) (by simp [sampleSt])).2, C30_frm_ranks_partial natCmp_lawful h,
    fun ds => C30_frm_balanced_partial natCmp_lawful h ds⟩

/-- Where the iteration starts and how it proceeds; slot 0 is the end of a map in use, NULL the end of one never used. -/
theorem Sim.next_walk {s : Frm α} {st : St α} (h : Sim cmp key s st) :
    (st.l.map Prod.fst).Nodup ∧
    (∀ pre a post, st.l.map Prod.fst = pre ++ a :: post → next s a true = some (post.head?.or (end_ s))) ∧
    (∀ pre a post, (st.l.map Prod.fst).reverse = pre ++ a :: post → next s a false = some (post.head?.or (end_ s))) ∧
    begin_ s false = some ((st.l.map Prod.fst).head?.or (end_ s)) ∧
    begin_ s true = some ((st.l.map Prod.fst).reverse.head?.or (end_ s)) := by
  obtain ⟨T, _, ⟨_, o⟩ | ⟨_, hl, _, o⟩⟩ := h
  · have hids : st.l.map Prod.fst = T.ids := by rw [o.ok.list]; exact Rom.ids_elems _ _
    have hsz := Ok.sz_ne o
    have he : end_ s = some 0 := by rw [end_, if_neg hsz]
    have hz : ∀ m : List Nat, some (m.headD 0) = m.head?.or (end_ s) := by
      intro m; rw [he]; cases m <;> rfl
    have hz' : ∀ m : List Nat, some (m.getLastD 0) = m.reverse.head?.or (end_ s) := by
      intro m; rw [← hz]; simp
    rw [hids]
    refine ⟨o.ok.nodup, ?_, ?_, ?_, ?_⟩
    · intro pre a post e
      have hn : Wavl.next s.t a true = some (post.headD 0) := Wavl.next_spec o.ok.wv e true
      simp only [next, if_neg hsz, hn, Option.bind_eq_bind, Option.bind_some]
      rw [hz]
    · intro pre a post e
      have e' : T.ids = post.reverse ++ a :: pre.reverse := by
        have := congrArg List.reverse e
        simpa using this
      have hn : Wavl.next s.t a false = some (post.reverse.getLastD 0) := Wavl.next_spec o.ok.wv e' false
      simp only [next, if_neg hsz, hn, Option.bind_eq_bind, Option.bind_some]
      rw [hz', List.reverse_reverse]
    · have hm : Wavl.minMaxFrom s.t s.t.root false = some (T.ids.headD 0) := Wavl.minMaxFrom_spec o.ok.wv false
      simp only [begin_, if_neg hsz, hm, Option.bind_eq_bind, Option.bind_some]
      rw [hz]
    · have hm : Wavl.minMaxFrom s.t s.t.root true = some (T.ids.getLastD 0) := Wavl.minMaxFrom_spec o.ok.wv true
      simp only [begin_, if_neg hsz, hm, Option.bind_eq_bind, Option.bind_some]
      rw [hz']
  · rw [hl]
    refine ⟨List.nodup_nil, by simp, by simp, ?_, ?_⟩ <;> simp [begin_, end_, o.sz]

theorem Sim.end_ne {s : Frm α} {st : St α} (h : Sim cmp key s st) : ∀ a ∈ st.l.map Prod.fst, end_ s ≠ some a := by
  obtain ⟨T, _, ⟨_, o⟩ | ⟨_, hl, _, o⟩⟩ := h
  · have hids : st.l.map Prod.fst = T.ids := by rw [o.ok.list]; exact Rom.ids_elems _ _
    rw [hids]
    intro a ha
    rw [end_, if_neg (Ok.sz_ne o)]
    intro hh
    exact o.ok.ne_zero ha (Option.some.inj hh).symm
  · rw [hl]; simp

/-- `for (p = begin; p != end; p = next(p))` visits exactly the stored elements, in key order, and the reverse loop in
the opposite order. -/
theorem C31_frm_iteration_partial (hc : LawfulCmp cmp) {s : Frm α} {st : St α} (h : Reach cmp key s st) :
    (do let p ← begin_ s false; iterate (next s · true) (end_ s) p) = some (st.l.map Prod.fst) ∧
    (do let p ← begin_ s true; iterate (next s · false) (end_ s) p) = some (st.l.map Prod.fst).reverse := by
  have hs := h.sim hc
  obtain ⟨hn, hnx, hrn, hb, hrb⟩ := hs.next_walk
  have he := hs.end_ne
  constructor
  · simp only [hb, Option.bind_eq_bind, Option.bind_some]
    have := iterate_spec' he hn hnx (pre := []) (m := st.l.map Prod.fst) (post := []) (by simp)
    simpa using this
  · simp only [hrb, Option.bind_eq_bind, Option.bind_some]
    have := iterate_spec' (by simpa using he) (nodup_reverse' hn) hrn (pre := []) (m := (st.l.map Prod.fst).reverse)
      (post := []) (by simp)
    simpa using this

theorem Sim.range {s : Frm α} {st : St α} (hc : LawfulCmp cmp) (h : Sim cmp key s st) (b e : κ) (hne : st.l ≠ []) :
    equalRange cmp key s b e true = some (((firstNotLess cmp (ekey key) b st.l).map Prod.fst).or (end_ s),
        ((firstGreater cmp (ekey key) e st.l).map Prod.fst).or (end_ s)) ∧
    equalRange cmp key s b e false = some (((lastNotGreater cmp (ekey key) b st.l).map Prod.fst).or (end_ s),
        ((lastLess cmp (ekey key) e st.l).map Prod.fst).or (end_ s)) := by
  obtain ⟨T, o⟩ := h
  have hemp := isEmpty_eq o
  rw [show st.l.isEmpty = false by cases hl : st.l with
    | nil => exact absurd hl hne
    | cons => rfl] at hemp
  obtain ⟨_, ⟨_, o⟩ | ⟨_, hl, _⟩⟩ := o
  · have hT : T ≠ Tree.nil := by
      intro hh; apply hne; rw [o.ok.list, hh]; rfl
    have hE : end_ s = some 0 := by rw [end_, if_neg (Ok.sz_ne o)]
    have hlist : st.l = elems s.val T.ids := o.ok.list
    have er : (elems s.val T.ids).reverse = elems s.val T.ids.reverse := by simp [elems]
    have eq1 : ∀ trav, Wavl.equalRange s.t (at_ cmp key s b) (at_ cmp key s e) trav = _ :=
      Wavl.equalRange_spec o.ok.wv hT (o.ok.mono hc b) (o.ok.mono hc e)
    have hfind : ∀ (is : List Nat) (p : Nat × α → Bool),
        some ((is.find? (fun a => p (a, s.val a))).getD 0) = (((elems s.val is).find? p).map Prod.fst).or (some 0) := by
      intro is p
      rw [elems, List.find?_map]
      cases h : is.find? (fun a => p (a, s.val a)) with
      | none =>
        have h' : is.find? (p ∘ fun a => (a, s.val a)) = none := h
        rw [h']; rfl
      | some a =>
        have h' : is.find? (p ∘ fun a => (a, s.val a)) = some a := h
        rw [h']; rfl
    constructor
    · simp only [equalRange, hemp, Bool.false_eq_true, if_false, eq1, if_true, Option.bind_eq_bind, Option.bind_some,
        firstNotLess, firstGreater, hE]
      rw [hlist, ← hfind, ← hfind]; rfl
    · simp only [equalRange, hemp, Bool.false_eq_true, if_false, eq1, Option.bind_eq_bind, Option.bind_some,
        lastNotGreater, lastLess, hE]
      rw [hlist, er, ← hfind, ← hfind]; rfl
  · exact absurd hl hne

theorem Sim.range_nil {s : Frm α} {st : St α} (h : Sim cmp key s st) (cmp' : κ → κ → Cmp) (b e : κ) (hl : st.l = [])
    (trav : Bool) : equalRange cmp' key s b e trav = some (none, none) := by
  obtain ⟨T, o⟩ := h
  have hemp := isEmpty_eq o
  rw [hl] at hemp
  rw [equalRange, if_pos (by rw [hemp]; rfl)]

/-- `equal_range` and `equal_rrange` return the specified end points, for every pair of keys. -/
theorem C25_frm_range_ends (hc : LawfulCmp cmp) {s : Frm α} {st : St α} (h : Reach cmp key s st) (b e : κ)
    (hne : st.l ≠ []) :
    equalRange cmp key s b e true = some (((firstNotLess cmp (ekey key) b st.l).map Prod.fst).or (end_ s),
        ((firstGreater cmp (ekey key) e st.l).map Prod.fst).or (end_ s)) ∧
    equalRange cmp key s b e false = some (((lastNotGreater cmp (ekey key) b st.l).map Prod.fst).or (end_ s),
        ((lastLess cmp (ekey key) e st.l).map Prod.fst).or (end_ s)) :=
  (h.sim hc).range hc b e hne

/-- Iterating over the range visits exactly the elements with keys in `[b, e]`, in order. -/
theorem C25_frm_range (hc : LawfulCmp cmp) {s : Frm α} {st : St α} (h : Reach cmp key s st) {b e : κ}
    (hbe : cmp b e ≠ .grt) :
    (do let r ← equalRange cmp key s b e true; overRange (next s · true) r) =
      some ((st.l.filter (fun x => cmp b (key x.2) != .grt && cmp e (key x.2) != .les)).map Prod.fst) := by
  have hs := h.sim hc
  by_cases hne : st.l = []
  · rw [hs.range_nil cmp b e hne, hne]
    simp only [Option.bind_eq_bind, Option.bind_some]
    rw [overRange, iterate.eq_def]; simp [Range.begin_, Range.end_]
  · obtain ⟨hn, hnx, _⟩ := hs.next_walk
    obtain ⟨pre, post, e1, e2, e3⟩ := range_split hc (C32_frm_sorted_partial hc h) hbe
    simp only [(hs.range hc b e hne).1, Option.bind_eq_bind, Option.bind_some, ← e2, ← e3, ← List.head?_map, List.map_append]
    exact iterate_spec' hs.end_ne hn hnx (pre := pre.map Prod.fst) (by
      rw [← List.map_append, ← List.map_append]; exact congrArg _ e1)

/-- Iterating backwards over the reverse range visits exactly the elements with keys in `[e, b]`, descending. -/
theorem C25_frm_rrange (hc : LawfulCmp cmp) {s : Frm α} {st : St α} (h : Reach cmp key s st) {b e : κ}
    (hbe : cmp e b ≠ .grt) :
    (do let r ← equalRange cmp key s b e false; overRange (next s · false) r) =
      some ((st.l.filter (fun x => cmp b (key x.2) != .les && cmp e (key x.2) != .grt)).map Prod.fst).reverse := by
  have hs := h.sim hc
  by_cases hne : st.l = []
  · rw [hs.range_nil cmp b e hne, hne]
    simp only [Option.bind_eq_bind, Option.bind_some]
    rw [overRange, iterate.eq_def]; simp [Range.begin_, Range.end_]
  · obtain ⟨hn, _, hrn, _⟩ := hs.next_walk
    obtain ⟨pre, post, e1, e2, e3⟩ := rrange_split hc (C32_frm_sorted_partial hc h) hbe
    simp only [(hs.range hc b e hne).2, Option.bind_eq_bind, Option.bind_some, ← e2, ← e3, ← List.head?_map, List.map_append]
    rw [List.map_reverse]
    exact iterate_spec' (by simpa using hs.end_ne) (nodup_reverse' hn) hrn (pre := pre.map Prod.fst) (by
      rw [← List.map_reverse, ← List.map_reverse, ← List.map_append, ← List.map_append]; exact congrArg _ e1)

example : ∃ s, Reach natCmp (Prod.fst : Nat × Nat → Nat) s sampleSt ∧
    (do let p ← begin_ s false; iterate (next s · true) (end_ s) p) = some [4, 2, 3, 1] ∧
    (do let r ← equalRange natCmp Prod.fst s 2 8 true; overRange (next s · true) r) = some [2, 3] := by
  obtain ⟨s, h⟩ := sample_reach
  refine ⟨s, h, (C31_frm_iteration_partial natCmp_lawful h).1, ?_⟩
  rw [C25_frm_range natCmp_lawful h (by decide)]
  rfl

/-- The calls that only look. -/
def isLookup : Op α κ (Junk α) → Bool
  | .contains _ | .get _ | .occupied _ | .begin | .rbegin | .next _ | .rnext _ | .end_ | .equalRange _ _
  | .equalRrange _ _ | .size | .isEmpty | .capacity | .validate => true
  | _ => false

/-- Lookups, creating an entry, iteration, range queries and validation change nothing: not a link, not a size, not an
element.  No hypothesis on the map or on the comparison. -/
theorem C33_frm_pure (s s' : Frm α) (op : Op α κ (Junk α)) (out : Out α) (hl : isLookup op = true)
    (h : step cmp key s op = some (s', out)) : s' = s := by
  cases op <;> simp only [isLookup, Bool.false_eq_true] at hl <;>
    simp only [step, Option.bind_eq_bind, Option.bind_eq_some_iff, Option.some.injEq, Prod.mk.injEq] at h <;>
    first
      | exact h.1.symm
      | (obtain ⟨_, _, rfl, _⟩ := h; rfl)

example : ∃ s : Frm (Nat × Nat), Reach natCmp Prod.fst s sampleSt ∧
    step natCmp Prod.fst s (.get 3) = some (s, .ptr (.elem 2 (3, 7))) := by
  obtain ⟨s, h⟩ := sample_reach
  obtain ⟨T, o⟩ := h.sim natCmp_lawful
  obtain ⟨s', h1, _⟩ := step_spec natCmp_lawful o (.get 3) trivial
  have := C33_frm_pure s s' _ _ rfl h1
  subst this
  exact ⟨s', h, h1⟩

/-- Queries on an empty map, used before or not, report absence, whatever the comparison function is: it is not
called. -/
theorem C26_frm_empty (cmp' : κ → κ → Cmp) (hc : LawfulCmp cmp) {s : Frm α} {st : St α} (h : Reach cmp key s st)
    (hl : st.l = []) (k k' : κ) (x : α) :
    contains cmp' key s k = some false ∧ get cmp' key s k = some none ∧ begin_ s false = some (end_ s) ∧
    begin_ s true = some (end_ s) ∧ equalRange cmp' key s k k' true = some (none, none) ∧
    equalRange cmp' key s k k' false = some (none, none) ∧
    remove cmp' key s x = some (s, Stat.vacant, false, x) := by
  have hs := h.sim hc
  obtain ⟨_, _, _, hb, hrb⟩ := hs.next_walk
  rw [hl] at hb hrb
  have hr : s.t.root = 0 := by
    obtain ⟨T, _, ⟨_, o⟩ | ⟨_, _, _, o⟩⟩ := hs
    · have h1 : s.t.root = T.rootId := o.ok.wv.whole.ctx
      rw [h1]
      cases T with
      | nil => rfl
      | node i k l r => have := o.ok.list; rw [hl] at this; simp [elems, Tree.ids] at this
    · exact o.root
  have hf : ∀ k, find cmp' key s k = some (.err, 0) := by
    intro k
    simp only [find, Wavl.find, hr]
    rw [Wavl.findLoop]; simp
  refine ⟨?_, ?_, by simpa using hb, by simpa using hrb, hs.range_nil cmp' k k' hl true, hs.range_nil cmp' k k' hl false, ?_⟩
  · simp only [contains, hf]; rfl
  · simp only [get, hf]; rfl
  · simp only [remove, hf]; rfl

example : ∃ s, Reach natCmp (Prod.fst : Nat × Nat → Nat) s ⟨[], 8, true⟩ ∧ contains natCmp Prod.fst s 5 = some false := by
  have ok : okRun natCmp Prod.fst true ⟨[], 8, false⟩ ([.tryInsert (5, 7) none, .removeEntry 5] : List (Op (Nat × Nat) Nat (Junk (Nat × Nat)))) := by
    simp [okRun, okOp]
  obtain ⟨s, h⟩ := C32_frm_history_partial natCmp_lawful sampleJunk 8 true _ ok
  have hr : Reach natCmp (Prod.fst : Nat × Nat → Nat) s ⟨[], 8, true⟩ :=
    ⟨_, _, _, _, ok, ⟨_, h⟩, by simp [specRun, specStep, lookup, add, room, grow, place, drop, erase, natCmp, ekey]⟩
  exact ⟨s, hr, (C26_frm_empty natCmp natCmp_lawful hr rfl 5 5 (5, 5)).1⟩

/-- `ccc_frm_validate` accepts every map reached without calling `clear` on a map that has memory but was never used
(`okOp`).  With that call the claim is false, see `C46_frm_violated`. -/
theorem C46_frm_validate_partial (hc : LawfulCmp cmp) {s : Frm α} {st : St α} (h : Reach cmp key s st) :
    validate cmp key s = some true := by
  obtain ⟨T, o⟩ := h.sim hc
  exact validate_spec hc o

/-- C46 fails: `clear` on a map over a fresh buffer takes slot 0 without initialising it, and validation then depends on
the old contents of the memory. -/
theorem C46_frm_violated (mem : Junk α) (hm : mem.parity 0 = false) (n : Nat) (al : Bool) :
    ((run cmp key (init mem (n + 1) al) [.clear, .validate]).map Prod.snd) = some [.result .ok, .flag false] := by
  have h1 : ¬ (1 > (init mem (n + 1) al).cap) := by simp [init]
  have h2 : ¬ (1 > n + 1) := by omega
  simp only [run, step, clear, Bool.not_false, if_true, sizeSet, h2, init, setSize, if_false, validate, Links.getParity,
    Option.bind_eq_bind, Option.bind_some, Links.setRoot, inUse]
  simp [hm]

/-! ### Clearing -/

theorem destroyLoop_spec (s : Frm α) (hle : s.sz ≤ s.cap) (hc : s.cap ≠ 0) : ∀ (k i : Nat) (acc : List (Nat × α)),
    i + k = s.sz → destroyLoop s (some i) acc = some (acc ++ (List.range' i k).map (fun a => (a, s.val a))) := by
  intro k
  induction k with
  | zero =>
    intro i acc h
    rw [destroyLoop.eq_def]
    have : i = s.sz := by omega
    simp [hc, this]
  | succ k ih =>
    intro i acc h
    rw [destroyLoop.eq_def]
    have h1 : (some i : Slot) ≠ some s.sz := by intro hh; have := Option.some.inj hh; omega
    have h2 : ¬ i ≥ s.cap := by omega
    simp only [hc, if_false, h1, h2]
    rw [ih (i + 1) _ (by omega)]
    simp [List.range'_succ]

theorem destroyLoop_ub (s : Frm α) (hc : s.cap ≠ 0) : ∀ (k i : Nat) (acc : List (Nat × α)), s.cap - i = k → s.sz < i →
    destroyLoop s (some i) acc = none := by
  intro k
  induction k with
  | zero =>
    intro i acc h h1
    rw [destroyLoop.eq_def]
    have h2 : (some i : Slot) ≠ some s.sz := by intro hh; have := Option.some.inj hh; omega
    simp only [hc, if_false, h2, show i ≥ s.cap by omega, if_true]
  | succ k ih =>
    intro i acc h h1
    rw [destroyLoop.eq_def]
    have h2 : (some i : Slot) ≠ some s.sz := by intro hh; have := Option.some.inj hh; omega
    have h3 : ¬ i ≥ s.cap := by omega
    simp only [hc, if_false, h2, h3]
    exact ih (i + 1) _ (by omega) (by omega)

/-- What the destructor is called with. -/
theorem Started.destroyed {s : Frm α} {l : List (Nat × α)} {T : Tree} (o : Started cmp key s l T) (h2 : 1 < s.cap) :
    destroyLoop s (if 1 ≥ s.cap then none else some 1) [] =
      some ((List.range' 1 l.length).map (fun a => (a, s.val a))) ∧
    ((List.range' 1 l.length).map (fun a => (a, s.val a))).Perm l := by
  have hsz := o.sz
  constructor
  · rw [if_neg (by omega), destroyLoop_spec s o.le (by omega) l.length 1 [] (by omega)]; simp
  · have hp : (List.range' 1 l.length).Perm T.ids := by
      rw [List.perm_ext_iff_of_nodup List.nodup_range' o.ok.nodup]
      intro a
      rw [o.mem_iff, List.mem_range'_1]; omega
    have := hp.map (fun a => (a, s.val a))
    have hl : l = T.ids.map (fun a => (a, s.val a)) := o.ok.list
    rw [← hl] at this
    exact this

/-- `ccc_frm_clear` with a destructor, on a map in use with at least two slots (every map with an element): every
stored element is destroyed exactly once, the map is empty and every later history is answered as specified for an
empty map.  The same state results without destructor.  Missing: maps that were never used or have one slot, see
`C51_frm_violated`. -/
theorem C51_frm_clear_partial (hc : LawfulCmp cmp) {s : Frm α} {st : St α} (h : Reach cmp key s st)
    (hst : st.started = true) (h1 : 1 < st.cap) :
    ∃ s' d, clear s true = some (s', d, .ok) ∧ clear s false = some (s', [], .ok) ∧ d.Perm st.l ∧ size s' = 0 ∧
      ∀ ops, okRun cmp key s'.hasAlloc ⟨[], st.cap, true⟩ ops →
        ∃ s'', run cmp key s' ops = some (s'', (specRun cmp key s'.hasAlloc ⟨[], st.cap, true⟩ ops).2) := by
  obtain ⟨T, o⟩ := h.sim hc
  obtain ⟨s2, r2, sim2, _⟩ := step_spec hc o .clear (Or.inl hst)
  obtain ⟨hcap, ⟨_, o⟩ | ⟨hst', _⟩⟩ := o
  · have hcl : clear s false = some (s2, [], .ok) := by
      have hc1 : ¬ (1 > s.cap) := by omega
      simp only [step, clear, Bool.not_false, if_true, sizeSet, hc1, if_false, Option.bind_eq_bind, Option.bind_some,
        Option.some.injEq, Prod.mk.injEq] at r2
      rw [← r2.1]
      simp only [clear, Bool.not_false, if_true, sizeSet, hc1, if_false]
    have hdes := o.destroyed (by omega)
    refine ⟨s2, _, ?_, hcl, hdes.2, ?_, ?_⟩
    · have hc1 : ¬ (1 > s.cap) := by omega
      simp only [clear, Bool.not_true, Bool.false_eq_true, if_false, hdes.1, Option.bind_eq_bind, Option.bind_some,
        sizeSet, hc1]
      simp only [clear, Bool.not_false, if_true, sizeSet, hc1, if_false, Option.some.injEq, Prod.mk.injEq] at hcl
      rw [← hcl.1]; rfl
    · obtain ⟨T2, o2⟩ := sim2
      rw [size_eq o2]; rfl
    · intro ops hok
      have hsim : Sim cmp key s2 ⟨[], st.cap, true⟩ := by
        have : (specStep cmp key s.hasAlloc st (.clear : Op α κ (Junk α))).1 = ⟨[], st.cap, true⟩ := by
          simp [specStep, hst]
        rw [← this]; exact sim2
      obtain ⟨s'', h1, _⟩ := run_spec hc ops hsim hok
      exact ⟨s'', h1⟩
  · rw [hst] at hst'; cases hst'

example : ∃ s s' d, Reach natCmp (Prod.fst : Nat × Nat → Nat) s sampleSt ∧
    clear s true = some (s', d, .ok) ∧ d.Perm sampleSt.l := by
  obtain ⟨s, h⟩ := sample_reach
  obtain ⟨s', d, h1, _, h2, _⟩ := C51_frm_clear_partial natCmp_lawful h rfl (by simp [sampleSt])
  exact ⟨s, s', d, h, h1, h2⟩

/-- C51 fails for a map over a buffer nothing was inserted into: the destructor runs over uninitialised slots and past
the end of the buffer (with one slot: it is called with NULL). -/
theorem C51_frm_violated (mem : Junk α) (n : Nat) (al : Bool) : clear (init mem (n + 1) al) true = none := by
  simp only [clear, Bool.not_true, Bool.false_eq_true, if_false]
  by_cases h : n = 0
  · subst h
    rw [destroyLoop.eq_def]
    simp [init]
  · have hn : ¬ (1 ≥ (init mem (n + 1) al).cap) := by simp [init]; omega
    rw [if_neg hn, destroyLoop_ub _ (by simp [init]) _ 1 [] rfl (by simp [init])]
    rfl

/-! ### Freeing -/

/-- `ccc_frm_clear_and_free` before the first use of a map without destructor: the map behaves as a fresh one without
memory.  Missing: every other map, see `C47_frm_violated`. -/
theorem C47_frm_clear_and_free_partial (hc : LawfulCmp cmp) {s : Frm α} {st : St α} (h : Reach cmp key s st)
    (hst : st.started = false) (hal : s.hasAlloc = true) :
    ∃ s', clearAndFree s false = some (s', [], .ok) ∧ size s' = 0 ∧ s'.cap = 0 ∧
      ∀ ops, okRun cmp key true ⟨[], 0, false⟩ ops →
        ∃ s'', run cmp key s' ops = some (s'', (specRun cmp key true ⟨[], 0, false⟩ ops).2) := by
  obtain ⟨T, _, ⟨hst', _⟩ | ⟨_, hl, _, o⟩⟩ := h.sim hc
  · rw [hst] at hst'; cases hst'
  · refine ⟨{ s with cap := 0, t := { s.t.setRoot 0 with live := inUse s.sz 0 } }, ?_, ?_, rfl, ?_⟩
    · simp only [clearAndFree, Bool.false_eq_true, if_false, hal, if_true, Option.bind_eq_bind, Option.bind_some]
    · simp [size, o.sz]
    · intro ops hok
      have hsim : Sim cmp key { s with cap := 0, t := { s.t.setRoot 0 with live := inUse s.sz 0 } } ⟨[], 0, false⟩ :=
        ⟨.nil, rfl, Or.inr ⟨rfl, rfl, rfl, ⟨rfl, o.sz, rfl⟩⟩⟩
      obtain ⟨s'', h1, _⟩ := run_spec hc ops hsim (by
        show okRun cmp key s.hasAlloc _ ops
        rw [hal]; exact hok)
      refine ⟨s'', h1.trans ?_⟩
      show some (s'', (specRun cmp key s.hasAlloc _ ops).2) = _
      rw [hal]

example : ∃ s s' : Frm (Nat × Nat), Reach natCmp Prod.fst s ⟨[], 4, false⟩ ∧ clearAndFree s false = some (s', [], .ok) := by
  have h : Reach natCmp (Prod.fst : Nat × Nat → Nat) (init sampleJunk 4 true) ⟨[], 4, false⟩ :=
    ⟨_, 4, true, [], trivial, ⟨_, rfl⟩, rfl⟩
  obtain ⟨s', h1, _⟩ := C47_frm_clear_and_free_partial natCmp_lawful h rfl rfl
  exact ⟨_, s', h, h1⟩

/-- C47 fails: after `ccc_frm_clear_and_free` a map that was used still reports its old size, and the next insertion
writes through the freed (NULL) memory. -/
theorem C47_frm_violated (hc : LawfulCmp cmp) {s : Frm α} {st : St α} (h : Reach cmp key s st)
    (hst : st.started = true) (hal : s.hasAlloc = true) :
    ∃ s', clearAndFree s false = some (s', [], .ok) ∧ size s' = st.l.length ∧ s'.cap = 0 ∧
      ∀ x ans, tryInsert cmp key s' x ans = none := by
  obtain ⟨T, o⟩ := h.sim hc
  have hsz := size_eq o
  obtain ⟨_, ⟨_, o⟩ | ⟨hst', _⟩⟩ := o
  · refine ⟨{ s with cap := 0, t := { s.t.setRoot 0 with live := inUse s.sz 0 } }, ?_, hsz, rfl, ?_⟩
    · simp only [clearAndFree, Bool.false_eq_true, if_false, hal, if_true, Option.bind_eq_bind, Option.bind_some]
    · intro x ans
      have hz := o.sz
      have hz0 : s.sz ≠ 0 := by omega
      have hf : find cmp key { s with cap := 0, t := { s.t.setRoot 0 with live := inUse s.sz 0 } } (key x) =
          some (.err, 0) := by
        simp only [find, Wavl.find, Links.setRoot]
        rw [Wavl.findLoop]; simp
      simp only [tryInsert, hf, Option.bind_eq_bind, Option.bind_some, maybeAllocInsert, allocBack, hz0, bufAllocBack,
        if_false, setVal, setSize, inUse]
      simp
  · rw [hst] at hst'; cases hst'

example : ∃ s s' : Frm (Nat × Nat), Reach natCmp Prod.fst s sampleSt ∧ clearAndFree s false = some (s', [], .ok) ∧
    size s' = 4 := by
  obtain ⟨s, h⟩ := C32_frm_history_partial natCmp_lawful sampleJunk 0 true sampleOps sampleOps_ok
  have hr : Reach natCmp (Prod.fst : Nat × Nat → Nat) s sampleSt := ⟨_, _, _, sampleOps, sampleOps_ok, ⟨_, h⟩, by
    simp [sampleSt, sampleOps, specRun, specStep, lookup, add, room, grow, place, write, drop, erase, natCmp, ekey]⟩
  obtain ⟨s2, h2, _, hal⟩ := run_spec natCmp_lawful sampleOps
    ⟨_, init_ok (cmp := natCmp) (key := (Prod.fst : Nat × Nat → Nat)) sampleJunk 0 true⟩ sampleOps_ok
  rw [show (init sampleJunk 0 true).hasAlloc = true from rfl] at h2 hal
  rw [h] at h2
  simp only [Option.some.injEq, Prod.mk.injEq, and_true] at h2
  obtain ⟨s', h1, h3, _⟩ := C47_frm_violated natCmp_lawful hr rfl (by rw [h2]; exact hal)
  exact ⟨s, s', hr, h1, h3⟩

/-! ### Lazy insertion -/

/-- Whenever the lazy macros store the element, the returned entry reports no insertion error and refers to it. -/
theorem C50_frm_lazy (hc : LawfulCmp cmp) {s s1 s2 : Frm α} {st : St α} (h : Reach cmp key s st) {k : κ} {x : α}
    {ans : Option (Junk α)} {e1 e2 : Ent} (hk : cmp k (key x) = .eql) (hv : lookup cmp (ekey key) k st.l = none)
    (h1 : tryInsertW cmp key s k x ans = some (s1, e1)) (h2 : insertOrAssignW cmp key s k x ans = some (s2, e2)) :
    e1 = e2 ∧ s1 = s2 ∧ (Ent.isInsertError (some e1) = true ↔ size s1 = size s) ∧
    (∀ n, e1.e = some n → size s1 = size s + 1 ∧ s1.val n = x ∧ e1.stats = Stat.vacant) ∧
    (e1.e = none → size s1 = size s) := by
  obtain ⟨T, o⟩ := h.sim hc
  rcases o.find hc k with ⟨pre, a, post, hst, hs, e, ha, _, _, hf, hlk⟩ | ⟨q, hf, hq, g, hlk⟩
  · rw [hlk] at hv; cases hv
  · obtain ⟨s', T', hrun, o', a', hval⟩ := maybeAllocInsert_spec o hc g (x := x) hk ans
    simp only [tryInsertW, insertOrAssignW, entry_eq hf, Option.bind_eq_bind, Option.bind_some, if_neg hq, Rom.vac_not_occ,
      Bool.not_false, if_true, insertVacantW_eq, hrun, Option.map_some, Option.some.injEq, Prod.mk.injEq] at h1 h2
    obtain ⟨rfl, rfl⟩ := h1
    obtain ⟨rfl, rfl⟩ := h2
    have hl : lookup cmp (ekey key) (key x) st.l = none := (Rom.lookup_congr hc hk).symm.trans hv
    have z1 := size_eq o
    have z2 := size_eq o'
    cases hadd : add cmp key s.hasAlloc ans.isSome st x with
    | mk st' r =>
      rw [hadd] at z2 hval
      have hlen : st'.l.length = if r.isSome then st.l.length + 1 else st.l.length := by
        rw [add] at hadd
        have hrl : (room s.hasAlloc ans.isSome st).1.l = st.l := by
          simp only [room]
          split
          · split <;> rfl
          · split
            · rfl
            · split <;> rfl
        split at hadd <;> simp only [Prod.mk.injEq] at hadd <;> obtain ⟨rfl, rfl⟩ := hadd
        · next heq => rw [heq] at hrl; exact congrArg List.length hrl
        · simp only [Option.isSome_some, if_true]
          exact place_length hc (e := (st.l.length + 1, x)) hl
      have hie : Stat.has Stat.insertError Stat.insertError = true := by decide
      have hiv : Stat.has Stat.vacant Stat.insertError = false := by decide
      cases r with
      | none =>
        simp only [Option.isSome_none, Bool.false_eq_true, if_false] at hlen
        refine ⟨rfl, rfl, ?_, by simp, fun _ => by rw [z1, z2, hlen]⟩
        simp only [Option.isSome_none, Bool.false_eq_true, if_false, Ent.isInsertError, hie, true_iff]
        rw [z1, z2, hlen]
      | some n =>
        simp only [Option.isSome_some, if_true] at hlen
        refine ⟨rfl, rfl, ?_, ?_, by simp⟩
        · simp only [Option.isSome_some, if_true, Ent.isInsertError, hiv, Bool.false_eq_true, false_iff]
          rw [z1, z2, hlen]; omega
        · intro m hm
          simp only [Option.some.injEq] at hm
          subst hm
          exact ⟨by rw [z1, z2, hlen], (hval n rfl).2, rfl⟩

example : ∃ s s1 s2 e1 e2, Reach natCmp (Prod.fst : Nat × Nat → Nat) s sampleSt ∧
    tryInsertW natCmp Prod.fst s 4 (4, 4) (some sampleJunk) = some (s1, e1) ∧
    insertOrAssignW natCmp Prod.fst s 4 (4, 4) (some sampleJunk) = some (s2, e2) ∧
    Ent.isInsertError (some e1) = decide (size s1 = size s) := by
  obtain ⟨s, h⟩ := sample_reach
  obtain ⟨T, o⟩ := h.sim natCmp_lawful
  obtain ⟨s1, h1, _⟩ := step_spec natCmp_lawful o (.tryInsertW 4 (4, 4) (some sampleJunk)) rfl
  obtain ⟨s2, h2, _⟩ := step_spec natCmp_lawful o (.insertOrAssignW 4 (4, 4) (some sampleJunk)) rfl
  simp only [step, Option.bind_eq_bind, Option.bind_eq_some_iff] at h1 h2
  obtain ⟨⟨t1, e1⟩, h1, _⟩ := h1
  obtain ⟨⟨t2, e2⟩, h2, _⟩ := h2
  have := (C50_frm_lazy natCmp_lawful h rfl rfl h1 h2).2.2.1
  refine ⟨s, t1, t2, e1, e2, h, h1, h2, ?_⟩
  by_cases hh : size t1 = size s
  · rw [this.2 hh]; simp [hh]
  · cases hb : Ent.isInsertError (some e1) with
    | true => exact absurd (this.1 hb) hh
    | false => simp [hh]

/-! ### The value replaced by an insertion -/

/-- `ccc_frm_insert` over a stored key hands the replaced value back in the user's struct.  Missing: the returned entry
does not unwrap to it, see `C52_frm_violated`. -/
theorem C52_frm_insert_partial (hc : LawfulCmp cmp) {s : Frm α} {st : St α} (h : Reach cmp key s st) {x v : α} {a : Nat}
    (ans : Option (Junk α)) (hv : lookup cmp (ekey key) (key x) st.l = some (a, v)) :
    ∃ s' e, insert cmp key s x ans = some (s', e, v) ∧ e.stats = Stat.occupied ∧ size s' = size s := by
  obtain ⟨T, o⟩ := h.sim hc
  rcases o.find hc (key x) with ⟨pre, b, post, hst, hs, e, ha, _, _, hf, hlk⟩ | ⟨q, hf, hq, g, hlk⟩
  · rw [hlk] at hv
    simp only [Option.some.injEq, Prod.mk.injEq] at hv
    obtain ⟨rfl, rfl⟩ := hv
    obtain ⟨s', h1, ⟨T', o'⟩, _⟩ := insert_occupied hc o hst hs (ans := ans) e ha hf
    refine ⟨s', _, h1, rfl, ?_⟩
    rw [size_eq o', size_eq o]; simp [write]
  · rw [hlk] at hv; cases hv

/-- C52 fails: the entry returned by `ccc_frm_insert` over a stored key unwraps to the slot in the map, which holds the
new value. -/
theorem C52_frm_violated (hc : LawfulCmp cmp) {s : Frm α} {st : St α} (h : Reach cmp key s st) {x v : α} {a : Nat}
    (ans : Option (Junk α)) (hv : lookup cmp (ekey key) (key x) st.l = some (a, v)) :
    ∃ s' e, insert cmp key s x ans = some (s', e, v) ∧ Ent.unwrap (some e) = some a ∧ s'.val a = x := by
  obtain ⟨T, o⟩ := h.sim hc
  rcases o.find hc (key x) with ⟨pre, b, post, hst, hs, e, ha, _, _, hf, hlk⟩ | ⟨q, hf, hq, g, hlk⟩
  · rw [hlk] at hv
    simp only [Option.some.injEq, Prod.mk.injEq] at hv
    obtain ⟨rfl, rfl⟩ := hv
    obtain ⟨s', h1, _, _, hx⟩ := insert_occupied hc o hst hs (ans := ans) e ha hf
    exact ⟨s', _, h1, Rom.unwrap_occ _, hx⟩
  · rw [hlk] at hv; cases hv

example : ∃ s s' e, Reach natCmp (Prod.fst : Nat × Nat → Nat) s sampleSt ∧
    insert natCmp Prod.fst s (3, 100) none = some (s', e, (3, 7)) ∧ Ent.unwrap (some e) = some 2 ∧ s'.val 2 = (3, 100) := by
  obtain ⟨s, h⟩ := sample_reach
  obtain ⟨s', e, h1, h2, h3⟩ := C52_frm_violated natCmp_lawful h (x := (3, 100)) none
    (show lookup natCmp (ekey Prod.fst) 3 sampleSt.l = some (2, (3, 7)) from rfl)
  exact ⟨s, s', e, h, h1, h2, h3⟩

/-! ### Copies -/

/-- A successful `ccc_frm_copy` makes the destination, whatever it was before, a map with the source's elements: every
later history on it is answered as the same history on the source would be, with the destination's capacity and
allocation permission.  (The source is not written to: the model's `copy` only returns a destination.) -/
theorem C53_frm_copy (hc : LawfulCmp cmp) {src : Frm α} {st : St α} (h : Reach cmp key src st) (dst : Frm α)
    (fn : Option (Option (Junk α))) {d : Frm α} (hcp : copy dst src fn = (d, .ok)) :
    d.hasAlloc = dst.hasAlloc ∧ d.cap = max dst.cap src.cap ∧
    ∀ ops, okRun cmp key d.hasAlloc { st with cap := d.cap } ops →
      ∃ s', run cmp key d ops = some (s', (specRun cmp key d.hasAlloc { st with cap := d.cap } ops).2) := by
  have key' : d.hasAlloc = dst.hasAlloc ∧ d.cap = max dst.cap src.cap ∧ d.sz = src.sz ∧ d.t.root = src.t.root ∧
      d.t.live = inUse src.sz d.cap ∧ Same src.cap src d := by
    simp only [copy] at hcp
    have hgt : ∀ m : Frm α, ∀ c j, (growTo m c j).hasAlloc = m.hasAlloc ∧ (growTo m c j).cap = c ∧
        (growTo m c j).sz = m.sz ∧ (growTo m c j).t.root = m.t.root ∧ (growTo m c j).t.live = inUse m.sz c :=
      fun m c j => ⟨rfl, rfl, rfl, rfl, rfl⟩
    split at hcp
    · simp at hcp
    · split at hcp
      · next hlt =>
        split at hcp
        · simp at hcp
        · simp at hcp
        · simp only [Prod.mk.injEq, and_true] at hcp
          subst hcp
          refine ⟨rfl, ?_, rfl, rfl, rfl, ?_⟩
          · show src.cap = _
            exact (Nat.max_eq_right (Nat.le_of_lt hlt)).symm
          · intro a ha
            simp [ha]
      · next hlt =>
        simp only [Prod.mk.injEq, and_true] at hcp
        subst hcp
        refine ⟨rfl, ?_, rfl, rfl, rfl, ?_⟩
        · show dst.cap = _
          exact (Nat.max_eq_left (Nat.le_of_not_lt hlt)).symm
        · intro a ha
          simp [ha]
  obtain ⟨h1, h2, h3, h4, h5, h6⟩ := key'
  refine ⟨h1, h2, fun ops hok => ?_⟩
  obtain ⟨T, hcap, o⟩ := h.sim hc
  have hsim : Sim cmp key d { st with cap := d.cap } := by
    refine ⟨T, rfl, ?_⟩
    rcases o with ⟨hst, o⟩ | ⟨hst, hl, hT, o⟩
    · refine Or.inl ⟨hst, ?_⟩
      have hle : src.sz ≤ d.cap := by have := o.le; omega
      have := o.transfer h4 (fun a ha => h6 a (by have := o.le; omega)) h5 hle (al := false)
      refine ⟨?_, by rw [h5, h3], by rw [h3]; exact o.sz, by rw [h3]; exact hle, o.slots⟩
      have e : asRom d = { t := { d.t with live := d.t.live }, sz := st.l.length, val := d.val, alloc := false } := by
        have := o.sz
        simp only [asRom, h3, this, Nat.add_sub_cancel]
      show Rom.Ok cmp key (asRom d) st.l T
      rw [e]; exact this
    · exact Or.inr ⟨hst, hl, hT, by rw [h5, h3], h3.trans o.sz, h4.trans o.root⟩
  obtain ⟨s', r, _⟩ := run_spec hc ops hsim hok
  exact ⟨s', r⟩

/-- C53 fails when the allocation is refused: the destination keeps its old memory but takes the source's size and root,
so that it reports the source's elements although it holds none of them.  With a destination without memory, any
lookup then reads through NULL. -/
theorem C53_frm_violated (hc : LawfulCmp cmp) {src : Frm α} {st : St α} (h : Reach cmp key src st) (hne : st.l ≠ [])
    (mem : Junk α) (al : Bool) (k : κ) :
    ∃ d, copy (init mem 0 al) src (some none) = (d, .memErr) ∧ size d = st.l.length ∧ contains cmp key d k = none := by
  obtain ⟨T, o⟩ := h.sim hc
  have hz := size_eq o
  obtain ⟨hcap, ⟨hst, o⟩ | ⟨_, hl, _⟩⟩ := o
  · have hsz := o.sz
    have hle := o.le
    have hlt : (init mem 0 al).cap < src.cap := by simp only [init]; omega
    refine ⟨{ init mem 0 al with t := { (init mem 0 al).t with root := src.t.root, live := inUse src.sz (init mem 0 al).cap }, sz := src.sz }, ?_, hz, ?_⟩
    · simp only [copy, Option.isNone_some, Bool.false_eq_true, and_false, if_false, hlt, if_true]
    · have hr : src.t.root ≠ 0 := by
        have h1 : src.t.root = T.rootId := o.ok.wv.whole.ctx
        rw [h1]
        cases T with
        | nil => exact absurd (by rw [o.ok.list]; rfl) hne
        | node i k l r => exact o.ok.ne_zero (by simp [Tree.ids])
      simp only [contains, find, Wavl.find]
      rw [Wavl.findLoop]
      simp [hr, init, inUse]
  · exact absurd hl hne

example : ∃ s d s', Reach natCmp (Prod.fst : Nat × Nat → Nat) s sampleSt ∧
    copy (init sampleJunk 0 false) s (some (some sampleJunk)) = (d, .ok) ∧
    run natCmp Prod.fst d [.size, .get 3] = some (s', [.num 4, .ptr (.elem 2 (3, 7))]) := by
  obtain ⟨s, h⟩ := sample_reach
  have hcap : s.cap = sampleSt.cap := by obtain ⟨T, o⟩ := h.sim natCmp_lawful; exact o.1
  have hlt : (init sampleJunk 0 false).cap < s.cap := by rw [hcap]; decide
  have e : ∃ d, copy (init sampleJunk 0 false) s (some (some sampleJunk)) = (d, .ok) := by
    simp [copy, hlt]
  obtain ⟨d, e⟩ := e
  obtain ⟨_, _, h3⟩ := C53_frm_copy natCmp_lawful h _ _ e
  obtain ⟨s', h4⟩ := h3 [.size, .get 3] (by simp [okRun, okOp])
  exact ⟨s, d, s', h, e, h4⟩

end CCC.Frm
