import Verif.Proof.OrderedMapStep
import Verif.Proof.Iter
/-
Properties of the ordered map (`src/ordered_map.c`), a splay tree over user structs.

`run cmp key (init mem al) ops` executes a history of calls on a fresh map; `none` would be undefined behaviour
(access to memory that is no element), a failed assertion or a loop that does not end.  `specRun cmp key al [] ops` is
the same history on a list of elements in key order (`Verif/Spec/PtrMap.lean`).  `safeRun` is what the documentation
asks of the caller, and that `contains` is not called on an empty map: `C26_om_violated` shows what happens then.
-/
namespace CCC.Om
open CCC MapSpec PtrMap Tree Links
open _root_.CCC.Rom (put view toSlot elems mem_elems ids_elems put_comm_val unwrap_occ occ_occ lookup_congr specRun_append)

variable {α κ : Type} {cmp : κ → κ → Cmp} {key : α → κ}

/-- The reachable states: after a history in which the caller followed the documentation (and did not call `contains`
on an empty map), with the elements the specification says are stored. -/
def Reach (cmp : κ → κ → Cmp) (key : α → κ) (s : Om α) (l : List (Nat × α)) : Prop :=
  ∃ mem al ops, safeRun cmp key al [] ops ∧ (∃ outs, run cmp key (init mem al) ops = some (s, outs)) ∧
    (specRun cmp key al [] ops).1 = l

theorem Reach.sim {s : Om α} {l : List (Nat × α)} (hc : LawfulCmp cmp) (h : Reach cmp key s l) :
    Sim cmp key s l := by
  obtain ⟨mem, al, ops, hok, ⟨outs, hr⟩, rfl⟩ := h
  obtain ⟨s', h1, h2, _⟩ := run_spec hc ops ⟨_, init_ok (cmp := cmp) (key := key) mem al⟩ hok
  rw [h1] at hr
  simp only [Option.some.injEq, Prod.mk.injEq] at hr
  rw [← hr.1]; exact h2

theorem run_append (ops ops' : List (Op α κ)) : ∀ {s s1 : Om α} {o1 : List (Out α)},
    run cmp key s ops = some (s1, o1) →
    run cmp key s (ops ++ ops') = (run cmp key s1 ops').map (fun r => (r.1, o1 ++ r.2)) := by
  induction ops with
  | nil =>
    intro s s1 o1 h
    simp only [run, Option.some.injEq, Prod.mk.injEq] at h
    obtain ⟨rfl, rfl⟩ := h
    simp
  | cons o os ih =>
    intro s s1 o1 h
    simp only [run, Option.bind_eq_bind, Option.bind_eq_some_iff] at h
    obtain ⟨⟨s2, r⟩, h1, ⟨s3, rs⟩, h2, h3⟩ := h
    simp only [Option.some.injEq, Prod.mk.injEq] at h3
    obtain ⟨rfl, rfl⟩ := h3
    simp only [List.cons_append, run, h1, Option.bind_eq_bind, Option.bind_some, ih h2]
    cases run cmp key s3 ops' <;> rfl

/-- One more allowed call keeps a state reachable. -/
theorem Reach.step {s s' : Om α} {l : List (Nat × α)} {op : Op α κ} {out : Out α} (hc : LawfulCmp cmp)
    (h : Reach cmp key s l) (ok : okOp cmp key s.alloc l op) (sf : safeOp l op)
    (hs : step cmp key s op = some (s', out)) : Reach cmp key s' (specStep cmp key s.alloc l op).1 := by
  obtain ⟨mem, al, ops, hok, ⟨outs, hr⟩, hl⟩ := h
  have hal : s.alloc = al := by
    obtain ⟨s2, h1, _, h2⟩ := run_spec hc ops ⟨_, init_ok (cmp := cmp) (key := key) mem al⟩ hok
    rw [h1] at hr
    simp only [Option.some.injEq, Prod.mk.injEq] at hr
    rw [← hr.1, h2]; rfl
  refine ⟨mem, al, ops ++ [op], ?_, ⟨outs ++ [out], ?_⟩, ?_⟩
  · rw [safeRun_append]; exact ⟨hok, by rw [hl, ← hal]; exact ⟨ok, sf, trivial⟩⟩
  · rw [run_append ops [op] hr]; simp [run, hs]
  · rw [specRun_append, hl, ← hal]; rfl

/-- A history used to show that hypotheses are met: user owned structs at 1..5 with keys, a replacement, a removal
and queries, without allocator. -/
def sampleOps : List (Op (Nat × Nat) Nat) :=
  [.insert 1 (5, 0) 9 (0, 0) none, .tryInsert 2 (3, 1) none, .insertOrAssign 3 (8, 2) none, .tryInsert 4 (1, 3) none,
   .tryInsert 5 (9, 4) none, .insertOrAssign 6 (3, 7) none, .removeEntry 5, .get 3, .begin, .next 4, .equalRange 2 8,
   .andModify 8 (fun x => (x.1, x.2 + 1)), .size]

theorem sampleOps_ok : safeRun natCmp Prod.fst false [] sampleOps := by
  simp [sampleOps, safeRun, safeOp, okOp, specStep, lookup, addAt, place, assign, MapSpec.erase, fresh, goodAns, natCmp, ekey]

/-- Every history: all answers, statuses and returned pointers are those of the sorted list; lookups and iteration
change no membership, whatever splaying they do.  Missing for the full C23: `contains` on an empty map, see
`C26_om_violated`. -/
theorem C23_om_history_partial (hc : LawfulCmp cmp) (mem : Nat → α) (al : Bool) (ops : List (Op α κ))
    (hok : safeRun cmp key al [] ops) :
    ∃ s, run cmp key (init mem al) ops = some (s, (specRun cmp key al [] ops).2) := by
  obtain ⟨s, h, _⟩ := run_spec hc ops ⟨_, init_ok (cmp := cmp) (key := key) mem al⟩ hok
  exact ⟨s, h⟩

/-- Histories without `contains`: nothing is excluded that the documentation allows. -/
theorem C23_om_history (hc : LawfulCmp cmp) (mem : Nat → α) (al : Bool) (ops : List (Op α κ))
    (hok : okRun cmp key al [] ops) (hnc : ∀ k, Op.contains k ∉ ops) :
    ∃ s, run cmp key (init mem al) ops = some (s, (specRun cmp key al [] ops).2) := by
  apply C23_om_history_partial hc
  have : ∀ (ops : List (Op α κ)) (l : List (Nat × α)), okRun cmp key al l ops → (∀ k, Op.contains k ∉ ops) →
      safeRun cmp key al l ops := by
    intro ops
    induction ops with
    | nil => intros; trivial
    | cons o os ih =>
      intro l h hn
      refine ⟨h.1, ?_, ih _ h.2 (fun k hk => hn k (by simp [hk]))⟩
      cases o <;> first | trivial | exact absurd (List.mem_cons_self ..) (hn _)
  exact this ops [] hok hnc

theorem sampleOps_ok' : okRun natCmp Prod.fst false [] sampleOps := by
  simp [sampleOps, okRun, okOp, specStep, lookup, addAt, place, assign, MapSpec.erase, fresh, goodAns, natCmp, ekey]

example : ∃ s, run natCmp Prod.fst (init (fun _ => (0, 0)) false) sampleOps =
    some (s, (specRun natCmp Prod.fst false [] sampleOps).2) :=
  C23_om_history natCmp_lawful _ _ _ sampleOps_ok' (by simp [sampleOps])

/-- The sample history stores the keys 1, 3, 8, 9 at its end. -/
theorem sample_reach : ∃ s, Reach natCmp (Prod.fst : Nat × Nat → Nat) s
    [(4, (1, 3)), (2, (3, 7)), (3, (8, 3)), (5, (9, 4))] := by
  obtain ⟨s, h⟩ := C23_om_history_partial natCmp_lawful (fun _ => ((0, 0) : Nat × Nat)) false sampleOps sampleOps_ok
  exact ⟨s, _, _, sampleOps, sampleOps_ok, ⟨_, h⟩, by
    simp [sampleOps, specRun, specStep, lookup, addAt, place, assign, MapSpec.erase, natCmp, ekey]⟩

/-- The specification's list is always in strictly ascending key order: no two stored elements have equal keys. -/
theorem C23_om_sorted (hc : LawfulCmp cmp) {s : Om α} {l : List (Nat × α)} (h : Reach cmp key s l) :
    Sorted cmp (ekey key) l := (h.sim hc).choose_spec.sorted

theorem Sim.next_walk {s : Om α} {l : List (Nat × α)} (h : Sim cmp key s l) :
    (l.map Prod.fst).Nodup ∧
    (∀ pre a post, l.map Prod.fst = pre ++ a :: post → next s a = some post.head?) ∧
    (∀ pre a post, (l.map Prod.fst).reverse = pre ++ a :: post → rnext s a = some post.head?) ∧
    begin_ s = some (l.map Prod.fst).head? ∧ rbegin s = some (l.map Prod.fst).reverse.head? := by
  obtain ⟨T, o⟩ := h
  have hids : l.map Prod.fst = T.ids := by rw [o.list]; exact ids_elems _ _
  have hz : ∀ m : List Nat, (∀ a ∈ m, a ∈ T.ids) → toSlot (m.headD 0) = m.head? := by
    intro m hm
    cases m with
    | nil => rfl
    | cons b m => simp [toSlot, o.ne_zero (hm b (by simp))]
  have hz' : ∀ m : List Nat, (∀ a ∈ m, a ∈ T.ids) → toSlot (m.getLastD 0) = m.reverse.head? := by
    intro m hm
    have := hz m.reverse (by simpa using hm)
    simpa using this
  rw [hids]
  refine ⟨o.nodup, ?_, ?_, ?_, ?_⟩
  · intro pre a post e
    simp only [next, Wavl.next_whole o.whole e true, Option.bind_eq_bind, Option.bind_some, if_true]
    rw [hz post (fun b hb => by rw [e]; simp [hb])]
  · intro pre a post e
    have e' : T.ids = post.reverse ++ a :: pre.reverse := by
      have := congrArg List.reverse e
      simpa using this
    simp only [rnext, Wavl.next_whole o.whole e' false, Option.bind_eq_bind, Option.bind_some, Bool.false_eq_true, if_false]
    rw [hz' _ (fun b hb => by rw [e']; simp [List.mem_reverse.1 hb])]
    simp
  · rw [begin_eq o]
    simp only [Wavl.endOf, Bool.false_eq_true, if_false]
    rw [hz _ (fun _ h => h)]
  · rw [rbegin_eq o]
    simp only [Wavl.endOf, if_true]
    rw [hz' _ (fun _ h => h)]

/-- `for (p = begin; p != end; p = next(p))` visits exactly the stored elements, in key order, and the reverse loop in
the opposite order.  The calls are functions of the state and do not return a new one: there is no structural
change. -/
theorem C24_om_iteration (hc : LawfulCmp cmp) {s : Om α} {l : List (Nat × α)} (h : Reach cmp key s l) :
    (do let p ← begin_ s; iterate (next s) end_ p) = some (l.map Prod.fst) ∧
    (do let p ← rbegin s; iterate (rnext s) end_ p) = some (l.map Prod.fst).reverse := by
  obtain ⟨hn, hnx, hrn, hb, hrb⟩ := (h.sim hc).next_walk
  constructor
  · simp only [hb, Option.bind_eq_bind, Option.bind_some]
    have := iterate_spec hn hnx (pre := []) (m := l.map Prod.fst) (post := []) (by simp)
    simpa [end_] using this
  · simp only [hrb, Option.bind_eq_bind, Option.bind_some]
    have := iterate_spec (nodup_reverse' hn) hrn (pre := []) (m := (l.map Prod.fst).reverse) (post := []) (by simp)
    simpa [end_] using this

theorem Reach.range {s : Om α} {l : List (Nat × α)} (hc : LawfulCmp cmp) (h : Reach cmp key s l) (b e : κ) :
    (∃ s', Reach cmp key s' l ∧ equalRange cmp key s b e true =
      some (s', (firstNotLess cmp (ekey key) b l).map Prod.fst, (firstGreater cmp (ekey key) e l).map Prod.fst)) ∧
    (∃ s', Reach cmp key s' l ∧ equalRange cmp key s b e false =
      some (s', (lastNotGreater cmp (ekey key) b l).map Prod.fst, (lastLess cmp (ekey key) e l).map Prod.fst)) := by
  obtain ⟨T, o⟩ := h.sim hc
  obtain ⟨⟨s1, h1, _⟩, s2, h2, _⟩ := step_range hc o (b := b) (e := e)
  have r1 := h.step hc (op := .equalRange b e) trivial trivial h1
  have r2 := h.step hc (op := .equalRrange b e) trivial trivial h2
  have hv : ∀ (s : Om α) (p : Slot), (view s p).map Prod.fst = p := by intro s p; cases p <;> rfl
  simp only [Om.step, specStep, Option.bind_eq_bind] at h1 h2
  constructor
  · cases hr : equalRange cmp key s b e true with
    | none => rw [hr] at h1; simp at h1
    | some r =>
      rw [hr] at h1
      simp only [Option.bind_some, Option.some.injEq, Prod.mk.injEq, Out.range.injEq] at h1
      refine ⟨s1, r1, ?_⟩
      rw [← h1.2.1, ← h1.2.2, hv, hv, ← h1.1]
  · cases hr : equalRange cmp key s b e false with
    | none => rw [hr] at h2; simp at h2
    | some r =>
      rw [hr] at h2
      simp only [Option.bind_some, Option.some.injEq, Prod.mk.injEq, Out.range.injEq] at h2
      refine ⟨s2, r2, ?_⟩
      rw [← h2.2.1, ← h2.2.2, hv, hv, ← h2.1]

/-- `equal_range` and `equal_rrange` return the specified end points, for every pair of keys, and change no
membership. -/
theorem C25_om_range_ends (hc : LawfulCmp cmp) {s : Om α} {l : List (Nat × α)} (h : Reach cmp key s l) (b e : κ) :
    (∃ s', Reach cmp key s' l ∧ equalRange cmp key s b e true =
      some (s', (firstNotLess cmp (ekey key) b l).map Prod.fst, (firstGreater cmp (ekey key) e l).map Prod.fst)) ∧
    (∃ s', Reach cmp key s' l ∧ equalRange cmp key s b e false =
      some (s', (lastNotGreater cmp (ekey key) b l).map Prod.fst, (lastLess cmp (ekey key) e l).map Prod.fst)) :=
  h.range hc b e

/-- Iterating over the range visits exactly the elements with keys in `[b, e]`, in order. -/
theorem C25_om_range (hc : LawfulCmp cmp) {s : Om α} {l : List (Nat × α)} (h : Reach cmp key s l) {b e : κ}
    (hbe : cmp b e ≠ .grt) :
    (do let r ← equalRange cmp key s b e true; overRange (next r.1) r.2) =
      some ((l.filter (fun x => cmp b (key x.2) != .grt && cmp e (key x.2) != .les)).map Prod.fst) := by
  obtain ⟨s', r', hrun⟩ := (h.range hc b e).1
  obtain ⟨hn, hnx, _⟩ := (r'.sim hc).next_walk
  obtain ⟨pre, post, e1, e2, e3⟩ := range_split hc (C23_om_sorted hc h) hbe
  simp only [hrun, Option.bind_eq_bind, Option.bind_some, ← e2, ← e3, ← List.head?_map, List.map_append]
  exact iterate_spec hn hnx (pre := pre.map Prod.fst) (by rw [← List.map_append, ← List.map_append]; exact congrArg _ e1)

/-- Iterating backwards over the reverse range visits exactly the elements with keys in `[e, b]`, descending. -/
theorem C25_om_rrange (hc : LawfulCmp cmp) {s : Om α} {l : List (Nat × α)} (h : Reach cmp key s l) {b e : κ}
    (hbe : cmp e b ≠ .grt) :
    (do let r ← equalRange cmp key s b e false; overRange (rnext r.1) r.2) =
      some ((l.filter (fun x => cmp b (key x.2) != .les && cmp e (key x.2) != .grt)).map Prod.fst).reverse := by
  obtain ⟨s', r', hrun⟩ := (h.range hc b e).2
  obtain ⟨hn, _, hrn, _⟩ := (r'.sim hc).next_walk
  obtain ⟨pre, post, e1, e2, e3⟩ := rrange_split hc (C23_om_sorted hc h) hbe
  simp only [hrun, Option.bind_eq_bind, Option.bind_some, ← e2, ← e3, ← List.head?_map, List.map_append]
  rw [List.map_reverse]
  exact iterate_spec (nodup_reverse' hn) hrn (pre := pre.map Prod.fst) (by
    rw [← List.map_reverse, ← List.map_reverse, ← List.map_append, ← List.map_append]; exact congrArg _ e1)

example : ∃ s, Reach natCmp (Prod.fst : Nat × Nat → Nat) s [(4, (1, 3)), (2, (3, 7)), (3, (8, 3)), (5, (9, 4))] ∧
    (do let p ← begin_ s; iterate (next s) end_ p) = some [4, 2, 3, 5] ∧
    (do let r ← equalRange natCmp Prod.fst s 2 8 true; overRange (next r.1) r.2) = some [2, 3] := by
  obtain ⟨s, h⟩ := sample_reach
  refine ⟨s, h, (C24_om_iteration natCmp_lawful h).1, ?_⟩
  rw [C25_om_range natCmp_lawful h (by decide)]
  rfl

/-! ### Empty maps -/

theorem Reach.empty_state (hc : LawfulCmp cmp) {s : Om α} (h : Reach cmp key s []) : s.sz = 0 ∧ s.t.root = 0 ∧
    s.t.live 0 = true := by
  obtain ⟨T, o⟩ := h.sim hc
  have hT := o.nil_iff.1 rfl
  subst hT
  exact ⟨o.size, o.root, o.whole.live0⟩

/-- What holds of C26: every query but `contains` reports absence on an empty map, whatever the comparison function
is: it is not called.  Missing: `contains`, see `C26_om_violated`. -/
theorem C26_om_empty_partial (cmp' : κ → κ → Cmp) (hc : LawfulCmp cmp) {s : Om α} (h : Reach cmp key s []) (k k' : κ) :
    get cmp' key s k = some (s, none) ∧ entry cmp' key s k = some (s, ⟨none, Stat.vacant⟩) ∧
    begin_ s = some none ∧ rbegin s = some none ∧
    equalRange cmp' key s k k' true = some (s, none, none) ∧ equalRange cmp' key s k k' false = some (s, none, none) ∧
    remove cmp' key s 0 = some (s, ⟨none, Stat.vacant⟩) := by
  obtain ⟨hz, hr, _⟩ := h.empty_state hc
  refine ⟨?_, ?_, ?_, ?_, ?_, ?_, ?_⟩
  · simp [get, find, hr]
  · simp [entry, find, hr]
  · simp [begin_, hz]
  · simp [rbegin, hz]
  · simp [equalRange, hz]
  · simp [equalRange, hz]
  · simp [remove, erase, empty, hz]

/-- C26 fails for `contains`: on every empty map it goes on to compare the key with the map's own sentinel, which is no
element. -/
theorem C26_om_violated (hc : LawfulCmp cmp) {s : Om α} (h : Reach cmp key s []) (k : κ) :
    contains cmp key s k = none ∧
    ∀ c : Nat → Option Cmp, c 0 = none → Splay.splay s.t c s.t.root = none := by
  obtain ⟨hz, hr, h0⟩ := h.empty_state hc
  have key0 : ∀ c : Nat → Option Cmp, c 0 = none → Splay.splay s.t c s.t.root = none := by
    intro c hc0
    simp only [Splay.splay, hr]
    cases s.t.setBr 0 false 0 with
    | none => rfl
    | some t1 =>
      simp only [Option.bind_eq_bind, Option.bind_some]
      cases t1.setBr 0 true 0 with
      | none => rfl
      | some t2 =>
        simp only [Option.bind_some]
        cases t2.setPar 0 0 with
        | none => rfl
        | some t3 =>
          simp only [Option.bind_some]
          rw [Splay.splayLoop]
          simp [hc0]
  refine ⟨?_, key0⟩
  simp only [contains, splayTo, key0 _ (show cmpAt cmp key s k 0 = none by simp [cmpAt])]
  rfl

/-- Not only the fresh map is empty: so is one whose only element was removed. -/
example : ∃ s, Reach natCmp (Prod.fst : Nat × Nat → Nat) s [] ∧ get natCmp Prod.fst s 5 = some (s, none) ∧
    contains natCmp Prod.fst s 5 = none := by
  have ok : safeRun natCmp Prod.fst false [] [Op.tryInsert 1 (5, 7) none, .removeEntry (5 : Nat)] := by
    simp [safeRun, safeOp, okOp, fresh, goodAns]
  obtain ⟨s, h⟩ := C23_om_history_partial natCmp_lawful (fun _ => ((5, 7) : Nat × Nat)) false _ ok
  have hr : Reach natCmp (Prod.fst : Nat × Nat → Nat) s [] :=
    ⟨_, _, _, ok, ⟨_, h⟩, by simp [specRun, specStep, lookup, addAt, place, MapSpec.erase, natCmp, ekey]⟩
  exact ⟨s, hr, (C26_om_empty_partial natCmp natCmp_lawful hr 5 5).1, (C26_om_violated natCmp_lawful hr 5).1⟩

/-! ### Access locality -/

/-- The descent stops at the root if the root has the key: nothing else is looked at. -/
theorem splay_root (t : Links) {c c' : Nat → Option Cmp} {r : Nat} (h : c r = some .eql) (h' : c' r = some .eql) :
    Splay.splay t c r = Splay.splay t c' r := by
  have : ∀ t, Splay.splayLoop t c (fun _ => 0) r = Splay.splayLoop t c' (fun _ => 0) r := by
    intro t
    rw [Splay.splayLoop, Splay.splayLoop]
    simp [h, h']
  simp only [Splay.splay, this]

theorem lookup_some {l : List (Nat × α)} {k : κ} {e : Nat × α} (h : lookup cmp (ekey key) k l = some e) :
    e ∈ l ∧ cmp k (ekey key e) = .eql :=
  ⟨List.mem_of_find?_eq_some h, by have := List.find?_some h; simpa using this⟩

theorem sorted_ne {l : List (Nat × α)} (hs : Sorted cmp (ekey key) l) {a b : Nat × α} (ha : a ∈ l) (hb : b ∈ l)
    (hne : a ≠ b) : cmp (ekey key a) (ekey key b) = .les ∨ cmp (ekey key b) (ekey key a) = .les := by
  induction l with
  | nil => cases ha
  | cons x l ih =>
    have hs' := List.pairwise_cons.1 hs
    rcases List.mem_cons.1 ha with rfl | ha' <;> rcases List.mem_cons.1 hb with rfl | hb'
    · exact absurd rfl hne
    · exact Or.inl (hs'.1 _ hb')
    · exact Or.inr (hs'.1 _ ha')
    · exact ih hs'.2 ha' hb'

/-- After any call that looks up or inserts the key `k`, after which `k` is stored, the element of `k` is the root;
a lookup of `k` then asks for no other comparison than that of `k` with the root: whatever `cmp'` answers elsewhere,
the lookup finds the element, leaves the same contents, and again with the element at the root. -/
theorem C27_om_locality (hc : LawfulCmp cmp) {s : Om α} {l : List (Nat × α)} (h : Reach cmp key s l) (op : Op α κ)
    (ok : okOp cmp key s.alloc l op) (sf : safeOp l op) {k : κ} (hk : opKey key op = some k) {a : Nat} {v : α}
    (hl : lookup cmp (ekey key) k (specStep cmp key s.alloc l op).1 = some (a, v)) :
    ∃ s' out, step cmp key s op = some (s', out) ∧ s'.t.root = a ∧
      ∀ cmp' : κ → κ → Cmp, cmp' k (key v) = .eql → ∃ s'', get cmp' key s' k = some (s'', some a) ∧ s''.t.root = a ∧
        Reach cmp key s'' (specStep cmp key s.alloc l op).1 := by
  obtain ⟨T, o⟩ := h.sim hc
  obtain ⟨s', h1, ⟨T', o'⟩, a', ht⟩ := step_spec hc o op ok sf
  have r' := h.step hc ok sf h1
  have hroot : s'.t.root = a := by
    rcases ht k hk with ⟨e, he, hr, heq⟩ | hn
    · obtain ⟨m1, q1⟩ := lookup_some hl
      have : e = (a, v) := by
        have hs := o'.sorted
        by_cases hne : e = (a, v)
        · exact hne
        · rcases sorted_ne hs he m1 hne with hlt | hlt
          · rw [hc.eql_congr_left (hc.symm heq)] at hlt; rw [q1] at hlt; cases hlt
          · rw [hc.eql_congr_left (hc.symm q1)] at hlt; rw [heq] at hlt; cases hlt
      rw [← hr, this]
    · rw [hn] at hl; cases hl
  obtain ⟨m1, q1⟩ := lookup_some hl
  have hva : s'.val a = v ∧ a ∈ T'.ids := by
    rw [o'.list, mem_elems] at m1; exact ⟨m1.2.symm, m1.1⟩
  refine ⟨s', _, h1, hroot, fun cmp' hc' => ?_⟩
  have ha0 : s'.t.root ≠ 0 := by rw [hroot]; exact o'.ne_zero hva.2
  have hlive : s'.t.live a = true := o'.whole.tree.live a hva.2
  rcases o'.find hc k with ⟨t, x, m, A, B, hf, o2, hr, hlv, hx, _, _, hlk⟩ | ⟨_, _, _, _, _, _, hlk⟩
  · rw [hl] at hlk
    simp only [Option.some.injEq, Prod.mk.injEq] at hlk
    obtain ⟨rfl, rfl⟩ := hlk
    refine ⟨{ s' with t := t }, ?_, hr, ?_⟩
    · have hs : Splay.splay s'.t (cmpAt cmp' key s' k) s'.t.root = Splay.splay s'.t (cmpAt cmp key s' k) s'.t.root := by
        apply splay_root
        · simp [cmpAt, hroot, o'.ne_zero hva.2, hlive, hc']
        · simp [cmpAt, hroot, o'.ne_zero hva.2, hlive, hx]
      rw [find, if_neg ha0, splayTo] at hf
      rw [get, find, if_neg ha0, splayTo, hs]
      cases hsp : Splay.splay s'.t (cmpAt cmp key s' k) s'.t.root with
      | none => rw [hsp] at hf; cases hf
      | some r =>
        rw [hsp] at hf
        simp only [Option.bind_eq_bind, Option.bind_some] at hf ⊢
        cases hq : cmpAt cmp key { s' with t := r.1.setRoot r.2 } k (r.1.setRoot r.2).root with
        | none => rw [hq] at hf; cases hf
        | some q =>
          rw [hq] at hf
          simp only [Option.bind_some, Option.some.injEq, Prod.mk.injEq] at hf
          obtain ⟨e1, e2⟩ := hf
          have et : r.1.setRoot r.2 = t := congrArg (fun s : Om α => s.t) e1
          rw [et] at hq ⊢
          have hq' : cmpAt cmp' key { s' with t := t } k t.root = some .eql := by
            simp [cmpAt, hr, o'.ne_zero hva.2, hlv, hlive, hc']
          rw [hq']
          simp [hr]
    · have hg : step cmp key s' (.get k) = some ({ s' with t := t }, .ptr (view { s' with t := t } (some a))) := by
        simp only [Om.step, get, hf, Option.bind_eq_bind, Option.bind_some]
      exact r'.step hc (op := .get k) trivial trivial hg
  · rw [hl] at hlk; cases hlk

example : ∃ s s' out, Reach natCmp (Prod.fst : Nat × Nat → Nat) s [(4, (1, 3)), (2, (3, 7)), (3, (8, 3)), (5, (9, 4))] ∧
    step natCmp Prod.fst s (.get 3) = some (s', out) ∧ s'.t.root = 2 ∧
    ∃ s'', get (fun a b => if b = 3 then natCmp a b else .err) Prod.fst s' 3 = some (s'', some 2) := by
  obtain ⟨s, h⟩ := sample_reach
  obtain ⟨s', out, h1, h2, h3⟩ := C27_om_locality natCmp_lawful h (.get 3) trivial trivial rfl (a := 2) (v := (3, 7)) rfl
  obtain ⟨s'', h4, _⟩ := h3 (fun a b => if b = 3 then natCmp a b else .err) rfl
  exact ⟨s, s', out, h, h1, h2, s'', h4⟩

/-- `ccc_om_validate` accepts every reachable map. -/
theorem C46_om_validate (hc : LawfulCmp cmp) {s : Om α} {l : List (Nat × α)} (h : Reach cmp key s l) :
    validate cmp key s = some true := by
  obtain ⟨T, o⟩ := h.sim hc
  exact validate_spec hc o

/-- `ccc_om_clear` hands every stored element to the destructor exactly once and leaves an empty map, from which
every later history runs as from a fresh map. -/
theorem C51_om_clear (hc : LawfulCmp cmp) {s : Om α} {l : List (Nat × α)} (h : Reach cmp key s l) :
    ∃ s' d, clear cmp key s = some (s', d, .ok) ∧ d.Perm l ∧ size s' = 0 ∧
      ∀ ops, safeRun cmp key s'.alloc [] ops →
        ∃ s'', run cmp key s' ops = some (s'', (specRun cmp key s'.alloc [] ops).2) := by
  obtain ⟨T, o⟩ := h.sim hc
  obtain ⟨s', d, run', hp, o', _, a'⟩ := clearLoop_spec hc l.length [] o rfl
  refine ⟨s', d, by simp only [clear, run', Option.bind_eq_bind, Option.bind_some, List.nil_append], hp, o'.size, ?_⟩
  intro ops hok
  obtain ⟨s'', h1, _⟩ := run_spec hc ops ⟨_, o'⟩ hok
  exact ⟨s'', h1⟩

example : ∃ s s' d, Reach natCmp (Prod.fst : Nat × Nat → Nat) s [(4, (1, 3)), (2, (3, 7)), (3, (8, 3)), (5, (9, 4))] ∧
    clear natCmp Prod.fst s = some (s', d, .ok) ∧ d.Perm [(4, (1, 3)), (2, (3, 7)), (3, (8, 3)), (5, (9, 4))] := by
  obtain ⟨s, h⟩ := sample_reach
  obtain ⟨s', d, h1, h2, _⟩ := C51_om_clear natCmp_lawful h
  exact ⟨s, s', d, h, h1, h2⟩

/-! ### The lazy macros -/

theorem lazy_run (hc : LawfulCmp cmp) {s : Om α} {l : List (Nat × α)} (h : Reach cmp key s l) {k : κ} {x : α}
    {ans : Option Nat} (ga : goodAns l ans 0) (hk : cmp k (key x) = .eql)
    (hlk : lookup cmp (ekey key) k l = none) {n : Nat} (hn : addAt s.alloc none ans = some n) :
    ∃ s', tryInsertW cmp key s k x ans = some (s', ⟨some n, Stat.insertError⟩) ∧
      insertOrAssignW cmp key s k x ans = some (s', ⟨some n, Stat.insertError⟩) ∧ s'.val n = x ∧
      Reach cmp key s' (place cmp (ekey key) (n, x) l) := by
  obtain ⟨T, o⟩ := h.sim hc
  rcases o.entry hc k with ⟨t, a, m, A, B, hf, o2, hr, hlv, ha, h1, h2, hlk'⟩ | ⟨t, T', hf, o2, hi, hlv, _⟩
  · rw [hlk] at hlk'; cases hlk'
  · obtain ⟨s', hrun, _, hv, a', _⟩ := lazy_case hc o2 hlk ga hk hn
    have h1 : tryInsertW cmp key s k x ans = some (s', ⟨some n, Stat.insertError⟩) := by
      simp only [tryInsertW, hf, Option.bind_eq_bind, Option.bind_some, isVac_not_occ, Bool.not_false, if_true,
        insertAndCopyKey, newMem_eq, hn, hrun]
    have h2 : insertOrAssignW cmp key s k x ans = some (s', ⟨some n, Stat.insertError⟩) := by
      simp only [insertOrAssignW, hf, Option.bind_eq_bind, Option.bind_some, isVac_not_occ, Bool.not_false, if_true,
        insertAndCopyKey, newMem_eq, hn, hrun]
    refine ⟨s', h1, h2, hv, ?_⟩
    have := h.step hc (op := .tryInsertW k x ans) ⟨ga, hk⟩ trivial (s' := s')
      (out := .ptr (view s' (Ent.unwrap (some ⟨some n, Stat.insertError⟩)))) (by simp only [Om.step, h1]; rfl)
    simpa only [specStep, hlk, hn] using this

/-- What the lazy `ccc_om_try_insert_w` and `ccc_om_insert_or_assign_w` get right: they store the element and return
a pointer to it, and an occupied entry has the right status.  Missing for the full C50: the status of a
successful insertion, see `C50_om_violated`. -/
theorem C50_om_partial (hc : LawfulCmp cmp) {s : Om α} {l : List (Nat × α)} (h : Reach cmp key s l) {k : κ} {x : α}
    {ans : Option Nat} (ga : goodAns l ans 0) (hk : cmp k (key x) = .eql) :
    ∃ s1 e1 s2 e2, tryInsertW cmp key s k x ans = some (s1, e1) ∧ insertOrAssignW cmp key s k x ans = some (s2, e2) ∧
      (match lookup cmp (ekey key) k l, addAt s.alloc none ans with
       | some (a, v), _ => e1 = ⟨some a, Stat.occupied⟩ ∧ e2 = ⟨some a, Stat.occupied⟩ ∧ s1.val a = v ∧ s2.val a = x ∧
          s1.sz = s.sz ∧ s2.sz = s.sz
       | none, some n => e1.e = some n ∧ e2.e = some n ∧ s1.val n = x ∧ s2.val n = x ∧ s1.sz = s.sz + 1 ∧ s2.sz = s.sz + 1
       | none, none => e1 = ⟨none, Stat.insertError⟩ ∧ e2 = ⟨none, Stat.insertError⟩ ∧ s1.sz = s.sz ∧ s2.sz = s.sz) := by
  obtain ⟨T, o⟩ := h.sim hc
  cases hlk : lookup cmp (ekey key) k l with
  | some av =>
    rcases o.entry hc k with ⟨t, a, m, A, B, hf, o2, hr, hlv, ha, h1, h2, hlk'⟩ | ⟨t, T', hf, o2, hi, hlv, hlk'⟩
    · rw [hlk] at hlk'
      simp only [Option.some.injEq] at hlk'
      subst hlk'
      refine ⟨{ s with t := t }, ⟨some a, Stat.occupied⟩, { s with t := t, val := upd s.val a x }, ⟨some a, Stat.occupied⟩,
        ?_, ?_, rfl, rfl, rfl, by simp, rfl, rfl⟩
      · simp only [tryInsertW, hf, Option.bind_eq_bind, Option.bind_some, if_true, occ_occ, Bool.not_true,
          Bool.false_eq_true, if_false]
      · simp only [insertOrAssignW, hf, Option.bind_eq_bind, Option.bind_some, if_true, occ_occ, Bool.not_true,
          Bool.false_eq_true, if_false]
    · rw [hlk] at hlk'; cases hlk'
  | none =>
    cases hn : addAt s.alloc none ans with
    | none =>
      rcases o.entry hc k with ⟨t, a, m, A, B, hf, o2, hr, hlv, ha, h1, h2, hlk'⟩ | ⟨t, T', hf, o2, hi, hlv, hlk'⟩
      · rw [hlk] at hlk'; cases hlk'
      · refine ⟨{ s with t := t }, ⟨none, Stat.insertError⟩, { s with t := t }, ⟨none, Stat.insertError⟩, ?_, ?_, rfl, rfl,
          rfl, rfl⟩
        · simp only [tryInsertW, hf, Option.bind_eq_bind, Option.bind_some, isVac_not_occ, Bool.not_false,
            if_true, insertAndCopyKey, newMem_eq, hn]
        · simp only [insertOrAssignW, hf, Option.bind_eq_bind, Option.bind_some, isVac_not_occ, Bool.not_false,
            if_true, insertAndCopyKey, newMem_eq, hn]
    | some n =>
      obtain ⟨s', h1, h2, hv, r'⟩ := lazy_run hc h ga hk hlk hn
      have hsz : s'.sz = s.sz + 1 := by
        obtain ⟨T', o'⟩ := r'.sim hc
        rw [o'.size, o.size]
        apply place_length hc
        exact (lookup_congr hc hk).symm.trans hlk
      exact ⟨s', _, s', _, h1, h2, rfl, rfl, hv, hv, hsz, hsz⟩

/-- C50 fails: whenever the lazy macros insert successfully, the entry they return claims an insertion error. -/
theorem C50_om_violated (hc : LawfulCmp cmp) {s : Om α} {l : List (Nat × α)} (h : Reach cmp key s l) {k : κ} {x : α}
    {n : Nat} (hal : s.alloc = true) (hn : fresh l n) (hk : cmp k (key x) = .eql)
    (hv : lookup cmp (ekey key) k l = none) :
    ∃ s1 e1 s2 e2, tryInsertW cmp key s k x (some n) = some (s1, e1) ∧
      insertOrAssignW cmp key s k x (some n) = some (s2, e2) ∧
      Reach cmp key s1 (place cmp (ekey key) (n, x) l) ∧
      Ent.isInsertError (some e1) = true ∧ Ent.isInsertError (some e2) = true := by
  have ga : goodAns l (some n) 0 := by
    intro m hm; simp only [Option.some.injEq] at hm; subst hm; exact ⟨hn, hn.1⟩
  obtain ⟨s', h1, h2, _, r'⟩ := lazy_run hc h ga hk hv (n := n) (by rw [hal]; rfl)
  exact ⟨s', _, s', _, h1, h2, r', by simp [Ent.isInsertError, Stat.has, Stat.insertError],
    by simp [Ent.isInsertError, Stat.has, Stat.insertError]⟩

/-- The hypotheses of the last two theorems are met by a fresh map with an allocator. -/
example : ∃ s1 e1, tryInsertW natCmp Prod.fst (init (fun _ => ((0, 0) : Nat × Nat)) true) 5 (5, 1) (some 7) =
    some (s1, e1) ∧ Ent.isInsertError (some e1) = true ∧
    Reach natCmp (Prod.fst : Nat × Nat → Nat) s1 [(7, (5, 1))] := by
  have hr : Reach natCmp (Prod.fst : Nat × Nat → Nat) (init (fun _ => (0, 0)) true) [] :=
    ⟨_, true, [], trivial, ⟨[], rfl⟩, rfl⟩
  obtain ⟨s1, e1, _, _, h1, _, h3, h4, _⟩ := C50_om_violated natCmp_lawful hr (k := 5) (x := (5, 1)) (n := 7) rfl
    ⟨by decide, by simp⟩ (by decide) rfl
  exact ⟨s1, e1, h1, h4, h3⟩

/-! ### The value replaced by an insertion -/

/-- `ccc_om_insert` of a struct at `hd` with data `x` over a stored key: the returned entry unwraps to the struct `tmp`,
which holds the replaced value, and so does the struct of the handle; the map holds the new value in the same element. -/
theorem C52_om_insert (hc : LawfulCmp cmp) {s : Om α} {l : List (Nat × α)} (h : Reach cmp key s l) {hd tmp a : Nat}
    {x v : α} (ans : Option Nat) (fh : fresh l hd) (ft : fresh l tmp) (hne : hd ≠ tmp)
    (hv : lookup cmp (ekey key) (key x) l = some (a, v)) :
    ∃ s' e, insert cmp key (put s hd x) hd tmp ans = some (s', e) ∧ e.stats = Stat.occupied ∧
      Ent.unwrap (some e) = some tmp ∧ s'.val tmp = v ∧ s'.val hd = v ∧ s'.val a = x ∧ size s' = size s := by
  obtain ⟨T, o⟩ := h.sim hc
  have o1 : Ok cmp key (put s hd x) l T := o.put (o.fresh.1 fh).2
  have hx : (put s hd x).val hd = x := put_comm_val
  have hsz : size (put s hd x) = size s := rfl
  generalize hs1 : put s hd x = s1 at o1 hx hsz
  rcases o1.find hc (key x) with ⟨t, b, m, A, B, hf, o2, hr, hlv, ha, _, _, hlk⟩ | ⟨_, _, _, _, _, _, hlk⟩
  · rw [hlk] at hv
    simp only [Option.some.injEq, Prod.mk.injEq] at hv
    obtain ⟨rfl, rfl⟩ := hv
    have ham : b ∈ (node b m A B).ids := by simp [ids]
    have hah : b ≠ hd := fun hh => (o2.fresh.1 fh).2 (hh ▸ ham)
    have hat : b ≠ tmp := fun hh => (o2.fresh.1 ft).2 (hh ▸ ham)
    refine ⟨{ s1 with t := t, val := upd (upd (upd s1.val tmp (s1.val b)) b x) hd (s1.val b) }, ⟨some tmp, Stat.occupied⟩,
      ?_, rfl, unwrap_occ _, ?_, upd_same _ _ _, ?_, hsz⟩
    · simp only [insert, hx, hf, Option.bind_eq_bind, Option.bind_some, Option.isSome_some, if_true, hr,
        bne_root (o2.ne_zero ham)]
      have e1 : upd s1.val tmp (s1.val b) hd = x := (upd_ne _ _ hne).trans hx
      have e2 : upd (upd s1.val tmp (s1.val b)) b x tmp = s1.val b := by
        rw [upd_ne _ _ (Ne.symm hat)]; simp
      rw [e1, e2]
    · show upd (upd (upd s1.val tmp (s1.val b)) b x) hd (s1.val b) tmp = _
      rw [upd_ne _ _ (Ne.symm hne), upd_ne _ _ (Ne.symm hat), upd_same]
    · show upd (upd (upd s1.val tmp (s1.val b)) b x) hd (s1.val b) b = _
      rw [upd_ne _ _ hah, upd_same]
  · rw [hlk] at hv; cases hv

example : ∃ s s' e, Reach natCmp (Prod.fst : Nat × Nat → Nat) s [(4, (1, 3)), (2, (3, 7)), (3, (8, 3)), (5, (9, 4))] ∧
    insert natCmp Prod.fst (put s 20 (3, 100)) 20 21 none = some (s', e) ∧ Ent.unwrap (some e) = some 21 ∧
    s'.val 21 = (3, 7) ∧ s'.val 2 = (3, 100) := by
  obtain ⟨s, h⟩ := sample_reach
  obtain ⟨s', e, h1, _, h2, h3, _, h4, _⟩ := C52_om_insert natCmp_lawful h (hd := 20) (tmp := 21) (x := (3, 100)) none
    (by simp [fresh]) (by simp [fresh]) (by decide)
    (show lookup natCmp (ekey Prod.fst) 3 _ = some (2, (3, 7)) from rfl)
  exact ⟨s, s', e, h, h1, h2, h3, h4⟩

end CCC.Om
