import Verif.Proof.RealtimeMapStep
import Verif.Proof.WavlBalance
import Verif.Proof.Iter
/-
Properties of the realtime ordered map (`src/realtime_ordered_map.c`).

`run cmp key (init mem al) ops` executes a history of calls on a fresh map; `none` would be undefined behaviour
(access to memory that is no element), a failed assertion or a loop that does not end.  `specRun cmp key al [] ops` is
the same history on a list of elements in key order (`Verif/Spec/PtrMap.lean`).  `okRun` is what the documentation asks
of the caller.
-/
namespace CCC.Rom
open CCC MapSpec PtrMap

variable {α κ : Type} {cmp : κ → κ → Cmp} {key : α → κ}

/-- The reachable states: after a history in which the caller followed the documentation, with the elements the
specification says are stored. -/
def Reach (cmp : κ → κ → Cmp) (key : α → κ) (s : Rom α) (l : List (Nat × α)) : Prop :=
  ∃ mem al ops, okRun cmp key al [] ops ∧ (∃ outs, run cmp key (init mem al) ops = some (s, outs)) ∧
    (specRun cmp key al [] ops).1 = l

theorem Reach.sim {s : Rom α} {l : List (Nat × α)} (hc : LawfulCmp cmp) (h : Reach cmp key s l) :
    Sim cmp key s l := by
  obtain ⟨mem, al, ops, hok, ⟨outs, hr⟩, rfl⟩ := h
  obtain ⟨s', h1, h2, _⟩ := run_spec hc ops ⟨_, init_ok (cmp := cmp) (key := key) mem al⟩ hok
  rw [h1] at hr
  simp only [Option.some.injEq, Prod.mk.injEq] at hr
  rw [← hr.1]; exact h2

theorem run_append (ops ops' : List (Op α κ)) : ∀ {s s1 : Rom α} {o1 : List (Out α)},
    run cmp key s ops = some (s1, o1) →
    run cmp key s (ops ++ ops') = (run cmp key s1 ops').map (fun r => (r.1, o1 ++ r.2)) := by
  induction ops with
  | nil =>
    intro s s1 o1 h
    simp only [run, Option.some.injEq, Prod.mk.injEq] at h
    obtain ⟨rfl, rfl⟩ := h
    simp
  | cons o os ih =>
    intro s s1 o1 h
    simp only [run, Option.bind_eq_bind, Option.bind_eq_some_iff] at h
    obtain ⟨⟨s2, r⟩, h1, ⟨s3, rs⟩, h2, h3⟩ := h
    simp only [Option.some.injEq, Prod.mk.injEq] at h3
    obtain ⟨rfl, rfl⟩ := h3
    simp only [List.cons_append, run, h1, Option.bind_eq_bind, Option.bind_some, ih h2]
    cases run cmp key s3 ops' <;> rfl

/-- One more allowed call keeps a state reachable. -/
theorem Reach.step {s s' : Rom α} {l : List (Nat × α)} {op : Op α κ} {out : Out α} (hc : LawfulCmp cmp)
    (h : Reach cmp key s l) (ok : okOp cmp key s.alloc l op) (hs : step cmp key s op = some (s', out)) :
    Reach cmp key s' (specStep cmp key s.alloc l op).1 := by
  obtain ⟨mem, al, ops, hok, ⟨outs, hr⟩, hl⟩ := h
  have hal : s.alloc = al := by
    obtain ⟨s2, h1, _, h2⟩ := run_spec hc ops ⟨_, init_ok (cmp := cmp) (key := key) mem al⟩ hok
    rw [h1] at hr
    simp only [Option.some.injEq, Prod.mk.injEq] at hr
    rw [← hr.1, h2]; rfl
  refine ⟨mem, al, ops ++ [op], ?_, ⟨outs ++ [out], ?_⟩, ?_⟩
  · rw [okRun_append]; exact ⟨hok, by rw [hl, ← hal]; exact ⟨ok, trivial⟩⟩
  · rw [run_append ops [op] hr]; simp [run, hs]
  · rw [specRun_append, hl, ← hal]; rfl

/-- A history used to show that hypotheses are met: user owned structs at 1..5 with keys, a replacement, a removal
and queries, without allocator. -/
def sampleOps : List (Op (Nat × Nat) Nat) :=
  [.insert 1 (5, 0) 9 (0, 0) none, .tryInsert 2 (3, 1) none, .insertOrAssign 3 (8, 2) none, .tryInsert 4 (1, 3) none,
   .tryInsert 5 (9, 4) none, .insertOrAssign 6 (3, 7) none, .removeEntry 5, .get 3, .begin, .next 4, .equalRange 2 8,
   .andModify 8 (fun x => (x.1, x.2 + 1)), .size]

theorem sampleOps_ok : okRun natCmp Prod.fst false [] sampleOps := by
  simp [sampleOps, okRun, okOp, specStep, lookup, addAt, place, assign, erase, fresh, goodAns, natCmp, ekey]

/-- Every history: all answers, statuses and returned pointers are those of the sorted list. -/
theorem C29_rom_history (hc : LawfulCmp cmp) (mem : Nat → α) (al : Bool) (ops : List (Op α κ))
    (hok : okRun cmp key al [] ops) :
    ∃ s, run cmp key (init mem al) ops = some (s, (specRun cmp key al [] ops).2) := by
  obtain ⟨s, h, _⟩ := run_spec hc ops ⟨_, init_ok (cmp := cmp) (key := key) mem al⟩ hok
  exact ⟨s, h⟩

example : ∃ s, run natCmp Prod.fst (init (fun _ => (0, 0)) false) sampleOps =
    some (s, (specRun natCmp Prod.fst false [] sampleOps).2) :=
  C29_rom_history natCmp_lawful _ _ _ sampleOps_ok

/-- The sample history stores the keys 1, 3, 8, 9 at its end. -/
theorem sample_reach : ∃ s, Reach natCmp (Prod.fst : Nat × Nat → Nat) s
    [(4, (1, 3)), (2, (3, 7)), (3, (8, 3)), (5, (9, 4))] := by
  obtain ⟨s, h⟩ := C29_rom_history natCmp_lawful (fun _ => ((0, 0) : Nat × Nat)) false sampleOps sampleOps_ok
  exact ⟨s, _, _, sampleOps, sampleOps_ok, ⟨_, h⟩, by
    simp [sampleOps, specRun, specStep, lookup, addAt, place, assign, erase, natCmp, ekey]⟩

/-- The specification's list is always in strictly ascending key order: no two stored elements have equal keys. -/
theorem C29_rom_sorted (hc : LawfulCmp cmp) {s : Rom α} {l : List (Nat × α)} (h : Reach cmp key s l) :
    Sorted cmp (ekey key) l := (h.sim hc).choose_spec.sorted

/-- After every history the WAVL rank rules hold for the stored elements. -/
theorem C30_rom_ranks (hc : LawfulCmp cmp) {s : Rom α} {l : List (Nat × α)} (h : Reach cmp key s l) :
    RankRules (l.map Prod.fst) s.t.br s.t.parity := by
  obtain ⟨T, o⟩ := h.sim hc
  have : l.map Prod.fst = T.ids := by rw [o.list]; exact ids_elems _ _
  rw [this]; exact Wavl.rank_rules o.valid o.wv

/-- After every history every way down from the root that ends at an element, in particular every search, meets at
most `2 * log2 (n + 1)` elements: a path of `m` elements has `2 ^ m ≤ (n + 1) ^ 2`. -/
theorem C30_rom_balanced (hc : LawfulCmp cmp) {s : Rom α} {l : List (Nat × α)} (h : Reach cmp key s l)
    (ds : List Bool) (hd : descend s.t.br s.t.root ds ≠ 0) : 2 ^ (ds.length + 1) ≤ (l.length + 1) ^ 2 := by
  obtain ⟨T, o⟩ := h.sim hc
  have hroot : s.t.root = T.rootId := o.wv.whole.ctx
  rw [hroot] at hd
  have h1 := o.valid.descend_le o.wv.whole.tree ds hd
  have h2 := o.valid.size_bound
  have h3 : l.length = T.ids.length := by rw [o.list]; simp [elems]
  rw [h3]
  exact Nat.le_trans (Nat.pow_le_pow_right (by omega) h1) h2

example : ∃ s, Reach natCmp (Prod.fst : Nat × Nat → Nat) s [(4, (1, 3)), (2, (3, 7)), (3, (8, 3)), (5, (9, 4))] ∧
    RankRules [4, 2, 3, 5] s.t.br s.t.parity ∧
    ∀ ds, descend s.t.br s.t.root ds ≠ 0 → 2 ^ (ds.length + 1) ≤ 25 := by
  obtain ⟨s, h⟩ := sample_reach
  exact ⟨s, h, C30_rom_ranks natCmp_lawful h, C30_rom_balanced natCmp_lawful h⟩

theorem Sim.next_walk {s : Rom α} {l : List (Nat × α)} (h : Sim cmp key s l) :
    (l.map Prod.fst).Nodup ∧
    (∀ pre a post, l.map Prod.fst = pre ++ a :: post → next s a = some post.head?) ∧
    (∀ pre a post, (l.map Prod.fst).reverse = pre ++ a :: post → rnext s a = some post.head?) ∧
    begin_ s = some (l.map Prod.fst).head? ∧ rbegin s = some (l.map Prod.fst).reverse.head? := by
  obtain ⟨T, o⟩ := h
  have hids : l.map Prod.fst = T.ids := by rw [o.list]; exact ids_elems _ _
  have hz : ∀ m : List Nat, (∀ a ∈ m, a ∈ T.ids) → toSlot (m.headD 0) = m.head? := by
    intro m hm
    cases m with
    | nil => rfl
    | cons b m => simp [toSlot, o.ne_zero (hm b (by simp))]
  have hz' : ∀ m : List Nat, (∀ a ∈ m, a ∈ T.ids) → toSlot (m.getLastD 0) = m.reverse.head? := by
    intro m hm
    have := hz m.reverse (by simpa using hm)
    simpa using this
  rw [hids]
  refine ⟨o.nodup, ?_, ?_, ?_, ?_⟩
  · intro pre a post e
    simp only [next, Wavl.next_spec o.wv e true, Option.bind_eq_bind, Option.bind_some, if_true]
    rw [hz post (fun b hb => by rw [e]; simp [hb])]
  · intro pre a post e
    have e' : T.ids = post.reverse ++ a :: pre.reverse := by
      have := congrArg List.reverse e
      simpa using this
    simp only [rnext, Wavl.next_spec o.wv e' false, Option.bind_eq_bind, Option.bind_some, Bool.false_eq_true, if_false]
    rw [hz' _ (fun b hb => by rw [e']; simp [List.mem_reverse.1 hb])]
    simp
  · simp only [begin_, Wavl.minMaxFrom_spec o.wv false, Wavl.endOf, Option.bind_eq_bind, Option.bind_some,
      Bool.false_eq_true, if_false]
    rw [hz _ (fun _ h => h)]
  · simp only [rbegin, Wavl.minMaxFrom_spec o.wv true, Wavl.endOf, Option.bind_eq_bind, Option.bind_some, if_true]
    rw [hz' _ (fun _ h => h)]

/-- `for (p = begin; p != end; p = next(p))` visits exactly the stored elements, in key order, and the reverse loop in
the opposite order. -/
theorem C31_rom_iteration (hc : LawfulCmp cmp) {s : Rom α} {l : List (Nat × α)} (h : Reach cmp key s l) :
    (do let p ← begin_ s; iterate (next s) end_ p) = some (l.map Prod.fst) ∧
    (do let p ← rbegin s; iterate (rnext s) end_ p) = some (l.map Prod.fst).reverse := by
  obtain ⟨hn, hnx, hrn, hb, hrb⟩ := (h.sim hc).next_walk
  constructor
  · simp only [hb, Option.bind_eq_bind, Option.bind_some]
    have := iterate_spec hn hnx (pre := []) (m := l.map Prod.fst) (post := []) (by simp)
    simpa [end_] using this
  · simp only [hrb, Option.bind_eq_bind, Option.bind_some]
    have := iterate_spec (nodup_reverse' hn) hrn (pre := []) (m := (l.map Prod.fst).reverse) (post := []) (by simp)
    simpa [end_] using this

theorem Sim.range {s : Rom α} {l : List (Nat × α)} (hc : LawfulCmp cmp) (h : Sim cmp key s l) (b e : κ) :
    equalRange cmp key s b e true =
      some ((firstNotLess cmp (ekey key) b l).map Prod.fst, (firstGreater cmp (ekey key) e l).map Prod.fst) ∧
    equalRange cmp key s b e false =
      some ((lastNotGreater cmp (ekey key) b l).map Prod.fst, (lastLess cmp (ekey key) e l).map Prod.fst) := by
  obtain ⟨T, o⟩ := h
  obtain ⟨⟨s1, h1, _⟩, s2, h2, _⟩ := step_range hc o (b := b) (e := e)
  have hv : ∀ p : Slot, (view s p).map Prod.fst = p := by intro p; cases p <;> rfl
  simp only [step, specStep, Option.bind_eq_bind] at h1 h2
  constructor
  · cases hr : equalRange cmp key s b e true with
    | none => rw [hr] at h1; simp at h1
    | some r =>
      rw [hr] at h1
      simp only [Option.bind_some, Option.some.injEq, Prod.mk.injEq, Out.range.injEq] at h1
      rw [← h1.2.1, ← h1.2.2, hv, hv]
  · cases hr : equalRange cmp key s b e false with
    | none => rw [hr] at h2; simp at h2
    | some r =>
      rw [hr] at h2
      simp only [Option.bind_some, Option.some.injEq, Prod.mk.injEq, Out.range.injEq] at h2
      rw [← h2.2.1, ← h2.2.2, hv, hv]

/-- `equal_range` and `equal_rrange` return the specified end points, for every pair of keys. -/
theorem C25_rom_range_ends (hc : LawfulCmp cmp) {s : Rom α} {l : List (Nat × α)} (h : Reach cmp key s l) (b e : κ) :
    equalRange cmp key s b e true =
      some ((firstNotLess cmp (ekey key) b l).map Prod.fst, (firstGreater cmp (ekey key) e l).map Prod.fst) ∧
    equalRange cmp key s b e false =
      some ((lastNotGreater cmp (ekey key) b l).map Prod.fst, (lastLess cmp (ekey key) e l).map Prod.fst) :=
  (h.sim hc).range hc b e

/-- Iterating over the range visits exactly the elements with keys in `[b, e]`, in order. -/
theorem C25_rom_range (hc : LawfulCmp cmp) {s : Rom α} {l : List (Nat × α)} (h : Reach cmp key s l) {b e : κ}
    (hbe : cmp b e ≠ .grt) :
    (do let r ← equalRange cmp key s b e true; overRange (next s) r) =
      some ((l.filter (fun x => cmp b (key x.2) != .grt && cmp e (key x.2) != .les)).map Prod.fst) := by
  have hs := h.sim hc
  obtain ⟨hn, hnx, _⟩ := hs.next_walk
  obtain ⟨pre, post, e1, e2, e3⟩ := range_split hc (C29_rom_sorted hc h) hbe
  simp only [(hs.range hc b e).1, Option.bind_eq_bind, Option.bind_some, ← e2, ← e3, ← List.head?_map, List.map_append]
  exact iterate_spec hn hnx (pre := pre.map Prod.fst) (by rw [← List.map_append, ← List.map_append]; exact congrArg _ e1)

/-- Iterating backwards over the reverse range visits exactly the elements with keys in `[e, b]`, descending. -/
theorem C25_rom_rrange (hc : LawfulCmp cmp) {s : Rom α} {l : List (Nat × α)} (h : Reach cmp key s l) {b e : κ}
    (hbe : cmp e b ≠ .grt) :
    (do let r ← equalRange cmp key s b e false; overRange (rnext s) r) =
      some ((l.filter (fun x => cmp b (key x.2) != .les && cmp e (key x.2) != .grt)).map Prod.fst).reverse := by
  have hs := h.sim hc
  obtain ⟨hn, _, hrn, _⟩ := hs.next_walk
  obtain ⟨pre, post, e1, e2, e3⟩ := rrange_split hc (C29_rom_sorted hc h) hbe
  simp only [(hs.range hc b e).2, Option.bind_eq_bind, Option.bind_some, ← e2, ← e3, ← List.head?_map, List.map_append]
  rw [List.map_reverse]
  exact iterate_spec (nodup_reverse' hn) hrn (pre := pre.map Prod.fst) (by
    rw [← List.map_reverse, ← List.map_reverse, ← List.map_append, ← List.map_append]; exact congrArg _ e1)

example : ∃ s, Reach natCmp (Prod.fst : Nat × Nat → Nat) s [(4, (1, 3)), (2, (3, 7)), (3, (8, 3)), (5, (9, 4))] ∧
    (do let p ← begin_ s; iterate (next s) end_ p) = some [4, 2, 3, 5] ∧
    (do let r ← equalRange natCmp Prod.fst s 2 8 true; overRange (next s) r) = some [2, 3] := by
  obtain ⟨s, h⟩ := sample_reach
  refine ⟨s, h, (C31_rom_iteration natCmp_lawful h).1, ?_⟩
  rw [C25_rom_range natCmp_lawful h (by decide)]
  rfl

/-- The calls that only look. -/
def isLookup : Op α κ → Bool
  | .contains _ | .get _ | .occupied _ | .begin | .rbegin | .next _ | .rnext _ | .equalRange _ _ | .equalRrange _ _
  | .size | .isEmpty | .validate => true
  | _ => false

/-- Lookups, creating an entry, iteration, range queries and validation change nothing: not a link, not a size, not an
element.  No hypothesis on the map or on the comparison. -/
theorem C33_rom_pure (s s' : Rom α) (op : Op α κ) (out : Out α) (hl : isLookup op = true)
    (h : step cmp key s op = some (s', out)) : s' = s := by
  cases op <;> simp only [isLookup, Bool.false_eq_true] at hl <;>
    simp only [step, Option.bind_eq_bind, Option.bind_eq_some_iff, Option.some.injEq, Prod.mk.injEq] at h <;>
    first
      | exact h.1.symm
      | (obtain ⟨_, _, rfl, _⟩ := h; rfl)

/-- Two equal lookups in a row give equal answers, whatever lookups were in between. -/
theorem C33_rom_repeat (s s' : Rom α) (op : Op α κ) (ops : List (Op α κ)) (o1 o2 : Out α) (os : List (Out α))
    (hl : isLookup op = true) (hls : ∀ o ∈ ops, isLookup o = true)
    (h : run cmp key s (op :: ops ++ [op]) = some (s', o1 :: os ++ [o2])) (hlen : os.length = ops.length) :
    o1 = o2 ∧ s' = s := by
  have hrun : ∀ (ops : List (Op α κ)) (s s' : Rom α) (outs : List (Out α)) (o2 : Out α) (op : Op α κ),
      isLookup op = true → (∀ o ∈ ops, isLookup o = true) → outs.length = ops.length →
      run cmp key s (ops ++ [op]) = some (s', outs ++ [o2]) → step cmp key s op = some (s, o2) ∧ s' = s := by
    intro ops
    induction ops with
    | nil =>
      intro s s' outs o2 op hl _ hlen h
      cases outs with
      | cons a outs => simp at hlen
      | nil =>
        simp only [List.nil_append, run, Option.bind_eq_bind, Option.bind_some, Option.bind_eq_some_iff] at h
        obtain ⟨⟨s1, r⟩, h1, h2⟩ := h
        simp only [Option.some.injEq, Prod.mk.injEq, List.cons.injEq] at h2
        have := C33_rom_pure s s1 op r hl h1
        obtain ⟨rfl, rfl, -⟩ := h2
        rw [this] at h1
        exact ⟨h1, this⟩
    | cons o ops ih =>
      intro s s' outs o2 op hl hls hlen h
      cases outs with
      | nil => simp at hlen
      | cons a outs =>
        simp only [List.cons_append, run, Option.bind_eq_bind, Option.bind_eq_some_iff] at h
        obtain ⟨⟨s1, r⟩, h1, ⟨s2, rs⟩, h2, h3⟩ := h
        simp only [Option.some.injEq, Prod.mk.injEq, List.cons.injEq] at h3
        obtain ⟨rfl, rfl, rfl⟩ := h3
        have := C33_rom_pure s s1 o r (hls o (by simp)) h1
        subst this
        exact ih s1 s2 outs o2 op hl (fun o ho => hls o (by simp [ho])) (by simpa using hlen) h2
  simp only [List.cons_append, run, Option.bind_eq_bind, Option.bind_eq_some_iff] at h
  obtain ⟨⟨s1, r⟩, h1, ⟨s2, rs⟩, h2, h3⟩ := h
  simp only [Option.some.injEq, Prod.mk.injEq, List.cons.injEq] at h3
  obtain ⟨rfl, rfl, rfl⟩ := h3
  have := C33_rom_pure s s1 op r hl h1
  subst this
  obtain ⟨h4, h5⟩ := hrun ops s1 s2 os o2 op hl hls hlen h2
  rw [h1] at h4
  simp only [Option.some.injEq, Prod.mk.injEq] at h4
  exact ⟨h4.2, h5⟩

example : ∃ s : Rom (Nat × Nat), Reach natCmp Prod.fst s [(4, (1, 3)), (2, (3, 7)), (3, (8, 3)), (5, (9, 4))] ∧
    step natCmp Prod.fst s (.get 3) = some (s, .ptr (some (2, (3, 7)))) := by
  obtain ⟨s, h⟩ := sample_reach
  obtain ⟨T, o⟩ := h.sim natCmp_lawful
  obtain ⟨s', h1, _⟩ := step_spec natCmp_lawful o (.get 3) trivial
  have := C33_rom_pure s s' _ _ rfl h1
  subst this
  exact ⟨s', h, h1⟩

/-- Queries on an empty map report absence, whatever the comparison function is: it is not called. -/
theorem C26_rom_empty (cmp' : κ → κ → Cmp) (hc : LawfulCmp cmp) {s : Rom α} (h : Reach cmp key s []) (k k' : κ) :
    contains cmp' key s k = some false ∧ get cmp' key s k = some none ∧ begin_ s = some none ∧ rbegin s = some none ∧
    equalRange cmp' key s k k' true = some (none, none) ∧ equalRange cmp' key s k k' false = some (none, none) ∧
    remove cmp' key s 0 = some (s, ⟨none, Stat.vacant⟩) := by
  obtain ⟨T, o⟩ := h.sim hc
  have hz : s.sz = 0 := o.size
  have hr : s.t.root = 0 := by
    have h1 : s.t.root = T.rootId := o.wv.whole.ctx
    rw [h1]
    cases T with
    | nil => rfl
    | node i k l r => have := o.list; simp [elems, Tree.ids] at this
  have hf : ∀ k, find cmp' key s k = some (.err, 0) := by
    intro k
    simp only [find, Wavl.find, hr]
    rw [Wavl.findLoop]; simp
  refine ⟨?_, ?_, ?_, ?_, ?_, ?_, ?_⟩
  · simp only [contains, hf]; rfl
  · simp only [get, hf]; rfl
  · simp [begin_, Wavl.minMaxFrom, hr, toSlot]
  · simp [rbegin, Wavl.minMaxFrom, hr, toSlot]
  · simp [equalRange, hz]
  · simp [equalRange, hz]
  · simp only [remove, hf]; rfl

/-- Not only the fresh map is empty: so is one whose only element was removed. -/
example : ∃ s, Reach natCmp (Prod.fst : Nat × Nat → Nat) s [] ∧ contains natCmp Prod.fst s 5 = some false := by
  have ok : okRun natCmp Prod.fst false [] [Op.tryInsert 1 (5, 7) none, .removeEntry (5 : Nat)] := by
    simp [okRun, okOp, fresh, goodAns]
  obtain ⟨s, h⟩ := C29_rom_history natCmp_lawful (fun _ => ((5, 7) : Nat × Nat)) false _ ok
  have hr : Reach natCmp (Prod.fst : Nat × Nat → Nat) s [] :=
    ⟨_, _, _, ok, ⟨_, h⟩, by simp [specRun, specStep, lookup, addAt, place, erase, natCmp, ekey]⟩
  exact ⟨s, hr, (C26_rom_empty natCmp natCmp_lawful hr 5 5).1⟩

/-- `ccc_rom_validate` accepts every reachable map. -/
theorem C46_rom_validate (hc : LawfulCmp cmp) {s : Rom α} {l : List (Nat × α)} (h : Reach cmp key s l) :
    validate cmp key s = some true := by
  obtain ⟨T, o⟩ := h.sim hc
  exact validate_spec hc o

/-- `ccc_rom_clear` hands every stored element to the destructor exactly once and leaves an empty map, from which
every later history runs as from a fresh map. -/
theorem C51_rom_clear (hc : LawfulCmp cmp) {s : Rom α} {l : List (Nat × α)} (h : Reach cmp key s l) :
    ∃ s' d, clear s = some (s', d, .ok) ∧ d.Perm l ∧ size s' = 0 ∧
      ∀ ops, okRun cmp key s'.alloc [] ops →
        ∃ s'', run cmp key s' ops = some (s'', (specRun cmp key s'.alloc [] ops).2) := by
  obtain ⟨T, o⟩ := h.sim hc
  obtain ⟨s', d, run', hp, o', _, a'⟩ := clearLoop_spec l.length [] o rfl
  refine ⟨s', d, by simp only [clear, run', Option.bind_eq_bind, Option.bind_some, List.nil_append], hp, o'.size, ?_⟩
  intro ops hok
  obtain ⟨s'', h1, _⟩ := run_spec hc ops ⟨_, o'⟩ hok
  exact ⟨s'', h1⟩

example : ∃ s s' d, Reach natCmp (Prod.fst : Nat × Nat → Nat) s [(4, (1, 3)), (2, (3, 7)), (3, (8, 3)), (5, (9, 4))] ∧
    clear s = some (s', d, .ok) ∧ d.Perm [(4, (1, 3)), (2, (3, 7)), (3, (8, 3)), (5, (9, 4))] := by
  obtain ⟨s, h⟩ := sample_reach
  obtain ⟨s', d, h1, h2, _⟩ := C51_rom_clear natCmp_lawful h
  exact ⟨s, s', d, h, h1, h2⟩

/-- What the lazy `ccc_rom_try_insert_w` and `ccc_rom_insert_or_assign_w` get right: they store the element and return
a pointer to it, and an occupied entry has the right status.  Missing for the full C50: the status of a
successful insertion, see `C50_rom_violated`. -/
theorem C50_rom_partial (hc : LawfulCmp cmp) {s : Rom α} {l : List (Nat × α)} (h : Reach cmp key s l) {k : κ} {x : α}
    {ans : Option Nat} (ga : goodAns l ans 0) (hk : cmp k (key x) = .eql) :
    ∃ s1 e1 s2 e2, tryInsertW cmp key s k x ans = some (s1, e1) ∧ insertOrAssignW cmp key s k x ans = some (s2, e2) ∧
      (match lookup cmp (ekey key) k l, addAt s.alloc none ans with
       | some (a, _), _ => e1 = ⟨some a, Stat.occupied⟩ ∧ e2 = ⟨some a, Stat.occupied⟩ ∧ s1 = s ∧ s2.val a = x
       | none, some n => e1.e = some n ∧ e2.e = some n ∧ s1.val n = x ∧ s2.val n = x ∧ s1.sz = s.sz + 1 ∧ s2.sz = s.sz + 1
       | none, none => e1 = ⟨none, Stat.insertError⟩ ∧ e2 = ⟨none, Stat.insertError⟩ ∧ s1 = s ∧ s2 = s) := by
  obtain ⟨T, o⟩ := h.sim hc
  rcases o.find hc k with ⟨pre, a, post, e, ha, h1, h2, hf, hlk⟩ | ⟨q, hf, hq, g, hlk⟩
  · refine ⟨s, ⟨some a, Stat.occupied⟩, { s with val := upd s.val a x }, ⟨some a, Stat.occupied⟩, ?_, ?_, ?_⟩
    · simp only [tryInsertW, entry_eq hf, Option.bind_eq_bind, Option.bind_some, if_true, occ_occ, Bool.not_true,
        Bool.false_eq_true, if_false]
    · simp only [insertOrAssignW, entry_eq hf, Option.bind_eq_bind, Option.bind_some, if_true, occ_occ, Bool.not_true,
        Bool.false_eq_true, if_false]
    · rw [hlk]; exact ⟨rfl, rfl, rfl, by simp⟩
  · cases hn : addAt s.alloc none ans with
    | none =>
      refine ⟨s, ⟨none, Stat.insertError⟩, s, ⟨none, Stat.insertError⟩, ?_, ?_, ?_⟩
      · simp only [tryInsertW, entry_eq hf, Option.bind_eq_bind, Option.bind_some, if_neg hq, vac_not_occ, Bool.not_false,
          if_true, insertAndCopyKey, newMem_eq, hn]
      · simp only [insertOrAssignW, entry_eq hf, Option.bind_eq_bind, Option.bind_some, if_neg hq, vac_not_occ,
          Bool.not_false, if_true, insertAndCopyKey, newMem_eq, hn]
      · rw [hlk]; exact ⟨rfl, rfl, rfl, rfl⟩
    | some n =>
      obtain ⟨s', hrun, ⟨T', o'⟩, hv, a'⟩ := lazy_case hc o g ga hk hn
      have hsz : s'.sz = s.sz + 1 := by
        rw [o'.size, o.size]
        apply place_length hc
        exact (lookup_congr hc hk).symm.trans hlk
      refine ⟨s', ⟨some n, Stat.insertError⟩, s', ⟨some n, Stat.insertError⟩, ?_, ?_, ?_⟩
      · simp only [tryInsertW, entry_eq hf, Option.bind_eq_bind, Option.bind_some, if_neg hq, vac_not_occ, Bool.not_false,
          if_true, insertAndCopyKey, newMem_eq, hn, hrun]
      · simp only [insertOrAssignW, entry_eq hf, Option.bind_eq_bind, Option.bind_some, if_neg hq, vac_not_occ,
          Bool.not_false, if_true, insertAndCopyKey, newMem_eq, hn, hrun]
      · rw [hlk]; exact ⟨rfl, rfl, hv, hv, hsz, hsz⟩

/-- C50 fails: whenever the lazy macros insert successfully, the entry they return claims an insertion error. -/
theorem C50_rom_violated (hc : LawfulCmp cmp) {s : Rom α} {l : List (Nat × α)} (h : Reach cmp key s l) {k : κ} {x : α}
    {n : Nat} (hal : s.alloc = true) (hn : fresh l n) (hk : cmp k (key x) = .eql)
    (hv : lookup cmp (ekey key) k l = none) :
    ∃ s1 e1 s2 e2, tryInsertW cmp key s k x (some n) = some (s1, e1) ∧
      insertOrAssignW cmp key s k x (some n) = some (s2, e2) ∧
      Reach cmp key s1 (place cmp (ekey key) (n, x) l) ∧
      Ent.isInsertError (some e1) = true ∧ Ent.isInsertError (some e2) = true := by
  have ga : goodAns l (some n) 0 := by
    intro m hm; simp only [Option.some.injEq] at hm; subst hm; exact ⟨hn, hn.1⟩
  obtain ⟨T, o⟩ := h.sim hc
  rcases o.find hc k with ⟨pre, a, post, e, ha, h1, h2, hf, hlk⟩ | ⟨q, hf, hq, g, hlk⟩
  · rw [hlk] at hv; cases hv
  · have hn' : addAt s.alloc none (some n) = some n := by rw [hal]; rfl
    obtain ⟨s', hrun, _, hv', a'⟩ := lazy_case hc o g ga hk hn'
    have h1 : tryInsertW cmp key s k x (some n) = some (s', ⟨some n, Stat.insertError⟩) := by
      simp only [tryInsertW, entry_eq hf, Option.bind_eq_bind, Option.bind_some, if_neg hq, vac_not_occ, Bool.not_false,
        if_true, insertAndCopyKey, newMem_eq, hn', hrun]
    have h2 : insertOrAssignW cmp key s k x (some n) = some (s', ⟨some n, Stat.insertError⟩) := by
      simp only [insertOrAssignW, entry_eq hf, Option.bind_eq_bind, Option.bind_some, if_neg hq, vac_not_occ,
        Bool.not_false, if_true, insertAndCopyKey, newMem_eq, hn', hrun]
    refine ⟨s', _, s', _, h1, h2, ?_, by simp [Ent.isInsertError, Stat.has, Stat.insertError], by simp [Ent.isInsertError, Stat.has, Stat.insertError]⟩
    have := h.step hc (op := .tryInsertW k x (some n)) ⟨ga, hk⟩ (s' := s')
      (out := .ptr (view s' (Ent.unwrap (some ⟨some n, Stat.insertError⟩)))) (by simp only [step, h1]; rfl)
    simpa only [specStep, hlk, hn'] using this

/-- The hypotheses of the last two theorems are met by a fresh map with an allocator. -/
example : ∃ s1 e1, tryInsertW natCmp Prod.fst (init (fun _ => ((0, 0) : Nat × Nat)) true) 5 (5, 1) (some 7) =
    some (s1, e1) ∧ Ent.isInsertError (some e1) = true ∧
    Reach natCmp (Prod.fst : Nat × Nat → Nat) s1 [(7, (5, 1))] := by
  have hr : Reach natCmp (Prod.fst : Nat × Nat → Nat) (init (fun _ => (0, 0)) true) [] :=
    ⟨_, true, [], trivial, ⟨[], rfl⟩, rfl⟩
  obtain ⟨s1, e1, _, _, h1, _, h3, h4, _⟩ := C50_rom_violated natCmp_lawful hr (k := 5) (x := (5, 1)) (n := 7) rfl
    ⟨by decide, by simp⟩ (by decide) rfl
  exact ⟨s1, e1, h1, h4, h3⟩

/-! ### The value replaced by an insertion -/

/-- `ccc_rom_insert` of a struct at `hd` with data `x` over a stored key: the returned entry unwraps to the struct `tmp`,
which holds the replaced value, and so does the struct of the handle; the map holds the new value in the same element. -/
theorem C52_rom_insert (hc : LawfulCmp cmp) {s : Rom α} {l : List (Nat × α)} (h : Reach cmp key s l) {hd tmp a : Nat}
    {x v : α} (ans : Option Nat) (fh : fresh l hd) (ft : fresh l tmp) (hne : hd ≠ tmp)
    (hv : lookup cmp (ekey key) (key x) l = some (a, v)) :
    ∃ s' e, insert cmp key (put s hd x) hd tmp ans = some (s', e) ∧ e.stats = Stat.occupied ∧
      Ent.unwrap (some e) = some tmp ∧ s'.val tmp = v ∧ s'.val hd = v ∧ s'.val a = x ∧ size s' = size s := by
  obtain ⟨T, o⟩ := h.sim hc
  have o1 : Ok cmp key (put s hd x) l T := o.put (o.fresh.1 fh).2
  have hx : (put s hd x).val hd = x := put_comm_val
  have hsz : size (put s hd x) = size s := rfl
  generalize hs1 : put s hd x = s1 at o1 hx hsz
  rcases o1.find hc (key x) with ⟨pre, b, post, e, ha, _, _, hf, hlk⟩ | ⟨q, hf, hq, g, hlk⟩
  · rw [hlk] at hv
    simp only [Option.some.injEq, Prod.mk.injEq] at hv
    obtain ⟨rfl, rfl⟩ := hv
    have ham : b ∈ T.ids := by rw [e]; simp
    have hah : b ≠ hd := fun hh => (o.fresh.1 fh).2 (hh ▸ ham)
    have hat : b ≠ tmp := fun hh => (o.fresh.1 ft).2 (hh ▸ ham)
    refine ⟨{ s1 with val := upd (upd (upd s1.val tmp (s1.val b)) b x) hd (s1.val b) }, ⟨some tmp, Stat.occupied⟩,
      ?_, rfl, unwrap_occ _, ?_, upd_same _ _ _, ?_, hsz⟩
    · simp only [insert, hx, hf, Option.bind_eq_bind, Option.bind_some, if_true]
      have e1 : upd s1.val tmp (s1.val b) hd = x := (upd_ne _ _ hne).trans hx
      have e2 : upd (upd s1.val tmp (s1.val b)) b x tmp = s1.val b := by
        rw [upd_ne _ _ (Ne.symm hat)]; simp
      rw [e1, e2]
    · show upd (upd (upd s1.val tmp (s1.val b)) b x) hd (s1.val b) tmp = _
      rw [upd_ne _ _ (Ne.symm hne), upd_ne _ _ (Ne.symm hat), upd_same]
    · show upd (upd (upd s1.val tmp (s1.val b)) b x) hd (s1.val b) b = _
      rw [upd_ne _ _ hah, upd_same]
  · rw [hlk] at hv; cases hv

example : ∃ s s' e, Reach natCmp (Prod.fst : Nat × Nat → Nat) s [(4, (1, 3)), (2, (3, 7)), (3, (8, 3)), (5, (9, 4))] ∧
    insert natCmp Prod.fst (put s 20 (3, 100)) 20 21 none = some (s', e) ∧ Ent.unwrap (some e) = some 21 ∧
    s'.val 21 = (3, 7) ∧ s'.val 2 = (3, 100) := by
  obtain ⟨s, h⟩ := sample_reach
  obtain ⟨s', e, h1, _, h2, h3, _, h4, _⟩ := C52_rom_insert natCmp_lawful h (hd := 20) (tmp := 21) (x := (3, 100)) none
    (by simp [fresh]) (by simp [fresh]) (by decide)
    (show lookup natCmp (ekey Prod.fst) 3 _ = some (2, (3, 7)) from rfl)
  exact ⟨s, s', e, h, h1, h2, h3, h4⟩

end CCC.Rom
