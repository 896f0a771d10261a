import Verif.Props.Adaptive
import Verif.Proof.FlatOrderedMapCost
/-
C78 for the flat ordered map.
-/
namespace CCC.Fom
open CCC Links Tree Wavl Splay MapSpec FlatMap Adapt
open CCC.Rom (elems mem_elems elems_append elems_congr elems_upd)
open CCC.Frm (Junk asRom view)
open CCC.Om (setRoot_self lookup_after)

variable {α κ : Type} {cmp : κ → κ → Cmp} {key : α → κ} {s : Fom α} {l : List (Nat × α)} {st : St α} {T : Tree}

theorem Started.keys (o : Started cmp key s l T) : T.ids.Pairwise (fun a b => cmp (key (s.val a)) (key (s.val b)) = .les) :=
  o.ok.keys

theorem Started.hit (o : Started cmp key s l T) (hc : LawfulCmp cmp) {k : κ} (h : (lookup cmp (ekey key) k l).isSome) :
    ∃ t x m P n, Split (fun a => cmp k (key (s.val a))) T P x m n ∧ Started cmp key { s with t := t } l (node x m (P true) (P false)) ∧
      cmp k (key (s.val x)) = .eql ∧ x ∈ T.ids ∧ s.t.root ≠ 0 ∧ t.root = x ∧
      Costs (splayToN cmp key s k) (n + 1) ({ s with t := t }, .eql) := by
  have hl : l = elems s.val T.ids := o.ok.list
  have hne : T ≠ nil := by
    rintro rfl
    rw [hl] at h
    simp [elems, ids, lookup] at h
  obtain ⟨t, i, m, A, B, _, w, hi, hA, hB, hs, P, n, hsp, rfl, rfl, hn⟩ :=
    splay_specN (c := Fom.cmpAt cmp key s k) o.ok.whole.tree o.ok.nodup o.ok.whole.live0 hne (o.cmpAt k) (o.ok.mono hc k)
  have o' := o.reshape w hi hs.live
  have hr : t.root = i := w.ctx
  have hr0 : s.t.root = T.rootId := o.ok.root
  have hn' : Costs (splayN s.t (Fom.cmpAt cmp key s k) s.t.root) n (t, i) := by rw [hr0]; exact hn
  have heq : cmp k (key (s.val i)) = .eql := by
    by_contra hx
    have hl' : l = elems s.val (node i m (P true) (P false)).ids := by rw [hi]; exact hl
    rw [(lookup_after (cmp := cmp) (key := key) (k := k) hl' hc hA hB).2 hx] at h
    cases h
  refine ⟨t, i, m, P, n, hsp, o', heq, by rw [← hi]; simp [ids], o.root_ne hne, hr, ?_⟩
  have hq : Fom.cmpAt cmp key { s with t := t } k i = some (cmp k (key (s.val i))) :=
    if_pos (w.tree.live i (by simp [ids]))
  intro q
  simp only [splayToN, Count.bind_run, hn' q, Option.bind_some, setRoot_self hr, hr, Count.cnt_run, hq, Option.map_some,
    Count.pure_run, heq]
  rfl

/-- The key a call looks up, for calls that only look a key up. -/
def lookedUp : Op α κ (Junk α) → Option κ
  | .get k => some k
  | .contains k => some k
  | .occupied k => some k
  | _ => none

theorem Started.look (o : Started cmp key s l T) (hc : LawfulCmp cmp) {q : Op α κ (Junk α)} {k : κ} (hq : lookedUp q = some k)
    (h : (lookup cmp (ekey key) k l).isSome) :
    ∃ t x m P n r, Split (fun a => cmp k (key (s.val a))) T P x m n ∧
      Started cmp key { s with t := t } l (node x m (P true) (P false)) ∧
      cmp k (key (s.val x)) = .eql ∧ x ∈ T.ids ∧ Costs (stepN cmp key s q) (n + 1) ({ s with t := t }, r) := by
  obtain ⟨t, x, m, P, n, h1, h2, h3, h4, h5, h6, h7⟩ := o.hit hc h
  have hf : Costs (findN cmp key s k) (n + 1) ({ s with t := t }, some x) := by
    rw [findN, if_neg h5]
    have := h7.out (fun a => (a.1, if a.2 = .eql then some a.1.t.root else none))
    simp only [h6, if_true] at this
    exact this
  cases q with
  | get j => cases hq; exact ⟨t, x, m, P, n, _, h1, h2, h3, h4, hf.out (fun a => (a.1, Out.ptr (view a.1 a.2)))⟩
  | contains j =>
    cases hq
    exact ⟨t, x, m, P, n, _, h1, h2, h3, h4, (h7.out (fun a => (a.1, a.2 == .eql))).out (fun a => (a.1, Out.flag a.2))⟩
  | occupied j =>
    cases hq
    have he : Costs (entryN cmp key s k) (n + 1) ({ s with t := t }, ⟨x, Stat.occupied⟩) := by
      intro q
      simp only [entryN, Count.bind_run, hf q, Option.bind_some, Count.pure_run]
    exact ⟨t, x, m, P, n, _, h1, h2, h3, h4, he.out (fun a => (a.1, Out.flag (occupied a.2)))⟩
  | _ => cases hq

/-- A sequence of lookups is a sequence of searches in the tree. -/
theorem Started.lookups (hc : LawfulCmp cmp) : ∀ {qs : List (Op α κ (Junk α))} {ks : List κ} {s : Fom α} {T : Tree},
    Started cmp key s l T → qs.map lookedUp = ks.map some → (∀ k ∈ ks, (lookup cmp (ekey key) k l).isSome) →
    ∃ s' rs xs n T', Costs (runN cmp key s qs) n (s', rs) ∧ Finds T xs n T' ∧ Hits cmp (fun i => key (s.val i)) ks xs ∧
      (∀ x ∈ xs, x ∈ T.ids)
  | [], [], s, T, _, _, _ => ⟨s, [], [], 0, T, .pure _, .nil, .nil, by simp⟩
  | [], _ :: _, _, _, _, h, _ => by simp at h
  | _ :: _, [], _, _, _, h, _ => by simp at h
  | q :: qs, k :: ks, s, T, o, h, hk => by
    simp only [List.map_cons, List.cons.injEq] at h
    obtain ⟨t, x, m, P, n, r, h1, h2, h3, h4, h5⟩ := o.look hc h.1 (hk k List.mem_cons_self)
    obtain ⟨s', rs, xs, n', T', g1, g2, g3, g4⟩ := Started.lookups hc h2 h.2 (fun j hj => hk j (List.mem_cons_of_mem _ hj))
    refine ⟨s', r :: rs, x :: xs, n + 1 + n', T', ?_, .cons h1 g2, .cons h3 g3, ?_⟩
    · have := h5.bind (f := fun a => do let b ← runN cmp key a.1 qs; pure (b.1, a.2 :: b.2)) (g1.out (fun b => (b.1, r :: b.2)))
      exact this
    · intro y hy
      rcases List.mem_cons.1 hy with rfl | hy
      · exact h4
      · exact h1.ids_perm.subset (g4 y hy)

theorem safe_lookups {al : Bool} : ∀ (qs : List (Op α κ (Junk α))) (ks : List κ), qs.map lookedUp = ks.map some →
    (∀ k ∈ ks, (lookup cmp (ekey key) k st.l).isSome) → safeRun cmp key al st qs
  | [], _, _, _ => trivial
  | _ :: _, [], h, _ => by simp at h
  | q :: qs, k :: ks, h, hk => by
    simp only [List.map_cons, List.cons.injEq] at h
    have ih := safe_lookups (al := al) qs ks h.2 (fun j hj => hk j (List.mem_cons_of_mem _ hj))
    have hne : st.l ≠ [] := by
      intro e
      have := hk k List.mem_cons_self
      simp [lookup, e] at this
    cases q <;> simp only [lookedUp, reduceCtorEq, false_and] at h <;> exact ⟨trivial, by first | exact hne | trivial, ih⟩

/-- A run of lookups, with what is needed of the tree. -/
theorem lookups_run (hc : LawfulCmp cmp) (mem : Junk α) (cap : Nat) (al : Bool) (ops : List (Op α κ (Junk α)))
    (hs : safeRun cmp key al ⟨[], cap, false⟩ ops) (st : St α) (hl : (specRunS cmp key al ⟨[], cap, false⟩ ops).1 = st)
    (qs : List (Op α κ (Junk α))) (ks : List κ)
    (hq : qs.map lookedUp = ks.map some) (hk : ∀ k ∈ ks, (lookup cmp (ekey key) k st.l).isSome) :
    ∃ s rs s' n, run cmp key (init mem cap al) ops = some (s, rs) ∧
      runN cmp key s qs 0 = some ((s', (specRunS cmp key al st qs).2), n) ∧
      ((ks = [] ∧ n = 0) ∨ ∃ T T' xs, Started cmp key s st.l T ∧ Finds T xs n T' ∧ Hits cmp (fun i => key (s.val i)) ks xs ∧
        (∀ x ∈ xs, x ∈ T.ids)) := by
  obtain ⟨s, e, ⟨T, o⟩, ha⟩ := run_spec hc ops (s := init mem cap al) (st := ⟨[], cap, false⟩) ⟨_, init_ok mem cap al⟩ hs
  rw [show (init mem cap al).hasAlloc = al from rfl] at e o ha
  rw [hl] at o
  have hsafe : safeRun cmp key s.hasAlloc st qs := safe_lookups qs ks hq hk
  obtain ⟨s2, e2, _, _⟩ := run_spec hc qs ⟨T, o⟩ hsafe
  obtain ⟨_, ⟨_, h⟩ | ⟨_, h0, _, _⟩⟩ := o
  · obtain ⟨s', rs, xs, n, T', h1, h2, h3, h4⟩ := h.lookups hc hq hk
    have := (runN_er cmp key s qs).eq h1
    rw [e2] at this
    cases this
    exact ⟨s, _, _, n, e, by have := h1 0; rw [Nat.zero_add, ha] at this; exact this, .inr ⟨T, T', xs, h, h2, h3, h4⟩⟩
  · cases ks with
    | cons k ks =>
      have := hk k List.mem_cons_self
      rw [h0] at this
      simp [lookup] at this
    | nil =>
      cases qs with
      | cons _ _ => simp at hq
      | nil => exact ⟨s, _, s, 0, e, rfl, .inl ⟨rfl, rfl⟩⟩

/-- C78 for the flat ordered map: as `Om.C78_om_fixed_tree`, with a buffer of any capacity, with or without permission to allocate,
whatever the user's allocation function answers. -/
theorem C78_fom_fixed_tree (hc : LawfulCmp cmp) (mem : Junk α) (cap : Nat) (al : Bool) (ops : List (Op α κ (Junk α)))
    (hs : safeRun cmp key al ⟨[], cap, false⟩ ops) (st : St α) (hl : (specRunS cmp key al ⟨[], cap, false⟩ ops).1 = st)
    (qs : List (Op α κ (Junk α))) (ks : List κ)
    (hq : qs.map lookedUp = ks.map some) (hk : ∀ k ∈ ks, (lookup cmp (ekey key) k st.l).isSome)
    (F : Fixed κ) (hF : ∀ e ∈ st.l, (F.search cmp (key e.2)).isSome) :
    ∃ s rs s' n, run cmp key (init mem cap al) ops = some (s, rs) ∧
      runN cmp key s qs 0 = some ((s', (specRunS cmp key al st qs).2), n) ∧
      n ≤ 14 * (ks.map (F.cost cmp)).sum + 4 * (st.l.map (fun e => F.cost cmp (key e.2))).sum := by
  obtain ⟨s, rs, s', n, e1, e2, ⟨_, h⟩ | ⟨T, T', xs, o, h2, h3, h4⟩⟩ := lookups_run hc mem cap al ops hs st hl qs ks hq hk
  · exact ⟨s, rs, s', n, e1, e2, by omega⟩
  · refine ⟨s, rs, s', n, e1, e2, ?_⟩
    have hl : st.l = elems s.val T.ids := o.ok.list
    have hl' : st.l.map (fun e => F.cost cmp (key e.2)) = T.ids.map (fun i => F.cost cmp (key (s.val i))) := by
      rw [hl]; simp [elems]
    rw [hl']
    refine h2.against hc o.keys h3 h4 F (fun i hi => ?_)
    exact hF (i, s.val i) (by rw [hl]; exact mem_elems.2 ⟨hi, rfl⟩)

/-- C78 for the flat ordered map, second measure. -/
theorem C78_fom_recency (hc : LawfulCmp cmp) (mem : Junk α) (cap : Nat) (al : Bool) (ops : List (Op α κ (Junk α)))
    (hs : safeRun cmp key al ⟨[], cap, false⟩ ops) (st : St α) (hl : (specRunS cmp key al ⟨[], cap, false⟩ ops).1 = st)
    (qs : List (Op α κ (Junk α))) (ks : List κ)
    (hq : qs.map lookedUp = ks.map some) (hk : ∀ k ∈ ks, (lookup cmp (ekey key) k st.l).isSome) :
    ∃ s rs s' n, run cmp key (init mem cap al) ops = some (s, rs) ∧
      runN cmp key s qs 0 = some ((s', (specRunS cmp key al st qs).2), n) ∧
      (n : ℝ) ≤ ((gaps (sameKey cmp) st.l.length [] ks).map (fun g : Nat => 12 * Real.logb 2 ((g : ℝ) + 1) + 10)).sum +
        st.l.length * (4 * Real.logb 2 st.l.length + 2) := by
  obtain ⟨s, rs, s', n, e1, e2, ⟨hk0, h⟩ | ⟨T, T', xs, o, h2, h3, h4⟩⟩ := lookups_run hc mem cap al ops hs st hl qs ks hq hk
  · refine ⟨s, rs, s', n, e1, e2, ?_⟩
    subst hk0 h
    simp only [gaps, List.map_nil, List.sum_nil, Nat.cast_zero, zero_add]
    refine mul_nonneg (Nat.cast_nonneg _) ?_
    rcases Nat.eq_zero_or_pos st.l.length with h0 | h0
    · rw [h0]; simp
    · have := Real.logb_nonneg (b := 2) (by norm_num) (show (1 : ℝ) ≤ st.l.length by exact_mod_cast h0)
      linarith
  · refine ⟨s, rs, s', n, e1, e2, ?_⟩
    have hl : st.l = elems s.val T.ids := o.ok.list
    have hlen : st.l.length = T.ids.length := by rw [hl]; simp [elems]
    rw [hlen]
    exact h2.lately hc o.ok.nodup o.keys h3 h4

/-- C78 for the flat ordered map: looking up the same key again. -/
theorem C78_fom_again (hc : LawfulCmp cmp) (mem : Junk α) (cap : Nat) (al : Bool) (ops : List (Op α κ (Junk α)))
    (hs : safeRun cmp key al ⟨[], cap, false⟩ ops) (k : κ)
    (hk : (lookup cmp (ekey key) k (specRunS cmp key al ⟨[], cap, false⟩ ops).1.l).isSome) (q q' : Op α κ (Junk α))
    (hq : lookedUp q = some k) (hq' : lookedUp q' = some k) :
    ∃ s rs s1 r1 n s2 r2, run cmp key (init mem cap al) ops = some (s, rs) ∧ stepN cmp key s q 0 = some ((s1, r1), n) ∧
      stepN cmp key s1 q' 0 = some ((s2, r2), 2) := by
  obtain ⟨s, e, ⟨T, o⟩, _⟩ := run_spec hc ops (s := init mem cap al) (st := ⟨[], cap, false⟩) ⟨_, init_ok mem cap al⟩ hs
  rw [show (init mem cap al).hasAlloc = al from rfl] at e o
  obtain ⟨_, ⟨_, o⟩ | ⟨_, h0, _, _⟩⟩ := o
  · obtain ⟨t, x, m, P, n, r, h1, h2, h3, h4, h5⟩ := o.look hc hq hk
    obtain ⟨t', x', m', P', n', r', g1, g2, g3, g4, g5⟩ := h2.look hc hq' hk
    have := g1.top h3
    subst this
    exact ⟨s, _, _, r, _, _, r', e, h5 0, g5 0⟩
  · rw [h0] at hk
    simp [lookup] at hk

/-- A case the theorems speak about: a buffer for four elements. -/
def fourElems : List (Op Nat Nat (Junk Nat)) := [.tryInsert 10 none, .tryInsert 20 none, .tryInsert 30 none, .tryInsert 40 none]
def sevenLookups : List (Op Nat Nat (Junk Nat)) := [.get 10, .contains 10, .get 40, .occupied 10, .get 10, .get 20, .contains 10]
example : safeRun natCmp id false ⟨[], 5, false⟩ fourElems ∧
    (specRunS natCmp id false ⟨[], 5, false⟩ fourElems).1 = ⟨[(1, 10), (2, 20), (3, 30), (4, 40)], 5, true⟩ ∧
    sevenLookups.map lookedUp = [10, 10, 40, 10, 10, 20, 10].map some ∧
    (∀ k ∈ [10, 10, 40, 10, 10, 20, 10], (lookup natCmp (ekey id) k [(1, 10), (2, 20), (3, 30), (4, 40)]).isSome) ∧
    (∀ e ∈ [(1, 10), (2, 20), (3, 30), (4, 40)], (Om.someTree.search natCmp (id e.2)).isSome) := by
  refine ⟨⟨trivial, trivial, trivial, trivial, trivial, trivial, trivial, trivial, trivial⟩, rfl, rfl, by decide, by decide⟩

end CCC.Fom
