import Verif.Proof.Adaptive
import Verif.Proof.OrderedMapCost
/-
C78.  The splay tree maps are documented to be "self-optimizing": "frequently searched values will remain close to the root".
Two measures of this.  Looking keys up costs, up to a constant factor and a cost to begin with, no more than in any fixed search
tree, even the best one for the lookups to come; and it costs the logarithm of the number of other keys looked up since the
same key was looked up last.
-/
namespace CCC.Om
open CCC Links Tree Wavl Splay MapSpec PtrMap Adapt
open _root_.CCC.Rom (put view toSlot elems mem_elems elems_congr elems_upd elems_append put_comm_val lookup_congr occ_occ)

variable {α κ : Type} {cmp : κ → κ → Cmp} {key : α → κ} {s : Om α} {l : List (Nat × α)} {T : Tree}

theorem Ok.keys (o : Ok cmp key s l T) : T.ids.Pairwise (fun a b => cmp (key (s.val a)) (key (s.val b)) = .les) := by
  have := o.sorted
  rw [o.list] at this
  exact List.pairwise_map.1 this

theorem Ok.hit (o : Ok cmp key s l T) (hc : LawfulCmp cmp) {k : κ} (h : (lookup cmp (ekey key) k l).isSome) :
    ∃ t x m P n, Split (fun a => cmp k (key (s.val a))) T P x m n ∧ Ok cmp key { s with t := t } l (node x m (P true) (P false)) ∧
      cmp k (key (s.val x)) = .eql ∧ x ∈ T.ids ∧ s.t.root ≠ 0 ∧ t.root = x ∧
      Costs (splayToN cmp key s k) (n + 1) ({ s with t := t }, .eql) := by
  have hne : T ≠ nil := by
    rintro rfl
    rw [o.list] at h
    simp [elems, ids, lookup] at h
  obtain ⟨t, i, m, A, B, _, w, hi, hA, hB, hs, P, n, hsp, rfl, rfl, hn⟩ :=
    splay_specN o.whole.tree o.nodup o.whole.live0 hne (o.cmpAt k) (o.mono hc k)
  have o' := o.reshape w hi
  have hr : t.root = i := o'.root
  rw [← o.root] at hn
  have heq : cmp k (key (s.val i)) = .eql := by
    by_contra hx
    rw [(lookup_after (cmp := cmp) (key := key) (k := k) o'.list hc hA hB).2 hx] at h
    cases h
  refine ⟨t, i, m, P, n, hsp, o', heq, by rw [← hi]; simp [ids], o.root_ne hne, hr, ?_⟩
  have hq := o'.cmpAt k i (by simp [ids])
  intro q
  simp only [splayToN, Count.bind_run, hn q, Option.bind_some, setRoot_self hr, hr, Count.cnt_run, hq, Option.map_some,
    Count.pure_run, heq]
  rfl

/-- The key a call looks up, for calls that only look a key up. -/
def lookedUp : Op α κ → Option κ
  | .get k => some k
  | .contains k => some k
  | .occupied k => some k
  | _ => none

theorem Ok.look (o : Ok cmp key s l T) (hc : LawfulCmp cmp) {q : Op α κ} {k : κ} (hq : lookedUp q = some k)
    (h : (lookup cmp (ekey key) k l).isSome) :
    ∃ t x m P n r, Split (fun a => cmp k (key (s.val a))) T P x m n ∧ Ok cmp key { s with t := t } l (node x m (P true) (P false)) ∧
      cmp k (key (s.val x)) = .eql ∧ x ∈ T.ids ∧ Costs (stepN cmp key s q) (n + 1) ({ s with t := t }, r) := by
  obtain ⟨t, x, m, P, n, h1, h2, h3, h4, h5, h6, h7⟩ := o.hit hc h
  have hf : Costs (findN cmp key s k) (n + 1) ({ s with t := t }, some x) := by
    rw [findN, if_neg h5]
    have := h7.out (fun a => (a.1, if a.2 = .eql then some a.1.t.root else none))
    simp only [h6, if_true] at this
    exact this
  cases q with
  | get j => cases hq; exact ⟨t, x, m, P, n, _, h1, h2, h3, h4, hf.out (fun a => (a.1, Out.ptr (view a.1 a.2)))⟩
  | contains j =>
    cases hq
    exact ⟨t, x, m, P, n, _, h1, h2, h3, h4, (h7.out (fun a => (a.1, a.2 == .eql))).out (fun a => (a.1, Out.flag a.2))⟩
  | occupied j =>
    cases hq
    have he : Costs (entryN cmp key s k) (n + 1) ({ s with t := t }, ⟨some x, Stat.occupied⟩) := by
      have := hf.bind (m' := 0) (f := fun a => if a.2.isSome then pure (a.1, (⟨a.2, Stat.occupied⟩ : Ent)) else pure (a.1, (⟨a.2, Stat.vacant⟩ : Ent)))
        (r' := ({ s with t := t }, (⟨some x, Stat.occupied⟩ : Ent))) (.pure _)
      exact this
    exact ⟨t, x, m, P, n, _, h1, h2, h3, h4, he.out (fun a => (a.1, Out.flag (occupied a.2)))⟩
  | _ => cases hq

/-- A sequence of lookups is a sequence of searches in the tree. -/
theorem Ok.lookups (hc : LawfulCmp cmp) : ∀ {qs : List (Op α κ)} {ks : List κ} {s : Om α} {T : Tree}, Ok cmp key s l T →
    qs.map lookedUp = ks.map some → (∀ k ∈ ks, (lookup cmp (ekey key) k l).isSome) →
    ∃ s' rs xs n T', Costs (runN cmp key s qs) n (s', rs) ∧ Finds T xs n T' ∧ Hits cmp (fun i => key (s.val i)) ks xs ∧
      (∀ x ∈ xs, x ∈ T.ids)
  | [], [], s, T, _, _, _ => ⟨s, [], [], 0, T, .pure _, .nil, .nil, by simp⟩
  | [], _ :: _, _, _, _, h, _ => by simp at h
  | _ :: _, [], _, _, _, h, _ => by simp at h
  | q :: qs, k :: ks, s, T, o, h, hk => by
    simp only [List.map_cons, List.cons.injEq] at h
    obtain ⟨t, x, m, P, n, r, h1, h2, h3, h4, h5⟩ := o.look hc h.1 (hk k List.mem_cons_self)
    obtain ⟨s', rs, xs, n', T', g1, g2, g3, g4⟩ := Ok.lookups hc h2 h.2 (fun j hj => hk j (List.mem_cons_of_mem _ hj))
    refine ⟨s', r :: rs, x :: xs, n + 1 + n', T', ?_, .cons h1 g2, .cons h3 g3, ?_⟩
    · have := h5.bind (f := fun a => do let b ← runN cmp key a.1 qs; pure (b.1, a.2 :: b.2)) (g1.out (fun b => (b.1, r :: b.2)))
      exact this
    · intro y hy
      rcases List.mem_cons.1 hy with rfl | hy
      · exact h4
      · exact h1.ids_perm.subset (g4 y hy)

theorem safe_lookups {al : Bool} : ∀ (qs : List (Op α κ)) (ks : List κ), qs.map lookedUp = ks.map some →
    (∀ k ∈ ks, (lookup cmp (ekey key) k l).isSome) → safeRun cmp key al l qs
  | [], _, _, _ => trivial
  | _ :: _, [], h, _ => by simp at h
  | q :: qs, k :: ks, h, hk => by
    simp only [List.map_cons, List.cons.injEq] at h
    have ih := safe_lookups (al := al) qs ks h.2 (fun j hj => hk j (List.mem_cons_of_mem _ hj))
    have hne : l ≠ [] := by
      rintro rfl
      simpa [lookup] using hk k List.mem_cons_self
    cases q <;> simp only [lookedUp, reduceCtorEq, false_and] at h <;> exact ⟨trivial, by first | exact hne | trivial, ih⟩

/-- C78.  From any map, however it came about, storing the elements `l`: any sequence of lookups of stored keys is answered as
specified, and for every fixed search tree `F` with these keys the comparisons are at most 14 times those of the same lookups in
`F`, plus 4 times those of looking up each stored key once in `F`.  `runN` is `run` with the comparisons counted. -/
theorem C78_om_fixed_tree (hc : LawfulCmp cmp) (mem : Nat → α) (al : Bool) (ops : List (Op α κ)) (hs : safeRun cmp key al [] ops)
    (l : List (Nat × α)) (hl : (specRun cmp key al [] ops).1 = l) (qs : List (Op α κ)) (ks : List κ)
    (hq : qs.map lookedUp = ks.map some) (hk : ∀ k ∈ ks, (lookup cmp (ekey key) k l).isSome)
    (F : Fixed κ) (hF : ∀ e ∈ l, (F.search cmp (key e.2)).isSome) :
    ∃ s rs s' n, run cmp key (init mem al) ops = some (s, rs) ∧
      runN cmp key s qs 0 = some ((s', (specRun cmp key al l qs).2), n) ∧
      n ≤ 14 * (ks.map (F.cost cmp)).sum + 4 * (l.map (fun e => F.cost cmp (key e.2))).sum := by
  obtain ⟨s, e, ⟨T, o⟩, ha⟩ := run_spec hc ops (s := init mem al) (l := []) ⟨_, init_ok mem al⟩ hs
  rw [show (init mem al).alloc = al from rfl] at e o ha
  rw [hl] at o
  obtain ⟨s', rs, xs, n, T', h1, h2, h3, h4⟩ := o.lookups hc hq hk
  have hsafe : safeRun cmp key s.alloc l qs := safe_lookups qs ks hq hk
  obtain ⟨s2, e2, _, _⟩ := run_spec hc qs ⟨T, o⟩ hsafe
  have := (runN_er cmp key s qs).eq h1
  rw [e2] at this
  cases this
  refine ⟨s, _, _, n, e, by have := h1 0; rw [Nat.zero_add, ha] at this; exact this, ?_⟩
  have hl' : l.map (fun e => F.cost cmp (key e.2)) = T.ids.map (fun i => F.cost cmp (key (s.val i))) := by
    rw [o.list]; simp [elems]
  rw [hl']
  refine h2.against hc o.keys h3 h4 F (fun i hi => ?_)
  exact hF (i, s.val i) (by rw [o.list]; exact mem_elems.2 ⟨hi, rfl⟩)

/-- C78, second measure.  A lookup of a key costs `12 log₂ (g + 1) + 10` comparisons on average, where `g` is the number of other
keys looked up since the key was looked up last (the number `N` of stored elements, at the first time), after a cost of
`N (4 log₂ N + 2)` to begin with. -/
theorem C78_om_recency (hc : LawfulCmp cmp) (mem : Nat → α) (al : Bool) (ops : List (Op α κ)) (hs : safeRun cmp key al [] ops)
    (l : List (Nat × α)) (hl : (specRun cmp key al [] ops).1 = l) (qs : List (Op α κ)) (ks : List κ)
    (hq : qs.map lookedUp = ks.map some) (hk : ∀ k ∈ ks, (lookup cmp (ekey key) k l).isSome) :
    ∃ s rs s' n, run cmp key (init mem al) ops = some (s, rs) ∧
      runN cmp key s qs 0 = some ((s', (specRun cmp key al l qs).2), n) ∧
      (n : ℝ) ≤ ((gaps (sameKey cmp) l.length [] ks).map (fun g : Nat => 12 * Real.logb 2 ((g : ℝ) + 1) + 10)).sum +
        l.length * (4 * Real.logb 2 l.length + 2) := by
  obtain ⟨s, e, ⟨T, o⟩, ha⟩ := run_spec hc ops (s := init mem al) (l := []) ⟨_, init_ok mem al⟩ hs
  rw [show (init mem al).alloc = al from rfl] at e o ha
  rw [hl] at o
  obtain ⟨s', rs, xs, n, T', h1, h2, h3, h4⟩ := o.lookups hc hq hk
  have hsafe : safeRun cmp key s.alloc l qs := safe_lookups qs ks hq hk
  obtain ⟨s2, e2, _, _⟩ := run_spec hc qs ⟨T, o⟩ hsafe
  have := (runN_er cmp key s qs).eq h1
  rw [e2] at this
  cases this
  refine ⟨s, _, _, n, e, by have := h1 0; rw [Nat.zero_add, ha] at this; exact this, ?_⟩
  have hlen : l.length = T.ids.length := by rw [o.list]; simp [elems]
  rw [hlen]
  exact h2.lately hc o.nodup o.keys h3 h4

/-- A search for what is at the root. -/
theorem _root_.CCC.Splay.Split.top {c : Nat → Cmp} {X : Tree} {P : Bool → Tree} {x m n : Nat} (h : Split c X P x m n)
    (hr : c X.rootId = .eql) : n = 1 := by
  cases h with
  | found => rfl
  | @last d i k A e => rfl
  | @zzLast d i k j m A B e => cases d <;> simp [nd, Tree.rootId, dirCmp] at hr e <;> rw [e] at hr <;> cases hr
  | @zz d i k j m A B Z P x kx n e => cases d <;> simp [nd, Tree.rootId, dirCmp] at hr e <;> rw [e] at hr <;> cases hr
  | @zig d i k A Y P x kx n e => cases d <;> simp [nd, Tree.rootId, dirCmp] at hr e <;> rw [e] at hr <;> cases hr

/-- C78, "repeated searches of the same value yield an O(1) access": two comparisons, however long the first search took. -/
theorem C78_om_again (hc : LawfulCmp cmp) (mem : Nat → α) (al : Bool) (ops : List (Op α κ)) (hs : safeRun cmp key al [] ops) (k : κ)
    (hk : (lookup cmp (ekey key) k (specRun cmp key al [] ops).1).isSome) (q q' : Op α κ) (hq : lookedUp q = some k)
    (hq' : lookedUp q' = some k) :
    ∃ s rs s1 r1 n s2 r2, run cmp key (init mem al) ops = some (s, rs) ∧ stepN cmp key s q 0 = some ((s1, r1), n) ∧
      stepN cmp key s1 q' 0 = some ((s2, r2), 2) := by
  obtain ⟨s, e, ⟨T, o⟩, _⟩ := run_spec hc ops (s := init mem al) (l := []) ⟨_, init_ok mem al⟩ hs
  rw [show (init mem al).alloc = al from rfl] at e o
  obtain ⟨t, x, m, P, n, r, h1, h2, h3, h4, h5⟩ := o.look hc hq hk
  obtain ⟨t', x', m', P', n', r', g1, g2, g3, g4, g5⟩ := h2.look hc hq' hk
  have := g1.top h3
  subst this
  exact ⟨s, _, _, r, _, _, r', e, h5 0, g5 0⟩

/-- A case the theorems speak about: four elements inserted in ascending order, so that the tree is a path, then seven lookups, most of
them of one key, and a fixed search tree. -/
def someElems : List (Op Nat Nat) := [.tryInsert 1 10 none, .tryInsert 2 20 none, .tryInsert 3 30 none, .tryInsert 4 40 none]
def someLookups : List (Op Nat Nat) := [.get 10, .contains 10, .get 40, .occupied 10, .get 10, .get 20, .contains 10]
def someTree : Fixed Nat := .node (.node .leaf 10 .leaf) 20 (.node .leaf 30 (.node .leaf 40 .leaf))
example : safeRun natCmp id false [] someElems ∧
    (specRun natCmp id false [] someElems).1 = [(1, 10), (2, 20), (3, 30), (4, 40)] ∧
    someLookups.map lookedUp = [10, 10, 40, 10, 10, 20, 10].map some ∧
    (∀ k ∈ [10, 10, 40, 10, 10, 20, 10], (lookup natCmp (ekey id) k [(1, 10), (2, 20), (3, 30), (4, 40)]).isSome) ∧
    (∀ e ∈ [(1, 10), (2, 20), (3, 30), (4, 40)], (someTree.search natCmp (id e.2)).isSome) ∧
    [10, 20, 30, 40].map (someTree.cost natCmp) = [2, 1, 2, 3] ∧
    gaps (sameKey natCmp) 4 [] [10, 10, 40, 10, 10, 20, 10] = [4, 0, 4, 1, 0, 4, 1] := by
  refine ⟨⟨⟨?_, ?_⟩, trivial, ⟨?_, ?_⟩, trivial, ⟨?_, ?_⟩, trivial, ⟨?_, ?_⟩, trivial, trivial⟩, rfl, rfl, by decide, by decide,
    by decide, by decide⟩ <;> simp [fresh, goodAns, specStep, lookup, addAt, place, natCmp, ekey]

end CCC.Om
