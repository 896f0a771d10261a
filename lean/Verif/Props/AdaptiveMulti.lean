import Verif.Props.Adaptive
import Mathlib.Algebra.Order.BigOperators.Group.List
import Verif.Props.MultiAmortized
/-
C78 for the ordered multimap.
-/
namespace CCC.Omm
open CCC Links Tree Wavl Splay MultiSpec Adapt

variable {α κ : Type} {cmp : κ → κ → Cmp} {key : α → κ} {H : Omm α} {A : List Nat} {N : Nat → Prop} {D : Nat → List Nat}
variable {h : Links} {T : Tree}

theorem Core.hit (c : Core cmp key H A N D h T) (hc : LawfulCmp cmp) {k : κ} (hk : (first cmp key H.val k A).isSome) :
    ∃ H' h' x m P n, Split (fun a => cmp k (key (H.val a))) T P x m n ∧ Core cmp key H' A N D h' (node x m (P true) (P false)) ∧
      cmp k (key (H.val x)) = .eql ∧ x ∈ T.ids ∧ H.root ≠ 0 ∧ H'.root = x ∧ H'.val = H.val ∧
      Costs (splayToN cmp key H k) (n + 1) (H', .eql) := by
  have hne : T ≠ nil := by
    rintro rfl
    obtain ⟨a, ha⟩ := Option.isSome_iff_exists.1 hk
    obtain ⟨n, hn, _⟩ := c.cover a (List.mem_of_find?_eq_some ha)
    simp [ids] at hn
  obtain ⟨H', h', i, m, X, B, e, c', o, hr, hi, hA, hB, P, n, hsp, rfl, rfl, hn⟩ :=
    c.splayCN hne (fun a ha => c.cmpAt k (c.memT ha)) (c.mono hc k)
  have heq : cmp k (key (H.val i)) = .eql := by
    by_contra hx
    have := c'.first_root hc (k := k) (by rw [o.val.1]; exact hA) (by rw [o.val.1]; exact hB)
    rw [o.val.1, if_neg hx] at this
    rw [this] at hk
    cases hk
  have hq := c'.cmpAt k (c'.memT (n := i) (by simp [ids]))
  rw [o.val.1, heq] at hq
  refine ⟨H', h', i, m, P, n, hsp, c', heq, by rw [← hi]; simp [ids], c.root_ne hne, hr, o.val.1, ?_⟩
  intro q
  simp only [splayToN, Count.bind_run, hn q, Option.bind_some, root_self hr, hr, Count.cnt_run, hq, Option.map_some, Count.pure_run]
  rfl

/-- The key a call looks up, for calls that only look a key up. -/
def lookedUp : MultiSpec.Op α κ → Option κ
  | .get k => some k
  | .contains k => some k
  | .occupied k => some k
  | _ => none

theorem Core.look (c : Core cmp key H A N D h T) (hc : LawfulCmp cmp) {q : MultiSpec.Op α κ} {k : κ} (hq : lookedUp q = some k)
    (hk : (first cmp key H.val k A).isSome) :
    ∃ H' h' x m P n r, Split (fun a => cmp k (key (H.val a))) T P x m n ∧
      Core cmp key H' A N D h' (node x m (P true) (P false)) ∧
      cmp k (key (H.val x)) = .eql ∧ x ∈ T.ids ∧ H'.val = H.val ∧ Costs (stepN cmp key H q) (n + 1) (H', r) := by
  obtain ⟨H', h', x, m, P, n, h1, h2, h3, h4, h5, h6, hv, h7⟩ := c.hit hc hk
  have hf : Costs (findN cmp key H k) (n + 1) (H', some x) := by
    rw [findN, if_neg h5]
    have := h7.out (fun a => (a.1, if a.2 = .eql then some a.1.root else none))
    simp only [h6, if_true] at this
    exact this
  cases q with
  | get j => cases hq; exact ⟨H', h', x, m, P, n, _, h1, h2, h3, h4, hv, hf.out (fun a => (a.1, PtrMap.Out.ptr (view a.1 a.2)))⟩
  | contains j =>
    cases hq
    exact ⟨H', h', x, m, P, n, _, h1, h2, h3, h4, hv, (h7.out (fun a => (a.1, a.2 == .eql))).out (fun a => (a.1, PtrMap.Out.flag a.2))⟩
  | occupied j =>
    cases hq
    have he : Costs (entryN cmp key H k) (n + 1) (H', ⟨some x, Stat.occupied⟩) := by
      intro q
      simp only [entryN, Count.bind_run, hf q, Option.bind_some, Option.isSome_some, if_true, Count.pure_run]
    exact ⟨H', h', x, m, P, n, _, h1, h2, h3, h4, hv, he.out (fun a => (a.1, PtrMap.Out.flag (occupied a.2)))⟩
  | _ => cases hq

/-- A sequence of lookups is a sequence of searches in the tree. -/
theorem Core.lookups (hc : LawfulCmp cmp) : ∀ {qs : List (MultiSpec.Op α κ)} {ks : List κ} {H : Omm α} {h : Links} {T : Tree},
    Core cmp key H A N D h T → qs.map lookedUp = ks.map some → (∀ k ∈ ks, (first cmp key H.val k A).isSome) →
    ∃ H' rs xs n T', Costs (runN cmp key H qs) n (H', rs) ∧ Finds T xs n T' ∧ Hits cmp (fun i => key (H.val i)) ks xs ∧
      (∀ x ∈ xs, x ∈ T.ids)
  | [], [], H, _, T, _, _, _ => ⟨H, [], [], 0, T, .pure _, .nil, .nil, by simp⟩
  | [], _ :: _, _, _, _, _, h, _ => by simp at h
  | _ :: _, [], _, _, _, _, h, _ => by simp at h
  | q :: qs, k :: ks, H, h, T, o, hq, hk => by
    simp only [List.map_cons, List.cons.injEq] at hq
    obtain ⟨H', h', x, m, P, n, r, h1, h2, h3, h4, hv, h5⟩ := o.look hc hq.1 (hk k List.mem_cons_self)
    obtain ⟨s', rs, xs, n', T', g1, g2, g3, g4⟩ := Core.lookups hc h2 hq.2
      (fun j hj => by rw [hv]; exact hk j (List.mem_cons_of_mem _ hj))
    rw [hv] at g3
    refine ⟨s', r :: rs, x :: xs, n + 1 + n', T', ?_, .cons h1 g2, .cons h3 g3, ?_⟩
    · have := h5.bind (f := fun a => do let b ← runN cmp key a.1 qs; pure (b.1, a.2 :: b.2)) (g1.out (fun b => (b.1, r :: b.2)))
      exact this
    · intro y hy
      rcases List.mem_cons.1 hy with rfl | hy
      · exact h4
      · exact h1.ids_perm.subset (g4 y hy)

variable {al : Bool} {off : Nat} {st : St α}

theorem safe_lookups : ∀ (qs : List (MultiSpec.Op α κ)) (ks : List κ), qs.map lookedUp = ks.map some →
    (∀ k ∈ ks, (oldest cmp key k st.elems).isSome) → okRun cmp key al off st qs
  | [], _, _, _ => trivial
  | _ :: _, [], h, _ => by simp at h
  | q :: qs, k :: ks, h, hk => by
    simp only [List.map_cons, List.cons.injEq] at h
    have ih := safe_lookups qs ks h.2 (fun j hj => hk j (List.mem_cons_of_mem _ hj))
    have hne : st.elems ≠ [] := by
      intro e
      have := hk k List.mem_cons_self
      simp [oldest, e] at this
    cases q <;> simp only [lookedUp, reduceCtorEq, false_and] at h <;> exact ⟨trivial, by first | exact hne | trivial, ih⟩

/-- A run of lookups, with what is needed of the tree. -/
theorem lookups_run (hc : LawfulCmp cmp) (br : Nat → Bool → Slot) (par : Nat → Slot) (mem : Nat → α)
    (ops : List (MultiSpec.Op α κ)) (hs : okRun cmp key al off (none_ α) ops)
    (hl : (MultiSpec.specRun cmp key al (none_ α) ops).1 = st) (qs : List (MultiSpec.Op α κ)) (ks : List κ)
    (hq : qs.map lookedUp = ks.map some) (hk : ∀ k ∈ ks, (oldest cmp key k st.elems).isSome) :
    ∃ s rs s' n A D h T T' xs, run cmp key (init br par mem al off) ops = some (s, rs) ∧
      runN cmp key s qs 0 = some ((s', (MultiSpec.specRun cmp key al st qs).2), n) ∧
      SimA cmp key al off s st A D h T ∧ Finds T xs n T' ∧ Hits cmp (fun i => key (s.val i)) ks xs ∧ (∀ x ∈ xs, x ∈ T.ids) := by
  obtain ⟨s, e, A, D, h, T, o⟩ := run_sim hc ops (init_sim br par mem) hs
  rw [show (⟨[], [], []⟩ : St α) = none_ α from rfl, hl] at o
  obtain ⟨s2, e2, _⟩ := run_sim hc qs ⟨A, D, h, T, o⟩ (safe_lookups (al := al) (off := off) qs ks hq hk)
  have hk' : ∀ k ∈ ks, (first cmp key s.val k A).isSome := by
    intro k hm
    have := hk k hm
    rw [o.oldest] at this
    simpa using this
  obtain ⟨s', rs, xs, n, T', h1, h2, h3, h4⟩ := o.core.lookups hc hq hk'
  have := (runN_er cmp key s qs).eq h1
  rw [e2] at this
  cases this
  exact ⟨s, _, _, n, A, D, h, T, T', xs, e, by have := h1 0; rw [Nat.zero_add] at this; exact this, o, h2, h3, h4⟩

/-- C78 for the ordered multimap: as `Om.C78_om_fixed_tree`, with and without permission to allocate.  The fixed tree may be any
tree that contains the stored keys. -/
theorem C78_omm_fixed_tree (hc : LawfulCmp cmp) (br : Nat → Bool → Slot) (par : Nat → Slot) (mem : Nat → α) (al : Bool)
    (off : Nat) (ops : List (MultiSpec.Op α κ)) (hs : okRun cmp key al off (none_ α) ops) (st : St α)
    (hl : (MultiSpec.specRun cmp key al (none_ α) ops).1 = st) (qs : List (MultiSpec.Op α κ)) (ks : List κ)
    (hq : qs.map lookedUp = ks.map some) (hk : ∀ k ∈ ks, (oldest cmp key k st.elems).isSome)
    (F : Fixed κ) (hF : ∀ e ∈ st.elems, (F.search cmp (key e.2)).isSome) :
    ∃ s rs s' n, run cmp key (init br par mem al off) ops = some (s, rs) ∧
      runN cmp key s qs 0 = some ((s', (MultiSpec.specRun cmp key al st qs).2), n) ∧
      n ≤ 14 * (ks.map (F.cost cmp)).sum + 4 * (st.elems.map (fun e => F.cost cmp (key e.2))).sum := by
  obtain ⟨s, rs, s', n, A, D, h, T, T', xs, e1, e2, o, h2, h3, h4⟩ := lookups_run hc br par mem ops hs hl qs ks hq hk
  refine ⟨s, rs, s', n, e1, e2, ?_⟩
  have h5 := h2.against hc o.core.sorted h3 h4 F
    (fun i hi => hF (i, s.val i) (by rw [o.elems]; exact List.mem_map.2 ⟨i, o.core.memT hi, rfl⟩))
  have h6 : st.elems.map (fun e => F.cost cmp (key e.2)) = A.map (fun i => F.cost cmp (key (s.val i))) := by
    rw [o.elems, List.map_map]; rfl
  obtain ⟨l, hp, hs⟩ := List.subperm_of_subset o.core.nodup (fun a ha => o.core.memT ha)
  have h8 := (hs.map (fun i => F.cost cmp (key (s.val i)))).sum_le_sum (fun _ _ => Nat.zero_le _)
  rw [(hp.map (fun i => F.cost cmp (key (s.val i)))).sum_eq] at h8
  rw [h6]
  omega

theorem gap_mono (same : κ → κ → Bool) {M N : Nat} (h : M ≤ N) (past : List κ) (k : κ) : gap same M past k ≤ gap same N past k := by
  unfold gap; split <;> omega

theorem gaps_mono (same : κ → κ → Bool) {M N : Nat} (h : M ≤ N) : ∀ (ks past : List κ),
    ((gaps same M past ks).map (fun g : Nat => 12 * Real.logb 2 ((g : ℝ) + 1) + 10)).sum ≤
      ((gaps same N past ks).map (fun g : Nat => 12 * Real.logb 2 ((g : ℝ) + 1) + 10)).sum
  | [], _ => le_refl _
  | k :: ks, past => by
    have h1 := gaps_mono same h ks (k :: past)
    have h2 : (gap same M past k : ℝ) ≤ gap same N past k := by exact_mod_cast gap_mono same h past k
    have h3 := Real.logb_le_logb_of_le (b := 2) (by norm_num) (show (0 : ℝ) < (gap same M past k : ℝ) + 1 by positivity)
      (by linarith : (gap same M past k : ℝ) + 1 ≤ (gap same N past k : ℝ) + 1)
    simp only [gaps, List.map_cons, List.sum_cons]
    linarith

/-- C78 for the ordered multimap, second measure. -/
theorem C78_omm_recency (hc : LawfulCmp cmp) (br : Nat → Bool → Slot) (par : Nat → Slot) (mem : Nat → α) (al : Bool)
    (off : Nat) (ops : List (MultiSpec.Op α κ)) (hs : okRun cmp key al off (none_ α) ops) (st : St α)
    (hl : (MultiSpec.specRun cmp key al (none_ α) ops).1 = st) (qs : List (MultiSpec.Op α κ)) (ks : List κ)
    (hq : qs.map lookedUp = ks.map some) (hk : ∀ k ∈ ks, (oldest cmp key k st.elems).isSome) :
    ∃ s rs s' n, run cmp key (init br par mem al off) ops = some (s, rs) ∧
      runN cmp key s qs 0 = some ((s', (MultiSpec.specRun cmp key al st qs).2), n) ∧
      (n : ℝ) ≤ ((gaps (sameKey cmp) st.elems.length [] ks).map (fun g : Nat => 12 * Real.logb 2 ((g : ℝ) + 1) + 10)).sum +
        st.elems.length * (4 * Real.logb 2 st.elems.length + 2) := by
  obtain ⟨s, rs, s', n, A, D, h, T, T', xs, e1, e2, o, h2, h3, h4⟩ := lookups_run hc br par mem ops hs hl qs ks hq hk
  refine ⟨s, rs, s', n, e1, e2, ?_⟩
  have hlen : st.elems.length = A.length := by rw [o.elems]; simp
  have hle : T.ids.length ≤ A.length := (List.subperm_of_subset o.core.nodup (fun a ha => o.core.memT ha)).length_le
  have h5 := h2.lately hc o.core.nodup o.core.sorted h3 h4
  rw [hlen]
  have h6 := gaps_mono (sameKey cmp) hle ks []
  refine h5.trans (add_le_add h6 ?_)
  have hle' : (T.ids.length : ℝ) ≤ A.length := by exact_mod_cast hle
  rcases Nat.eq_zero_or_pos T.ids.length with h0 | h0
  · rw [h0]
    rcases Nat.eq_zero_or_pos A.length with h1 | h1
    · rw [h1]
    · have := Real.logb_nonneg (b := 2) (by norm_num) (show (1 : ℝ) ≤ A.length by exact_mod_cast h1)
      simp only [Nat.cast_zero, zero_mul]
      positivity
  · have h1 : (1 : ℝ) ≤ T.ids.length := by exact_mod_cast h0
    have h7 := Real.logb_nonneg (b := 2) (by norm_num) h1
    have h8 := Real.logb_le_logb_of_le (b := 2) (by norm_num) (show (0 : ℝ) < T.ids.length by linarith) hle'
    exact mul_le_mul hle' (by linarith) (by linarith) (Nat.cast_nonneg _)

/-- C78 for the ordered multimap: looking up the same key again. -/
theorem C78_omm_again (hc : LawfulCmp cmp) (br : Nat → Bool → Slot) (par : Nat → Slot) (mem : Nat → α) (al : Bool)
    (off : Nat) (ops : List (MultiSpec.Op α κ)) (hs : okRun cmp key al off (none_ α) ops) (k : κ)
    (hk : (oldest cmp key k (MultiSpec.specRun cmp key al (none_ α) ops).1.elems).isSome) (q q' : MultiSpec.Op α κ)
    (hq : lookedUp q = some k) (hq' : lookedUp q' = some k) :
    ∃ s rs s1 r1 n s2 r2, run cmp key (init br par mem al off) ops = some (s, rs) ∧ stepN cmp key s q 0 = some ((s1, r1), n) ∧
      stepN cmp key s1 q' 0 = some ((s2, r2), 2) := by
  obtain ⟨s, e, A, D, h, T, o⟩ := run_sim hc ops (init_sim br par mem) hs
  rw [show (⟨[], [], []⟩ : St α) = none_ α from rfl] at o
  rw [o.oldest, Option.isSome_map] at hk
  obtain ⟨H', h', x, m, P, n, r, h1, h2, h3, h4, hv, h5⟩ := o.core.look hc hq hk
  obtain ⟨H2, h2', x', m', P', n', r', g1, g2, g3, g4, _, g5⟩ := h2.look hc hq' (by rw [hv]; exact hk)
  have := g1.top (by rw [hv]; exact h3)
  subst this
  exact ⟨s, _, _, r, _, _, r', e, h5 0, g5 0⟩

/-- A case the theorems speak about: five elements, two of them with the same key. -/
def fiveElems : List (MultiSpec.Op (Nat × Nat) Nat) := [.insert 1 (20, 0) none, .insert 2 (10, 1) none, .insert 3 (20, 2) none,
  .insert 4 (40, 3) none, .insert 5 (30, 4) none]
def fiveLookups : List (MultiSpec.Op (Nat × Nat) Nat) := [.get 20, .contains 20, .get 40, .occupied 20, .get 20]
example : okRun natCmp (Prod.fst : Nat × Nat → Nat) false 8 (none_ _) fiveElems ∧
    (MultiSpec.specRun natCmp Prod.fst false (none_ (Nat × Nat)) fiveElems).1.elems =
      [(1, 20, 0), (2, 10, 1), (3, 20, 2), (4, 40, 3), (5, 30, 4)] ∧
    fiveLookups.map lookedUp = [20, 20, 40, 20, 20].map some ∧
    (∀ k ∈ [20, 20, 40, 20, 20], (oldest natCmp Prod.fst k [(1, 20, 0), (2, 10, 1), (3, 20, 2), (4, 40, 3), (5, 30, 4)]).isSome) ∧
    (∀ e ∈ [(1, 20, 0), (2, 10, 1), (3, 20, 2), (4, 40, 3), (5, 30, 4)], (Om.someTree.search natCmp (Prod.fst e.2)).isSome) := by
  refine ⟨?_, by decide, rfl, by decide, by decide⟩
  simp [fiveElems, okRun, okOp, safeOp, MultiSpec.specStep, oldest, PtrMap.addAt, St.add, PtrMap.fresh, goodAns]

end CCC.Omm
