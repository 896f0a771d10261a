import Verif.Props.MultiAmortized
import Verif.Proof.MultiSpine
/-
C67 and C68: the calls of the ordered multimap that are documented as O(1), in comparisons; and `begin`, which is documented
as amortised O(lg N), in links followed.
-/
namespace CCC.Omm
open CCC Splay Tree MultiSpec
open CCC.PtrMap (Out)

variable {α κ : Type} {cmp : κ → κ → Cmp} {key : α → κ} {al : Bool} {off : Nat} {s : Omm α} {st : St α}

/-- The stored elements that no other exceeds. -/
def greatest (cmp : κ → κ → Cmp) (key : α → κ) (l : List (Nat × α)) : List (Nat × α) :=
  l.filter (fun e => l.all (fun x => cmp (key e.2) (key x.2) != .les))
/-- The stored elements that exceed no other. -/
def least (cmp : κ → κ → Cmp) (key : α → κ) (l : List (Nat × α)) : List (Nat × α) :=
  l.filter (fun e => l.all (fun x => cmp (key e.2) (key x.2) != .grt))

/-- The calls of `pop_max`. -/
def isPopMax : MultiSpec.Op α κ → Bool
  | .popMax => true
  | _ => false
/-- The calls of `pop_min`. -/
def isPopMin : MultiSpec.Op α κ → Bool
  | .popMin => true
  | _ => false

/-! ### C67: pops after a query -/

/-- After one `max`, every further `max` and `pop_max` makes a single comparison, as long as one of the elements with the
greatest key is left. -/
theorem C67_omm_max_dups (hc : LawfulCmp cmp) (h : Reach cmp key al off s st) (hne : st.elems ≠ []) :
    ∃ s1 n, stepN cmp key s .max 0 = some ((s1, .ptr (descending cmp key st.elems).head?), n) ∧ Reach cmp key al off s1 st ∧
      ∀ ops : List (MultiSpec.Op α κ), (∀ o ∈ ops, o = .max ∨ o = .popMax) →
        ops.countP isPopMax < (greatest cmp key st.elems).length →
        ∃ s2, runN cmp key s1 ops 0 = some ((s2, (MultiSpec.specRun cmp key al st ops).2), ops.length) := by
  obtain ⟨s1, e1, r1⟩ := h.does hc .max trivial hne
  obtain ⟨A, D, h', T, sa⟩ := h.sim hc
  have hT : T ≠ nil := by
    intro hh
    have := sa.core.nil_iff.1 hh
    exact hne (by rw [sa.elems, this]; rfl)
  obtain ⟨H', i, n, hn, he', _⟩ := sa.core.maxMinN_end hT true
  have hst := stepN_ask (cmp := cmp) (key := key) hn
  have := (stepN_er cmp key s (ask true)).eq hst
  rw [show (ask true : MultiSpec.Op α κ) = .max from rfl, e1] at this
  obtain ⟨rfl, h3⟩ := Prod.mk.inj (Option.some.inj this)
  rw [← h3] at hst
  refine ⟨s1, n, by have := hst 0; rw [Nat.zero_add] at this; exact this, r1, fun ops ho hcnt => ?_⟩
  have hcount : ops.countP isPopMax = ops.countP isPop := List.countP_congr (fun o hm => by
    rcases ho o hm with rfl | rfl <;> simp [isPopMax, isPop])
  rw [hcount] at hcnt
  obtain ⟨_, s2, c2⟩ := runN_end hc true (fun hh => by cases hh) ops (r1.sim hc) he' ho hcnt
  exact ⟨s2, by have := c2 0; rw [Nat.zero_add] at this; exact this⟩

/-- The same for `min` and `pop_min`.  Missing: with permission to allocate and the intrusive element not at the beginning of
the user struct `pop_min` frees a wrong address. -/
theorem C67_omm_min_dups_partial (hc : LawfulCmp cmp) (h : Reach cmp key al off s st) (hne : st.elems ≠ [])
    (hoff : al = true → off = 0) :
    ∃ s1 n, stepN cmp key s .min 0 = some ((s1, .ptr (ascending cmp key st.elems).head?), n) ∧ Reach cmp key al off s1 st ∧
      ∀ ops : List (MultiSpec.Op α κ), (∀ o ∈ ops, o = .min ∨ o = .popMin) →
        ops.countP isPopMin < (least cmp key st.elems).length →
        ∃ s2, runN cmp key s1 ops 0 = some ((s2, (MultiSpec.specRun cmp key al st ops).2), ops.length) := by
  obtain ⟨s1, e1, r1⟩ := h.does hc .min trivial hne
  obtain ⟨A, D, h', T, sa⟩ := h.sim hc
  have hT : T ≠ nil := by
    intro hh
    have := sa.core.nil_iff.1 hh
    exact hne (by rw [sa.elems, this]; rfl)
  obtain ⟨H', i, n, hn, he', _⟩ := sa.core.maxMinN_end hT false
  have hst := stepN_ask (cmp := cmp) (key := key) hn
  have := (stepN_er cmp key s (ask false)).eq hst
  rw [show (ask false : MultiSpec.Op α κ) = .min from rfl, e1] at this
  obtain ⟨rfl, h3⟩ := Prod.mk.inj (Option.some.inj this)
  rw [← h3] at hst
  refine ⟨s1, n, by have := hst 0; rw [Nat.zero_add] at this; exact this, r1, fun ops ho hcnt => ?_⟩
  have hcount : ops.countP isPopMin = ops.countP isPop := List.countP_congr (fun o hm => by
    rcases ho o hm with rfl | rfl <;> simp [isPopMin, isPop])
  rw [hcount] at hcnt
  obtain ⟨_, s2, c2⟩ := runN_end hc false (fun _ => hoff) ops (r1.sim hc) he' ho hcnt
  exact ⟨s2, by have := c2 0; rw [Nat.zero_add] at this; exact this⟩

/-- Three elements with the greatest key: two pops between queries. -/
def dupOps : List (MultiSpec.Op (Nat × Nat) Nat) :=
  [.insert 1 (7, 0) none, .insert 2 (3, 0) none, .insert 3 (7, 1) none, .insert 4 (7, 2) none, .insert 5 (5, 0) none]
example : ∃ s st, Reach natCmp (Prod.fst : Nat × Nat → Nat) false 0 s st ∧ st.elems ≠ [] ∧
    ([.popMax, .max, .popMax, .max] : List (MultiSpec.Op (Nat × Nat) Nat)).countP isPopMax < (greatest natCmp Prod.fst st.elems).length := by
  have ok : okRun natCmp (Prod.fst : Nat × Nat → Nat) false 0 (none_ _) dupOps := by
    simp [dupOps, okRun, okOp, safeOp, MultiSpec.specStep, PtrMap.addAt, St.add, St.forget, PtrMap.fresh, goodAns]
  obtain ⟨s, hs, _⟩ := run_sim natCmp_lawful dupOps (init_sim (fun _ _ => none) (fun _ => none) (fun _ => (0, 0))) ok
  exact ⟨s, _, ⟨_, _, _, dupOps, ok, ⟨_, hs⟩, rfl⟩, by decide, by decide⟩

/-! ### The history behind the witnesses -/

theorem down_reach (n : Nat) : ∃ s st A D h T, Reach natCmp id false 0 s st ∧ SimA natCmp (id : Nat → Nat) false 0 s st A D h T ∧
    Line s n ∧ (∀ a ∈ A, ∀ b ∈ A, natCmp (id (s.val a)) (id (s.val b)) = .eql → a = b) ∧
    run natCmp id (init (fun _ _ => none) (fun _ => none) (fun _ => 0) false 0) (down n) =
      some (s, (MultiSpec.specRun natCmp id false (none_ Nat) (down n)).2) := by
  have hi : Sim natCmp (id : Nat → Nat) false 0 (init (fun _ _ => none) (fun _ => none) (fun _ => 0) false 0) (none_ Nat) :=
    init_sim (fun _ _ => none) (fun _ => none) (fun _ => 0)
  obtain ⟨ok, s, r, sim, l, e⟩ := down_run n (j := 0) hi ⟨nil, trivial, rfl, trivial, rfl⟩ (by simp)
  obtain ⟨A, D, h, T, sa⟩ := id sim
  refine ⟨s, _, A, D, h, T, ⟨_, _, _, down n, ok, ⟨_, r⟩, rfl⟩, sa, by rw [Nat.zero_add] at l; exact l, ?_, r⟩
  intro a ha b hb hab
  have v : ∀ a ∈ A, s.val a = a := fun a ha => e (a, s.val a) (by rw [sa.elems]; exact List.mem_map.2 ⟨a, ha, rfl⟩)
  rw [v a ha, v b hb] at hab
  simp only [id, natCmp] at hab
  split at hab
  · cases hab
  · split at hab
    · cases hab
    · omega

/-- The state after a `max` on it. -/
theorem down_max (c : Nat) : ∃ s st s1 A D h i m X, Reach natCmp id false 0 s st ∧
    Omm.step natCmp id s (.max : MultiSpec.Op Nat Nat) = some (s1, .ptr (some (i, s1.val i))) ∧ Reach natCmp id false 0 s1 st ∧
    Core natCmp (id : Nat → Nat) s1 A (fun a => a ∈ st.out ∧ a ∉ st.later) D h (node i m X nil) ∧ s1.sz = A.length ∧
    s1.alloc = false ∧
    (∀ a ∈ A, ∀ b ∈ A, natCmp (id (s1.val a)) (id (s1.val b)) = .eql → a = b) ∧ c ≤ deep X := by
  obtain ⟨s, st, A, D, h, T, hr, sa, l, inj, _⟩ := down_reach (2 * c + 1 + 1)
  obtain ⟨s1, i, h', m, X, e, c1, o, hX⟩ := sa.core.line_max l
  have hs : Omm.step natCmp id s (.max : MultiSpec.Op Nat Nat) = some (s1, .ptr (some (i, s1.val i))) := by
    simp only [Omm.step, e, Option.bind_eq_bind, Option.bind_some]; rfl
  have hne : st.elems ≠ [] := by
    intro hh
    have hA : A = [] := by
      have := sa.elems
      rw [hh] at this
      simpa using this.symm
    have := sa.core.nil_iff.2 hA
    obtain ⟨_, hd⟩ := sa.core.of_line l
    rw [this] at hd
    simp [deep] at hd
  have hv : s1.val = s.val := o.val.1
  exact ⟨s, st, s1, A, D, h', i, m, X, hr, hs, hr.step (op := .max) trivial hne hs, c1, o.val.2.2.2.1.trans sa.sz,
    o.val.2.2.2.2.1.trans sa.alloc, by rw [hv]; exact inj, by omega⟩

/-- Without duplicates the pop after a `max` is not O(1): no constant bounds its comparisons. -/
theorem C67_omm_pop_violated (c : Nat) : ∃ s st s1 out s2 out2 n, Reach natCmp id false 0 s st ∧
    Omm.step natCmp id s (.max : MultiSpec.Op Nat Nat) = some (s1, out) ∧
    stepN natCmp id s1 (.popMax : MultiSpec.Op Nat Nat) 0 = some ((s2, out2), n) ∧ c < n := by
  obtain ⟨s, st, s1, A, D, h, i, m, X, hr, hs, _, c1, sz, al, inj, hX⟩ := down_max c
  obtain ⟨H', r, n, hn, hle, hal⟩ := c1.pop_cost natCmp_lawful sz rfl inj
  rw [al] at hal
  refine ⟨s, st, s1, _, H', .result .ok, n, hr, hs, ?_, by omega⟩
  simp only [stepN, popMaxN, Count.bind_run, hn 0, Nat.zero_add, Option.bind_some, hal, Bool.false_eq_true, if_false, Count.pure_run]

/-! ### C68: `extract` and `remove_entry` -/

/-- The extraction of an element with two older elements of the same key makes no comparison.  Missing: the extraction of
other elements. -/
theorem C68_omm_extract_partial (hc : LawfulCmp cmp) (h : Reach cmp key al off s st) {e : Nat × α} (he : e ∈ st.elems)
    (hl : isLater cmp key e.1 st.elems = true) :
    ∃ s', stepN cmp key s (.extract e.1) 0 = some ((s', .ptr (some e)), 0) ∧
      Reach cmp key al off s' (st.take false true e.1) := by
  obtain ⟨A, D, h', T, sa⟩ := h.sim hc
  have ha : e.1 ∈ A := sa.mem.1 ⟨e, he, rfl⟩
  have hlater : e.1 ∉ st.later := fun hh => (sa.out e.1 (h.later e.1 hh)).2.2 ha
  have hfind : st.elems.find? (fun x => x.1 == e.1) = some e := by
    rw [sa.at, if_pos ha]
    rw [sa.elems] at he
    obtain ⟨b, _, rfl⟩ := List.mem_map.1 he
    rfl
  obtain ⟨s1, e1, r1⟩ := h.does hc (.extract e.1) (Or.inl ⟨e, he, rfl⟩) (Or.inl hlater)
  simp only [MultiSpec.specStep, hfind, hl] at e1 r1
  obtain ⟨_, H', D', h2, T', o, c', n, hn, _, h0, _⟩ := sa.core.extractN hc sa.sz ha
  have hz : n = 0 := h0 (by
    have := sa.isLater ha
    rw [hl] at this
    simpa using this.symm)
  subst hz
  have hst : Costs (stepN cmp key s (.extract e.1)) 0 (H', .ptr (view H' (some e.1))) :=
    hn.out (fun p => (p.1, Out.ptr (view p.1 p.2)))
  have := (stepN_er cmp key s (.extract e.1)).eq hst
  rw [e1] at this
  rw [← Option.some.inj this] at hst
  exact ⟨s1, hst 0, r1⟩

/-- The third of three equal elements. -/
example : ∃ s st, Reach natCmp (Prod.fst : Nat × Nat → Nat) false 0 s st ∧ (4, (7, 2)) ∈ st.elems ∧
    isLater natCmp (Prod.fst : Nat × Nat → Nat) 4 st.elems = true := by
  have ok : okRun natCmp (Prod.fst : Nat × Nat → Nat) false 0 (none_ _) dupOps := by
    simp [dupOps, okRun, okOp, safeOp, MultiSpec.specStep, PtrMap.addAt, St.add, St.forget, PtrMap.fresh, goodAns]
  obtain ⟨s, hs, _⟩ := run_sim natCmp_lawful dupOps (init_sim (fun _ _ => none) (fun _ => none) (fun _ => (0, 0))) ok
  exact ⟨s, _, ⟨_, _, _, dupOps, ok, ⟨_, hs⟩, rfl⟩, by decide, by decide⟩

/-- No constant bounds the comparisons of an extraction, not even of the element that a `max` has returned just before. -/
theorem C68_omm_extract_violated (c : Nat) : ∃ s st s1 a v s2 out2 n, Reach natCmp id false 0 s st ∧
    Omm.step natCmp id s (.max : MultiSpec.Op Nat Nat) = some (s1, .ptr (some (a, v))) ∧
    stepN natCmp id s1 (.extract a : MultiSpec.Op Nat Nat) 0 = some ((s2, out2), n) ∧ c < n := by
  obtain ⟨s, st, s1, A, D, h, i, m, X, hr, hs, _, c1, sz, al, inj, hX⟩ := down_max c
  obtain ⟨H', n, hn, hle⟩ := c1.extract_cost natCmp_lawful sz inj
  refine ⟨s, st, s1, i, _, H', .ptr (view H' (some i)), n, hr, hs, ?_, by omega⟩
  have := (hn.out (fun p => (p.1, Out.ptr (view p.1 p.2)))) 0
  rw [Nat.zero_add] at this
  exact this

/-- No constant bounds the comparisons of `remove_entry`, those of the call of `entry` not counted. -/
theorem C68_omm_remove_entry_violated (c : Nat) : ∃ s st k s1 e n1 s2 e2 n, Reach natCmp (id : Nat → Nat) false 0 s st ∧
    entryN natCmp id s k 0 = some ((s1, e), n1) ∧ removeEntryN natCmp id s1 e 0 = some ((s2, e2), n) ∧ c < n := by
  obtain ⟨s, st, s1, A, D, h, i, m, X, _, _, hr, c1, sz, al, inj, hX⟩ := down_max c
  obtain ⟨H1, H', n1, n, hn1, hn, hle⟩ := c1.remove_cost natCmp_lawful sz inj al
  refine ⟨s1, st, id (s1.val i), H1, ⟨some i, Stat.occupied⟩, n1, H', ⟨some i, Stat.occupied⟩, n, hr, ?_, ?_, by omega⟩
  · have := hn1 0
    rw [Nat.zero_add] at this
    exact this
  · have := hn 0
    rw [Nat.zero_add] at this
    exact this

/-! ### C62: `begin` -/

/-- C62 fails for `ccc_omm_begin` and `ccc_omm_rbegin`, which walk down the tree without splaying: no constants bound the links
they follow.  `runB` is `run` with these links counted. -/
theorem C62_omm_begin_violated : ¬ ∃ c d : ℝ, ∀ (ops : List (MultiSpec.Op Nat Nat)) (N : Nat),
    okRun natCmp id false 0 (none_ Nat) ops →
    (∀ pre, pre <+: ops → (MultiSpec.specRun natCmp id false (none_ Nat) pre).1.elems.length ≤ N) →
    ∀ s rs n, runB natCmp id (init (fun _ _ => none) (fun _ => none) (fun _ => 0) false 0) ops 0 = some ((s, rs), n) →
    (n : ℝ) ≤ ops.length * (c * Real.logb 2 (N + 2) + d) := by
  rintro ⟨c, d, h⟩
  obtain ⟨m, hm⟩ := exists_nat_ge (2 * |c| + 2 * |d| + 4)
  have hc := abs_nonneg c
  have hd := abs_nonneg d
  have hm4 : 4 ≤ m := by
    have : (4 : ℝ) ≤ m := by linarith
    exact_mod_cast this
  -- `n + 3 = 2 ^ m`
  have hp : m * m ≤ 2 ^ m := by
    clear hm
    induction m, hm4 using Nat.le_induction with
    | base => decide
    | succ m hm ih =>
      rw [Nat.pow_succ]
      nlinarith
  obtain ⟨n, hn⟩ : ∃ n, n + 3 = 2 ^ m := ⟨2 ^ m - 3, by have : 4 * 4 ≤ m * m := Nat.mul_le_mul hm4 hm4; omega⟩
  have hi : Sim natCmp (id : Nat → Nat) false 0 (init (fun _ _ => none) (fun _ => none) (fun _ => 0) false 0) (none_ Nat) :=
    init_sim (fun _ _ => none) (fun _ => none) (fun _ => 0)
  obtain ⟨ok, s, r, sim, l, e⟩ := down_run (n + 1) (j := 0) hi ⟨nil, trivial, rfl, trivial, rfl⟩ (by simp)
  rw [Nat.zero_add] at l
  obtain ⟨rs, hcost⟩ := sim.begins l (n + 1)
  have hb : ∀ (k : Nat) (st : St Nat), okRun natCmp id false 0 st (List.replicate k (.begin : MultiSpec.Op Nat Nat)) := by
    intro k
    induction k with
    | zero => intro st; trivial
    | succ k ih => intro st; exact ⟨trivial, trivial, ih _⟩
  have := h (down (n + 1) ++ List.replicate (n + 1) (.begin : MultiSpec.Op Nat Nat)) (n + 1)
    ((okRun_append _ _).2 ⟨ok, hb _ _⟩) (fun pre hpre => down_size hpre) _ _ _ (down_runB (n + 1) r hcost 0)
  have hlog : Real.logb 2 ((n + 1 : ℕ) + 2) = m := by
    have e : (((n + 1 : ℕ) : ℝ) + 2) = 2 ^ m := by
      have : ((n + 3 : ℕ) : ℝ) = ((2 ^ m : ℕ) : ℝ) := by rw [hn]
      push_cast at this ⊢
      linarith
    rw [e, Real.logb_pow, Real.logb_self_eq_one (by norm_num), mul_one]
  rw [hlog] at this
  have hdown : ∀ k, (down k).length = k := by
    intro k
    induction k with
    | zero => rfl
    | succ k ih => simp [down, ih]
  have hlen : (down (n + 1) ++ List.replicate (n + 1) (.begin : MultiSpec.Op Nat Nat)).length = 2 * (n + 1) := by
    simp [hdown]; omega
  rw [hlen] at this
  have hn' : ((n + 3 : ℕ) : ℝ) = ((2 ^ m : ℕ) : ℝ) := by rw [hn]
  have hp' : ((m * m : ℕ) : ℝ) ≤ ((2 ^ m : ℕ) : ℝ) := by exact_mod_cast hp
  rw [← hn'] at hp'
  push_cast at this hp'
  have hn0 : (0 : ℝ) ≤ n := Nat.cast_nonneg n
  have h1 : (n : ℝ) ≤ 2 * (c * m + d) := by
    have h2 : ((n : ℝ) + 1) * n ≤ ((n : ℝ) + 1) * (2 * (c * m + d)) := by linarith
    exact le_of_mul_le_mul_left h2 (by linarith)
  have hcm : c * m ≤ |c| * m := mul_le_mul_of_nonneg_right (le_abs_self c) (Nat.cast_nonneg m)
  have hdm := le_abs_self d
  have hm4' : (4 : ℝ) ≤ m := by exact_mod_cast hm4
  nlinarith

end CCC.Omm
