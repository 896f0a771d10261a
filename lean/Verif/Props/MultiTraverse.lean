import Verif.Proof.MultiTraverse
import Verif.Props.MultiEnds
import Verif.Props.Traverse
/-
C69 and C70 for the ordered multimap.
-/
namespace CCC.Omm
open CCC Wavl Tree Splay MultiSpec
open CCC.PtrMap (Out)

variable {α κ : Type} {cmp : κ → κ → Cmp} {key : α → κ} {al : Bool} {off : Nat} {s : Omm α} {st : St α}

/-- **C69 (ordered multimap).**  A whole loop over the multimap, from the greatest key down or from the least up, visits the
elements in order and makes at most thirty accesses per element, whatever the shape of the tree and however many elements
share a key. -/
theorem C69_omm_traverse (hc : LawfulCmp cmp) (h : Reach cmp key al off s st) :
    (∃ m, (do let p ← beginA s true; iterateN (fun a => nextA s a false) none p) 0 =
      some ((descending cmp key st.elems).map Prod.fst, m) ∧ m ≤ 30 * st.elems.length) ∧
    (∃ m, (do let p ← beginA s false; iterateN (fun a => nextA s a true) none p) 0 =
      some ((ascending cmp key st.elems).map Prod.fst, m) ∧ m ≤ 30 * st.elems.length) := by
  obtain ⟨A, D, h', T, sa⟩ := h.sim hc
  have hl : A.length = st.elems.length := by rw [sa.elems]; simp
  have e1 : (descending cmp key st.elems).map Prod.fst = flat false D T := by
    rw [sa.descending hc, List.map_map]; simp [cell, Function.comp_def]
  have e2 : (ascending cmp key st.elems).map Prod.fst = flat true D T := by
    rw [sa.ascending hc, List.map_map]; simp [cell, Function.comp_def]
  rw [e1, e2, ← hl]
  obtain ⟨m1, c1, b1⟩ := sa.core.tour_le hc sa.sz false
  obtain ⟨m2, c2, b2⟩ := sa.core.tour_le hc sa.sz true
  rw [sa.core.flat_length hc] at b1 b2
  exact ⟨⟨m1, c1.zero, b1⟩, ⟨m2, c2.zero, b2⟩⟩

example : ∃ s st m, Reach natCmp (Prod.fst : Nat × Nat → Nat) false 0 s st ∧ st.elems = sampleElems ∧
    (do let p ← beginA s true; iterateN (fun a => nextA s a false) none p) 0 = some ([5, 3, 6, 1, 2], m) ∧ m ≤ 150 := by
  obtain ⟨s, st, h, he, _⟩ := sample_reach
  obtain ⟨⟨m, h1, h2⟩, _⟩ := C69_omm_traverse natCmp_lawful h
  rw [he] at h1 h2
  exact ⟨s, st, m, h, he, h1, h2⟩

/-- What holds of C70 for the ordered multimap: a step between two elements with equal keys is O(1).  Missing: the step from
one key to another, for which it is false (`C70_omm_rnext_violated`). -/
theorem C70_omm_dup_partial (hc : LawfulCmp cmp) (h : Reach cmp key al off s st) (d : Bool) {a b : Nat × α} (ha : a ∈ st.elems)
    (hb : b ∈ st.elems) (hab : cmp (key a.2) (key b.2) = .eql) (hn : next s a.1 d = some (some b.1)) :
    ∃ n, nextA s a.1 d 0 = some (some b.1, n) ∧ n ≤ 30 := by
  obtain ⟨A, D, h', T, sa⟩ := h.sim hc
  have c := sa.core
  rw [sa.elems, List.mem_map] at ha hb
  obtain ⟨x, hx, rfl⟩ := ha
  obtain ⟨y, hy, rfl⟩ := hb
  obtain ⟨pre, post, e⟩ := List.append_of_mem ((c.flat_mem hc d).2 hx)
  obtain ⟨m, c1, b1⟩ := c.nextA hc d e
  rw [c.next hc d e] at hn
  simp only [Option.some.injEq] at hn hab
  rw [hn] at c1 b1
  refine ⟨m, c1.zero, ?_⟩
  obtain ⟨n, hn, he⟩ := c.cover x hx
  have hxn : x ∈ n :: D n := by rw [c.group n hn]; simp [hx, he]
  have hyn : y ∈ n :: D n := by
    rw [c.group n hn]
    have : cmp (key (s.val n)) (key (s.val y)) = .eql := by rw [hc.eql_congr_left he]; exact hab
    simp [hy, this]
  simp only [mphi] at b1
  rw [c.owner_eq hn hxn, c.owner_eq hn hyn] at b1
  omega

example : ∃ s st n, Reach natCmp (Prod.fst : Nat × Nat → Nat) false 0 s st ∧ st.elems = sampleElems ∧
    nextA s 3 false 0 = some (some 6, n) ∧ n ≤ 30 := by
  obtain ⟨s, st, h, he, _⟩ := sample_reach
  have hn : next s 3 false = some (some 6) := by
    obtain ⟨l, hl, _, hn, _⟩ := h.walk natCmp_lawful false
    rw [he] at hl
    exact hn [5] 3 [6, 1, 2] (by rw [hl]; decide)
  obtain ⟨n, h1, h2⟩ := C70_omm_dup_partial natCmp_lawful h false (a := (3, (5, 1))) (b := (6, (5, 3))) (by rw [he]; decide)
    (by rw [he]; decide) (by decide) hn
  exact ⟨s, st, n, h, he, h1, h2⟩

theorem arm_deep : ∀ {T : Tree}, arm true T = deep T
  | nil => rfl
  | node _ _ _ r => by simp [arm, deep, arm_deep (T := r)]; omega

/-- C70 fails for the ordered multimap: `ccc_omm_rnext` is documented as "O(1)", but no constant bounds its accesses: from the
greatest of `n` elements inserted in descending order it climbs over all of them. -/
theorem C70_omm_rnext_violated : ¬ ∃ c : Nat, ∀ (s : Omm Nat) (st : St Nat), Reach natCmp id false 0 s st →
    ∀ e ∈ st.elems.map Prod.fst, ∀ q n, nextA s e true 0 = some (q, n) → n ≤ c := by
  rintro ⟨c, h⟩
  obtain ⟨s, st, A, D, h', T, hr, sa, l, inj, _⟩ := down_reach (c + 1)
  obtain ⟨hp, hd⟩ := sa.core.of_line l
  have hne : T ≠ nil := by rintro rfl; simp [deep] at hd
  have co := sa.core
  have hroot : h'.root = T.rootId := co.whole.ctx
  obtain ⟨y, hy, hy'⟩ := lastN_cost co.whole hne true
  have y0 : y ≠ 0 := fun hh => co.whole.tree.ne_zero (hh ▸ hy)
  have yl := co.whole.tree.live y hy
  obtain ⟨m, c1, l1, _⟩ := (nextTreeA_dom co.rel true y0 yl (by rw [hroot]; exact co.whole.tree.root_live co.whole.live0)).run hy'
  have hD : D y = [] := by
    cases hD : D y with
    | nil => rfl
    | cons x xs =>
      have hx : x ∈ D y := by rw [hD]; simp
      have hq := co.memD hx
      have := inj y (co.memT hy) x hq.1 hq.2
      subst this
      have := (co.rel.dnl _ _ hx).2.2
      rw [yl] at this; cases this
  obtain ⟨k1, _, d1⟩ := isDupHeadA_bd s y false (by unfold isDupHead; rw [if_neg y0]; exact co.rel.notRing yl y0)
  obtain ⟨k2, _, d2⟩ := hasDupsA_bd s y _ (co.rel.hasDups yl)
  rw [hD, List.isEmpty_nil] at d2
  have hm : Costs (multimapNextA s y true) (1 + (k1 + (k2 + m))) 0 := by
    unfold multimapNextA
    refine (Costs.acc (getPar_live (co.rel.live _ yl))).bind ?_
    rw [co.rel.plain y yl hD, if_neg (by simp)]
    refine d1.bind ?_
    rw [if_neg (by simp)]
    refine d2.bind ?_
    rw [if_neg (by simp)]
    exact c1
  have := h s st hr y (by rw [sa.elems, List.map_map]; simpa [Function.comp_def] using co.memT hy) _ _ (hm.out toUser).zero
  rw [arm_deep, hd] at l1
  omega

end CCC.Omm
