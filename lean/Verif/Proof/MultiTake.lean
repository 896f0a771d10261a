import Verif.Proof.MultiOps
/-
Taking elements out of the multimap.
-/
namespace CCC.Omm
open CCC Links Tree Wavl Splay

set_option linter.unusedSimpArgs false

variable {α κ : Type} {cmp : κ → κ → Cmp} {key : α → κ}
variable {H : Omm α} {A : List Nat} {N : Nat → Prop} {D : Nat → List Nat} {h : Links} {T : Tree}

/-- All but one. -/
def drop (r : Nat) (A : List Nat) : List Nat := A.filter (fun a => a != r)

theorem mem_drop {r a : Nat} : a ∈ drop r A ↔ a ∈ A ∧ a ≠ r := by simp [drop]

theorem drop_self {r : Nat} (h : r ∉ A) : drop r A = A := by
  unfold drop
  rw [List.filter_eq_self]
  intro a ha
  have : a ≠ r := by rintro rfl; exact h ha
  simp [this]

theorem drop_cons (r : Nat) (A : List Nat) : drop r (r :: A) = drop r A := by simp [drop, List.filter_cons]

theorem drop_filter (r : Nat) (p : Nat → Bool) (A : List Nat) : (drop r A).filter p = drop r (A.filter p) := by
  unfold drop
  rw [List.filter_filter, List.filter_filter]
  exact List.filter_congr (fun a _ => by rw [Bool.and_comm])

theorem Core.nD (c : Core cmp key H A N D h T) {r : Nat} (hr : r ∈ T.ids) (n : Nat) : r ∉ D n := by
  intro hh
  have := (c.rel.dnl n r hh).2.2
  rw [c.whole.tree.live r hr] at this; cases this

/-- A duplicate leaves its group. -/
theorem Core.dropDup (c : Core cmp key H A N D h T) {r y : Nat} {L : List Nat} {M : Nat → Prop} {H' : Omm α}
    (hy : y ∈ D r) (hL : L = drop y (D r)) (o : Only H H') (R : Rel (upd D r L) M H' h) :
    Core cmp key H' (drop y A) M (upd D r L) h T := by
  have hr := c.tree_of hy
  have yT : y ∉ T.ids := fun hh => c.nD hh r hy
  refine ⟨R, c.whole, c.live, ?_, ?_, ?_⟩
  · rw [o.val.1]; exact c.sorted
  · rw [o.val.1]
    intro n hn
    rw [drop_filter, ← c.group n hn]
    have hny : n ≠ y := by rintro rfl; exact yT hn
    have e : drop y (n :: D n) = n :: drop y (D n) := by simp [drop, List.filter_cons, hny]
    rw [e]
    by_cases hnr : n = r
    · subst hnr; rw [upd_same, hL]
    · rw [upd_ne _ _ hnr, drop_self (fun hh => hnr (c.rel.ddj n r y hh hy))]
  · rw [o.val.1]
    intro a ha
    exact c.cover a (mem_drop.1 ha).1

/-- The tree after `n` comparisons to take the root out of the tree, or out of its ring of duplicates. -/
def Took (k : Nat) (L B T' : Tree) (n : Nat) : Prop :=
  (n = 0 ∧ ∃ x, T' = node x k L B) ∨
  ∃ f, (L = nil ∧ T' = B ∧ n = 0) ∨ ∃ P j m, Split f L P j m n ∧ P false = nil ∧ T' = node j m (P true) B

theorem popFrontDupN_root {s : Omm α} {old : Nat} {k : κ} {r : Omm α × Nat} (hr : s.root = old)
    (e : popFrontDup cmp key s old k = some r) : Costs (popFrontDupN cmp key s old k) 0 r := by
  have : popFrontDupN cmp key s old k = (liftM (popFrontDup cmp key s old k) : Count _) := by
    subst hr
    funext q
    simp only [popFrontDupN, popFrontDup, if_true, Count.bind_run, Count.lift_run, Count.pure_run, Option.map_bind,
      Option.bind_map, Function.comp_def, Option.bind_eq_bind, Option.bind_some, Option.map_some, Option.pure_def]
  rw [this]
  exact .lift e

theorem popDupNodeN_root {s : Omm α} {dup splayed : Nat} {r : Omm α × Nat} (hr : s.root = splayed)
    (e : popDupNode cmp key s dup splayed = some r) : Costs (popDupNodeN cmp key s dup splayed) 0 r := by
  unfold popDupNode at e
  unfold popDupNodeN
  split at e
  · rename_i hd
    rw [if_pos hd]
    exact popFrontDupN_root hr e
  · rename_i hd
    rw [if_neg hd]
    intro q
    rw [Nat.add_zero]
    simp only [Count.bind_run, Count.lift_run]
    cases hb : getBr s dup true with
    | none => rw [hb] at e; cases e
    | some b =>
      rw [hb] at e
      simp only [Option.bind_eq_bind, Option.bind_some] at e
      simp only [Option.map_some, Option.bind_some]
      split at e
      · rename_i hn
        rw [if_pos hn]
        simp only [Count.bind_run, Count.lift_run, Count.pure_run, Option.bind_map, Function.comp_def]
        have := congrArg (Option.map (fun x => (x, q))) e
        simpa [Option.map_bind, Function.comp_def] using this
      · rename_i hn
        rw [if_neg hn]
        simp only [Count.bind_run, Count.lift_run, Count.pure_run, Option.bind_map, Function.comp_def]
        have := congrArg (Option.map (fun x => (x, q))) e
        simpa [Option.map_bind, Function.comp_def] using this

/-- A root with equals behind it leaves: the next of them takes its place, without a comparison. -/
theorem Core.takeDupN {r m x : Nat} {xs : List Nat} {L B : Tree} (c : Core cmp key H A N D h (node r m L B)) (hc : LawfulCmp cmp)
    (hd : D r = x :: xs) :
    ∃ H' D' h', Costs (takeRootN cmp key H r) 0 (H', some r) ∧
      Core cmp key H' (drop r A) (fun a => N a ∨ a = r) D' h' (node x m L B) ∧ Only H H' := by
  have rT : r ∈ (node r m L B).ids := by simp [ids]
  have rl : h.live r = true := c.whole.tree.live r rT
  have r0 : r ≠ 0 := c.ne_zero (c.memT rT)
  simp only [Costs, takeRootN, Count.bind_run, Count.lift_run, c.rel.hasDups rl, hd, Option.map_some, Option.bind_some]
  have hsort := c.sorted
  simp only [ids, List.pairwise_append, List.pairwise_cons, List.mem_cons] at hsort
  have hnd := c.nodup
  simp only [ids, List.nodup_append, List.nodup_cons, List.mem_cons] at hnd
  have rL : r ∉ L.ids := fun hh => hnd.2.2 r hh r (Or.inl rfl) rfl
  have rB : r ∉ B.ids := hnd.2.1.1
  simp only [List.isEmpty_cons, Bool.not_false, if_true]
  obtain ⟨H1, h1, run1, o1, R1, w1, live1⟩ := c.rel.popFront cmp key c.whole c.live hd (key (H.val r))
  have hx : x ∈ D r := by rw [hd]; simp
  have xr : x ≠ r := by rintro rfl; exact c.nD rT x hx
  have xT : x ∉ (node r m L B).ids := fun hh => c.nD hh r hx
  have rT1 : r ∉ (node x m L B).ids := by simp [ids, rL, rB, xr.symm]
  have nl1 : h1.live r = false := by
    cases e : h1.live r with
    | false => rfl
    | true =>
      rcases live1 r e with h2 | h2
      · exact absurd h2 r0
      · exact absurd h2 rT1
  have sub : ∀ b y, y ∈ upd (upd D r []) x xs b → y ∈ D b ∨ (b = x ∧ y ∈ D r) := by
    intro b y hy
    by_cases hbx : b = x
    · subst hbx; rw [upd_same] at hy; exact Or.inr ⟨rfl, by rw [hd]; simp [hy]⟩
    · rw [upd_ne _ _ hbx] at hy
      by_cases hbr : b = r
      · subst hbr; simp at hy
      · rw [upd_ne _ _ hbr] at hy; exact Or.inl hy
  obtain ⟨H3, run3, o3, R3⟩ := R1.clear (e := r) (by rw [o1.val.2.1]; exact c.rel.live r rl) nl1 (by
    intro b hb
    rcases sub b r hb with h2 | h2
    · exact c.nD rT b h2
    · exact c.nD rT r h2.2)
  simp only [popFrontDupN_root (show H.root = r from c.root) run1 _, Option.bind_some, run3, Option.map_some]
  have exr : cmp (key (H.val r)) (key (H.val x)) = .eql := (c.memD hx).2
  refine ⟨H3, _, h1, fun _ => rfl, ⟨R3, w1, live1, ?_, ?_, ?_⟩, o1.trans o3⟩
  · rw [o3.val.1, o1.val.1]
    simp only [ids, List.pairwise_append, List.pairwise_cons, List.mem_cons]
    refine ⟨hsort.1, ⟨fun a ha => ?_, hsort.2.1.2⟩, ?_⟩
    · rw [← hc.eql_congr_left exr]; exact hsort.2.1.1 a ha
    · intro a ha b hb
      rcases hb with rfl | hb
      · rw [← hc.eql_congr exr]; exact hsort.2.2 a ha r (Or.inl rfl)
      · exact hsort.2.2 a ha b (Or.inr hb)
  · rw [o3.val.1, o1.val.1]
    intro n hn
    by_cases hnx : n = x
    · subst hnx
      rw [upd_same, drop_filter]
      have : A.filter (fun a => cmp (key (H.val n)) (key (H.val a)) == .eql) = r :: D r := by
        rw [c.group r rT]
        exact List.filter_congr (fun a _ => by rw [hc.eql_congr_left exr])
      rw [this, drop_cons, hd, drop_self]
      rw [← hd]; exact c.nD rT r
    · have hn' : n ∈ (node r m L B).ids ∧ n ≠ r := by
        simp only [ids, List.mem_append, List.mem_cons] at hn ⊢
        rcases hn with h2 | h2 | h2
        · exact ⟨Or.inl h2, by rintro rfl; exact rL h2⟩
        · exact absurd h2 hnx
        · exact ⟨Or.inr (Or.inr h2), by rintro rfl; exact rB h2⟩
      rw [upd_ne _ _ hnx, upd_ne _ _ hn'.2, drop_filter, ← c.group n hn'.1, drop_self]
      simp only [List.mem_cons, not_or]
      exact ⟨hn'.2.symm, c.nD rT n⟩
  · rw [o3.val.1, o1.val.1]
    intro a ha
    obtain ⟨n, hn, hq⟩ := c.cover a (mem_drop.1 ha).1
    simp only [ids, List.mem_append, List.mem_cons] at hn
    rcases hn with h2 | rfl | h2
    · exact ⟨n, by simp [ids, h2], hq⟩
    · exact ⟨x, by simp [ids], by rw [← hc.eql_congr_left exr]; exact hq⟩
    · exact ⟨n, by simp [ids, h2], hq⟩

/-- The root leaves, and the cost of it. -/
theorem Core.takeN {r m : Nat} {L B : Tree} (c : Core cmp key H A N D h (node r m L B)) (hc : LawfulCmp cmp) :
    ∃ H' D' h' T' n, Costs (takeRootN cmp key H r) n (H', some r) ∧
      Core cmp key H' (drop r A) (fun a => N a ∨ a = r) D' h' T' ∧ Only H H' ∧ Took m L B T' n := by
  have rT : r ∈ (node r m L B).ids := by simp [ids]
  have rl : h.live r = true := c.whole.tree.live r rT
  have r0 : r ≠ 0 := c.ne_zero (c.memT rT)
  simp only [Costs, takeRootN, Count.bind_run, Count.lift_run, c.rel.hasDups rl, Option.map_some, Option.bind_some]
  have hsort := c.sorted
  simp only [ids, List.pairwise_append, List.pairwise_cons, List.mem_cons] at hsort
  have hnd := c.nodup
  simp only [ids, List.nodup_append, List.nodup_cons, List.mem_cons] at hnd
  have rL : r ∉ L.ids := fun hh => hnd.2.2 r hh r (Or.inl rfl) rfl
  have rB : r ∉ B.ids := hnd.2.1.1
  cases hd : D r with
  | nil =>
    simp only [List.isEmpty_nil, Bool.not_true, Bool.false_eq_true, if_false]
    have hAs : ∀ a ∈ L.ids, a ∈ A := fun a ha => c.memT (by simp [ids, ha])
    obtain ⟨H1, h1, T1, nn, run1, R1, o1, w1, i1, l1, hTook⟩ := remove_simN (cmp := cmp) (key := key)
      (c' := fun a => cmp (key (H.val r)) (key (H.val a))) c.rel c.whole
      (fun a ha => c.cmpAt _ (hAs a ha)) (sorted_mono hc hsort.1 _)
      (fun a ha => hc.grt_iff.2 (hsort.2.2 a ha r (Or.inl rfl)))
    have rT1 : r ∉ T1.ids := by rw [i1]; simp [rL, rB]
    have live1 : ∀ a, h1.live a = true → a = 0 ∨ a = r ∨ a ∈ T1.ids := by
      intro a ha
      rw [l1] at ha
      rw [i1]
      rcases c.live a ha with h2 | h2
      · exact Or.inl h2
      · simp only [ids, List.mem_append, List.mem_cons] at h2 ⊢
        rcases h2 with h2 | h2 | h2
        · exact Or.inr (Or.inr (Or.inl h2))
        · exact Or.inr (Or.inl h2)
        · exact Or.inr (Or.inr (Or.inr h2))
    obtain ⟨R2, w2⟩ := R1.cut_whole w1 r0 hd rT1 live1
    obtain ⟨H3, run3, o3, R3⟩ := R2.clear (e := r) (by rw [o1.val.2.1]; exact c.rel.live r rl) (by simp [Omm.cut])
      (c.nD rT)
    simp only [run1 _, Option.bind_some, run3, Option.map_some]
    refine ⟨H3, D, _, T1, nn, fun _ => rfl, ⟨R3, w2, ?_, ?_, ?_, ?_⟩, o1.trans o3, Or.inr ⟨_, hTook⟩⟩
    · intro a ha
      have har : a ≠ r := by rintro rfl; simp [Omm.cut] at ha
      have : h1.live a = true := by simpa [Omm.cut, upd_ne _ _ har] using ha
      rcases live1 a this with h2 | h2 | h2
      · exact Or.inl h2
      · exact absurd h2 har
      · exact Or.inr h2
    · rw [o3.val.1, o1.val.1, i1, List.pairwise_append]
      exact ⟨hsort.1, hsort.2.1.2, fun a ha b hb => hsort.2.2 a ha b (Or.inr hb)⟩
    · rw [o3.val.1, o1.val.1]
      intro n hn
      have hnr : n ≠ r := by rintro rfl; exact rT1 hn
      have hn' : n ∈ (node r m L B).ids := by
        rw [i1] at hn
        simp only [ids, List.mem_append, List.mem_cons] at hn ⊢
        rcases hn with h2 | h2
        · exact Or.inl h2
        · exact Or.inr (Or.inr h2)
      rw [drop_filter, ← c.group n hn', drop_self]
      simp only [List.mem_cons, not_or]
      exact ⟨hnr.symm, c.nD rT n⟩
    · rw [o3.val.1, o1.val.1]
      intro a ha
      obtain ⟨haA, har⟩ := mem_drop.1 ha
      obtain ⟨n, hn, hq⟩ := c.cover a haA
      refine ⟨n, ?_, hq⟩
      have hnr : n ≠ r := by
        rintro rfl
        rcases c.of_eql haA hn hq with h2 | h2
        · exact har h2
        · rw [hd] at h2; simp at h2
      rw [i1]
      simp only [ids, List.mem_append, List.mem_cons] at hn ⊢
      rcases hn with h2 | h2 | h2
      · exact Or.inl h2
      · exact absurd h2 hnr
      · exact Or.inr h2
  | cons x xs =>
    obtain ⟨H', D', h', h1, h2, h3⟩ := c.takeDupN hc hd
    refine ⟨H', D', h', node x m L B, 0, ?_, h2, h3, Or.inl ⟨rfl, x, rfl⟩⟩
    intro n
    have := h1 n
    simp only [takeRootN, Count.bind_run, Count.lift_run, c.rel.hasDups rl, Option.map_some, Option.bind_some, hd] at this
    exact this

/-- The root leaves. -/
theorem Core.take {r m : Nat} {L B : Tree} (c : Core cmp key H A N D h (node r m L B)) (hc : LawfulCmp cmp) :
    ∃ H' D' h' T', takeRoot cmp key H r = some (H', some r) ∧
      Core cmp key H' (drop r A) (fun a => N a ∨ a = r) D' h' T' ∧ Only H H' := by
  obtain ⟨H', D', h', T', n, e, c', o, _⟩ := c.takeN hc
  exact ⟨H', D', h', T', (takeRootN_er _ _ _ _).eq e, c', o⟩

/-- `multimap_erase`. -/
theorem Core.erase (c : Core cmp key H A N D h T) (hc : LawfulCmp cmp) (hsz : H.sz = A.length) (k : κ) :
    (first cmp key H.val k A = none ∧ ∃ H' h' T', erase cmp key H k = some (H', none) ∧ Core cmp key H' A N D h' T' ∧
      Only H H') ∨
    (∃ r H' D' h' T', first cmp key H.val k A = some r ∧ erase cmp key H k = some (H', some r) ∧
      Core cmp key H' (drop r A) (fun a => N a ∨ a = r) D' h' T' ∧ OnlyS (H.sz - 1) H H') := by
  by_cases hne : T = nil
  · have hA := c.nil_iff.1 hne
    subst hA
    left
    refine ⟨rfl, H, h, T, ?_, c, Only.refl _⟩
    have : isEmpty H = true := by simp [isEmpty, hsz]
    unfold Omm.erase
    rw [if_pos this]
  · have hE : isEmpty H = false := by
      have : A.length ≠ 0 := by
        intro hh
        exact hne (c.nil_iff.2 (List.length_eq_zero_iff.1 hh))
      simp [isEmpty, hsz, this]
    obtain ⟨H', h', i, m, L, B, run, c', o, hr, hi, hA, hB, _, hq⟩ := c.splay hc hne k
    have hf := c'.first_root hc (k := k) (by rw [o.val.1]; exact hA) (by rw [o.val.1]; exact hB)
    rw [o.val.1] at hf
    rw [hf]
    by_cases he : cmp k (key (H.val i)) = .eql
    · right
      rw [if_pos he]
      obtain ⟨H2, D2, h2, T2, run2, c2, o2⟩ := (c'.setSz (H'.sz - 1)).take hc
      refine ⟨i, H2, D2, h2, T2, rfl, ?_, c2, ?_⟩
      · unfold Omm.erase
        rw [hE]
        simp only [Bool.false_eq_true, if_false, run, Option.bind_eq_bind, Option.bind_some, hq, he, ne_eq, not_true,
          run2]
      · obtain ⟨b, p, r, rfl⟩ := o
        obtain ⟨b, p, r, rfl⟩ := o2
        exact ⟨b, p, r, rfl⟩
    · left
      rw [if_neg he]
      refine ⟨rfl, H', h', _, ?_, c', o⟩
      unfold Omm.erase
      rw [hE]
      simp only [Bool.false_eq_true, if_false, run, Option.bind_eq_bind, Option.bind_some, hq, ne_eq, he, not_false_eq_true,
        if_true]

theorem const_mono (q : Cmp) (hq : q = .les ∨ q = .grt) (l : List Nat) : Mono (fun _ => q) l := by
  refine ⟨fun a _ => by rcases hq with rfl | rfl <;> simp, ?_⟩
  refine List.pairwise_of_forall (fun a b => ?_)
  rcases hq with rfl | rfl <;> simp

/-- Splaying to an end. -/
theorem Core.splayEnd (c : Core cmp key H A N D h T) (hne : T ≠ nil) (d : Bool) :
    ∃ H' h' i m L B, Omm.splay H (force (if d then .grt else .les)) H.root = some (H', i) ∧
      Core cmp key H' A N D h' (node i m L B) ∧ Only H H' ∧ H'.root = i ∧ (node i m L B).ids = T.ids ∧
      i = endOf d T.ids := by
  obtain ⟨H', h', i, m, L, B, run, c', o, hr, hi, hA, hB⟩ := c.splayC hne (f := force (if d then .grt else .les))
    (f' := fun _ => if d then .grt else .les) (fun _ _ => rfl) (const_mono _ (by cases d <;> simp) _)
  refine ⟨H', h', i, m, L, B, run, c', o, hr, hi, ?_⟩
  rw [← hi]
  cases d with
  | false =>
    have : L.ids = [] := by
      cases hL : L.ids with
      | nil => rfl
      | cons a l => have := hA a (by rw [hL]; simp); simp at this
    simp [ids, this, endOf]
  | true =>
    have : B.ids = [] := by
      cases hB' : B.ids with
      | nil => rfl
      | cons a l => have := hB a (by rw [hB']; simp); simp at this
    simp [ids, this, endOf]

/-- `multimap_erase_max_or_min`. -/
theorem Core.eraseEnd (c : Core cmp key H A N D h T) (hc : LawfulCmp cmp) (hsz : H.sz = A.length) (d : Bool) :
    (A = [] ∧ eraseMaxOrMin cmp key H (if d then .grt else .les) = some (H, none)) ∨
    (A ≠ [] ∧ ∃ H' D' h' T', eraseMaxOrMin cmp key H (if d then .grt else .les) = some (H', some (endOf d T.ids)) ∧
      endOf d T.ids ∈ T.ids ∧
      Core cmp key H' (drop (endOf d T.ids) A) (fun a => N a ∨ a = endOf d T.ids) D' h' T' ∧ OnlyS (H.sz - 1) H H') := by
  by_cases hne : T = nil
  · have hA := c.nil_iff.1 hne
    left
    refine ⟨hA, ?_⟩
    have : isEmpty H = true := by simp [isEmpty, hsz, hA]
    unfold eraseMaxOrMin
    rw [if_pos this]
  · right
    refine ⟨fun hh => hne (c.nil_iff.2 hh), ?_⟩
    have hE : isEmpty H = false := by
      have : A.length ≠ 0 := by
        intro hh
        exact hne (c.nil_iff.2 (List.length_eq_zero_iff.1 hh))
      simp [isEmpty, hsz, this]
    obtain ⟨H', h', i, m, L, B, run, c', o, hr, hi, he⟩ := (c.setSz (H.sz - 1)).splayEnd hne d
    obtain ⟨H2, D2, h2, T2, run2, c2, o2⟩ := c'.take hc
    rw [← he]
    refine ⟨H2, D2, h2, T2, ?_, by rw [← hi]; simp [ids], c2, ?_⟩
    · unfold eraseMaxOrMin
      rw [hE]
      simp only [Bool.false_eq_true, if_false, Option.bind_eq_bind]
      rw [run]
      simp only [Option.bind_some, run2]
    · exact (o.trans o2).withSz

end CCC.Omm
