import Verif.Model.OrderedMultimapSteps
import Verif.Proof.MultiEnds
/-
Descending insertions make a path of the tree of the multimap: `begin` walks down that path every time, and after `max` has
halved it, `pop_max` walks down what is left.
-/
namespace CCC.Omm
open CCC Links Tree Wavl Splay MapSpec PtrMap MultiSpec

variable {α κ : Type} {cmp : κ → κ → Cmp} {key : α → κ} {H : Omm α} {A : List Nat} {N : Nat → Prop}
  {D : Nat → List Nat} {h : Links} {T : Tree} {al : Bool} {off : Nat} {st : St α}

/-- Nobody has a left child. -/
def Path : Tree → Prop
  | nil => True
  | node _ _ l r => l = nil ∧ Path r

/-- The length of the way to the right. -/
def deep : Tree → Nat
  | nil => 0
  | node _ _ _ r => deep r + 1

theorem split_ids {c : Nat → Cmp} {X : Tree} {P : Bool → Tree} {x k n : Nat} (h : Split c X P x k n) :
    (P true).ids ++ x :: (P false).ids = X.ids := by
  induction h with
  | found => simp [ids]
  | @last d i k A h => cases d <;> simp [setP, ids]
  | @zzLast d i k j m A B h h' => cases d <;> simp [setP, ids]
  | @zz d i k j m A B Z P x kx n h h' hZ hs ih => cases d <;> simp [setP, ids, ← ih]
  | @zig d i k A Y P x kx n h hY hne hs ih => cases d <;> simp [setP, ids, ← ih]

theorem split_path {c : Nat → Cmp} {X : Tree} {P : Bool → Tree} {x k n : Nat} (h : Split c X P x k n) (hp : Path X)
    (hn : P true = nil) : node x k nil (P false) = X := by
  cases h with
  | found => obtain ⟨rfl, _⟩ := hp; simp
  | @last d i k A h =>
    cases d
    · simp [setP]
    · simp only [setP, if_true] at hn
      subst hn
      simp [setP]
  | @zzLast d i k j m A B h h' =>
    cases d
    · exact absurd hp.1 (by simp)
    · simp [setP] at hn
  | @zz d i k j m A B Z P x kx n h h' hZ hs =>
    cases d
    · exact absurd hp.1 (by simp)
    · simp [setP] at hn
  | @zig d i k A Y P x kx n h hY hne hs =>
    cases d
    · exact absurd hp.1 hY
    · simp [setP] at hn

/-- Splaying to the right end compares once for each node on the way and halves it. -/
theorem split_deep {X : Tree} {P : Bool → Tree} {x k n : Nat} {c : Nat → Cmp} (h : Split c X P x k n) (hc : ∀ a, c a = .grt) :
    n = deep X ∧ n ≤ 2 * deep (P true) + 2 := by
  induction h with
  | found h => rw [hc] at h; cases h
  | @last d i k A h =>
    cases d
    · rw [hc] at h; cases h
    · simp [deep, setP]
  | @zzLast d i k j m A B h h' =>
    cases d
    · rw [hc] at h; cases h
    · simp [deep, setP]
  | @zz d i k j m A B Z P x kx n h h' hZ hs ih =>
    cases d
    · rw [hc] at h; cases h
    · simp only [deep, setP, nd_true, if_true]
      omega
  | @zig d i k A Y P x kx n h hY hne hs =>
    cases d
    · rw [hc] at h; cases h
    · rw [hc] at hne; exact absurd rfl hne

/-- If nothing greater is left, all of the way was walked. -/
theorem split_all {X : Tree} {P : Bool → Tree} {x k n : Nat} {c : Nat → Cmp} (h : Split c X P x k n) (hn : P false = nil) :
    deep X ≤ n := by
  induction h with
  | @found i k l r h =>
    simp only [Bool.false_eq_true, if_false] at hn
    subst hn
    simp [deep]
  | @last d i k A h =>
    cases d
    · simp only [setP, if_true] at hn
      subst hn
      simp [deep]
    · simp [deep]
  | @zzLast d i k j m A B h h' =>
    cases d
    · simp [setP] at hn
    · simp [deep]
  | @zz d i k j m A B Z P x kx n h h' hZ hs ih =>
    cases d
    · simp [setP] at hn
    · simp only [setP, Bool.false_eq_true, if_false] at hn
      have := ih hn
      simp only [deep, nd_true]
      omega
  | @zig d i k A Y P x kx n h hY hne hs ih =>
    cases d
    · simp [setP] at hn
    · simp only [setP, Bool.false_eq_true, if_false] at hn
      have := ih hn
      simp only [deep, nd_true]
      omega

/-- The tree below the root is a path of `n` nodes. -/
def Line (H : Omm α) (n : Nat) : Prop := ∃ T, Shape H T ∧ H.root = T.rootId ∧ Path T ∧ deep T = n

theorem Shape.path : ∀ {T T' : Tree}, Shape H T → Shape H T' → T.rootId = T'.rootId → Path T → Path T' ∧ deep T = deep T'
  | nil, nil, _, _, _, _ => ⟨trivial, rfl⟩
  | nil, node _ _ _ _, _, h', e, _ => absurd e.symm h'.1
  | node _ _ _ _, nil, h, _, e, _ => absurd e h.1
  | node i _ l r, node j _ l' r', h1, h2, e, hp => by
    obtain rfl : i = j := e
    obtain ⟨_, a1, b1, c1, d1⟩ := h1
    obtain ⟨_, a2, b2, c2, d2⟩ := h2
    obtain ⟨rfl, hp⟩ := hp
    obtain ⟨y1, y2⟩ := Shape.path d1 d2 (Option.some.inj (b1.symm.trans b2)) hp
    have e0 : l'.rootId = 0 := (Option.some.inj (a1.symm.trans a2)).symm
    refine ⟨⟨?_, y1⟩, by simp only [deep, y2]⟩
    cases l' with
    | nil => rfl
    | node => exact absurd e0 c2.1

theorem Core.of_line (c : Core cmp key H A N D h T) {n : Nat} (l : Line H n) : Path T ∧ deep T = n := by
  obtain ⟨T', s, hr, hp, rfl⟩ := l
  obtain ⟨h1, h2⟩ := s.path c.shape (hr.symm.trans c.root) hp
  exact ⟨h1, h2.symm⟩

/-- A new least element becomes the root of a longer path. -/
theorem Core.line_insert (c : Core cmp key H A N D h T) (hc : LawfulCmp cmp) (hsz : H.sz = A.length) {e n : Nat} (e0 : e ≠ 0)
    (el : H.live e = true) (he : e ∉ A) (hl : Line H n) (hmin : ∀ a ∈ A, cmp (key (H.val e)) (key (H.val a)) = .les) :
    ∃ H' r, insertNode cmp key H e = some (H', r) ∧ Line H' (n + 1) := by
  obtain ⟨H', D', h', T', run, c', o, m, _, hi⟩ := c.insertN hc hsz e0 el he
  obtain ⟨hp, hd⟩ := c.of_line hl
  refine ⟨H', _, run, T', c'.shape, c'.root, ?_⟩
  have eT : e ∉ T.ids := fun hh => he (c.memT hh)
  have v : H'.val = H.val := o.val.1
  -- the new element is the first of the tree
  have hmem : e ∈ T'.ids := by
    obtain ⟨x, hx, hq⟩ := c'.cover e (by simp)
    have := c'.memT hx
    rw [v] at hq
    rcases List.mem_append.1 this with h1 | h1
    · have := hmin x h1
      rw [hc.symm hq] at this
      cases this
    · simp only [List.mem_singleton] at h1
      exact h1 ▸ hx
  have hfirst : ∀ l r, T'.ids = l ++ e :: r → l = [] := by
    intro l r hh
    cases l with
    | nil => rfl
    | cons y ys =>
      have hs := c'.sorted
      rw [hh, List.cons_append, List.pairwise_cons] at hs
      have h1 := hs.1 e (by simp)
      have hy : y ∈ A ++ [e] := c'.memT (by rw [hh]; simp)
      rw [v] at h1
      rcases List.mem_append.1 hy with h2 | h2
      · have := hmin y h2
        rw [hc.flip, h1] at this
        cases this
      · simp only [List.mem_singleton] at h2
        subst h2
        rw [hc.refl] at h1
        cases h1
  rcases hi with ⟨_, rfl, x, rfl⟩ | ⟨f, P, i, k, q, hsp, _, rfl | ⟨d, x, Y, C, hY, rfl⟩⟩
  · exact ⟨⟨rfl, trivial⟩, by rw [← hd]; rfl⟩
  · exact absurd (by rw [← split_ids hsp]; simpa [ids] using hmem) eT
  · cases d with
    | true =>
      simp only [nd_true, node.injEq, true_and] at hY
      obtain ⟨rfl, rfl⟩ := hY
      have hxe : x = e := by
        simp only [nd_true, ids, List.mem_append, List.mem_cons] at hmem
        rw [← split_ids hsp] at eT
        simp only [List.mem_append, List.mem_cons, not_or] at eT
        simp only [List.not_mem_nil, or_false] at hmem
        rcases hmem with (h1 | h1) | h1 | h1
        · exact absurd h1 eT.1
        · exact absurd h1 eT.2.1
        · exact h1.symm
        · exact absurd h1 eT.2.2
      subst hxe
      have := hfirst ((P true).ids ++ [i]) (P false).ids (by simp [ids])
      simp at this
    | false =>
      simp only [nd_false, node.injEq, true_and] at hY
      obtain ⟨rfl, rfl⟩ := hY
      have hxe : x = e := by
        simp only [nd_false, ids, List.mem_append, List.mem_cons] at hmem
        rw [← split_ids hsp] at eT
        simp only [List.mem_append, List.mem_cons, not_or] at eT
        simp only [List.not_mem_nil, false_or] at hmem
        rcases hmem with h1 | h1 | h1 | h1
        · exact absurd h1 eT.1
        · exact h1.symm
        · exact absurd h1 eT.2.1
        · exact absurd h1 eT.2.2
      subst hxe
      have h1 := hfirst (P true).ids (i :: (P false).ids) (by simp [ids])
      have h2 : P true = nil := by
        cases hP : P true with
        | nil => rfl
        | node => rw [hP] at h1; simp [ids] at h1
      have := split_path hsp hp h2
      rw [h2]
      simp only [nd_false]
      rw [this]
      exact ⟨⟨rfl, hp⟩, by rw [deep, hd]⟩

/-! ### A history -/

/-- Insert `m, …, 1`; the struct at address `i` holds the number `i`. -/
def down : Nat → List (MultiSpec.Op Nat Nat)
  | 0 => []
  | m + 1 => .insert (m + 1) (m + 1) none :: down m

theorem Line.put {s : Omm Nat} {j e x : Nat} (l : Line s j) : Line (Omm.put s e x) j := by
  obtain ⟨T, h1, h2, h3⟩ := l
  exact ⟨T, h1.congr (fun _ _ => rfl), h2, h3⟩

theorem down_run (m : Nat) : ∀ {s : Omm Nat} {st : St Nat} {j : Nat}, Sim natCmp id false off s st → Line s j →
    (∀ e ∈ st.elems, m < e.1 ∧ e.2 = e.1) →
    okRun natCmp id false off st (down m) ∧ ∃ s', run natCmp id s (down m) = some (s', (MultiSpec.specRun natCmp id false st (down m)).2) ∧
      Sim natCmp id false off s' (MultiSpec.specRun natCmp id false st (down m)).1 ∧ Line s' (j + m) ∧
      (∀ e ∈ (MultiSpec.specRun natCmp id false st (down m)).1.elems, e.2 = e.1) := by
  induction m with
  | zero =>
    intro s st j hs hl he
    exact ⟨trivial, s, rfl, hs, hl, fun e h => (he e h).2⟩
  | succ m ih =>
    intro s st j hs hl he
    have ok : okOp natCmp id false st (.insert (m + 1) (m + 1) none) :=
      ⟨⟨by omega, fun e h => by have := (he e h).1; omega⟩, fun n hn => by cases hn⟩
    obtain ⟨s1, e1, sim1⟩ := step_sim natCmp_lawful hs (.insert (m + 1) (m + 1) none) ok trivial
    obtain ⟨A, D, h, T, sa⟩ := hs
    have hmA : m + 1 ∉ A := by
      intro hh
      obtain ⟨e, h1, h2⟩ := sa.mem.2 hh
      have := (he e h1).1
      omega
    have sp := sa.put natCmp_lawful (x := m + 1) (show m + 1 ≠ 0 by omega) hmA
    have hval : (Omm.put s (m + 1) (m + 1)).val (m + 1) = m + 1 := upd_same ..
    obtain ⟨H', r, run, hl'⟩ := sp.core.line_insert natCmp_lawful sp.sz (e := m + 1) (by omega) (upd_same ..) hmA hl.put (by
      intro a ha
      obtain ⟨e, h1, h2⟩ := sp.mem.2 ha
      have h3 := he e h1
      have h4 : e = (a, (Omm.put s (m + 1) (m + 1)).val a) := by
        rw [sp.elems] at h1
        obtain ⟨b, _, rfl⟩ := List.mem_map.1 h1
        simp only at h2
        rw [h2]
      rw [hval]
      subst h4
      simp only at h3
      rw [h3.2]
      simp [natCmp, h3.1])
    have : s1 = H' := by
      have hal : (Omm.put s (m + 1) (m + 1)).alloc = false := sp.alloc
      simp only [step, insert, hal, Bool.false_eq_true, if_false, run, Option.bind_eq_bind, Option.bind_some] at e1
      exact (congrArg Prod.fst (Option.some.inj e1)).symm
    subst this
    have hst : (MultiSpec.specStep natCmp id false st (.insert (m + 1) (m + 1) none)).1 = st.add (m + 1) (m + 1) := rfl
    obtain ⟨ok2, s2, r2, sim2, l2, e2⟩ := ih sim1 hl' (by
      rw [hst]
      intro e h
      simp only [St.add, List.mem_append, List.mem_singleton] at h
      rcases h with h | rfl
      · have := he e h; exact ⟨by omega, this.2⟩
      · exact ⟨by simp, rfl⟩)
    refine ⟨⟨ok, trivial, ok2⟩, s2, ?_, sim2, by rw [show j + (m + 1) = j + 1 + m by omega]; exact l2, e2⟩
    simp only [down, Omm.run, e1, Option.bind_eq_bind, Option.bind_some, r2, MultiSpec.specRun]

/-- Splaying to the right end halves the path. -/
theorem Core.line_max (c : Core cmp key H A N D h T) {n : Nat} (hl : Line H (n + 1)) :
    ∃ H' i h' m X, Omm.maxMin H .grt = some (H', some i) ∧ Core cmp key H' A N D h' (node i m X nil) ∧ Only H H' ∧
      n ≤ 2 * deep X + 1 := by
  obtain ⟨hp, hd⟩ := c.of_line hl
  have hne : T ≠ nil := by rintro rfl; simp [deep] at hd
  obtain ⟨H', h', i, m, L, B, run, c', o, hr, hi, hA, hB, P, n, hs, rfl, rfl, hn⟩ := c.splayCN hne (f := force .grt)
    (f' := fun _ => .grt) (fun _ _ => rfl) (const_mono _ (by simp) _)
  have hB' : P false = nil := by
    cases hb : P false with
    | nil => rfl
    | node j _ _ _ => exact absurd (hB j (by simp [hb, ids])) (by simp)
  have := split_deep hs (fun _ => rfl)
  rw [hB'] at c'
  refine ⟨H', i, h', m, P true, ?_, c', o, by omega⟩
  simp only [Omm.maxMin, run, Option.bind_eq_bind, Option.bind_some]

/-- Splaying what is at the root already. -/
theorem split_root {X Y : Tree} {P : Bool → Tree} {i m k n : Nat} {c : Nat → Cmp} (h : Split c (node i m X Y) P i k n)
    (hn : (node i m X Y).ids.Nodup) : P true = X ∧ P false = Y ∧ k = m := by
  have h1 := split_ids h
  rw [← h1] at hn
  rw [List.nodup_append] at hn
  simp only [List.nodup_cons, List.mem_cons] at hn
  generalize hT : node i m X Y = T at h
  have hi : i ∉ (P true).ids ∧ i ∉ (P false).ids := ⟨fun hh => hn.2.2 i hh i (Or.inl rfl) rfl, hn.2.1.1⟩
  cases h with
  | found h => cases hT; simp
  | @last d _ _ A h => cases d <;> (simp only [nd_true, nd_false] at hT; cases hT; simp [setP])
  | @zzLast d j _ _ _ A B h h' =>
    cases d <;> (simp only [nd_true, nd_false] at hT; cases hT; simp [setP, ids] at hi)
  | @zz d j k i m A B Z P x kx n h h' hZ hs =>
    cases d <;> (simp only [nd_true, nd_false] at hT; cases hT; simp [setP, ids] at hi)
  | @zig d j k A Y P x kx n h hY hne hs =>
    cases d <;> (simp only [nd_true, nd_false] at hT; cases hT; simp [setP, ids] at hi)

/-- Without equals, taking the root out walks down the way to the right below it. -/
theorem Core.took_cost {H2 : Omm α} {N2 : Nat → Prop} {D2 : Nat → List Nat} {h2 : Links} {T2 X : Tree} {i m q : Nat}
    (c : Core cmp key H A N D h (node i m X nil)) (c2 : Core cmp key H2 (drop i A) N2 D2 h2 T2) (hv : H2.val = H.val)
    (ht : Took m X nil T2 q) (inj : ∀ a ∈ A, ∀ b ∈ A, cmp (key (H.val a)) (key (H.val b)) = .eql → a = b) : deep X ≤ q := by
  rcases ht with ⟨_, x, rfl⟩ | ⟨f, ⟨rfl, _, _⟩ | ⟨P', j, m2, hs', hP, _⟩⟩
  · exfalso
    obtain ⟨hx, hxi⟩ := mem_drop.1 (c2.memT (n := x) (by simp [ids]))
    obtain ⟨y, hy, hyx⟩ := c.cover x hx
    simp only [ids, List.mem_append, List.mem_singleton] at hy
    rcases hy with hy | rfl
    · have hs2 := c2.sorted
      simp only [ids, List.pairwise_append, List.mem_cons] at hs2
      have := hs2.2.2 y hy x (Or.inl rfl)
      rw [hv, hyx] at this
      cases this
    · exact hxi (inj y (c.memT (by simp [ids])) x hx hyx).symm
  · simp [deep]
  · exact split_all hs' hP

/-- Without equals, taking out the greatest element walks down the way to the right below it. -/
theorem Core.pop_cost (c : Core cmp key H A N D h T) (hc : LawfulCmp cmp) (hsz : H.sz = A.length) {i m : Nat} {X : Tree}
    (hT : T = node i m X nil) (inj : ∀ a ∈ A, ∀ b ∈ A, cmp (key (H.val a)) (key (H.val b)) = .eql → a = b) :
    ∃ H' r n, Costs (eraseMaxOrMinN cmp key H .grt) n (H', some r) ∧ deep X + 1 ≤ n ∧ H'.alloc = H.alloc := by
  have hne : T ≠ nil := by rw [hT]; simp
  obtain ⟨H', h', i', m', L, B, run, c', o, hr, hi, hA, hB, P, n, hs, rfl, rfl, hn⟩ := (c.setSz (H.sz - 1)).splayCN hne (f := force .grt)
    (f' := fun _ => .grt) (fun _ _ => rfl) (const_mono _ (by simp) _)
  have hB' : P false = nil := by
    cases hb : P false with
    | nil => rfl
    | node j _ _ _ => exact absurd (hB j (by simp [hb, ids])) (by simp)
  obtain ⟨rfl, rfl, hX⟩ := split_atEnd (d := true) hs hT
  rw [hB', hX] at c'
  obtain ⟨H2, D2, h2, T2, q, hq, c2, o2, ht⟩ := c'.takeN hc
  have hv : H'.val = H.val := o.val.1
  refine ⟨H2, i', 1 + q, ?_, ?_, o2.val.2.2.2.2.1.trans o.val.2.2.2.2.1⟩
  · rw [eraseMaxOrMinN, if_neg (by rw [c.notEmpty hsz hne]; simp)]
    exact hn.bind (f := fun p => takeRootN cmp key p.1 p.2) hq
  · have := c'.took_cost c2 o2.val.1 ht (by rw [hv]; exact inj)
    omega

/-- The same for its extraction. -/
theorem Core.extract_cost {i m : Nat} {X : Tree} (c : Core cmp key H A N D h (node i m X nil)) (hc : LawfulCmp cmp)
    (hsz : H.sz = A.length) (inj : ∀ a ∈ A, ∀ b ∈ A, cmp (key (H.val a)) (key (H.val b)) = .eql → a = b) :
    ∃ H' n, Costs (eraseNodeN cmp key H i) n (H', some i) ∧ deep X + 1 ≤ n := by
  have iT : i ∈ (node i m X nil).ids := by simp [ids]
  obtain ⟨_, H', D', h', T', o, c', n, hn, _, _, hp⟩ := c.extractN hc hsz (c.memT iT)
  obtain ⟨f, P, k, m', q, hs, rfl, ht⟩ := hp iT
  obtain ⟨h1, h2, rfl⟩ := split_root hs c.nodup
  rw [h1, h2] at ht
  refine ⟨H', _, hn, ?_⟩
  have := c.took_cost c' o.val.1 ht inj
  omega

/-- The same for its removal through an entry, which has brought it to the root before. -/
theorem Core.remove_cost {i m : Nat} {X : Tree} (c : Core cmp key H A N D h (node i m X nil)) (hc : LawfulCmp cmp)
    (hsz : H.sz = A.length) (inj : ∀ a ∈ A, ∀ b ∈ A, cmp (key (H.val a)) (key (H.val b)) = .eql → a = b)
    (ha : H.alloc = false) :
    ∃ H1 H' n1 n, Costs (entryN cmp key H (key (H.val i))) n1 (H1, ⟨some i, Stat.occupied⟩) ∧
      Costs (removeEntryN cmp key H1 ⟨some i, Stat.occupied⟩) n (H', ⟨some i, Stat.occupied⟩) ∧ deep X + 1 ≤ n := by
  have iT : i ∈ (node i m X nil).ids := by simp [ids]
  have hne : node i m X nil ≠ nil := by simp
  obtain ⟨H1, h1, m1, L, B, c1, o1, hq1, f, P, q1, hs, rfl, rfl, hn1⟩ := c.splay_group hc iT (Or.inl rfl)
  obtain ⟨e1, e2, _⟩ := split_root hs c.nodup
  rw [e1, e2] at c1
  have iT1 : i ∈ (node i m1 X nil).ids := by simp [ids]
  have v1 : H1.val = H.val := o1.val.1
  have sz1 : H1.sz = A.length := o1.val.2.2.2.1.trans hsz
  have al1 : H1.alloc = false := o1.val.2.2.2.2.1.trans ha
  obtain ⟨H2, h2, m2, L, B, c2, o2, hq2, f2, P2, q2, hs2, rfl, rfl, hn2⟩ := c1.splay_group hc iT1 (Or.inl rfl)
  obtain ⟨e1, e2, _⟩ := split_root hs2 c1.nodup
  rw [e1, e2] at c2
  obtain ⟨H3, D3, h3, T3, q, hq, c3, o3, ht⟩ := (c2.setSz (H2.sz - 1)).takeN hc
  have v2 : H2.val = H1.val := o2.val.1
  have v3 : H3.val = H2.val := o3.val.1
  have al3 : H3.alloc = false := o3.val.2.2.2.2.1.trans (o2.val.2.2.2.2.1.trans al1)
  have hcost := c2.took_cost c3 v3 ht (by rw [v2, v1]; exact inj)
  refine ⟨H1, H3, q1 + 1, q2 + 1 + q, ?_, ?_, by omega⟩
  · intro w
    have hr : H1.root = i := c1.root
    rw [entryN, findN, if_neg (c.root_ne hne), splayToN]
    simp only [Count.bind_run, hn1 w, Option.bind_some, root_self hr]
    rw [(Costs.cnt hq1) (w + q1)]
    simp only [Option.bind_some, Count.pure_run, hr, if_true, Option.isSome_some]
    rfl
  · intro w
    rw [removeEntryN, if_pos rfl]
    simp only [Count.bind_run, Count.lift_run, Option.map_some, Option.bind_some]
    rw [eraseN, if_neg (by rw [c1.notEmpty sz1 (by simp)]; simp)]
    simp only [Count.bind_run, hn2 w, Option.bind_some]
    rw [(Costs.cnt hq2) (w + q2)]
    simp only [Option.bind_some]
    rw [if_neg (by simp), hq (w + q2 + 1)]
    simp only [Option.bind_some, Count.lift_run, Option.map_some, al3, Bool.false_eq_true, if_false, Count.pure_run]
    congr 2
    omega

/-- Walking down the path. -/
theorem Core.runDownB (c : Core cmp key H A N D h T) : ∀ {t : Tree} {p : Nat}, Rep h p t → t ≠ nil →
    ∃ r, Costs (runDownB H t.rootId true) (deep t - 1) r := by
  intro t
  induction t with
  | nil => intro p _ hne; exact absurd rfl hne
  | node i m l r _ ihr =>
    intro p ⟨a0, a1, a2, a3, _, a4, a5⟩ _
    rw [Omm.runDownB]
    show ∃ q, Costs _ _ q
    have hb : branch H i true = some r.rootId := by rw [c.rel.branch a1, a3]
    by_cases hr : r = nil
    · subst hr
      refine ⟨i, ?_⟩
      refine (Costs.lift hb).bind (m := 0) (m' := 0) ?_
      rw [if_pos (show (nil : Tree).rootId = 0 from rfl)]
      exact .pure _
    · obtain ⟨q, hq⟩ := ihr a5 hr
      have hr0 : r.rootId ≠ 0 := by
        cases r with
        | nil => exact absurd rfl hr
        | node => exact a5.1
      refine ⟨q, ?_⟩
      have hd : deep (node i m l r) - 1 = 0 + (deep r - 1 + 1) := by
        cases r with
        | nil => exact absurd rfl hr
        | node => simp [deep]
      rw [hd]
      refine (Costs.lift hb).bind ?_
      rw [if_neg hr0]
      intro w
      rw [Count.bind_run]
      show Option.bind (some ((), w + 1)) (fun r' => Omm.runDownB H r.rootId true r'.2) = _
      rw [Option.bind_some, hq (w + 1)]
      congr 2
      omega

theorem Sim.begins {s : Omm Nat} {st : St Nat} {n : Nat} (hs : Sim natCmp id false off s st) (hl : Line s (n + 1)) (k : Nat) :
    ∃ rs, Costs (runB natCmp id s (List.replicate k .begin)) (k * n) (s, rs) := by
  induction k with
  | zero => exact ⟨[], by rw [Nat.zero_mul]; exact .pure _⟩
  | succ k ih =>
    obtain ⟨rs, hrs⟩ := ih
    obtain ⟨A, D, h, T, sa⟩ := hs
    obtain ⟨hp, hd⟩ := sa.core.of_line hl
    have hne : T ≠ nil := by rintro rfl; simp [deep] at hd
    obtain ⟨q, hq⟩ := sa.core.runDownB sa.core.whole.tree hne
    rw [hd, ← sa.core.root] at hq
    have hsz : s.sz ≠ 0 := by have := sa.core.sz_pos sa.sz hne; omega
    have hb : Costs (stepB natCmp id s .begin) n (s, .ptr (view s (some q))) := by
      show Costs (beginN s >>= fun p => pure (s, Out.ptr (view s p))) n _
      have h1 : Costs (beginN s) n (some q) := by
        rw [beginN, if_neg hsz]
        exact hq.out some
      exact h1.out (fun p => (s, Out.ptr (view s p)))
    refine ⟨.ptr (view s (some q)) :: rs, ?_⟩
    rw [List.replicate_succ, show (k + 1) * n = n + k * n by rw [Nat.add_mul, Nat.one_mul, Nat.add_comm]]
    exact hb.bind (f := fun p => runB natCmp id p.1 (List.replicate k .begin) >>= fun q => pure (q.1, p.2 :: q.2))
      (hrs.out (fun p => (p.1, Out.ptr (view s (some q)) :: p.2)))

/-- The links followed by the insertions are not counted. -/
theorem down_runB (m : Nat) {ops : List (MultiSpec.Op Nat Nat)} {n : Nat} {s2 : Omm Nat} {rs2 : List (Out Nat)} : ∀ {s s' : Omm Nat}
    {rs : List (Out Nat)}, run natCmp id s (down m) = some (s', rs) → Costs (runB natCmp id s' ops) n (s2, rs2) →
    Costs (runB natCmp id s (down m ++ ops)) n (s2, rs ++ rs2) := by
  induction m with
  | zero =>
    intro s s' rs h hc
    obtain ⟨rfl, rfl⟩ := Prod.mk.inj (Option.some.inj h)
    exact hc
  | succ m ih =>
    intro s s' rs h hc
    simp only [down, Omm.run, Option.bind_eq_bind, Option.bind_eq_some_iff] at h
    obtain ⟨⟨s3, r⟩, h1, ⟨s4, rs'⟩, h2, h3⟩ := h
    obtain ⟨rfl, rfl⟩ := Prod.mk.inj (Option.some.inj h3)
    have hb : Costs (stepB natCmp id s (.insert (m + 1) (m + 1) none)) 0 (s3, r) := Costs.lift h1
    have := hb.bind (f := fun p => runB natCmp id p.1 (down m ++ ops) >>= fun q => pure (q.1, p.2 :: q.2))
      ((ih h2 hc).out (fun q => (q.1, r :: q.2)))
    rw [Nat.zero_add] at this
    exact this

/-- Not more than the insertions. -/
theorem down_size {m k : Nat} {pre : List (MultiSpec.Op Nat Nat)} (h : pre <+: down m ++ List.replicate k .begin) :
    (MultiSpec.specRun natCmp id false ⟨[], [], []⟩ pre).1.elems.length ≤ m := by
  have key : ∀ (m : Nat) (pre : List (MultiSpec.Op Nat Nat)) (st : St Nat), pre <+: down m ++ List.replicate k .begin →
      (MultiSpec.specRun natCmp id false st pre).1.elems.length ≤ st.elems.length + m := by
    intro m
    induction m with
    | zero =>
      intro pre st h
      have hb : ∀ (pre : List (MultiSpec.Op Nat Nat)) (st : St Nat), (∀ o ∈ pre, o = .begin) →
          (MultiSpec.specRun natCmp id false st pre).1 = st := by
        intro pre
        induction pre with
        | nil => intros; rfl
        | cons o os ih =>
          intro st ho
          obtain rfl := ho o (by simp)
          exact ih _ (fun o h => ho o (by simp [h]))
      rw [hb pre st (fun o ho => List.eq_of_mem_replicate (h.subset ho))]
      omega
    | succ m ih =>
      intro pre st h
      cases pre with
      | nil => simp [MultiSpec.specRun]
      | cons o os =>
        obtain ⟨rfl, h'⟩ := List.cons_prefix_cons.1 h
        have := ih os (st.add (m + 1) (m + 1)) h'
        have hl : (st.add (m + 1) (m + 1)).elems.length = st.elems.length + 1 := by simp [St.add]
        have e : (MultiSpec.specRun natCmp id false st (.insert (m + 1) (m + 1) none :: os)).1 =
          (MultiSpec.specRun natCmp id false (st.add (m + 1) (m + 1)) os).1 := rfl
        rw [e]
        omega
  have := key m pre ⟨[], [], []⟩ h
  simpa using this

end CCC.Omm
