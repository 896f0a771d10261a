import Verif.Proof.MultiCost
/-
Repeated `max` and `pop_max`, or `min` and `pop_min`, while there are equal elements at that end.
-/
namespace CCC.Omm
open CCC Links Tree Wavl Splay MapSpec PtrMap MultiSpec

variable {α κ : Type} {cmp : κ → κ → Cmp} {key : α → κ} {H : Omm α} {A : List Nat} {N : Nat → Prop}
  {D : Nat → List Nat} {h : Links} {T : Tree} {al : Bool} {off : Nat} {st : St α}

/-- The root has no child in direction `d`. -/
def AtEnd (d : Bool) (H : Omm α) : Prop := H.br H.root d = some 0

theorem Core.rootId_zero (c : Core cmp key H A N D h T) {X : Tree} (s : Shape H X) (e : X.rootId = 0) : X = nil := by
  cases X with
  | nil => rfl
  | node i k l r => exact absurd e s.1

theorem Core.of_atEnd (c : Core cmp key H A N D h T) (hne : T ≠ nil) {d : Bool} (e : AtEnd d H) :
    ∃ i m X, T = nd d i m nil X := by
  cases T with
  | nil => exact absurd rfl hne
  | node i m l r =>
    obtain ⟨_, s1, s2, s3, s4⟩ := c.shape
    unfold AtEnd at e
    rw [show H.root = i from c.root] at e
    cases d with
    | false =>
      rw [s1] at e
      obtain rfl := c.rootId_zero s3 (Option.some.inj e)
      exact ⟨i, m, r, rfl⟩
    | true =>
      rw [s2] at e
      obtain rfl := c.rootId_zero s4 (Option.some.inj e)
      exact ⟨i, m, l, rfl⟩

theorem Core.atEnd {d : Bool} {i m : Nat} {X : Tree} (c : Core cmp key H A N D h (nd d i m nil X)) : AtEnd d H := by
  have hs := c.shape
  have hr := c.root
  unfold AtEnd
  cases d
  · rw [show H.root = i from hr]; exact hs.2.1
  · rw [show H.root = i from hr]; exact hs.2.2.1

/-- The search for the end of a tree that is at its end stops at the root. -/
theorem split_atEnd {d : Bool} {i k : Nat} {X T : Tree} {P : Bool → Tree} {x kx n : Nat}
    (s : Split (fun _ => dirCmp d) T P x kx n) (e : T = nd d i k nil X) : n = 1 ∧ x = i ∧ P d = X := by
  cases s with
  | found h => cases d <;> simp [dirCmp] at h
  | @last d' i' k' A h => cases d <;> cases d' <;> simp_all [nd, dirCmp, setP]
  | @zzLast d' i' k' j m A B h h' =>
    cases d <;> cases d' <;> simp [nd, dirCmp] at e h
  | @zz d' i' k' j m A B Z P x kx n h h' hZ hs =>
    cases d <;> cases d' <;> simp [nd, dirCmp] at e h
  | @zig d' i' k' A Y P x kx n h hY hne hs =>
    cases d <;> cases d' <;> simp_all [nd, dirCmp]

theorem dirCmp_eq (d : Bool) : dirCmp d = (if d then .grt else .les) := rfl

/-- Splaying to an end. -/
theorem Core.splayEndN (c : Core cmp key H A N D h T) (hne : T ≠ nil) (d : Bool) :
    ∃ H' h' i m X n, Costs (splayN H (force (dirCmp d)) H.root) n (H', i) ∧ Core cmp key H' A N D h' (nd d i m nil X) ∧
      Only H H' ∧ (AtEnd d H → n = 1 ∧ i = H.root) := by
  obtain ⟨H', h', i, m, L, B, run, c', o, hr, hi, hA, hB, P, n, hs, _, _, hn⟩ := c.splayCN hne (f := force (dirCmp d))
    (f' := fun _ => dirCmp d) (fun _ _ => rfl) (const_mono _ (by cases d <;> simp [dirCmp]) _)
  have hT : ∃ X, node i m L B = nd d i m nil X := by
    cases d with
    | false =>
      have : L = nil := by
        cases L with
        | nil => rfl
        | node j _ _ _ => exact absurd (hA j (by simp [ids])) (by simp [dirCmp])
      exact ⟨B, by rw [this]; rfl⟩
    | true =>
      have : B = nil := by
        cases B with
        | nil => rfl
        | node j _ _ _ => exact absurd (hB j (by simp [ids])) (by simp [dirCmp])
      exact ⟨L, by rw [this]; rfl⟩
  obtain ⟨X, hX⟩ := hT
  rw [hX] at c'
  refine ⟨H', h', i, m, X, n, hn, c', o, fun e => ?_⟩
  obtain ⟨j, k, Y, hY⟩ := c.of_atEnd hne e
  have hr : H.root = j := by rw [c.root, hY]; cases d <;> rfl
  rw [hr]
  exact ⟨(split_atEnd hs hY).1, (split_atEnd hs hY).2.1⟩

theorem Core.maxMinN_end (c : Core cmp key H A N D h T) (hne : T ≠ nil) (d : Bool) :
    ∃ H' i n, Costs (maxMinN H (dirCmp d)) n (H', some i) ∧ AtEnd d H' ∧ (AtEnd d H → n = 1) := by
  obtain ⟨H', h', i, m, X, n, hn, c', o, h1⟩ := c.splayEndN hne d
  exact ⟨H', i, n, hn.out (fun p => (p.1, some p.2)), c'.atEnd, fun e => (h1 e).1⟩

/-- The elements at an end of the order. -/
def ends (cmp : κ → κ → Cmp) (key : α → κ) (d : Bool) (l : List (Nat × α)) : List (Nat × α) :=
  l.filter (fun e => l.all (fun x => cmp (key e.2) (key x.2) != dirCmp (!d)))

theorem mem_ends {d : Bool} {l : List (Nat × α)} {e : Nat × α} :
    e ∈ ends cmp key d l ↔ e ∈ l ∧ ∀ x ∈ l, cmp (key e.2) (key x.2) ≠ dirCmp (!d) := by
  simp [ends]

/-- No element is beyond the root. -/
theorem Core.root_end (hc : LawfulCmp cmp) {d : Bool} {r m : Nat} {X : Tree} (c : Core cmp key H A N D h (nd d r m nil X)) {a : Nat}
    (ha : a ∈ A) : cmp (key (H.val r)) (key (H.val a)) ≠ dirCmp (!d) := by
  obtain ⟨n, hn, hq⟩ := c.cover a ha
  rw [← hc.eql_congr hq]
  have hs := c.sorted
  cases d with
  | false =>
    simp only [nd_false, ids, List.nil_append, List.pairwise_cons, List.mem_cons] at hs hn
    rcases hn with rfl | hn
    · rw [hc.refl]; simp [dirCmp]
    · rw [hs.1 n hn]; simp [dirCmp]
  | true =>
    simp only [nd_true, ids, List.pairwise_append, List.mem_append, List.mem_singleton] at hs hn
    rcases hn with hn | rfl
    · rw [hc.grt_iff.2 (hs.2.2 n hn r rfl)]; simp [dirCmp]
    · rw [hc.refl]; simp [dirCmp]

theorem flipped (hc : LawfulCmp cmp) {d : Bool} {a b : κ} (h : cmp a b ≠ dirCmp d) (h' : cmp b a ≠ dirCmp d) : cmp a b = .eql := by
  have := hc.noErr a b
  have h1 := hc.flip a b
  have h2 := hc.flip b a
  cases d <;> cases e : cmp a b <;> simp_all [dirCmp]

/-- As many as there are in the ring of the root. -/
theorem SimA.ends_length (s : SimA cmp key al off H st A D h T) (hc : LawfulCmp cmp) {d : Bool} {r m : Nat} {X : Tree}
    (e : T = nd d r m nil X) : (ends cmp key d st.elems).length = (D r).length + 1 := by
  subst e
  have c := s.core
  have hr : r ∈ (nd d r m nil X).ids := by cases d <;> simp [ids]
  have h1 : (r :: D r).length = (D r).length + 1 := rfl
  rw [← h1, c.group r hr, ends, s.elems, List.filter_map, List.length_map]
  congr 1
  refine List.filter_congr (fun a ha => ?_)
  simp only [Function.comp, List.all_map]
  rw [Bool.eq_iff_iff]
  simp only [List.all_eq_true, Function.comp, bne_iff_ne, ne_eq, beq_iff_eq]
  constructor
  · intro hh
    exact flipped hc (c.root_end hc ha) (hh r (c.memT hr))
  · intro hq b hb
    rw [← hc.eql_congr_left hq]
    exact c.root_end hc hb

theorem not_trans (hc : LawfulCmp cmp) {d : Bool} {a b c : κ} (h : cmp a b ≠ dirCmp d) (h' : cmp b c ≠ dirCmp d) :
    cmp a c ≠ dirCmp d := by
  cases d with
  | true => exact hc.trans a b c h h'
  | false =>
    simp only [dirCmp, Bool.false_eq_true, if_false] at *
    rw [Ne, hc.flip] at *
    exact hc.trans c b a h' h

theorem without_fst (a : Nat) (l : List (Nat × α)) : (without a l).map Prod.fst = drop a (l.map Prod.fst) := by
  rw [drop, List.filter_map]; rfl

theorem ends_nodup {d : Bool} {l : List (Nat × α)} (hl : (l.map Prod.fst).Nodup) :
    ((ends cmp key d l).map Prod.fst).Nodup :=
  hl.sublist (List.filter_sublist.map _)

/-- One element at the end less. -/
theorem ends_without (hc : LawfulCmp cmp) {d : Bool} {l : List (Nat × α)} (hl : (l.map Prod.fst).Nodup) {e : Nat × α}
    (he : e ∈ ends cmp key d l) (h2 : 2 ≤ (ends cmp key d l).length) :
    (ends cmp key d (without e.1 l)).length + 1 = (ends cmp key d l).length := by
  have hn : (e.1 : Nat) ∈ (ends cmp key d l).map Prod.fst := List.mem_map_of_mem he
  have hlen := drop_length (ends_nodup (cmp := cmp) (key := key) (d := d) hl) hn
  rw [List.length_map] at hlen
  obtain ⟨x, hx, hxe⟩ : ∃ x ∈ ends cmp key d l, x.1 ≠ e.1 := by
    have : drop e.1 ((ends cmp key d l).map Prod.fst) ≠ [] := by
      intro hh; rw [hh] at hlen; simp only [List.length_nil] at hlen; omega
    obtain ⟨b, hb⟩ := List.exists_mem_of_ne_nil _ this
    obtain ⟨h3, h4⟩ := mem_drop.1 hb
    obtain ⟨x, hx, rfl⟩ := List.mem_map.1 h3
    exact ⟨x, hx, h4⟩
  have e1 : ends cmp key d (without e.1 l) = without e.1 (ends cmp key d l) := by
    unfold without ends
    rw [List.filter_filter, List.filter_filter]
    refine List.filter_congr (fun y hy => ?_)
    rw [Bool.and_comm]
    by_cases hye : y.1 = e.1
    · simp [hye]
    · have hb : (y.1 != e.1) = true := by simpa using hye
      rw [hb, Bool.true_and, Bool.true_and, Bool.eq_iff_iff]
      simp only [List.all_eq_true, List.mem_filter, bne_iff_ne, ne_eq, and_imp]
      constructor
      · intro hh z hz
        by_cases hze : z.1 = e.1
        · exact not_trans hc (hh x (mem_ends.1 hx).1 hxe) ((mem_ends.1 hx).2 z hz)
        · exact hh z hz hze
      · intro hh z hz _
        exact hh z hz
  have : (without e.1 (ends cmp key d l)).length = (ends cmp key d l).length - 1 := by
    rw [← hlen, ← without_fst, List.length_map]
  rw [e1, this]
  omega

/-- The ring of the root has an element to spare: one comparison. -/
theorem SimA.eraseEndN_dup (s : SimA cmp key al off H st A D h T) (hc : LawfulCmp cmp) {d : Bool} (e : AtEnd d H)
    (h2 : 2 ≤ (ends cmp key d st.elems).length) :
    ∃ H' r, Costs (eraseMaxOrMinN cmp key H (dirCmp d)) 1 (H', some r) ∧ AtEnd d H' := by
  have hne : T ≠ nil := by
    rintro rfl
    have := s.core.nil_iff.1 rfl
    have he := s.elems
    rw [this] at he
    rw [he] at h2
    simp [ends] at h2
  obtain ⟨H', h', i, m, X, n, hn, c', o, h1⟩ := (s.core.setSz (H.sz - 1)).splayEndN hne d
  obtain ⟨rfl, hi⟩ := h1 e
  obtain ⟨i', m', X', hT⟩ := s.core.of_atEnd hne e
  have hl := s.ends_length hc hT
  have hr : H.root = i' := by rw [s.core.root, hT]; cases d <;> rfl
  obtain rfl : i = i' := hi.trans hr
  obtain ⟨x, xs, hd⟩ : ∃ x xs, D i = x :: xs := by
    cases hD : D i with
    | nil => rw [hD] at hl; simp only [List.length_nil] at hl; omega
    | cons x xs => exact ⟨x, xs, rfl⟩
  have ht : ∃ L B, nd d i m nil X = node i m L B ∧ ∀ y, node y m L B = nd d y m nil X := by
    cases d
    · exact ⟨nil, X, rfl, fun _ => rfl⟩
    · exact ⟨X, nil, rfl, fun _ => rfl⟩
  obtain ⟨L, B, hLB, hy⟩ := ht
  rw [hLB] at c'
  obtain ⟨H2, D2, h2', hn2, c2, o2⟩ := c'.takeDupN hc hd
  rw [hy] at c2
  refine ⟨H2, i, ?_, c2.atEnd⟩
  rw [eraseMaxOrMinN, if_neg (by rw [s.core.notEmpty s.sz hne]; simp)]
  exact hn.bind (f := fun p => takeRootN cmp key p.1 p.2) hn2

/-- The query of an end. -/
def ask (d : Bool) : MultiSpec.Op α κ := if d then .max else .min
/-- The pop of an end. -/
def pop (d : Bool) : MultiSpec.Op α κ := if d then .popMax else .popMin

theorem freed_atEnd {d : Bool} {H' : Omm α} {r : Nat} (e : free H r = some H') (h : AtEnd d H) : AtEnd d H' := by
  unfold free at e
  split at e
  · cases e; exact h
  · cases e

theorem stepN_ask {d : Bool} {i n : Nat} {H' : Omm α} (hn : Costs (maxMinN H (dirCmp d)) n (H', some i)) :
    Costs (stepN cmp key H (ask d)) n (H', .ptr (view H' (some i))) := by
  cases d
  · exact hn.out (fun p => (p.1, Out.ptr (view p.1 p.2)))
  · exact hn.out (fun p => (p.1, Out.ptr (view p.1 p.2)))

theorem stepN_pop {d : Bool} {r n : Nat} {H' : Omm α} {x : Omm α × Out α}
    (hn : Costs (eraseMaxOrMinN cmp key H (dirCmp d)) n (H', some r)) (he : AtEnd d H')
    (hs : step cmp key H (pop d) = some x) : Costs (stepN cmp key H (pop d)) n x ∧ AtEnd d x.1 := by
  have her := (eraseMaxOrMinN_er cmp key H (dirCmp d)).eq hn
  cases d with
  | true =>
    simp only [pop, if_true, step, popMax] at hs ⊢
    rw [show eraseMaxOrMin cmp key H .grt = some (H', some r) from her] at hs
    simp only [Option.bind_eq_bind, Option.bind_some] at hs
    have hn' : Costs (eraseMaxOrMinN cmp key H .grt) n (H', some r) := hn
    simp only [stepN, popMaxN]
    by_cases ha : H'.alloc = true
    · rw [if_pos ha] at hs
      cases hf : free H' r with
      | none => rw [hf] at hs; cases hs
      | some H2 =>
        rw [hf] at hs
        cases hs
        refine ⟨fun q => ?_, freed_atEnd hf he⟩
        simp only [Count.bind_run, hn' q, Option.bind_some, if_pos ha, Count.lift_run, hf, Option.map_some, Count.pure_run]
    · rw [if_neg ha] at hs
      cases hs
      refine ⟨fun q => ?_, he⟩
      simp only [Count.bind_run, hn' q, Option.bind_some, if_neg ha, Count.pure_run]
  | false =>
    simp only [pop, Bool.false_eq_true, if_false, step, popMin] at hs ⊢
    rw [show eraseMaxOrMin cmp key H .les = some (H', some r) from her] at hs
    simp only [Option.bind_eq_bind, Option.bind_some] at hs
    have hn' : Costs (eraseMaxOrMinN cmp key H .les) n (H', some r) := hn
    simp only [stepN, popMinN]
    by_cases ha : H'.alloc = true
    · rw [if_pos ha] at hs
      by_cases ho : H'.off = 0
      · rw [if_pos ho] at hs
        cases hf : free H' r with
        | none => rw [hf] at hs; cases hs
        | some H2 =>
          rw [hf] at hs
          cases hs
          refine ⟨fun q => ?_, freed_atEnd hf he⟩
          simp only [Count.bind_run, hn' q, Option.bind_some, if_pos ha, if_pos ho, Count.lift_run, hf, Option.map_some,
            Count.pure_run]
      · rw [if_neg ho] at hs
        cases hs
    · rw [if_neg ha] at hs
      cases hs
      refine ⟨fun q => ?_, he⟩
      simp only [Count.bind_run, hn' q, Option.bind_some, if_neg ha, Count.pure_run]

/-- Calls that pop. -/
def isPop : MultiSpec.Op α κ → Bool
  | .popMax | .popMin => true
  | _ => false

theorem elems_nodup (s : SimA cmp key al off H st A D h T) (hc : LawfulCmp cmp) : (st.elems.map Prod.fst).Nodup := by
  have : st.elems.map Prod.fst = A := by rw [s.elems, List.map_map]; exact List.map_id _
  rw [this]
  exact s.core.nodupA hc

theorem SimA.popped (s : SimA cmp key al off H st A D h T) (hc : LawfulCmp cmp) {d : Bool} (hne : T ≠ nil) (e : AtEnd d H) :
    ∃ x ∈ ends cmp key d st.elems, (MultiSpec.specStep cmp key al st (pop d)).1.elems = MultiSpec.without x.1 st.elems := by
  obtain ⟨i, m, X, hT⟩ := s.core.of_atEnd hne e
  have hi : endOf d T.ids = i := by subst hT; cases d <;> simp [ids, endOf]
  have hmem : i ∈ A := s.core.memT (by subst hT; cases d <;> simp [ids])
  have hh := flat_head (D := D) (!d) hne
  rw [Bool.not_not, hi] at hh
  have hx : cell H.val i ∈ ends cmp key d st.elems := by
    rw [mem_ends, s.elems]
    refine ⟨List.mem_map.2 ⟨i, hmem, rfl⟩, fun x hx => ?_⟩
    obtain ⟨a, ha, rfl⟩ := List.mem_map.1 hx
    subst hT
    exact s.core.root_end hc ha
  refine ⟨_, hx, ?_⟩
  cases d with
  | true =>
    have : (MultiSpec.descending cmp key st.elems).head? = some (cell H.val i) := by
      rw [s.descending hc, List.head?_map]
      rw [show flat false D T = flat (!true) D T from rfl, hh]; rfl
    simp only [pop, if_true, MultiSpec.specStep, this, cell]
    unfold St.take
    split <;> rfl
  | false =>
    have : (MultiSpec.ascending cmp key st.elems).head? = some (cell H.val i) := by
      rw [s.ascending hc, List.head?_map]
      rw [show flat true D T = flat (!false) D T from rfl, hh]; rfl
    simp only [pop, Bool.false_eq_true, if_false, MultiSpec.specStep, this, cell]
    unfold St.take
    split <;> rfl

/-- Queries and pops of an end, fewer pops than elements there: one comparison each. -/
theorem runN_end (hc : LawfulCmp cmp) (d : Bool) (hoff : d = false → al = true → off = 0) (ops : List (MultiSpec.Op α κ)) :
    ∀ {H : Omm α} {st : St α}, Sim cmp key al off H st → AtEnd d H → (∀ o ∈ ops, o = ask d ∨ o = pop d) →
    ops.countP isPop < (ends cmp key d st.elems).length →
    okRun cmp key al off st ops ∧ ∃ H', Costs (runN cmp key H ops) ops.length (H', (MultiSpec.specRun cmp key al st ops).2) := by
  induction ops with
  | nil => intro H st _ _ _ _; exact ⟨trivial, H, .pure _⟩
  | cons o os ih =>
    intro H st hs he ho hcnt
    have hne : st.elems ≠ [] := by
      intro hh; rw [hh] at hcnt; simp [ends] at hcnt
    obtain ⟨A, D, h, T, s⟩ := id hs
    have hT : T ≠ nil := by
      intro hh
      have := s.core.nil_iff.1 hh
      exact hne (by rw [s.elems, this]; rfl)
    rcases ho o (by simp) with rfl | rfl
    · have ok : okOp cmp key al st (ask d) := by cases d <;> trivial
      have sf : safeOp cmp key al off st (ask d) := by cases d <;> exact hne
      obtain ⟨H1, e1, s1⟩ := step_sim hc hs (ask d) ok sf
      obtain ⟨H', i, n, hn, he', hn1⟩ := s.core.maxMinN_end hT d
      obtain rfl := hn1 he
      have hst := stepN_ask (cmp := cmp) (key := key) hn
      have := (stepN_er cmp key H (ask d)).eq hst
      rw [e1] at this
      have hst0 : (MultiSpec.specStep cmp key al st (ask d)).1 = st := by cases d <;> rfl
      have hp0 : isPop (ask d : MultiSpec.Op α κ) = false := by cases d <;> rfl
      simp only [Option.some.injEq, Prod.mk.injEq] at this
      obtain ⟨rfl, h3⟩ := this
      obtain ⟨ok2, H2, c2⟩ := ih s1 he' (fun o' ho' => ho o' (by simp [ho'])) (by
        rw [hst0]; rw [List.countP_cons, hp0] at hcnt; simpa using hcnt)
      refine ⟨⟨ok, sf, ok2⟩, H2, ?_⟩
      rw [← h3] at hst
      have := hst.bind (f := fun p => runN cmp key p.1 os >>= fun q => pure (q.1, p.2 :: q.2))
        (c2.out (fun q => (q.1, (MultiSpec.specStep cmp key al st (ask d)).2 :: q.2)))
      rw [List.length_cons, Nat.add_comm]
      exact this
    · have ok : okOp cmp key al st (pop d) := by cases d <;> trivial
      have sf : safeOp cmp key al off st (pop d) := by
        cases d
        · intro ha; exact Or.inl (hoff rfl ha)
        · trivial
      have hp1 : isPop (pop d : MultiSpec.Op α κ) = true := by cases d <;> rfl
      rw [List.countP_cons, hp1] at hcnt
      simp only [if_true] at hcnt
      obtain ⟨H1, e1, s1⟩ := step_sim hc hs (pop d) ok sf
      obtain ⟨H', r, hn, he'⟩ := s.eraseEndN_dup hc he (by omega)
      obtain ⟨hst, he1⟩ := stepN_pop hn he' e1
      have hlen : (ends cmp key d (MultiSpec.specStep cmp key al st (pop d)).1.elems).length + 1 =
          (ends cmp key d st.elems).length := by
        obtain ⟨x, hx, hxe⟩ := s.popped hc hT he
        rw [hxe]
        exact ends_without hc (elems_nodup s hc) hx (by omega)
      obtain ⟨ok2, H2, c2⟩ := ih s1 he1 (fun o' ho' => ho o' (by simp [ho'])) (by omega)
      refine ⟨⟨ok, sf, ok2⟩, H2, ?_⟩
      have := hst.bind (f := fun p => runN cmp key p.1 os >>= fun q => pure (q.1, p.2 :: q.2))
        (c2.out (fun q => (q.1, (MultiSpec.specStep cmp key al st (pop d)).2 :: q.2)))
      rw [List.length_cons, Nat.add_comm]
      exact this

end CCC.Omm
