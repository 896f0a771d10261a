import Verif.Proof.MultiStep
import Verif.Proof.ValidateSound
import Mathlib.Tactic.Tauto
/-
Soundness of the validation of the multimap: from a memory that validation accepts to the tree and its rings.
-/
namespace CCC.Omm
open CCC Links Tree Splay PtrMap MultiSpec

set_option linter.unusedSimpArgs false

variable {α κ : Type} {cmp : κ → κ → Cmp} {key : α → κ}

/-- The child links form the tree; nothing is said about the parents. -/
def Kids (s : Omm α) : Tree → Prop
  | nil => True
  | node i _ l r => i ≠ 0 ∧ s.live i = true ∧ s.br i false = some l.rootId ∧ s.br i true = some r.rootId ∧ Kids s l ∧ Kids s r

theorem subtrees_sound (hc : LawfulCmp cmp) (s : Omm α) : ∀ low root high r,
    areSubtreesValid cmp key s low root high = some r → r = true →
    ∃ T : Tree, root = some T.rootId ∧ Kids s T ∧
      T.ids.Pairwise (fun a b => cmp (key (s.val a)) (key (s.val b)) = .les) ∧
      (low ≠ 0 → ∀ a ∈ T.ids, cmp (key (s.val low)) (key (s.val a)) = .les) ∧
      (high ≠ 0 → ∀ a ∈ T.ids, cmp (key (s.val high)) (key (s.val a)) = .grt) := by
  refine areSubtreesValid.partial_correctness cmp key s _ ?_
  intro f ih low root high r h hr
  subst hr
  cases root with
  | none => simp at h
  | some root =>
  simp only at h
  by_cases h0 : root = 0
  · subst h0
    exact ⟨nil, rfl, trivial, by simp [ids], by simp [ids], by simp [ids]⟩
  rw [if_neg h0] at h
  simp only [bind, Option.bind_eq_some_iff] at h
  obtain ⟨a, ha, h⟩ := h
  split at h
  · simp at h
  rename_i ha'
  simp only [Option.bind_eq_some_iff] at h
  obtain ⟨b, hb, h⟩ := h
  split at h
  · simp at h
  rename_i hb'
  simp only [Option.bind_eq_some_iff] at h
  obtain ⟨l, hl, v, hv, h⟩ := h
  split at h
  · simp at h
  rename_i hv'
  simp only [Option.bind_eq_some_iff] at h
  obtain ⟨r, hr, h⟩ := h
  have hv1 : v = true := by cases v <;> simp_all
  subst hv1
  have ha1 : a = .les := by cases a <;> simp_all
  have hb1 : b = .grt := by cases b <;> simp_all
  subst ha1
  subst hb1
  have hlive : s.live root = true := by
    cases e : s.live root with
    | true => rfl
    | false => simp [getBr, e] at hl
  simp only [getBr, hlive, if_true, Option.some.injEq] at hl hr
  obtain ⟨A, a1, a2, a3, a4, a5⟩ := ih _ _ _ _ hv rfl
  obtain ⟨B, b1, b2, b3, b4, b5⟩ := ih _ _ _ _ h rfl
  have hA := a5 h0
  have hB := b4 h0
  have hlow : low ≠ 0 → cmp (key (s.val low)) (key (s.val root)) = .les := by
    intro hh
    rw [if_pos hh, cmpAt, if_pos ⟨h0, hlive⟩] at ha
    exact Option.some.inj ha
  have hhigh : high ≠ 0 → cmp (key (s.val high)) (key (s.val root)) = .grt := by
    intro hh
    rw [if_pos hh, cmpAt, if_pos ⟨h0, hlive⟩] at hb
    exact Option.some.inj hb
  have hA' : ∀ a ∈ A.ids, cmp (key (s.val a)) (key (s.val root)) = .les := fun a ha => (hc.flip _ _).2 (hA a ha)
  refine ⟨node root 0 A B, rfl, ⟨h0, hlive, hl.trans a1, hr.trans b1, a2, b2⟩, ?_, ?_, ?_⟩
  · simp only [ids, List.pairwise_append, List.pairwise_cons, List.mem_cons]
    refine ⟨a3, ⟨hB, b3⟩, ?_⟩
    intro a hma b hmb
    rcases hmb with e | hb
    · rw [e]; exact hA' a hma
    · exact Rom.les_trans hc (hA' a hma) (hB b hb)
  · intro hh a ha
    simp only [ids, List.mem_append, List.mem_cons] at ha
    rcases ha with ha | rfl | ha
    · exact a4 hh a ha
    · exact hlow hh
    · exact Rom.les_trans hc (hlow hh) (hB a ha)
  · intro hh a ha
    simp only [ids, List.mem_append, List.mem_cons] at ha
    rcases ha with ha | rfl | ha
    · exact (hc.flip _ _).1 (Rom.les_trans hc (hA' a ha) ((hc.flip _ _).2 (hhigh hh)))
    · exact hhigh hh
    · exact b5 hh a ha

/-- Every node of the tree knows its parent, itself or through the first of its duplicates. -/
def Knows (s : Omm α) : Nat → Tree → Prop
  | _, nil => True
  | p, node i _ l r => ((hasDups s i = some false ∧ s.par i = some p) ∨
      (hasDups s i = some true ∧ ∃ x, s.par i = some x ∧ s.live x = true ∧ s.par x = some p)) ∧ Knows s i l ∧ Knows s i r

theorem tracks_sound {s : Omm α} {p i : Nat} (h : childTracksParent s p i = some true) :
    (hasDups s i = some false ∧ s.par i = some p) ∨
      (hasDups s i = some true ∧ ∃ x, s.par i = some x ∧ s.live x = true ∧ s.par x = some p) := by
  unfold childTracksParent at h
  simp only [bind, Option.bind_eq_some_iff] at h
  obtain ⟨d, hd, h⟩ := h
  cases d with
  | false =>
    left
    refine ⟨hd, ?_⟩
    simp only [Bool.false_eq_true, if_false, Option.bind_eq_some_iff] at h
    obtain ⟨q, hq, h⟩ := h
    have e : q = some p := by
      apply Classical.byContradiction
      intro hne
      rw [if_pos hne] at h
      simp only [Option.bind_eq_some_iff] at h
      obtain ⟨_, _, _, _, h⟩ := h
      cases h
    subst e
    unfold getPar at hq
    split at hq
    · exact Option.some.inj hq
    · cases hq
  | true =>
    right
    refine ⟨hd, ?_⟩
    simp only [if_true, Option.bind_eq_some_iff] at h
    obtain ⟨x, hx, q, hq, h⟩ := h
    unfold parent getPar at hx
    unfold getPar at hq
    simp only [bind, Option.bind_eq_some_iff] at hx
    obtain ⟨y, hy, hx⟩ := hx
    split at hy
    · split at hq
      · rename_i l1 l2
        refine ⟨x, ?_, l2, ?_⟩
        · rw [← hx]; exact Option.some.inj hy
        · rw [Option.some.inj hq]; simpa using h
      · cases hq
    · cases hy

theorem knows_sound {s : Omm α} : ∀ {T : Tree} {p : Nat}, Kids s T → isStoringParent s p T.rootId = some true → Knows s p T := by
  intro T
  induction T with
  | nil => intro p _ _; trivial
  | node i k a b ia ib =>
    intro p hk hp
    obtain ⟨i0, il, e1, e2, sa, sb⟩ := hk
    have hp : isStoringParent s p i = some true := hp
    rw [isStoringParent, if_neg i0, branch_live il, branch_live il, e1, e2] at hp
    simp only [bind, Option.bind_eq_some_iff] at hp
    obtain ⟨c, hc, hp⟩ := hp
    cases c with
    | false => simp at hp
    | true =>
      simp only [Bool.not_true, Bool.false_eq_true, if_false, Option.bind_some, Option.bind_eq_some_iff] at hp
      obtain ⟨v, hv, hp⟩ := hp
      cases v with
      | false => simp at hp
      | true =>
        simp only [Bool.not_true, Bool.false_eq_true, if_false, Option.bind_some] at hp
        exact ⟨tracks_sound hc, ia sa hv, ib sb hp⟩

/-- The plain tree. -/
def plainLinks (s : Omm α) (T : Tree) : Links where
  br := fun a d => (s.br a d).getD 0
  par := fun a => if hasDups s a = some true then ((s.par a).bind s.par).getD 0 else (s.par a).getD 0
  parity := fun _ => false
  live := fun a => decide (a = 0 ∨ a ∈ T.ids)
  root := s.root

theorem kids_rep {s : Omm α} {U : Tree} : ∀ {T : Tree} {p : Nat}, Kids s T → Knows s p T → (∀ a ∈ T.ids, a ∈ U.ids) →
    Rep (plainLinks s U) p T := by
  intro T
  induction T with
  | nil => intro p _ _ _; trivial
  | node i k l r il ir =>
    intro p hk hn hs
    obtain ⟨i0, _, e1, e2, kl, kr⟩ := hk
    obtain ⟨n1, n2, n3⟩ := hn
    refine ⟨i0, ?_, ?_, ?_, ?_, il kl n2 (fun a ha => hs a (by simp [ids, ha])), ir kr n3 (fun a ha => hs a (by simp [ids, ha]))⟩
    · simp [plainLinks, hs i (by simp [ids])]
    · simp [plainLinks, e1]
    · simp [plainLinks, e2]
    · rcases n1 with ⟨a1, a2⟩ | ⟨a1, x, a2, _, a3⟩
      · simp [plainLinks, a1, a2]
      · simp [plainLinks, a1, a2, a3]

/-- What is known about a node of the tree. -/
theorem node_facts {s : Omm α} : ∀ {T : Tree} {p : Nat}, Kids s T → Knows s p T → ∀ a ∈ T.ids, a ≠ 0 ∧ s.live a = true ∧
    (∀ d, ∃ b, s.br a d = some b ∧ (b = 0 ∨ b ∈ T.ids)) ∧
    ∃ q, (q = p ∨ q ∈ T.ids) ∧ ((hasDups s a = some false ∧ s.par a = some q) ∨
      (hasDups s a = some true ∧ ∃ x, s.par a = some x ∧ s.live x = true ∧ s.par x = some q)) := by
  intro T
  induction T with
  | nil => intro p _ _ a ha; simp [ids] at ha
  | node i k l r il ir =>
    intro p hk hn a ha
    obtain ⟨i0, lv, e1, e2, kl, kr⟩ := hk
    obtain ⟨n1, n2, n3⟩ := hn
    have root : ∀ t : Tree, t.rootId = 0 ∨ t.rootId ∈ t.ids := by
      intro t
      cases t with
      | nil => exact .inl rfl
      | node => right; simp [ids, rootId]
    simp only [ids, List.mem_append, List.mem_cons] at ha ⊢
    rcases ha with ha | rfl | ha
    · obtain ⟨g1, g2, g3, q, g4, g5⟩ := il kl n2 a ha
      refine ⟨g1, g2, fun d => ?_, q, ?_, g5⟩
      · obtain ⟨b, h1, h2⟩ := g3 d
        exact ⟨b, h1, by tauto⟩
      · tauto
    · refine ⟨i0, lv, fun d => ?_, p, .inl rfl, n1⟩
      cases d
      · exact ⟨_, e1, by have := root l; tauto⟩
      · exact ⟨_, e2, by have := root r; tauto⟩
    · obtain ⟨g1, g2, g3, q, g4, g5⟩ := ir kr n3 a ha
      refine ⟨g1, g2, fun d => ?_, q, ?_, g5⟩
      · obtain ⟨b, h1, h2⟩ := g3 d
        exact ⟨b, h1, by tauto⟩
      · tauto

/-- The right child of the left child of a node is not the node. -/
theorem no_cycle (hc : LawfulCmp cmp) {s : Omm α} : ∀ {T : Tree}, Kids s T →
    T.ids.Pairwise (fun a b => cmp (key (s.val a)) (key (s.val b)) = .les) →
    ∀ a ∈ T.ids, ∀ b, s.br a false = some b → b ≠ 0 → s.br b true ≠ some a := by
  intro T
  induction T with
  | nil => intro _ _ a ha; simp [ids] at ha
  | node i k l r il ir =>
    intro hk hs a ha b hb b0 he
    obtain ⟨i0, lv, e1, e2, kl, kr⟩ := hk
    simp only [ids, List.pairwise_append, List.pairwise_cons, List.mem_cons] at hs
    obtain ⟨s1, ⟨s2, s3⟩, s4⟩ := hs
    simp only [ids, List.mem_append, List.mem_cons] at ha
    rcases ha with ha | rfl | ha
    · exact il kl s1 a ha b hb b0 he
    · rw [e1] at hb
      cases l with
      | nil => exact b0 (Option.some.inj hb).symm
      | node j m l' r' =>
        have : j = b := Option.some.inj hb
        subst this
        obtain ⟨_, _, _, f2, _, _⟩ := kl
        rw [f2] at he
        have he : r'.rootId = a := Option.some.inj he
        cases r' with
        | nil => exact i0 he.symm
        | node x m' l'' r'' =>
          have : x = a := he
          subst this
          have := s4 x (by simp [ids]) x (.inl rfl)
          rw [hc.refl] at this
          cases this
    · exact ir kr s3 a ha b hb b0 he

/-- What validation does not check about the duplicates: the rings of the nodes are closed doubly linked lists of structs that are not
in the tree and have the key of their node; only the first of them has a parent. -/
structure RingsOk (cmp : κ → κ → Cmp) (key : α → κ) (s : Omm α) (D : Nat → List Nat) (T : Tree) : Prop where
  zero : s.live 0 = true ∧ (∀ d, s.br 0 d ≠ none) ∧ s.par 0 ≠ none
  none : ∀ a, a ∉ T.ids ∨ hasDups s a = some false → D a = []
  some : ∀ a ∈ T.ids, hasDups s a = some true → ∃ x xs, s.par a = some x ∧ D a = x :: xs ∧ (x :: xs).Nodup ∧ Ring s.br x xs ∧
    ∀ y ∈ xs, s.par y = Option.none
  mem : ∀ a x, x ∈ D a → x ≠ 0 ∧ s.live x = true ∧ x ∉ T.ids ∧ cmp (key (s.val a)) (key (s.val x)) = .eql

theorem eql_trans (hc : LawfulCmp cmp) {a b c : κ} (h1 : cmp a b = .eql) (h2 : cmp b c = .eql) : cmp a c = .eql := by
  have f : ∀ {x y : κ}, cmp x y = .eql → cmp y x = .eql := by
    intro x y h
    cases e : cmp y x with
    | les => rw [hc.flip] at e; rw [h] at e; cases e
    | grt => have := (hc.flip x y).2 e; rw [h] at this; cases this
    | eql => rfl
    | err => exact absurd e (hc.noErr _ _)
  have g1 : cmp a c ≠ .grt := hc.trans a b c (by rw [h1]; simp) (by rw [h2]; simp)
  have g2 : cmp c a ≠ .grt := hc.trans c b a (by rw [f h2]; simp) (by rw [f h1]; simp)
  cases e : cmp a c with
  | les => exact absurd ((hc.flip _ _).1 e) g2
  | grt => exact absurd e g1
  | eql => rfl
  | err => exact absurd e (hc.noErr _ _)

theorem eql_symm (hc : LawfulCmp cmp) {x y : κ} (h : cmp x y = .eql) : cmp y x = .eql := by
  cases e : cmp y x with
  | les => rw [hc.flip] at e; rw [h] at e; cases e
  | grt => have := (hc.flip x y).2 e; rw [h] at this; cases this
  | eql => rfl
  | err => exact absurd e (hc.noErr _ _)

theorem sorted_inj (hc : LawfulCmp cmp) {val : Nat → α} {l : List Nat}
    (hs : l.Pairwise (fun a b => cmp (key (val a)) (key (val b)) = .les)) {a b : Nat} (ha : a ∈ l) (hb : b ∈ l)
    (h : cmp (key (val a)) (key (val b)) = .eql) : a = b := by
  induction l with
  | nil => simp at ha
  | cons c l ih =>
    rw [List.pairwise_cons] at hs
    rcases List.mem_cons.1 ha with e | ha' <;> rcases List.mem_cons.1 hb with e' | hb'
    · rw [e, e']
    · subst e; have := hs.1 b hb'; rw [h] at this; cases this
    · subst e'; have := hs.1 a ha'; rw [eql_symm hc h] at this; cases this
    · exact ih hs.2 ha' hb'

theorem filter_flat (hc : LawfulCmp cmp) {s : Omm α} {D : Nat → List Nat} : ∀ {l : List Nat}
    (_ : l.Pairwise (fun a b => cmp (key (s.val a)) (key (s.val b)) = .les))
    (_ : ∀ a ∈ l, ∀ x ∈ D a, cmp (key (s.val a)) (key (s.val x)) = .eql) (n : Nat),
    (l.flatMap (fun n => n :: D n)).filter (fun a => cmp (key (s.val n)) (key (s.val a)) == .eql) =
      (l.filter (fun a => cmp (key (s.val n)) (key (s.val a)) == .eql)).flatMap (fun n => n :: D n) := by
  intro l
  induction l with
  | nil => intro _ _ n; rfl
  | cons b l ih =>
    intro hs hd n
    rw [List.pairwise_cons] at hs
    rw [List.flatMap_cons, List.filter_append, ih hs.2 (fun a ha => hd a (List.mem_cons_of_mem _ ha)) n]
    have hb := hd b (by simp)
    cases e : (cmp (key (s.val n)) (key (s.val b)) == .eql) with
    | true =>
      have e' : cmp (key (s.val n)) (key (s.val b)) = .eql := by simpa using e
      have : (b :: D b).filter (fun a => cmp (key (s.val n)) (key (s.val a)) == .eql) = b :: D b := by
        rw [List.filter_eq_self]
        intro a ha
        rcases List.mem_cons.1 ha with rfl | ha
        · exact e
        · simp [eql_trans hc e' (hb a ha)]
      rw [this, List.filter_cons_of_pos (by simp [e']), List.flatMap_cons]
    | false =>
      have : (b :: D b).filter (fun a => cmp (key (s.val n)) (key (s.val a)) == .eql) = [] := by
        rw [List.filter_eq_nil_iff]
        intro a ha
        rcases List.mem_cons.1 ha with rfl | ha
        · simp [e]
        · intro h
          have h : cmp (key (s.val n)) (key (s.val a)) = .eql := by simpa using h
          have := eql_trans hc h (eql_symm hc (hb a ha))
          simp [this] at e
      rw [this, List.filter_cons_of_neg (by simp [e]), List.nil_append]

/-- What validation accepts is a multimap, if its rings are in order. -/
theorem sound_core (hc : LawfulCmp cmp) {s : Omm α} {D : Nat → List Nat} {T : Tree} (hr : s.root = T.rootId) (hk : Kids s T)
    (hn : Knows s 0 T) (hs : T.ids.Pairwise (fun a b => cmp (key (s.val a)) (key (s.val b)) = .les))
    (ho : RingsOk cmp key s D T) :
    Core cmp key s (T.ids.flatMap (fun n => n :: D n)) (fun _ => False) D (plainLinks s T) T := by
  have facts := node_facts hk hn
  have hlive : ∀ a, (plainLinks s T).live a = true ↔ a = 0 ∨ a ∈ T.ids := by intro a; simp [plainLinks]
  have dT : ∀ a x, x ∈ D a → a ∈ T.ids := by
    intro a x hx
    apply Classical.byContradiction
    intro h
    rw [ho.none a (.inl h)] at hx
    cases hx
  have nd : T.ids.Nodup := by
    refine hs.imp ?_
    rintro a _ hab rfl
    rw [hc.refl] at hab
    cases hab
  refine ⟨⟨?_, rfl, by simp [plainLinks], ?_, ?_, ?_, ?_, ?_, ?_, ?_, ?_, ?_, ?_, fun a h => h.elim⟩, ⟨hr, kids_rep hk hn (fun a h => h), ?_, by simp [plainLinks]⟩,
    fun a h => (hlive a).1 h, hs, ?_, ?_⟩
  · intro a ha
    rcases (hlive a).1 ha with rfl | ha
    · exact ho.zero.1
    · exact (facts a ha).2.1
  · intro a d ha
    rcases (hlive a).1 ha with rfl | ha
    · obtain ⟨b, hb⟩ := Option.ne_none_iff_exists'.1 (ho.zero.2.1 d)
      simp [plainLinks, hb]
    · obtain ⟨b, hb, _⟩ := (facts a ha).2.2.1 d
      simp [plainLinks, hb]
  · intro a d ha h0
    rcases (hlive a).1 ha with rfl | ha
    · exact absurd rfl h0
    · obtain ⟨b, hb, hb'⟩ := (facts a ha).2.2.1 d
      rw [hlive]
      simp only [plainLinks, hb, Option.getD_some]
      exact hb'
  · intro a ha h0
    rcases (hlive a).1 ha with rfl | ha
    · exact absurd rfl h0
    · obtain ⟨_, _, _, q, hq, hp⟩ := facts a ha
      rw [hlive]
      rcases hp with ⟨h1, h2⟩ | ⟨h1, x, h2, _, h3⟩
      · simp only [plainLinks, h1, h2, Option.getD_some]; simpa using hq
      · simp only [plainLinks, h1, h2, h3, Option.getD_some, if_true, Option.bind_some]; exact hq
  · intro a ha hd
    rcases (hlive a).1 ha with rfl | ha
    · obtain ⟨b, hb⟩ := Option.ne_none_iff_exists'.1 ho.zero.2.2
      simp [plainLinks, hasDups, hb]
    · obtain ⟨_, _, _, q, hq, hp⟩ := facts a ha
      rcases hp with ⟨h1, h2⟩ | ⟨h1, x, h2, _, h3⟩
      · simp [plainLinks, h1, h2]
      · obtain ⟨x, xs, _, e, _⟩ := ho.some a ha h1
        rw [hd] at e
        cases e
  · intro a x xs ha hd
    have ha : a ∈ T.ids := dT a x (by rw [hd]; simp)
    obtain ⟨_, _, _, q, hq, hp⟩ := facts a ha
    rcases hp with ⟨h1, h2⟩ | ⟨h1, y, h2, _, h3⟩
    · rw [ho.none a (.inr h1)] at hd; cases hd
    · obtain ⟨x', xs', g1, g2, _, g4, g5⟩ := ho.some a ha h1
      rw [hd] at g2
      cases g2
      rw [h2] at g1
      cases g1
      exact ⟨h2, by simp [plainLinks, h1, h2, h3], g5, g4⟩
  · apply ho.none
    left
    intro h
    exact (facts 0 h).1 rfl
  · intro a x hx
    obtain ⟨h1, h2, h3, _⟩ := ho.mem a x hx
    refine ⟨(hlive a).2 (.inr (dT a x hx)), h2, ?_⟩
    cases e : (plainLinks s T).live x with
    | false => rfl
    | true => rcases (hlive x).1 e with h | h <;> contradiction
  · intro a
    by_cases ha : a ∈ T.ids
    · obtain ⟨_, _, _, q, hq, hp⟩ := facts a ha
      rcases hp with ⟨h1, h2⟩ | ⟨h1, y, h2, _, h3⟩
      · rw [ho.none a (.inr h1)]; exact .nil
      · obtain ⟨x', xs', g1, g2, g3, _⟩ := ho.some a ha h1
        rw [g2]; exact g3
    · rw [ho.none a (.inl ha)]; exact .nil
  · intro a b x hxa hxb
    exact sorted_inj hc hs (dT a x hxa) (dT b x hxb) (eql_trans hc (ho.mem a x hxa).2.2.2 (eql_symm hc (ho.mem b x hxb).2.2.2))
  · intro a ha h0 hb
    rcases (hlive a).1 ha with rfl | ha
    · exact absurd rfl h0
    · obtain ⟨b, e, hb'⟩ := (facts a ha).2.2.1 false
      simp only [plainLinks, e, Option.getD_some] at hb ⊢
      have hbT : b ∈ T.ids := by rcases hb' with h | h; exact absurd h hb; exact h
      obtain ⟨d, e', _⟩ := (facts b hbT).2.2.1 true
      intro hh
      rw [e', Option.getD_some] at hh
      subst hh
      exact no_cycle hc hk hs d ha b e hb e'
  · simpa using nd
  · intro n hn'
    rw [filter_flat hc hs (fun a _ x hx => (ho.mem a x hx).2.2.2)]
    have : T.ids.filter (fun a => cmp (key (s.val n)) (key (s.val a)) == .eql) = [n] := by
      have hp : T.ids.filter (fun a => cmp (key (s.val n)) (key (s.val a)) == .eql) = T.ids.filter (fun a => a == n) := by
        apply List.filter_congr
        intro a ha
        rw [Bool.eq_iff_iff]
        simp only [beq_iff_eq]
        exact ⟨fun h => (sorted_inj hc hs hn' ha h).symm, fun h => by rw [h]; exact hc.refl _⟩
      rw [hp]
      have key : ∀ (l : List Nat), l.Nodup → n ∈ l → l.filter (fun a => a == n) = [n] := by
        intro l
        induction l with
        | nil => intro _ h; cases h
        | cons c l ih =>
          intro hd hm
          rw [List.nodup_cons] at hd
          by_cases e : c = n
          · subst e
            rw [List.filter_cons_of_pos (by simp), List.filter_eq_nil_iff.2]
            intro a ha
            simp only [beq_iff_eq]
            rintro rfl
            exact hd.1 ha
          · rw [List.filter_cons_of_neg (by simpa using e)]
            exact ih hd.2 ((List.mem_cons.1 hm).resolve_left (Ne.symm e))
      exact key _ nd hn'
    rw [this]
    simp
  · intro a ha
    obtain ⟨n, hn', h⟩ := List.mem_flatMap.1 ha
    refine ⟨n, hn', ?_⟩
    rcases List.mem_cons.1 h with rfl | h
    · exact hc.refl _
    · exact (ho.mem n a h).2.2.2

end CCC.Omm
