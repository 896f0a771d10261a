import Verif.Proof.OrderedMapStep
/-
What `validate` of the tree maps guarantees: links that pass its checks form a search tree.
-/
namespace CCC.Rom
open CCC Tree Wavl MapSpec PtrMap

variable {α κ : Type} {cmp : κ → κ → Cmp} {key : α → κ}

theorem les_trans (hc : LawfulCmp cmp) {a b c : κ} (h1 : cmp a b = .les) (h2 : cmp b c = .les) : cmp a c = .les :=
  (hc.swo (Or.inl rfl)).trans (w := Beats cmp .les) h1 h2

/-- The child links form the tree; nothing is said about the parents. -/
def Shape (h : Links) : Tree → Prop
  | nil => True
  | node i _ l r => i ≠ 0 ∧ h.live i = true ∧ h.br i false = l.rootId ∧ h.br i true = r.rootId ∧ Shape h l ∧ Shape h r

theorem subtrees_sound (hc : LawfulCmp cmp) (s : Rom α) : ∀ low root high r,
    areSubtreesValid cmp key s low root high = some r → r = true →
    ∃ T : Tree, T.rootId = root ∧ Shape s.t T ∧
      T.ids.Pairwise (fun a b => cmp (key (s.val a)) (key (s.val b)) = .les) ∧
      (low ≠ 0 → ∀ a ∈ T.ids, cmp (key (s.val low)) (key (s.val a)) = .les) ∧
      (high ≠ 0 → ∀ a ∈ T.ids, cmp (key (s.val high)) (key (s.val a)) = .grt) := by
  refine areSubtreesValid.partial_correctness cmp key s _ ?_
  intro f ih low root high r h hr
  subst hr
  by_cases h0 : root = 0
  · exact ⟨nil, h0.symm, trivial, by simp [ids], by simp [ids], by simp [ids]⟩
  rw [if_neg h0] at h
  by_cases h1 : low ≠ 0 ∧ at_ cmp key s (key (s.val low)) root ≠ .les
  · rw [if_pos h1] at h; cases h
  rw [if_neg h1] at h
  by_cases h2 : high ≠ 0 ∧ at_ cmp key s (key (s.val high)) root ≠ .grt
  · rw [if_pos h2] at h; cases h
  rw [if_neg h2] at h
  simp only [Links.getBr, Option.bind_eq_bind] at h
  by_cases hl : s.t.live root = true
  · simp only [hl, if_true, Option.bind_some] at h
    cases ha : f low (s.t.br root false) root with
    | none => simp [ha] at h
    | some a =>
      cases a with
      | false => simp [ha] at h
      | true =>
        simp only [ha, Option.bind_some, Bool.not_true, Bool.false_eq_true, if_false] at h
        obtain ⟨A, a1, a2, a3, a4, a5⟩ := ih _ _ _ _ ha rfl
        obtain ⟨B, b1, b2, b3, b4, b5⟩ := ih _ _ _ _ h rfl
        have hA := a5 h0
        have hB := b4 h0
        have hlow : low ≠ 0 → cmp (key (s.val low)) (key (s.val root)) = .les := by
          intro hh; exact Classical.byContradiction fun hx => h1 ⟨hh, hx⟩
        have hhigh : high ≠ 0 → cmp (key (s.val high)) (key (s.val root)) = .grt := by
          intro hh; exact Classical.byContradiction fun hx => h2 ⟨hh, hx⟩
        have hA' : ∀ a ∈ A.ids, cmp (key (s.val a)) (key (s.val root)) = .les := fun a ha => (hc.flip _ _).2 (hA a ha)
        refine ⟨node root 0 A B, rfl, ⟨h0, hl, a1.symm, b1.symm, a2, b2⟩, ?_, ?_, ?_⟩
        · simp only [ids, List.pairwise_append, List.pairwise_cons, List.mem_cons]
          refine ⟨a3, ⟨hB, b3⟩, ?_⟩
          intro a hma b hmb
          rcases hmb with e | hb
          · rw [e]; exact hA' a hma
          · exact les_trans hc (hA' a hma) (hB b hb)
        · intro hh a ha
          simp only [ids, List.mem_append, List.mem_cons] at ha
          rcases ha with ha | rfl | ha
          · exact a4 hh a ha
          · exact hlow hh
          · exact les_trans hc (hlow hh) (hB a ha)
        · intro hh a ha
          simp only [ids, List.mem_append, List.mem_cons] at ha
          rcases ha with ha | rfl | ha
          · exact (hc.flip _ _).1 (les_trans hc (hA' a ha) ((hc.flip _ _).2 (hhigh hh)))
          · exact hhigh hh
          · exact b5 hh a ha
  · simp [hl] at h

theorem parents_sound {h : Links} : ∀ {T : Tree} {p : Nat}, Shape h T → isStoringParent h p T.rootId = some true →
    Rep h p T := by
  intro T
  induction T with
  | nil => intro p _ _; trivial
  | node i k a b ia ib =>
    intro p hs hp
    obtain ⟨i0, il, e1, e2, sa, sb⟩ := hs
    have hp : isStoringParent h p i = some true := hp
    rw [isStoringParent] at hp
    simp only [i0, if_false, Links.getPar, Links.getBr, il, if_true, Option.bind_eq_bind, Option.bind_some, e1, e2] at hp
    by_cases hq : h.par i ≠ p
    · rw [if_pos hq] at hp; cases hp
    · rw [if_neg hq] at hp
      cases ha : isStoringParent h i a.rootId with
      | none => simp [ha] at hp
      | some v =>
        cases v with
        | false => simp [ha] at hp
        | true =>
          simp only [ha, Option.bind_some, Bool.not_true, Bool.false_eq_true, if_false] at hp
          exact ⟨i0, il, e1, e2, by simpa using hq, ia sa ha, ib sb hp⟩

/-- Links that pass the three checks of `validate` are a search tree with as many elements as counted. -/
theorem checks_sound (hc : LawfulCmp cmp) {s : Rom α} (h0 : s.t.live 0 = true)
    (ha : areSubtreesValid cmp key s 0 s.t.root 0 = some true) (hp : isStoringParent s.t 0 s.t.root = some true) :
    ∃ T : Tree, Whole s.t [] T ∧ Sorted cmp (ekey key) (elems s.val T.ids) ∧
      recursiveSize s.t s.t.root = some T.ids.length := by
  obtain ⟨T, t1, t2, t3, _, _⟩ := subtrees_sound hc s _ _ _ _ ha rfl
  rw [← t1] at hp
  have hr := parents_sound t2 hp
  refine ⟨T, ⟨t1.symm, hr, ?_, h0⟩, ?_, by rw [← t1]; exact recursiveSize_spec hr⟩
  · simp only [cids, List.append_nil]
    refine t3.imp ?_
    rintro a _ hab rfl
    rw [hc.refl] at hab
    cases hab
  · unfold Sorted elems
    rw [List.pairwise_map]
    exact t3

end CCC.Rom

namespace CCC.Om
open CCC Tree Splay PtrMap MapSpec Rom
variable {α κ : Type} {cmp : κ → κ → Cmp} {key : α → κ}

theorem validate_sound (hc : LawfulCmp cmp) {s : Om α} (h0 : s.t.live 0 = true) (h : validate cmp key s = some true) :
    ∃ T, Ok cmp key s (elems s.val T.ids) T := by
  simp only [validate, Option.bind_eq_bind] at h
  cases ha : areSubtreesValid cmp key s 0 s.t.root 0 with
  | none => simp [ha] at h
  | some a =>
    cases a with
    | false => simp [ha] at h
    | true =>
      simp only [ha, Option.bind_some, Bool.not_true, Bool.false_eq_true, if_false] at h
      cases hp : isStoringParent s.t 0 s.t.root with
      | none => simp [hp] at h
      | some b =>
        cases b with
        | false => simp [hp] at h
        | true =>
          obtain ⟨T, w, srt, n⟩ := checks_sound hc h0 ha hp
          simp only [hp, n, Option.bind_some, Bool.not_true, Bool.false_eq_true, if_false, Option.some.injEq,
            beq_iff_eq] at h
          exact ⟨T, w, rfl, srt, by rw [← h]; simp [elems]⟩

end CCC.Om
