import Mathlib.Data.List.Nodup
import Verif.Spec.Maze
/-
A set of squares with one way between any two of them keeps this property when a square with one neighbour is added.
-/
namespace CCC.Maze

theorem Adj.symm {a b : Pos} (h : Adj a b) : Adj b a := by
  rcases h with ⟨h1, h2⟩ | ⟨h1, h2⟩
  · exact .inl ⟨h1.symm, h2.symm⟩
  · exact .inr ⟨h1.symm, h2.symm⟩

theorem Adj.ne {a b : Pos} (h : Adj a b) : a ≠ b := by
  rintro rfl
  unfold Adj at h
  omega

/-- There is exactly one way between any two squares. -/
def OneWay (O : Pos → Prop) : Prop := ∀ a b, O a → O b → ∃ l, Way O a b l ∧ ∀ l', Way O a b l' → l' = l

theorem Way.reverse {O : Pos → Prop} {a b : Pos} {l : List Pos} (h : Way O a b l) : Way O b a l.reverse := by
  obtain ⟨h1, h2, h3, h4, h5⟩ := h
  refine ⟨?_, List.nodup_reverse.2 h2, by simpa using h3, by simpa using h5, by simpa using h4⟩
  rw [List.isChain_reverse]
  exact h1.imp (fun a b h => h.symm)

theorem Way.congr {O O' : Pos → Prop} {a b : Pos} {l : List Pos} (h : Way O a b l) (hl : ∀ p ∈ l, O' p) : Way O' a b l :=
  ⟨h.1, h.2.1, hl, h.2.2.2⟩

theorem OneWay.congr {O O' : Pos → Prop} (h : OneWay O) (he : ∀ p, O p ↔ O' p) : OneWay O' := by
  have : O = O' := funext fun p => propext (he p)
  rwa [← this]

theorem OneWay.single (x : Pos) : OneWay (fun p => p = x) := by
  rintro a b rfl rfl
  refine ⟨[b], ⟨by simp, by simp, by simp, rfl, rfl⟩, ?_⟩
  rintro l ⟨h1, h2, h3, h4, h5⟩
  cases l with
  | nil => cases h4
  | cons p l =>
    have hp := h3 p (by simp)
    subst hp
    cases l with
    | nil => rfl
    | cons q l =>
      have hq := h3 q (by simp)
      subst hq
      simp at h2

variable {O : Pos → Prop} {x y : Pos}

/-- A way that neither starts nor ends at a square with one neighbour avoids it. -/
theorem Way.avoids (hx : ∀ z, O z → Adj x z → z = y) {a b : Pos} {l : List Pos}
    (h : Way (fun p => O p ∨ p = x) a b l) (ha : a ≠ x) (hb : b ≠ x) : x ∉ l := by
  intro hm
  obtain ⟨p, q, rfl⟩ := List.append_of_mem hm
  obtain ⟨h1, h2, h3, h4, h5⟩ := h
  rcases List.eq_nil_or_concat' p with rfl | ⟨p, u, rfl⟩
  · simp at h4; exact ha h4.symm
  cases q with
  | nil => simp at h5; exact hb h5.symm
  | cons v q =>
    simp only [List.append_assoc, List.cons_append, List.nil_append] at h1 h2 h3
    have c := h1.right_of_append
    rw [List.isChain_cons_cons, List.isChain_cons_cons] at c
    have d := (List.nodup_append.1 h2).2.1
    simp only [List.nodup_cons, List.mem_cons, not_or] at d
    have hu : u = y := by
      refine hx u ((h3 u (by simp)).resolve_right d.1.1) c.1.symm
    have hv : v = y := by
      refine hx v ((h3 v (by simp)).resolve_right (Ne.symm d.2.1.1)) c.2.1
    exact d.1.2.1 (hu.trans hv.symm)

theorem OneWay.leaf_end (h : OneWay O) (nx : ¬ O x) (hy : O y) (hxy : Adj y x) (hx : ∀ z, O z → Adj x z → z = y) {a : Pos}
    (ha : O a) : ∃ l, Way (fun p => O p ∨ p = x) a x l ∧ ∀ l', Way (fun p => O p ∨ p = x) a x l' → l' = l := by
  obtain ⟨l, hl, hu⟩ := h a y ha hy
  refine ⟨l ++ [x], ⟨?_, ?_, ?_, ?_, by simp⟩, ?_⟩
  · refine hl.1.append (by simp) ?_
    intro u hu' v hv
    rw [hl.2.2.2.2] at hu'
    simp at hu' hv
    subst hu'; subst hv; exact hxy
  · rw [List.nodup_append]
    refine ⟨hl.2.1, by simp, ?_⟩
    rintro p hp q hq rfl
    simp at hq
    subst hq
    exact nx (hl.2.2.1 _ hp)
  · intro p hp
    rcases List.mem_append.1 hp with hp | hp
    · exact .inl (hl.2.2.1 p hp)
    · exact .inr (by simpa using hp)
  · rw [List.head?_append, hl.2.2.2.1]; rfl
  · rintro l' ⟨h1, h2, h3, h4, h5⟩
    rcases List.eq_nil_or_concat' l' with rfl | ⟨m, u, rfl⟩
    · cases h5
    simp at h5
    subst h5
    congr 1
    have nm : u ∉ m := by
      intro hm
      have := (List.nodup_append.1 h2).2.2 u hm u (by simp)
      exact this rfl
    rcases List.eq_nil_or_concat' m with rfl | ⟨m, v, rfl⟩
    · simp at h4
      subst h4; exact absurd ha nx
    have hv : v = y := by
      refine hx v ((h3 v (by simp)).resolve_right ?_) ?_
      · rintro rfl; exact nm (by simp)
      · rw [List.append_assoc] at h1
        have := h1.right_of_append
        simp at this
        exact this.symm
    subst hv
    refine hu _ ⟨h1.left_of_append, (List.nodup_append.1 h2).1, ?_, ?_, by simp⟩
    · intro p hp
      refine (h3 p (List.mem_append.2 (.inl hp))).resolve_right ?_
      rintro rfl; exact nm hp
    · rw [List.head?_append] at h4
      cases hm : (m ++ [v]).head? with
      | none => simp at hm
      | some w => rw [hm] at h4; simpa using h4

/-- Adding a square with one neighbour. -/
theorem OneWay.leaf (h : OneWay O) (nx : ¬ O x) (hy : O y) (hxy : Adj y x) (hx : ∀ z, O z → Adj x z → z = y) :
    OneWay (fun p => O p ∨ p = x) := by
  intro a b ha hb
  by_cases hax : a = x
  · subst hax
    by_cases hbx : b = a
    · subst hbx
      refine ⟨[b], ⟨by simp, by simp, by simp, rfl, rfl⟩, ?_⟩
      rintro l ⟨h1, h2, h3, h4, h5⟩
      cases l with
      | nil => cases h4
      | cons p l =>
        simp at h4
        subst h4
        rcases List.eq_nil_or_concat' l with rfl | ⟨m, u, rfl⟩
        · rfl
        · rw [← List.cons_append] at h5
          simp only [List.getLast?_append, List.getLast?_singleton, Option.some_or] at h5
          cases h5
          simp at h2
    · obtain ⟨l, hl, hu⟩ := h.leaf_end nx hy hxy hx (hb.resolve_right hbx)
      refine ⟨l.reverse, hl.reverse, fun l' hl' => ?_⟩
      rw [← hu _ hl'.reverse, List.reverse_reverse]
  · by_cases hbx : b = x
    · subst hbx
      exact h.leaf_end nx hy hxy hx (ha.resolve_right hax)
    · obtain ⟨l, hl, hu⟩ := h a b (ha.resolve_right hax) (hb.resolve_right hbx)
      refine ⟨l, hl.congr fun p hp => .inl (hl.2.2.1 p hp), fun l' hl' => hu l' (hl'.congr fun p hp => ?_)⟩
      refine (hl'.2.2.1 p hp).resolve_right ?_
      rintro rfl
      exact hl'.avoids hx hax hbx hp

end CCC.Maze
