import Verif.Spec.Multimap
import Verif.Proof.Mono
/-
Stable sorting is determined by the order and by what happens within each class of equals.
-/
namespace CCC.MultiSpec
open CCC

variable {E : Type} {ahead : E → E → Bool}

/-- A total preorder as a boolean function. -/
structure Preorder' (ahead : E → E → Bool) : Prop where
  total : ∀ a b, ahead a b = false → ahead b a = true
  trans : ∀ a b c, ahead a b = true → ahead b c = true → ahead a c = true

/-- Neither need come before the other. -/
def same (ahead : E → E → Bool) (a b : E) : Bool := ahead a b && ahead b a

theorem Preorder'.refl (hp : Preorder' ahead) (a : E) : ahead a a = true := by
  cases h : ahead a a with
  | true => rfl
  | false => have := hp.total a a h; rw [h] at this; cases this

theorem mem_putBehind {x y : E} {l : List E} : y ∈ putBehind ahead x l ↔ y = x ∨ y ∈ l := by
  induction l with
  | nil => simp [putBehind]
  | cons z l ih =>
    unfold putBehind
    split
    · simp only [List.mem_cons, ih]; grind
    · simp

theorem putBehind_pairwise (hp : Preorder' ahead) (x : E) {l : List E} (h : l.Pairwise (fun a b => ahead a b = true)) :
    (putBehind ahead x l).Pairwise (fun a b => ahead a b = true) := by
  induction l with
  | nil => simp [putBehind]
  | cons y l ih =>
    rw [List.pairwise_cons] at h
    unfold putBehind
    split
    · rename_i hy
      rw [List.pairwise_cons]
      refine ⟨?_, ih h.2⟩
      intro z hz
      rcases mem_putBehind.1 hz with rfl | hz
      · exact hy
      · exact h.1 z hz
    · rename_i hy
      have hxy := hp.total y x (by simpa using hy)
      rw [List.pairwise_cons, List.pairwise_cons]
      refine ⟨?_, h⟩
      intro z hz
      rcases List.mem_cons.1 hz with rfl | hz
      · exact hxy
      · exact hp.trans _ _ _ hxy (h.1 z hz)

theorem putBehind_filter (hp : Preorder' ahead) (x z : E) {l : List E} (h : l.Pairwise (fun a b => ahead a b = true)) :
    (putBehind ahead x l).filter (same ahead z) = l.filter (same ahead z) ++ [x].filter (same ahead z) := by
  induction l with
  | nil => simp [putBehind]
  | cons y l ih =>
    rw [List.pairwise_cons] at h
    unfold putBehind
    split
    · rw [List.filter_cons, List.filter_cons, ih h.2]
      split <;> simp
    · rename_i hy
      cases hx : same ahead z x with
      | false => simp [List.filter_cons, hx]
      | true =>
        have : (y :: l).filter (same ahead z) = [] := by
          rw [List.filter_eq_nil_iff]
          intro w hw hzw
          unfold same at hx hzw
          simp only [Bool.and_eq_true] at hx hzw
          have hyw : ahead y w = true := by
            rcases List.mem_cons.1 hw with rfl | hw
            · exact hp.refl _
            · exact h.1 w hw
          exact hy (hp.trans _ _ _ hyw (hp.trans _ _ _ hzw.2 hx.1))
        rw [List.filter_cons, hx, if_pos rfl, this]
        simp [hx]

theorem arrange_spec (hp : Preorder' ahead) (l : List E) :
    (arrange ahead l).Pairwise (fun a b => ahead a b = true) ∧
    ∀ z, (arrange ahead l).filter (same ahead z) = l.filter (same ahead z) := by
  have key : ∀ (l acc : List E), acc.Pairwise (fun a b => ahead a b = true) →
      (l.foldl (fun m x => putBehind ahead x m) acc).Pairwise (fun a b => ahead a b = true) ∧
      ∀ z, (l.foldl (fun m x => putBehind ahead x m) acc).filter (same ahead z) =
        acc.filter (same ahead z) ++ l.filter (same ahead z) := by
    intro l
    induction l with
    | nil => intro acc h; exact ⟨h, by simp⟩
    | cons x l ih =>
      intro acc h
      obtain ⟨h1, h2⟩ := ih (putBehind ahead x acc) (putBehind_pairwise hp x h)
      refine ⟨h1, fun z => ?_⟩
      rw [List.foldl_cons, h2 z, putBehind_filter hp x z h, List.append_assoc, ← List.filter_append]
      rfl
  obtain ⟨h1, h2⟩ := key l [] List.Pairwise.nil
  exact ⟨h1, fun z => by simpa [arrange] using h2 z⟩

theorem stable_unique (hp : Preorder' ahead) {L M : List E} (hL : L.Pairwise (fun a b => ahead a b = true))
    (hM : M.Pairwise (fun a b => ahead a b = true)) (h : ∀ z, L.filter (same ahead z) = M.filter (same ahead z)) :
    L = M := by
  have srefl : ∀ a, same ahead a a = true := fun a => by simp [same, hp.refl]
  have mem : ∀ {L M : List E} {a : E}, (∀ z, L.filter (same ahead z) = M.filter (same ahead z)) → a ∈ L → a ∈ M := by
    intro L M a h ha
    have : a ∈ L.filter (same ahead a) := List.mem_filter.2 ⟨ha, srefl a⟩
    rw [h a] at this
    exact (List.mem_filter.1 this).1
  induction L generalizing M with
  | nil =>
    cases M with
    | nil => rfl
    | cons y M => exact absurd (mem (fun z => (h z).symm) (List.mem_cons_self ..)) (by simp)
  | cons x L ih =>
    cases M with
    | nil => exact absurd (mem h (List.mem_cons_self ..)) (by simp)
    | cons y M =>
      rw [List.pairwise_cons] at hL hM
      have hx : x ∈ y :: M := mem h (by simp)
      have hy : y ∈ x :: L := mem (fun z => (h z).symm) (by simp)
      have a1 : ahead y x = true := by
        rcases List.mem_cons.1 hx with rfl | hx
        · exact hp.refl _
        · exact hM.1 x hx
      have a2 : ahead x y = true := by
        rcases List.mem_cons.1 hy with rfl | hy
        · exact hp.refl _
        · exact hL.1 y hy
      have e := h x
      rw [List.filter_cons, List.filter_cons, if_pos (srefl x), if_pos (by simp [same, a1, a2])] at e
      obtain ⟨rfl, _⟩ := List.cons.inj e
      congr 1
      refine ih hL.2 hM.2 ?_
      intro z
      have := h z
      rw [List.filter_cons, List.filter_cons] at this
      split at this
      · exact (List.cons.inj this).2
      · exact this

theorem arrange_eq (hp : Preorder' ahead) {l M : List E} (hM : M.Pairwise (fun a b => ahead a b = true))
    (h : ∀ z, M.filter (same ahead z) = l.filter (same ahead z)) : arrange ahead l = M := by
  obtain ⟨h1, h2⟩ := arrange_spec hp l
  exact stable_unique hp h1 hM (fun z => (h2 z).trans (h z).symm)

theorem mem_arrange {a : E} {l : List E} : a ∈ arrange ahead l ↔ a ∈ l := by
  have key : ∀ (l acc : List E), a ∈ l.foldl (fun m x => putBehind ahead x m) acc ↔ a ∈ acc ∨ a ∈ l := by
    intro l
    induction l with
    | nil => simp
    | cons x l ih => intro acc; rw [List.foldl_cons, ih]; simp only [mem_putBehind, List.mem_cons]; grind
  have := key l []
  simpa [arrange] using this

theorem length_arrange {l : List E} : (arrange ahead l).length = l.length := by
  have pb : ∀ (x : E) (l : List E), (putBehind ahead x l).length = l.length + 1 := by
    intro x l
    induction l with
    | nil => rfl
    | cons y l ih => unfold putBehind; split <;> simp [ih]
  have key : ∀ (l acc : List E), (l.foldl (fun m x => putBehind ahead x m) acc).length = acc.length + l.length := by
    intro l
    induction l with
    | nil => simp
    | cons x l ih => intro acc; rw [List.foldl_cons, ih, pb]; simp; omega
  have := key l []
  simpa [arrange] using this

theorem arrange_perm (l : List E) : (arrange ahead l).Perm l := by
  have pb : ∀ (x : E) (l : List E), (putBehind ahead x l).Perm (x :: l) := by
    intro x l
    induction l with
    | nil => exact List.Perm.refl _
    | cons y l ih =>
      unfold putBehind
      split
      · exact (ih.cons y).trans (List.Perm.swap x y l)
      · exact List.Perm.refl _
  have key : ∀ (l acc : List E), (l.foldl (fun m x => putBehind ahead x m) acc).Perm (acc ++ l) := by
    intro l
    induction l with
    | nil => intro acc; simp
    | cons x l ih =>
      intro acc
      rw [List.foldl_cons]
      exact (ih _).trans (((pb x acc).append_right l).trans (List.perm_middle (a := x) (l₁ := acc) (l₂ := l)).symm)
  exact key l []

theorem arrange_map {E' : Type} (g : E' → E) (l : List E') :
    arrange ahead (l.map g) = (arrange (fun a b => ahead (g a) (g b)) l).map g := by
  have pb : ∀ (x : E') (l : List E'), putBehind ahead (g x) (l.map g) =
      (putBehind (fun a b => ahead (g a) (g b)) x l).map g := by
    intro x l
    induction l with
    | nil => rfl
    | cons y l ih =>
      simp only [List.map_cons, putBehind]
      split <;> simp [ih]
  have key : ∀ (l acc : List E'), (l.map g).foldl (fun m x => putBehind ahead x m) (acc.map g) =
      (l.foldl (fun m x => putBehind (fun a b => ahead (g a) (g b)) x m) acc).map g := by
    intro l
    induction l with
    | nil => intro acc; rfl
    | cons x l ih => intro acc; simp only [List.map_cons, List.foldl_cons, pb, ih]
  exact key l []

/-- Leaving elements out before or after sorting. -/
theorem arrange_filter (hp : Preorder' ahead) (p : E → Bool) (l : List E) :
    arrange ahead (l.filter p) = (arrange ahead l).filter p := by
  obtain ⟨h1, h2⟩ := arrange_spec hp l
  refine arrange_eq hp (h1.sublist List.filter_sublist) ?_
  intro z
  rw [List.filter_filter, List.filter_filter]
  have : ∀ (m : List E), m.filter (fun a => same ahead z a && p a) = (m.filter (same ahead z)).filter p := by
    intro m
    rw [List.filter_filter]
    exact List.filter_congr (fun a _ => by rw [Bool.and_comm])
  rw [this, this, h2]

/-- The first of the sorted list: everything in front of it has to come later, nothing behind it has to come earlier. -/
theorem arrange_head (hp : Preorder' ahead) {l : List E} {x : E} (h : (arrange ahead l).head? = some x) :
    ∃ pre post, l = pre ++ x :: post ∧ (∀ e ∈ pre, ahead e x = false) ∧ ∀ e ∈ post, ahead x e = true := by
  obtain ⟨h1, h2⟩ := arrange_spec hp l
  cases hM : arrange ahead l with
  | nil => rw [hM] at h; cases h
  | cons y M =>
    rw [hM] at h h1 h2
    cases h
    have hx : same ahead x x = true := by simp [same, hp.refl]
    have hall : ∀ e ∈ l, ahead x e = true := by
      intro e he
      rw [← mem_arrange (ahead := ahead), hM] at he
      rcases List.mem_cons.1 he with rfl | he
      · exact hp.refl _
      · exact (List.pairwise_cons.1 h1).1 e he
    have hf := h2 x
    rw [List.filter_cons, if_pos hx] at hf
    obtain ⟨pre, post, e1, e2, _, _⟩ := List.filter_eq_cons_iff.1 hf.symm
    refine ⟨pre, post, e1, ?_, fun e he => hall e (by rw [e1]; simp [he])⟩
    intro e he
    have h3 := e2 e he
    have h4 := hall e (by rw [e1]; simp [he])
    simp only [same, h4, Bool.true_and] at h3
    simpa using h3

variable {κ : Type} {cmp : κ → κ → Cmp} {f : E → κ}

theorem desc_pre (hc : LawfulCmp cmp) : Preorder' (fun a b => cmp (f a) (f b) != .les) := by
  have fl : ∀ x y : κ, cmp x y = .grt ↔ cmp y x = .les := fun x y => hc.grt_iff
  constructor
  · intro a b h
    simp only [bne_eq_false_iff_eq, bne_iff_ne, ne_eq] at h ⊢
    rw [(fl _ _).2 h]; simp
  · intro a b c h1 h2
    simp only [bne_iff_ne, ne_eq, ← fl] at h1 h2 ⊢
    exact hc.trans _ _ _ h2 h1

theorem asc_pre (hc : LawfulCmp cmp) : Preorder' (fun a b => cmp (f a) (f b) != .grt) := by
  have fl : ∀ x y : κ, cmp x y = .grt ↔ cmp y x = .les := fun x y => hc.grt_iff
  constructor
  · intro a b h
    simp only [bne_eq_false_iff_eq, bne_iff_ne, ne_eq] at h ⊢
    rw [(fl _ _).1 h]; simp
  · intro a b c h1 h2
    simp only [bne_iff_ne, ne_eq] at h1 h2 ⊢
    exact hc.trans _ _ _ h1 h2

theorem desc_same (hc : LawfulCmp cmp) (a b : E) : same (fun a b => cmp (f a) (f b) != .les) a b = (cmp (f a) (f b) == .eql) := by
  have fl : cmp (f a) (f b) = .grt ↔ cmp (f b) (f a) = .les := hc.grt_iff
  have fl' : cmp (f b) (f a) = .grt ↔ cmp (f a) (f b) = .les := hc.grt_iff
  have sy : cmp (f a) (f b) = .eql → cmp (f b) (f a) = .eql := hc.symm
  have ne := hc.noErr (f a) (f b)
  unfold same
  cases h : cmp (f a) (f b) <;> simp_all

theorem asc_same (hc : LawfulCmp cmp) (a b : E) : same (fun a b => cmp (f a) (f b) != .grt) a b = (cmp (f a) (f b) == .eql) := by
  have fl : cmp (f a) (f b) = .grt ↔ cmp (f b) (f a) = .les := hc.grt_iff
  have fl' : cmp (f b) (f a) = .grt ↔ cmp (f a) (f b) = .les := hc.grt_iff
  have sy : cmp (f a) (f b) = .eql → cmp (f b) (f a) = .eql := hc.symm
  have ne := hc.noErr (f a) (f b)
  unfold same
  cases h : cmp (f a) (f b) <;> simp_all

end CCC.MultiSpec
