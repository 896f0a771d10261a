import Verif.Proof.PriorityQueueValidate
import Verif.Proof.SplayPotential
/-
The potential of a pairing heap: for every element and every child of it, the logarithm of the number of elements below
that child and its older siblings.
-/
namespace CCC.Pq
open CCC Splay

variable {α : Type} {v : View α} {S R : List Nat} {kids : Nat → List Nat} {w w' : Nat → Nat}

/-- `w` are the sizes of the heaps below the elements. -/
def Wt (S : List Nat) (kids : Nat → List Nat) (w : Nat → Nat) : Prop := ∀ x ∈ S, w x = 1 + ((kids x).map w).sum

theorem Wt.pos (h : Wt S kids w) {x : Nat} (hx : x ∈ S) : 1 ≤ w x := by rw [h x hx]; omega

/-- The logarithms of `k` and the first of the sizes, the first two and so on. -/
noncomputable def psi (w : Nat → Nat) : Nat → List Nat → ℝ
  | _, [] => 0
  | k, x :: l => lg (k + w x) + psi w (k + w x) l

noncomputable def Phi (S : List Nat) (kids : Nat → List Nat) (w : Nat → Nat) : ℝ := (S.map (fun a => psi w 0 (kids a))).sum

theorem psi_append (w : Nat → Nat) : ∀ (l l' : List Nat) (k : Nat),
    psi w k (l ++ l') = psi w k l + psi w (k + (l.map w).sum) l'
  | [], l', k => by simp [psi]
  | x :: l, l', k => by
    simp only [List.cons_append, psi, psi_append w l, List.map_cons, List.sum_cons, Nat.add_assoc]; ring

theorem psi_nonneg : ∀ (l : List Nat) (k : Nat), (∀ x ∈ l, 1 ≤ w x) → 0 ≤ psi w k l
  | [], _, _ => le_refl _
  | x :: l, k, h => by
    have h1 := lg_nonneg (a := k + w x) (by have := h x (by simp); omega)
    have h2 := psi_nonneg l (k + w x) (fun y hy => h y (List.mem_cons_of_mem _ hy))
    simp only [psi]; linarith

theorem psi_mono : ∀ (l : List Nat) (k k' : Nat), (∀ x ∈ l, 1 ≤ w x ∧ w x ≤ w' x) → k ≤ k' → psi w k l ≤ psi w' k' l
  | [], _, _, _, _ => le_refl _
  | x :: l, k, k', h, hk => by
    have hx := h x (by simp)
    have h1 := lg_mono (a := k + w x) (b := k' + w' x) (by omega) (by omega)
    have h2 := psi_mono l (k + w x) (k' + w' x) (fun y hy => h y (List.mem_cons_of_mem _ hy)) (by omega)
    simp only [psi]; linarith

theorem psi_congr (l : List Nat) (k : Nat) (h : ∀ x ∈ l, w x = w' x) : psi w k l = psi w' k l := by
  induction l generalizing k with
  | nil => rfl
  | cons x l ih =>
    simp only [psi]
    rw [h x (by simp), ih _ (fun y hy => h y (List.mem_cons_of_mem _ hy))]

/-- Cutting a child costs at most one logarithm. -/
theorem psi_cut {l K : List Nat} {e : Nat} (h : Cut l e K) (hw : ∀ x ∈ l, 1 ≤ w x) :
    psi w 0 K ≤ psi w 0 l + lg ((l.map w).sum) := by
  rcases h with ⟨A, B, rfl, rfl⟩ | ⟨n, t, rfl, rfl⟩
  · have h1 := psi_mono (w := w) (w' := w) B (0 + (A.map w).sum) (0 + (A.map w).sum + w e)
      (fun x hx => ⟨hw x (by simp [hx]), le_refl _⟩) (by omega)
    have he := hw e (by simp)
    have h2 := lg_nonneg (a := 0 + (A.map w).sum + w e) (by omega)
    have h3 := lg_nonneg (a := ((A ++ e :: B).map w).sum) (by simp; omega)
    rw [psi_append, psi_append]
    simp only [psi]
    linarith
  · have he := hw e (by simp)
    have hn := hw n (by simp)
    have h1 := psi_mono (w := w) (w' := w) t 0 (0 + w n) (fun x hx => ⟨hw x (by simp [hx]), le_refl _⟩) (by omega)
    have h2 := lg_nonneg (a := 0 + w n) (by omega)
    have h3 := lg_mono (a := 0 + (t.map w).sum + w n) (b := ((n :: (t ++ [e])).map w).sum) (by omega) (by
      simp; omega)
    have h4 := lg_nonneg (a := 0 + w n + (t.map w).sum + w e) (by omega)
    rw [psi_append]
    simp only [psi]
    rw [psi_append]
    simp only [psi]
    linarith

theorem Phi_perm {S' : List Nat} (h : S.Perm S') : Phi S kids w = Phi S' kids w := (h.map _).sum_eq

theorem Phi_nonneg (h : Wt S kids w) (hk : ∀ a ∈ S, ∀ k ∈ kids a, k ∈ S) : 0 ≤ Phi S kids w := by
  refine List.sum_nonneg (fun x hx => ?_)
  obtain ⟨a, ha, rfl⟩ := List.mem_map.1 hx
  exact psi_nonneg _ _ (fun x hx => h.pos (hk a ha x hx))

theorem Phi_congr {kids' : Nat → List Nat} (h : ∀ a ∈ S, psi w 0 (kids a) = psi w' 0 (kids' a)) :
    Phi S kids w = Phi S kids' w' := by
  unfold Phi; rw [List.map_congr_left h]

theorem Phi_le {kids' : Nat → List Nat} (h : ∀ a ∈ S, psi w 0 (kids a) ≤ psi w' 0 (kids' a)) :
    Phi S kids w ≤ Phi S kids' w' := by
  unfold Phi
  exact List.sum_le_sum h

/-- Giving one element other children. -/
theorem Phi_upd (hn : S.Nodup) {p : Nat} (hp : p ∈ S) (K : List Nat) :
    Phi S (upd kids p K) w + psi w 0 (kids p) = Phi S kids w + psi w 0 K := by
  have h1 := List.perm_cons_erase hp
  rw [Phi_perm h1, Phi_perm h1]
  have hne : ∀ a ∈ S.erase p, a ≠ p := fun a ha => ((hn.mem_erase_iff).1 ha).1
  have : Phi (S.erase p) (upd kids p K) w = Phi (S.erase p) kids w := Phi_congr (fun a ha => by rw [upd_ne _ _ (hne a ha)])
  simp only [Phi, List.map_cons, List.sum_cons, upd_same] at *
  linarith

/-- The sizes exist. -/
theorem Shape.wt {s : Pq α} (h : Shape s.v S R kids) : ∃ w, Wt S kids w := by
  obtain ⟨rk, hrk⟩ := h.rank
  refine ⟨fun x => weight kids (rk x + 1) x, fun x hx => ?_⟩
  show 1 + _ = 1 + _
  rw [sum_congr (fun k hk => weight_stable h hrk (rk x) (rk k + 1) k (h.kid_mem hx hk) (hrk x hx k hk) (by omega))]

/-- No size exceeds the number of elements. -/
theorem Shape.wt_le {s : Pq α} (h : Shape s.v S R kids) (hw : Wt S kids w) : ∀ x ∈ S, w x ≤ S.length := by
  obtain ⟨rk, hrk⟩ := h.rank
  have hB : ∃ B, ∀ a ∈ S, rk a ≤ B := by
    clear h hw hrk
    induction S with
    | nil => exact ⟨0, by simp⟩
    | cons a S ih =>
      obtain ⟨B, hB⟩ := ih
      refine ⟨max B (rk a), fun x hx => ?_⟩
      rcases List.mem_cons.1 hx with rfl | hx
      · omega
      · have := hB x hx; omega
  obtain ⟨B, hB⟩ := hB
  have mem_le : ∀ {l : List Nat} {x : Nat}, x ∈ l → w x ≤ (l.map w).sum := by
    intro l
    induction l with
    | nil => intro x hx; simp at hx
    | cons y l ih =>
      intro x hx
      rw [List.map_cons, List.sum_cons]
      rcases List.mem_cons.1 hx with rfl | hx
      · omega
      · have := ih hx; omega
  have : ∀ m x, x ∈ S → B - rk x ≤ m → w x ≤ S.length := by
    intro m
    induction m with
    | zero =>
      intro x hx hm
      rcases h.root_or_kid hx with hr | ⟨b, hb, hk⟩
      · have := weights h hw; have := mem_le hr; omega
      · have := hrk b hb x hk; have := hB b hb; omega
    | succ m ih =>
      intro x hx hm
      rcases h.root_or_kid hx with hr | ⟨b, hb, hk⟩
      · have := weights h hw; have := mem_le hr; omega
      · have := hrk b hb x hk
        have := hB b hb
        have := ih b hb (by omega)
        have := mem_le hk
        have := hw b hb
        omega
  exact fun x hx => this _ x hx (Nat.le_refl _)

/-- Fewer children, smaller sizes. -/
theorem wt_smaller {kids' : Nat → List Nat} {rk : Nat → Nat} (hrk : ∀ a ∈ S, ∀ k ∈ kids a, rk k < rk a)
    (hS : ∀ a ∈ S, ∀ k ∈ kids a, k ∈ S)
    (hk : ∀ a ∈ S, ∃ l, (kids a).Perm (l ++ kids' a)) (h : Wt S kids w) (h' : Wt S kids' w') : ∀ x ∈ S, w' x ≤ w x := by
  have sum_le : ∀ {l : List Nat} {f g : Nat → Nat}, (∀ x ∈ l, f x ≤ g x) → (l.map f).sum ≤ (l.map g).sum := by
    intro l f g
    induction l with
    | nil => simp
    | cons y l ih =>
      intro h
      have h1 := h y (by simp)
      have h2 := ih (fun x hx => h x (List.mem_cons_of_mem _ hx))
      simp only [List.map_cons, List.sum_cons]; omega
  have : ∀ n x, x ∈ S → rk x ≤ n → w' x ≤ w x := by
    intro n
    induction n with
    | zero =>
      intro x hx hn
      rw [h x hx, h' x hx]
      obtain ⟨l, hl⟩ := hk x hx
      have e : kids x = [] := by
        cases e : kids x with
        | nil => rfl
        | cons y t => have := hrk x hx y (by rw [e]; simp); omega
      rw [e] at hl
      have := hl.length_eq
      simp only [List.length_nil, List.length_append] at this
      have e' : kids' x = [] := List.length_eq_zero_iff.1 (by omega)
      rw [e, e']; simp
    | succ n ih =>
      intro x hx hn
      rw [h x hx, h' x hx]
      obtain ⟨l, hl⟩ := hk x hx
      have h1 := (hl.map w).sum_nat
      rw [List.map_append, List.sum_append] at h1
      have h2 : ((kids' x).map w').sum ≤ ((kids' x).map w).sum := sum_le (fun k hk' => by
        have hkx : k ∈ kids x := hl.symm.subset (List.mem_append_right _ hk')
        exact ih k (hS x hx k hkx) (by have := hrk x hx k hkx; omega))
      omega
  exact fun x hx => this _ x hx (Nat.le_refl _)

end CCC.Pq
