import Verif.Proof.SplayPotential
/-
The potential argument for top-down splaying with a weight for every node: the access lemma, and what it says about sequences of
searches.
-/
namespace CCC.Splay
open CCC Tree

/-- Sum of the weights of a tree. -/
noncomputable def Sw (w : Nat → ℝ) : Tree → ℝ
  | nil => 0
  | node i _ l r => w i + Sw w l + Sw w r

/-- Sum of the logarithms of the weights of all subtrees. -/
noncomputable def PotW (w : Nat → ℝ) : Tree → ℝ
  | nil => 0
  | node i _ l r => PotW w l + PotW w r + Real.logb 2 (w i + Sw w l + Sw w r)

variable {w : Nat → ℝ}

@[simp] theorem Sw_nil : Sw w nil = 0 := rfl
@[simp] theorem PotW_nil : PotW w nil = 0 := rfl

@[simp] theorem Sw_nd (d : Bool) (i k : Nat) (a b : Tree) : Sw w (nd d i k a b) = w i + Sw w a + Sw w b := by
  cases d <;> simp [Sw]
  ring

@[simp] theorem PotW_nd (d : Bool) (i k : Nat) (a b : Tree) :
    PotW w (nd d i k a b) = PotW w a + PotW w b + Real.logb 2 (w i + Sw w a + Sw w b) := by
  cases d
  · simp [PotW]
  · simp only [nd_true, PotW, add_right_comm (w i)]; ring

theorem Sw_nonneg (hw : ∀ i, 0 < w i) (t : Tree) : 0 ≤ Sw w t := by
  induction t with
  | nil => exact le_refl _
  | node i _ l r h1 h2 => simp only [Sw]; have := hw i; linarith

theorem Sw_ids (t : Tree) : Sw w t = (t.ids.map w).sum := by
  induction t with
  | nil => rfl
  | node i _ l r h1 h2 => simp only [Sw, ids, List.map_append, List.map_cons, List.sum_append, List.sum_cons, h1, h2]; ring

theorem logb_mono {a b : ℝ} (ha : 0 < a) (h : a ≤ b) : Real.logb 2 a ≤ Real.logb 2 b :=
  Real.logb_le_logb_of_le (by norm_num) ha h

theorem logb_pair {a b s : ℝ} (ha : 0 < a) (hb : 0 < b) (hs : a + b ≤ s) : Real.logb 2 a + Real.logb 2 b ≤ 2 * Real.logb 2 s - 2 := by
  have h : 4 * (a * b) ≤ s ^ 2 := by nlinarith [sq_nonneg (a - b)]
  have h4 : Real.logb 2 4 = 2 := by
    rw [show (4:ℝ) = 2^2 by norm_num, Real.logb_pow, Real.logb_self_eq_one (by norm_num)]; norm_num
  have hs0 : 0 < s := by linarith
  have := Real.logb_le_logb_of_le (b := 2) (by norm_num) (by positivity) h
  rw [Real.logb_mul (by norm_num) (by positivity), Real.logb_mul (by positivity) (by positivity), Real.logb_pow, h4] at this
  push_cast at this
  linarith

theorem setP_Sw (P : Bool → Tree) (d : Bool) (t : Tree) :
    Sw w (setP P d t true) + Sw w (setP P d t false) = Sw w t + Sw w (P (!d)) := by
  cases d <;> simp [setP, add_comm]
theorem setP_PotW (P : Bool → Tree) (d : Bool) (t : Tree) :
    PotW w (setP P d t true) + PotW w (setP P d t false) = PotW w t + PotW w (P (!d)) := by
  cases d <;> simp [setP, add_comm]
theorem sumSw (P : Bool → Tree) (d : Bool) : Sw w (P true) + Sw w (P false) = Sw w (P d) + Sw w (P (!d)) := by
  cases d <;> simp [add_comm]
theorem sumPotW (P : Bool → Tree) (d : Bool) : PotW w (P true) + PotW w (P false) = PotW w (P d) + PotW w (P (!d)) := by
  cases d <;> simp [add_comm]

theorem Split.Sw_eq {c : Nat → Cmp} {X : Tree} {P : Bool → Tree} {x k n : Nat} (h : Split c X P x k n) (w : Nat → ℝ) :
    w x + Sw w (P true) + Sw w (P false) = Sw w X := by
  rw [add_assoc]
  induction h with
  | found => simp [Sw, add_assoc]
  | last => rw [setP_Sw]; simp
  | zzLast => rw [setP_Sw]; simp; ring
  | @zz d i k j m A B Z P x kx n _ _ _ _ ih => rw [setP_Sw]; rw [sumSw P d] at ih; simp; linarith
  | @zig d i k A Y P x kx n _ _ _ _ ih => rw [setP_Sw]; rw [sumSw P d] at ih; simp; linarith

/-- The access lemma. -/
theorem Split.access (hw : ∀ i, 0 < w i) {c : Nat → Cmp} {X : Tree} {P : Bool → Tree} {x k n : Nat} (h : Split c X P x k n) :
    (n : ℝ) + 2 * (PotW w (P true) + PotW w (P false) + Real.logb 2 (Sw w X) - PotW w X)
        ≤ 6 * (Real.logb 2 (Sw w X) - Real.logb 2 (w x)) + 3 ∧
    ((n : ℝ) + 2 * (PotW w (P true) + PotW w (P false) + Real.logb 2 (Sw w X) - PotW w X)
        ≤ 6 * (Real.logb 2 (Sw w X) - Real.logb 2 (w x)) + 1 ∨
      ∃ e, c X.rootId = dirCmp e ∧ 0 < Sw w (P e) ∧
        (n : ℝ) + 2 * (PotW w (P true) + PotW w (P false) + Real.logb 2 (Sw w X) - PotW w X) - 2 * Real.logb 2 (Sw w (P e))
          ≤ 4 * Real.logb 2 (Sw w X) - 6 * Real.logb 2 (w x) + 5) := by
  induction h with
  | @found i k l r h =>
    have hl := Sw_nonneg hw l
    have hr := Sw_nonneg hw r
    have h1 := logb_mono (a := w i) (b := w i + Sw w l + Sw w r) (hw i) (by linarith)
    simp only [if_true, Bool.false_eq_true, if_false, PotW, Sw, Nat.cast_one]
    exact ⟨by linarith, Or.inl (by linarith)⟩
  | @last d i k A h =>
    have hA := Sw_nonneg hw A
    have h1 := logb_mono (a := w i) (b := w i + Sw w A) (hw i) (by linarith)
    rw [setP_PotW]
    simp only [PotW_nil, PotW_nd, Sw_nd, Sw_nil, Nat.cast_one, add_zero]
    exact ⟨by linarith, Or.inl (by linarith)⟩
  | @zzLast d i k j m A B h h' =>
    have hA := Sw_nonneg hw A
    have hB := Sw_nonneg hw B
    have hi := hw i
    have hj := hw j
    have h1 := logb_mono (a := w j) (b := w j + Sw w B) hj (by linarith)
    have h2 := logb_mono (a := w i + Sw w B + Sw w A) (b := w i + (w j + Sw w B) + Sw w A) (by linarith) (by linarith)
    have h3 := logb_mono (a := w j + Sw w B) (b := w i + (w j + Sw w B) + Sw w A) (by linarith) (by linarith)
    rw [setP_PotW]
    simp only [PotW_nil, PotW_nd, Sw_nd, Sw_nil, Nat.cast_ofNat, nd_rootId, add_zero]
    refine ⟨by linarith, Or.inr ⟨d, h, ?_, ?_⟩⟩
    · simp only [setP, if_true, Sw_nd]; linarith
    · simp only [setP, if_true, Sw_nd]; linarith
  | @zz d i k j m A B Z P x kx n h h' hZ hs ih =>
    obtain ⟨ih, -⟩ := ih
    have hq := hs.Sw_eq w
    rw [sumPotW P d] at ih
    rw [add_assoc, sumSw P d] at hq
    have hA := Sw_nonneg hw A
    have hB := Sw_nonneg hw B
    have hP := Sw_nonneg hw (P d)
    have hP' := Sw_nonneg hw (P !d)
    have hi := hw i
    have hj := hw j
    have hx := hw x
    have hZ1 : 0 < Sw w Z := by linarith
    have e1 := logb_mono (a := w j + Sw w (P d) + (w i + Sw w B + Sw w A)) (b := w i + (w j + Sw w Z + Sw w B) + Sw w A)
      (by linarith) (by linarith)
    have e2 := logb_pair (a := w i + Sw w B + Sw w A) (b := Sw w Z) (s := w i + (w j + Sw w Z + Sw w B) + Sw w A)
      (by linarith) hZ1 (by linarith)
    have e3 := logb_mono (a := Sw w Z) (b := w j + Sw w Z + Sw w B) hZ1 (by linarith)
    rw [setP_PotW]
    simp only [PotW_nd, Sw_nd, nd_rootId, Nat.cast_add, Nat.cast_ofNat]
    exact ⟨by linarith, Or.inl (by linarith)⟩
  | @zig d i k A Y P x kx n h hY hne hs ih =>
    obtain ⟨ih, ih2⟩ := ih
    have hq := hs.Sw_eq w
    rw [sumPotW P d] at ih ih2
    rw [add_assoc, sumSw P d] at hq
    have hA := Sw_nonneg hw A
    have hP := Sw_nonneg hw (P d)
    have hP' := Sw_nonneg hw (P !d)
    have hi := hw i
    have hx := hw x
    have hY1 : 0 < Sw w Y := by linarith
    have e1 := logb_mono (a := w i + Sw w (P d) + Sw w A) (b := w i + Sw w Y + Sw w A) (by linarith) (by linarith)
    have e3 := logb_mono (a := Sw w Y) (b := w i + Sw w Y + Sw w A) hY1 (by linarith)
    rw [setP_PotW]
    simp only [PotW_nd, Sw_nd, nd_rootId, Nat.cast_add, Nat.cast_ofNat]
    refine ⟨?_, Or.inr ⟨d, h, ?_, ?_⟩⟩
    · rcases ih2 with ih2 | ⟨e, he, hp, ih2⟩
      · linarith
      · have : e = !d := by
          cases e <;> cases d <;> simp_all
        subst this
        have e2 := logb_pair (a := w i + Sw w (P d) + Sw w A) (b := Sw w (P !d)) (s := w i + Sw w Y + Sw w A)
          (by linarith) hp (by linarith)
        linarith
    · simp only [setP, if_true, Sw_nd]; linarith
    · simp only [setP, if_true, Sw_nd]
      linarith

/-- A search of an element by splaying, and the comparison of the key with the root. -/
theorem Split.search (hw : ∀ i, 0 < w i) {c : Nat → Cmp} {X : Tree} {P : Bool → Tree} {x k n : Nat} (h : Split c X P x k n) :
    ((n + 1 : ℕ) : ℝ) + 2 * PotW w (node x k (P true) (P false))
      ≤ 2 * PotW w X + 6 * (Real.logb 2 (Sw w X) - Real.logb 2 (w x)) + 4 := by
  have := (h.access hw).1
  simp only [PotW, h.Sw_eq w]
  push_cast
  linarith

end CCC.Splay
