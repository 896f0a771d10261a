import Verif.Proof.Splay
import Mathlib.Analysis.SpecialFunctions.Log.Base
/-
The potential argument for top-down splaying, on trees (`Split`, `Verif/Proof/SplaySplit.lean`).
-/
namespace CCC.Splay
open CCC Tree

/-- Number of nodes plus one. -/
def W : Tree → Nat
  | nil => 1
  | node _ _ l r => W l + W r

noncomputable def lg (n : Nat) : ℝ := Real.logb 2 n

/-- The potential of a tree: the sum over all nodes of the logarithm of the subtree's size. -/
noncomputable def Pot : Tree → ℝ
  | nil => 0
  | node _ _ l r => Pot l + Pot r + lg (W l + W r)

theorem W_pos (t : Tree) : 1 ≤ W t := by
  induction t with
  | nil => exact Nat.le_refl _
  | node _ _ l r h1 _ => simp only [W]; omega

theorem W_ids (t : Tree) : W t = t.ids.length + 1 := by
  induction t with
  | nil => rfl
  | node _ _ l r h1 h2 => simp only [W, ids, h1, h2, List.length_append, List.length_cons]; omega

@[simp] theorem W_nd (d : Bool) (i k : Nat) (a b : Tree) : W (nd d i k a b) = W a + W b := by
  cases d <;> simp [W, Nat.add_comm]

@[simp] theorem W_nil : W nil = 1 := rfl
@[simp] theorem Pot_nil : Pot nil = 0 := rfl

@[simp] theorem Pot_nd (d : Bool) (i k : Nat) (a b : Tree) : Pot (nd d i k a b) = Pot a + Pot b + lg (W a + W b) := by
  cases d
  · simp [Pot]
  · simp only [nd_true, Pot, Nat.add_comm (W b)]; ring

theorem lg_mono {a b : Nat} (ha : 1 ≤ a) (h : a ≤ b) : lg a ≤ lg b := by
  have h0 : (0:ℝ) < (a:ℝ) := by exact_mod_cast ha
  have h1 : (a:ℝ) ≤ b := by exact_mod_cast h
  exact Real.logb_le_logb_of_le (by norm_num) h0 h1

theorem lg_nonneg {a : Nat} (ha : 1 ≤ a) : 0 ≤ lg a := by
  have := lg_mono (Nat.le_refl 1) ha
  have h : lg 1 = 0 := by simp [lg]
  rw [h] at this; exact this

theorem lg_two : lg 2 = 1 := by
  simp only [lg, Nat.cast_ofNat]; exact Real.logb_self_eq_one (by norm_num)

theorem lg_ge_one {a : Nat} (ha : 2 ≤ a) : 1 ≤ lg a := by rw [← lg_two]; exact lg_mono (by omega) ha

theorem lg_add {a b : Nat} (ha : 1 ≤ a) (hb : 1 ≤ b) : lg a + lg b ≤ 2 * lg (a + b) - 2 := by
  have ha' : (1:ℝ) ≤ a := by exact_mod_cast ha
  have hb' : (1:ℝ) ≤ b := by exact_mod_cast hb
  have h : 4 * ((a:ℝ) * b) ≤ ((a:ℝ) + b)^2 := by nlinarith [sq_nonneg ((a:ℝ)-b)]
  have h4 : Real.logb 2 4 = 2 := by
    rw [show (4:ℝ) = 2^2 by norm_num, Real.logb_pow, Real.logb_self_eq_one (by norm_num)]; norm_num
  have := Real.logb_le_logb_of_le (b := 2) (by norm_num) (by positivity) h
  rw [Real.logb_mul (by norm_num) (by positivity), Real.logb_mul (by positivity) (by positivity), Real.logb_pow, h4] at this
  simp only [lg, Nat.cast_add]
  push_cast at this
  linarith

theorem Pot_nonneg (t : Tree) : 0 ≤ Pot t := by
  induction t with
  | nil => exact le_refl _
  | node _ _ l r h1 h2 =>
    simp only [Pot]
    have := lg_nonneg (a := W l + W r) (by have := W_pos l; omega)
    linarith

theorem setP_W (P : Bool → Tree) (d : Bool) (t : Tree) :
    W (setP P d t true) + W (setP P d t false) = W t + W (P (!d)) := by
  cases d <;> simp [setP, Nat.add_comm]

theorem setP_Pot (P : Bool → Tree) (d : Bool) (t : Tree) :
    Pot (setP P d t true) + Pot (setP P d t false) = Pot t + Pot (P (!d)) := by
  cases d <;> simp [setP, add_comm]

theorem sumW (P : Bool → Tree) (d : Bool) : W (P true) + W (P false) = W (P d) + W (P (!d)) := by
  cases d <;> simp [Nat.add_comm]
theorem sumPot (P : Bool → Tree) (d : Bool) : Pot (P true) + Pot (P false) = Pot (P d) + Pot (P (!d)) := by
  cases d <;> simp [add_comm]

theorem Split.W_eq {c : Nat → Cmp} {X : Tree} {P : Bool → Tree} {x k n : Nat} (h : Split c X P x k n) :
    W (P true) + W (P false) = W X := by
  induction h with
  | found => simp [W]
  | last => rw [setP_W]; simp [Nat.add_comm]
  | zzLast => rw [setP_W]; simp; omega
  | @zz d i k j m A B Z P x kx n _ _ _ _ ih => rw [setP_W]; rw [sumW P d] at ih; simp; omega
  | @zig d i k A Y P x kx n _ _ _ _ ih => rw [setP_W]; rw [sumW P d] at ih; simp; omega

theorem dirCmp_inj {a b : Bool} (h : dirCmp a = dirCmp b) : a = b := by
  cases a <;> cases b <;> simp_all [dirCmp]

/-- Amortised number of comparisons of the loop. -/
theorem Split.amortized {c : Nat → Cmp} {X : Tree} {P : Bool → Tree} {x k n : Nat} (h : Split c X P x k n) :
    (n : ℝ) + 2 * (Pot (P true) + Pot (P false) - Pot X) ≤ 4 * lg (W X) + 2 ∧
    ((n : ℝ) + 2 * (Pot (P true) + Pot (P false) - Pot X) ≤ 0 ∨
      ∃ e, c X.rootId = dirCmp e ∧
        (n : ℝ) + 2 * (Pot (P true) + Pot (P false) - Pot X) - 2 * lg (W (P e)) ≤ 2 * lg (W X) + 4) := by
  induction h with
  | @found i k l r h =>
    have h1 := lg_ge_one (a := W l + W r) (by have := W_pos l; have := W_pos r; omega)
    simp only [if_true, Bool.false_eq_true, if_false, Pot, W, Nat.cast_one]
    exact ⟨by linarith, Or.inl (by linarith)⟩
  | @last d i k A h =>
    have h1 := lg_ge_one (a := 1 + W A) (by have := W_pos A; omega)
    rw [setP_Pot]
    simp only [Pot_nil, Pot_nd, W_nd, W_nil, Nat.cast_one]
    exact ⟨by linarith, Or.inl (by linarith)⟩
  | @zzLast d i k j m A B h h' =>
    have hA := W_pos A
    have hB := W_pos B
    have h1 := lg_ge_one (a := 1 + W B) (by omega)
    have h2 := lg_mono (a := W B + W A) (b := 1 + W B + W A) (by omega) (by omega)
    have h3 := lg_nonneg (a := 1 + W B + W A) (by omega)
    rw [setP_Pot]
    simp only [Pot_nil, Pot_nd, W_nd, W_nil, Nat.cast_ofNat]
    exact ⟨by linarith, Or.inl (by linarith)⟩
  | @zz d i k j m A B Z P x kx n h h' hZ hs ih =>
    obtain ⟨ih, -⟩ := ih
    have hw := hs.W_eq
    rw [sumPot P d] at ih
    rw [sumW P d] at hw
    have hA := W_pos A
    have hB := W_pos B
    have hZ1 := W_pos Z
    have hP := W_pos (P d)
    have hP' := W_pos (P !d)
    have e1 := lg_mono (a := W (P d) + (W B + W A)) (b := W Z + W B + W A) (by omega) (by omega)
    have e2 := lg_add (a := W B + W A) (b := W Z) (by omega) hZ1
    rw [show W B + W A + W Z = W Z + W B + W A by omega] at e2
    have e3 := lg_mono (a := W Z) (b := W Z + W B) hZ1 (by omega)
    have e4 := lg_mono (a := W B + W A) (b := W Z + W B + W A) (by omega) (by omega)
    have e5 := lg_mono (a := W Z) (b := W Z + W B + W A) hZ1 (by omega)
    rw [setP_Pot]
    simp only [Pot_nd, W_nd, nd_rootId, Nat.cast_add, Nat.cast_ofNat]
    refine ⟨by linarith, Or.inr ⟨d, h, ?_⟩⟩
    simp only [setP, if_true, W_nd]
    linarith
  | @zig d i k A Y P x kx n h hY hne hs ih =>
    obtain ⟨ih, ih2⟩ := ih
    have hw := hs.W_eq
    rw [sumPot P d] at ih ih2
    rw [sumW P d] at hw
    have hA := W_pos A
    have hY1 := W_pos Y
    have hP := W_pos (P d)
    have hP' := W_pos (P !d)
    have e1 := lg_mono (a := W (P d) + W A) (b := W Y + W A) (by omega) (by omega)
    have e2 := lg_add (a := W (P d) + W A) (b := W (P !d)) (by omega) hP'
    rw [show W (P d) + W A + W (P !d) = W Y + W A by omega] at e2
    have e3 := lg_mono (a := W Y) (b := W Y + W A) hY1 (by omega)
    have e4 := lg_nonneg (a := W Y + W A) (by omega)
    rw [setP_Pot]
    simp only [Pot_nd, W_nd, nd_rootId, Nat.cast_add, Nat.cast_ofNat]
    refine ⟨?_, Or.inr ⟨d, h, ?_⟩⟩
    · rcases ih2 with ih2 | ⟨e, he, ih2⟩
      · linarith
      · have : e = !d := by
          cases e <;> cases d <;> simp_all
        subst this
        linarith
    · simp only [setP, if_true, W_nd]
      linarith

/-- Amortised number of comparisons of a splay. -/
theorem Split.splay {c : Nat → Cmp} {X : Tree} {P : Bool → Tree} {x k n : Nat} (h : Split c X P x k n) :
    (n : ℝ) + 2 * Pot (node x k (P true) (P false)) ≤ 2 * Pot X + 6 * lg (W X) + 2 := by
  have := h.amortized.1
  simp only [Pot, h.W_eq]
  linarith

end CCC.Splay
