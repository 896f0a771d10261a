import Verif.Spec.Double
import Mathlib.Tactic.Ring
import Mathlib.Tactic.NormNum
/-
Comparing a rounded quotient with the rounded 4/5.
-/
namespace CCC.Dbl

theorem nearest_spec (a b : Nat) (hb : 0 < b) : 2 * (b * nearest a b) ≤ 2 * a + b ∧ 2 * a ≤ 2 * (b * nearest a b) + b := by
  have h := Nat.div_add_mod a b
  have hr := Nat.mod_lt a hb
  unfold nearest
  split
  · omega
  split
  · rw [Nat.mul_add]; omega
  · have h2 : (a / b) % 2 < 2 := Nat.mod_lt _ (by omega)
    rw [Nat.mul_add]
    have h3 : b * ((a / b) % 2) ≤ b * 1 := Nat.mul_le_mul_left _ (by omega)
    omega

theorem shift_spec {a b : Nat} (ha : 0 < a) : b ≤ a * 2 ^ shift a b ∧ ∀ k, b ≤ a * 2 ^ k → shift a b ≤ k := by
  have key : ∀ k, (b + (a - 1)) / a ≤ 2 ^ k ↔ b ≤ a * 2 ^ k := by
    intro k
    rw [← Nat.lt_succ_iff, Nat.div_lt_iff_lt_mul ha, Nat.succ_mul, Nat.mul_comm a]
    omega
  constructor
  · exact (key _).1 (Nat.le_pow_clog (by omega) _)
  · intro k hk
    exact Nat.clog_le_of_le_pow ((key k).2 hk)

/-- `0.8` as a double. -/
theorem lit08 : div 4 5 = ⟨7205759403792794, 53⟩ := by
  have h : shift 4 5 = 1 := by
    have h1 := (shift_spec (a := 4) (b := 5) (by omega)).2 1 (by omega)
    have h2 := (shift_spec (a := 4) (b := 5) (by omega)).1
    have h3 : shift 4 5 ≠ 0 := by intro h; rw [h] at h2; omega
    omega
  unfold div
  rw [h]
  have h2 : nearest (4 * 2 ^ (52 + 1)) 5 = 7205759403792794 := by decide
  rw [h2]

theorem div_le_08 {a b : Nat} (hb : 0 < b) (hab : a ≤ b) (hs : b ≤ 2 ^ 50) : Le (div a b) (div 4 5) ↔ 5 * a ≤ 4 * b := by
  rw [lit08]
  unfold Le div
  simp only
  rcases Nat.eq_zero_or_pos a with rfl | ha
  · have : nearest (0 * 2 ^ (52 + shift 0 b)) b = 0 := by
      simp [nearest, hb]
    rw [this]; simp
  obtain ⟨h1, h2⟩ := shift_spec (a := a) (b := b) ha
  obtain ⟨n1, n2⟩ := nearest_spec (a * 2 ^ (52 + shift a b)) b hb
  generalize nearest (a * 2 ^ (52 + shift a b)) b = m at *
  generalize shift a b = k at *
  match k, h1, h2 with
  | 0, h1, _ =>
    have e : a = b := by omega
    subst e
    have e2 : m = 2 ^ 52 := by
      have h3 : 2 * (a * m) ≤ 2 * (a * 2 ^ 52) + a := n1
      have h4 : 2 * (a * 2 ^ 52) ≤ 2 * (a * m) + a := n2
      by_contra hne
      rcases Nat.lt_or_gt_of_ne hne with h | h
      · have : a * (m + 1) ≤ a * 2 ^ 52 := Nat.mul_le_mul_left _ h
        rw [Nat.mul_add] at this; omega
      · have : a * (2 ^ 52 + 1) ≤ a * m := Nat.mul_le_mul_left _ h
        rw [Nat.mul_add] at this; omega
    subst e2
    constructor
    · intro h; exfalso; revert h; norm_num
    · intro h; omega
  | 1, h1, h2 =>
    rw [show 52 + 1 = 53 from rfl] at n1 n2 ⊢
    have e : m * 2 ^ 53 ≤ 7205759403792794 * 2 ^ 53 ↔ m ≤ 7205759403792794 :=
      Nat.mul_le_mul_right_iff (by decide)
    rw [e]
    constructor
    · intro hm
      have h3 : b * m ≤ b * 7205759403792794 := Nat.mul_le_mul_left _ hm
      by_contra hn
      have h4 : 4 * b + 1 ≤ 5 * a := by omega
      omega
    · intro h
      by_contra hm
      have h3 : b * 7205759403792795 ≤ b * m := Nat.mul_le_mul_left _ (by omega)
      omega
  | k + 2, _, h2 =>
    have h3 : a * 2 ^ (k + 1) < b := by
      by_contra hn
      have := h2 (k + 1) (by omega)
      omega
    have h0 : 1 ≤ 2 ^ k := Nat.one_le_two_pow
    have h4 : a * 2 ≤ a * 2 ^ (k + 1) := Nat.mul_le_mul_left _ (by rw [Nat.pow_succ]; omega)
    have hA : a * 2 ^ (52 + (k + 2)) = a * 2 ^ (k + 1) * 2 ^ 53 := by
      rw [show 52 + (k + 2) = (k + 1) + 53 from by omega, Nat.pow_add, Nat.mul_assoc]
    rw [hA] at n1
    have hm : m ≤ 2 ^ 53 := by
      by_contra hn
      have h5 : b * (2 ^ 53 + 1) ≤ b * m := Nat.mul_le_mul_left _ (by omega)
      omega
    refine ⟨fun _ => by omega, fun _ => ?_⟩
    have h5 : 2 ^ (52 + (k + 2)) = 2 ^ k * 2 ^ 54 := by rw [← Nat.pow_add]; congr 1; omega
    rw [h5]
    have h6 : 7205759403792794 * (1 * 2 ^ 54) ≤ 7205759403792794 * (2 ^ k * 2 ^ 54) :=
      Nat.mul_le_mul_left _ (Nat.mul_le_mul_right _ h0)
    have h7 : m * 2 ^ 53 ≤ 2 ^ 53 * 2 ^ 53 := Nat.mul_le_mul_right _ hm
    exact Nat.le_trans h7 (Nat.le_trans (by norm_num) h6)

end CCC.Dbl
