import Mathlib.Algebra.BigOperators.Ring.Finset
import Mathlib.Algebra.BigOperators.Field
import Mathlib.Data.Fintype.BigOperators
import Mathlib.Data.Fintype.Pi
import Mathlib.Analysis.SpecificLimits.Normed
import Mathlib.Analysis.Complex.Exponential
import Mathlib.Tactic.Linarith
import Mathlib.Tactic.LinearCombination
import Mathlib.Tactic.NormNum
import Mathlib.Tactic.Positivity
/-
Sums over all functions from a finite set of keys to a finite set of values: how often many of the values fall into a given
set (a Chernoff bound by counting).
-/
namespace CCC.Avg
open Finset

variable {κ Ω : Type} [Fintype κ] [DecidableEq κ] [Fintype Ω] [DecidableEq Ω]

/-- Of all functions `h`, those for which at least `L` of the keys `K` have a value related to that of another key `k`. -/
theorem tail (K : Finset κ) (k : κ) (hk : k ∉ K) (I : Ω → Ω → Prop) [∀ v, DecidablePred (I v)] (P z : ℝ)
    (hP0 : 0 ≤ P) (hP : ∀ v, (#{u | I v u} : ℝ) ≤ P * Fintype.card Ω) (hz : 1 ≤ z) (L : ℕ) :
    (#{h : κ → Ω | L ≤ #{a ∈ K | I (h k) (h a)}} : ℝ) * z ^ L ≤
      (Fintype.card Ω : ℝ) ^ Fintype.card κ * (1 + (z - 1) * P) ^ #K := by
  set N : ℝ := (Fintype.card Ω : ℝ) with hN
  have hN0 : 0 ≤ N := by rw [hN]; positivity
  set g : Ω → κ → Ω → ℝ := fun v a u =>
    if a = k then (if u = v then 1 else 0) else if a ∈ K then (if I v u then z else 1) else 1 with hg
  have h1 : (#{h : κ → Ω | L ≤ #{a ∈ K | I (h k) (h a)}} : ℝ) * z ^ L ≤
      ∑ h : κ → Ω, z ^ #{a ∈ K | I (h k) (h a)} := by
    rw [card_eq_sum_ones, Nat.cast_sum, sum_mul, sum_filter]
    refine sum_le_sum fun h _ => ?_
    split
    · rename_i hl
      simpa using pow_le_pow_right₀ hz hl
    · positivity
  have h2 : ∀ h : κ → Ω, z ^ #{a ∈ K | I (h k) (h a)} = ∑ v, ∏ a, g v a (h a) := by
    intro h
    have hv : ∀ v, ∏ a, g v a (h a) = if h k = v then z ^ #{a ∈ K | I v (h a)} else 0 := by
      intro v
      by_cases e : h k = v
      · rw [if_pos e]
        rw [card_eq_sum_ones, ← prod_pow_eq_pow_sum, prod_filter, ← prod_subset (subset_univ K)]
        · refine prod_congr rfl fun a ha => ?_
          have : a ≠ k := fun e => hk (e ▸ ha)
          simp only [hg, if_neg this, if_pos ha, pow_one]
        · intro a _ ha
          simp only [hg, if_neg ha]
          split
          · rename_i e'; rw [e', if_pos e]
          · rfl
      · rw [if_neg e]
        exact prod_eq_zero (mem_univ k) (by simp only [hg, if_true, if_neg e])
    rw [sum_congr rfl fun v _ => hv v, sum_ite_eq, if_pos (mem_univ _)]
  have h3 : ∀ v, ∑ h : κ → Ω, ∏ a, g v a (h a) ≤ N ^ (Fintype.card κ - 1) * (1 + (z - 1) * P) ^ #K := by
    intro v
    rw [← Fintype.prod_sum (fun a u => g v a u)]
    have hb : ∀ a, ∑ u, g v a u ≤ (if a = k then 1 else N) * (if a ∈ K then 1 + (z - 1) * P else 1) := by
      intro a
      by_cases ea : a = k
      · subst ea
        simp [hg, hk]
      · by_cases eK : a ∈ K
        · simp only [hg, if_neg ea, if_pos eK]
          have : ∀ u, (if I v u then z else 1 : ℝ) = 1 + (z - 1) * (if I v u then 1 else 0) := by
            intro u; split <;> ring
          rw [sum_congr rfl fun u _ => this u, sum_add_distrib, ← mul_sum, sum_boole]
          have := hP v
          simp only [sum_const, card_univ, nsmul_eq_mul, mul_one]
          nlinarith
        · simp [hg, ea, eK, hN]
    refine le_trans (prod_le_prod (fun a _ => ?_) fun a _ => hb a) ?_
    · refine sum_nonneg fun u _ => ?_
      simp only [hg]
      split
      · split <;> norm_num
      · split
        · split
          · linarith
          · norm_num
        · norm_num
    · rw [prod_mul_distrib]
      have e1 : ∏ a, (if a = k then 1 else N) = N ^ (Fintype.card κ - 1) := by
        rw [← mul_prod_erase univ _ (mem_univ k), if_pos rfl, one_mul,
          prod_congr rfl (g := fun _ => N) (fun a ha => if_neg (ne_of_mem_erase ha)), prod_const, card_erase_of_mem (mem_univ k),
          card_univ]
      have e2 : ∏ a, (if a ∈ K then 1 + (z - 1) * P else 1) = (1 + (z - 1) * P) ^ #K := by
        rw [← prod_filter, prod_const, filter_mem_eq_inter, univ_inter]
      rw [e1, e2]
  calc _ ≤ _ := h1
    _ = ∑ v, ∑ h : κ → Ω, ∏ a, g v a (h a) := by rw [sum_congr rfl fun h _ => h2 h, sum_comm]
    _ ≤ ∑ _v : Ω, N ^ (Fintype.card κ - 1) * (1 + (z - 1) * P) ^ #K := sum_le_sum fun v _ => h3 v
    _ = _ := by
      have : 0 < Fintype.card κ := Fintype.card_pos_iff.2 ⟨k⟩
      rw [sum_const, card_univ, nsmul_eq_mul, ← hN, ← mul_assoc, ← pow_succ', Nat.sub_add_cancel this]

/-- The base of the growth of the tail. -/
theorem exp_bound : Real.exp (1 / 5 * (1 + 1 / 2 ^ 14)) ≤ 2443 / 2000 := by
  refine le_trans (Real.exp_bound' (n := 5) (by norm_num) (by norm_num) (by norm_num)) ?_
  simp only [sum_range_succ, sum_range_zero, Nat.factorial]
  norm_num

theorem geometric (m : ℕ) : ∑ L ∈ range m, (L : ℝ) * (2443 / 2500) ^ L ≤ 1881 := by
  have h := tsum_coe_mul_geometric_of_norm_lt_one (𝕜 := ℝ) (r := 2443 / 2500) (by rw [Real.norm_eq_abs, abs_of_pos] <;> norm_num)
  have hs : Summable (fun n : ℕ => (n : ℝ) * (2443 / 2500 : ℝ) ^ n) :=
    (hasSum_coe_mul_geometric_of_norm_lt_one (𝕜 := ℝ) (r := 2443 / 2500)
      (by rw [Real.norm_eq_abs, abs_of_pos] <;> norm_num)).summable
  refine le_trans (hs.sum_le_tsum _ (fun i _ => by positivity)) ?_
  rw [h]
  norm_num

/-- If `R h` counts pairs `j < L ≤ m` such that at least `L - 1` of the keys `K` have a value in a set of measure
`(L + 2) p`, where at most four fifths (and a tiny bit) of `1 / p` keys are there, then `R` is at most 3600 on average. -/
theorem average (K : Finset κ) (k : κ) (hk : k ∉ K) (I : ℕ → ℕ → Ω → Ω → Prop) [∀ j L v, DecidablePred (I j L v)]
    (p : ℝ) (hp0 : 0 ≤ p) (hp : ∀ j L v, (#{u | I j L v u} : ℝ) ≤ (L + 2) * p * Fintype.card Ω)
    (hn : #K * p ≤ 4 / 5 * (1 + 1 / 2 ^ 14)) (m : ℕ) (R : (κ → Ω) → ℕ)
    (hR : ∀ h, R h ≤ ∑ L ∈ range m, ∑ j ∈ range L, if L - 1 ≤ #{a ∈ K | I j L (h k) (h a)} then 1 else 0) :
    (∑ h, R h : ℝ) ≤ 3600 * (Fintype.card Ω : ℝ) ^ Fintype.card κ := by
  set T : ℝ := (Fintype.card Ω : ℝ) ^ Fintype.card κ with hT
  have hT0 : 0 ≤ T := by rw [hT]; positivity
  have h1 : ∀ j L : ℕ, (#{h : κ → Ω | L - 1 ≤ #{a ∈ K | I j L (h k) (h a)}} : ℝ) ≤
      T * (2443 / 2000) ^ 2 * (5 / 4) * (2443 / 2500) ^ L := by
    intro j L
    have ht := tail K k hk (I j L) ((L + 2) * p) (5 / 4) (by positivity) (hp j L) (by norm_num) (L - 1)
    have hq : (1 + (5 / 4 - 1) * ((L + 2) * p) : ℝ) ^ #K ≤ (2443 / 2000) ^ (L + 2) := by
      refine le_trans (pow_le_pow_left₀ (by positivity) (b := Real.exp ((5 / 4 - 1) * ((L + 2) * p))) (by have := Real.add_one_le_exp ((5 / 4 - 1) * ((L + 2 : ℝ) * p)); linarith) _) ?_
      rw [← Real.exp_nat_mul]
      refine le_trans (b := Real.exp (((L + 2 : ℕ) : ℝ) * (1 / 5 * (1 + 1 / 2 ^ 14)))) (Real.exp_le_exp.2 ?_) ?_
      · push_cast
        have : (0 : ℝ) ≤ (L + 2) := by positivity
        nlinarith
      · rw [Real.exp_nat_mul]
        exact pow_le_pow_left₀ (Real.exp_nonneg _) exp_bound _
    have hz : (5 / 4 : ℝ) ^ L ≤ 5 / 4 * (5 / 4) ^ (L - 1) := by
      rw [← pow_succ']
      exact pow_le_pow_right₀ (by norm_num) (by omega)
    have hz0 : (0 : ℝ) < (5 / 4) ^ L := by positivity
    rw [← mul_le_mul_iff_of_pos_right hz0]
    have hc : (0 : ℝ) ≤ #{h : κ → Ω | L - 1 ≤ #{a ∈ K | I j L (h k) (h a)}} := by positivity
    calc _ ≤ (#{h : κ → Ω | L - 1 ≤ #{a ∈ K | I j L (h k) (h a)}} : ℝ) * (5 / 4 * (5 / 4) ^ (L - 1)) :=
          mul_le_mul_of_nonneg_left hz hc
      _ ≤ 5 / 4 * (T * (2443 / 2000) ^ (L + 2)) := by
        have := mul_le_mul_of_nonneg_left hq hT0
        linarith
      _ = _ := by
        have : (2443 / 2500 : ℝ) ^ L * (5 / 4) ^ L = (2443 / 2000) ^ L := by rw [← mul_pow]; norm_num
        rw [pow_add]
        linear_combination (-(T * (2443 / 2000) ^ 2 * (5 / 4))) * this
  calc (∑ h, R h : ℝ)
      ≤ ∑ h : κ → Ω, ∑ L ∈ range m, ∑ j ∈ range L, if L - 1 ≤ #{a ∈ K | I j L (h k) (h a)} then (1 : ℝ) else 0 := by
        refine sum_le_sum fun h _ => ?_
        have := hR h
        exact_mod_cast this
    _ = ∑ L ∈ range m, ∑ j ∈ range L, (#{h : κ → Ω | L - 1 ≤ #{a ∈ K | I j L (h k) (h a)}} : ℝ) := by
        rw [sum_comm]
        refine sum_congr rfl fun L _ => ?_
        rw [sum_comm]
        refine sum_congr rfl fun j _ => ?_
        rw [sum_boole]
    _ ≤ ∑ L ∈ range m, ∑ _j ∈ range L, T * (2443 / 2000) ^ 2 * (5 / 4) * (2443 / 2500) ^ L :=
        sum_le_sum fun L _ => sum_le_sum fun j _ => h1 j L
    _ = T * (2443 / 2000) ^ 2 * (5 / 4) * ∑ L ∈ range m, (L : ℝ) * (2443 / 2500) ^ L := by
        rw [mul_sum]
        refine sum_congr rfl fun L _ => ?_
        rw [sum_const, card_range, nsmul_eq_mul]
        ring
    _ ≤ T * (2443 / 2000) ^ 2 * (5 / 4) * 1881 := mul_le_mul_of_nonneg_left (geometric m) (by positivity)
    _ ≤ _ := by nlinarith

end CCC.Avg
