import Verif.Spec.HashCost
import Verif.Proof.FlatHashMapRuns
import Verif.Proof.HashAverage
import Mathlib.Data.FinEnum
/-
On average over all hash functions the next empty slot is a constant number of steps away.
-/
namespace CCC.Fhm
open CCC HashMap Finset

/-- Before the first two slots are taken out: src/flat_hash_map.c:1016-1022. -/
def raw (wide : Bool) (cap : Nat) (u : UInt64) : Nat := if wide then u.toNat * cap / 2 ^ 64 else u.toNat % cap

theorem raw_card (wide : Bool) {cap : Nat} (hcap : 0 < cap) (q : Nat) : #{u : UInt64 | raw wide cap u = q} ≤ 2 ^ 64 / cap + 1 := by
  rw [← card_range (2 ^ 64 / cap + 1)]
  cases wide with
  | false =>
    refine card_le_card_of_injOn (fun u => u.toNat / cap) ?_ ?_
    · intro u _
      rw [mem_coe, mem_range]
      have := Nat.div_le_div_right (c := cap) (Nat.le_of_lt u.toNat_lt)
      show u.toNat / cap < _
      omega
    · intro u hu v hv huv
      rw [mem_coe, mem_filter] at hu hv
      have h1 : u.toNat % cap = q := hu.2
      have h2 : v.toNat % cap = q := hv.2
      have h3 : u.toNat / cap = v.toNat / cap := huv
      have h4 := Nat.div_add_mod u.toNat cap
      have h5 := Nat.div_add_mod v.toNat cap
      rw [h1, h3] at h4
      rw [h2] at h5
      exact UInt64.toNat_inj.1 (by omega)
  | true =>
    have hd : ∀ u ∈ ({u : UInt64 | raw true cap u = q} : Finset UInt64), 2 ^ 64 * q ≤ u.toNat * cap ∧ u.toNat * cap < 2 ^ 64 * q + 2 ^ 64 := by
      intro u hu
      rw [mem_filter] at hu
      have h1 : u.toNat * cap / 2 ^ 64 = q := hu.2
      omega
    refine card_le_card_of_injOn (fun u => u.toNat - (2 ^ 64 * q + cap - 1) / cap) ?_ ?_
    · intro u hu
      obtain ⟨h1, h2⟩ := hd u hu
      rw [mem_coe, mem_range, Nat.lt_succ_iff, Nat.le_div_iff_mul_le hcap, Nat.sub_mul]
      have h3 : 2 ^ 64 * q ≤ (2 ^ 64 * q + cap - 1) / cap * cap := by
        have := Nat.lt_div_mul_add (a := 2 ^ 64 * q + cap - 1) hcap
        omega
      omega
    · intro u hu v hv huv
      obtain ⟨h1, _⟩ := hd u hu
      obtain ⟨h2, _⟩ := hd v hv
      have hle : ∀ w : UInt64, 2 ^ 64 * q ≤ w.toNat * cap → (2 ^ 64 * q + cap - 1) / cap ≤ w.toNat := by
        intro w hw
        have : (2 ^ 64 * q + cap - 1) / cap < w.toNat + 1 := by
          rw [Nat.div_lt_iff_lt_mul hcap, Nat.add_mul]
          omega
        omega
      have h3 := hle u h1
      have h4 := hle v h2
      have h5 : u.toNat - (2 ^ 64 * q + cap - 1) / cap = v.toNat - (2 ^ 64 * q + cap - 1) / cap := huv
      exact UInt64.toNat_inj.1 (by omega)

/-- The slot a hash value belongs to. -/
def slot (wide : Bool) (cap : Nat) (u : UInt64) : Nat := if raw wide cap u ≤ 1 then 2 else raw wide cap u

theorem toI_hashed {κ α : Type} [DecidableEq κ] (wide : Bool) (key : α → κ) (h : κ → UInt64) {cap : Nat} (h3 : 3 ≤ cap)
    (hc : cap ≤ 2 ^ 50) (k : κ) : toI (hashed wide key h) cap (filter (hashed wide key h) k) = slot wide cap (h k) := by
  have h1 : ∀ u, toI (hashed wide key h) cap u = slot wide cap u := fun u => rfl
  rw [h1]
  unfold Fhm.filter
  split
  · rename_i h0
    have h0 : h k = 0 := h0
    rw [show (hashed wide key h).hash k = 0 from h0, h0]
    cases wide
    · simp only [slot, raw, Bool.false_eq_true, if_false]
      rw [show (0 + 1 : UInt64).toNat = 1 from rfl, show (0 : UInt64).toNat = 0 from rfl, Nat.mod_eq_of_lt (by omega), Nat.zero_mod]
      rfl
    · simp only [slot, raw, if_true]
      rw [show (0 + 1 : UInt64).toNat = 1 from rfl, show (0 : UInt64).toNat = 0 from rfl, Nat.one_mul, Nat.zero_mul,
        Nat.div_eq_of_lt (by omega)]
      rfl
  · rfl

theorem slot_range (wide : Bool) {cap : Nat} (h3 : 3 ≤ cap) (u : UInt64) : 2 ≤ slot wide cap u ∧ slot wide cap u < cap :=
  toI_range (⟨wide, fun _ => 0, fun _ _ => true, fun x => x⟩ : Cfg Unit Unit) h3 u

theorem dist_inj {cap p q b : Nat} (hp : 2 ≤ p) (hp' : p < cap) (hq : 2 ≤ q) (hq' : q < cap) (hb : 2 ≤ b) (hb' : b < cap)
    (h : distance cap p b = distance cap q b) : p = q := by
  unfold distance at h
  split at h <;> split at h <;> omega

theorem dist_inj' {cap p q b : Nat} (hp : 2 ≤ p) (hp' : p < cap) (hq : 2 ≤ q) (hq' : q < cap) (hb : 2 ≤ b) (hb' : b < cap)
    (h : distance cap b p = distance cap b q) : p = q := by
  unfold distance at h
  split at h <;> split at h <;> omega

open Classical in
/-- A window of `L` slots is the home of its share of the hash values, and of that of two more slots. -/
theorem window_card (wide : Bool) {cap : Nat} (h3 : 3 ≤ cap) (j L v : Nat) (hv : 2 ≤ v) (hv' : v < cap) :
    #{u : UInt64 | Window cap j L v (slot wide cap u)} ≤ (L + 2) * (2 ^ 64 / cap + 1) := by
  by_cases hb : ∃ b, 2 ≤ b ∧ b < cap ∧ distance cap v b = j
  · obtain ⟨b, hb, hb', hd⟩ := hb
    let S : Finset ℕ := {q ∈ Ico 2 cap | distance cap q b < L} ∪ {0, 1}
    have hS : #S ≤ L + 2 := by
      refine le_trans (card_union_le _ _) (Nat.add_le_add ?_ (by simp))
      refine le_trans (card_le_card_of_injOn (t := range L) (fun q => distance cap q b) ?_ ?_) (by rw [card_range])
      · intro q hq
        rw [mem_coe, mem_filter] at hq
        rw [mem_coe, mem_range]
        exact hq.2
      · intro p hp q hq hpq
        rw [mem_coe, mem_filter, mem_Ico] at hp hq
        exact dist_inj hp.1.1 hp.1.2 hq.1.1 hq.1.2 hb hb' hpq
    have hsub : ({u : UInt64 | Window cap j L v (slot wide cap u)} : Finset UInt64) ⊆
        S.biUnion (fun q => {u : UInt64 | raw wide cap u = q}) := by
      intro u hu
      rw [mem_filter] at hu
      obtain ⟨_, b', hb1, hb1', hd', hl⟩ := hu
      have hbb := dist_inj' hb hb' hb1 hb1' hv hv' (by rw [hd, hd'])
      subst hbb
      rw [mem_biUnion]
      refine ⟨raw wide cap u, ?_, by simp⟩
      rw [mem_union]
      have hr := slot_range wide h3 u
      by_cases h1 : raw wide cap u ≤ 1
      · right
        have : raw wide cap u = 0 ∨ raw wide cap u = 1 := by omega
        rcases this with h | h <;> rw [h] <;> simp
      · left
        have : slot wide cap u = raw wide cap u := by unfold slot; rw [if_neg h1]
        rw [this] at hr hl
        rw [mem_filter, mem_Ico]
        exact ⟨hr, hl⟩
    calc _ ≤ _ := card_le_card hsub
      _ ≤ ∑ q ∈ S, #{u : UInt64 | raw wide cap u = q} := card_biUnion_le
      _ ≤ ∑ _q ∈ S, (2 ^ 64 / cap + 1) := sum_le_sum fun q _ => raw_card wide (by omega) q
      _ = #S * (2 ^ 64 / cap + 1) := by rw [sum_const, smul_eq_mul]
      _ ≤ _ := Nat.mul_le_mul_right _ hS
  · rw [filter_false_of_mem]
    · simp
    · intro u _ h
      obtain ⟨b, h1, h2, h3, _⟩ := h
      exact hb ⟨b, h1, h2, h3⟩

variable {κ α : Type} [Fintype κ] [DecidableEq κ]

/-- On average over all hash functions the next empty slot is at most 3600 steps away from the home of a key. -/
theorem crowd_average (wide : Bool) (key : α → κ) {cap : Nat} (h3 : 6 ≤ cap) (hc : cap ≤ 2 ^ 50) (K : Finset κ)
    (hK : 5 * #K ≤ 4 * cap) (k : κ) :
    ∑ h : κ → UInt64, crowd (hashed wide key h) cap K k ≤ 3600 * Fintype.card (κ → UInt64) := by
  classical
  have hcard : (Fintype.card UInt64 : ℝ) = 2 ^ 64 := by
    have : Fintype.card UInt64 = 2 ^ 64 := by rw [← FinEnum.card_UInt64, FinEnum.card_eq_fintypeCard]
    rw [this]; norm_num
  have hcp : (0 : ℝ) < cap := by exact_mod_cast (by omega : 0 < cap)
  have hcc : (cap : ℝ) ≤ 2 ^ 50 := by exact_mod_cast hc
  have hav := Avg.average (K.erase k) k (by simp) (fun j L (v u : UInt64) => Window cap j L (slot wide cap v) (slot wide cap u))
    (1 / cap + 1 / 2 ^ 64) (by positivity) (by
      intro j L v
      have hs := slot_range wide (by omega : 3 ≤ cap) v
      have h1 := window_card wide (by omega : 3 ≤ cap) j L (slot wide cap v) hs.1 hs.2
      rw [hcard]
      obtain ⟨N, hN⟩ : ∃ N : ℕ, N = 2 ^ 64 := ⟨_, rfl⟩
      have hNr : (2 ^ 64 : ℝ) = N := by rw [hN]; norm_num
      rw [← hN] at h1
      rw [hNr]
      have hN0 : (0 : ℝ) < N := by rw [← hNr]; positivity
      have h2 : ((N / cap : ℕ) : ℝ) ≤ N / cap := Nat.cast_div_le
      have h4 : (#{u : UInt64 | Window cap j L (slot wide cap v) (slot wide cap u)} : ℝ) ≤ (L + 2) * ((N / cap : ℕ) + 1) := by
        exact_mod_cast h1
      refine le_trans h4 ?_
      have hL0 : (0 : ℝ) ≤ (L : ℝ) + 2 := by have := Nat.cast_nonneg (α := ℝ) L; linarith
      rw [mul_assoc]
      refine mul_le_mul_of_nonneg_left ?_ hL0
      rw [add_mul, one_div_mul_eq_div, one_div_mul_cancel hN0.ne']
      linarith)
    (by
      have h1 : (#(K.erase k) : ℝ) ≤ #K := by exact_mod_cast card_erase_le
      have h2 : (5 : ℝ) * #K ≤ 4 * cap := by exact_mod_cast hK
      have h5 : (#(K.erase k) : ℝ) ≤ 4 / 5 * cap := by linarith
      refine le_trans (mul_le_mul_of_nonneg_right h5 (by positivity)) ?_
      rw [mul_assoc, mul_add, mul_one_div_cancel hcp.ne', mul_one_div]
      have h6 : (cap : ℝ) / 2 ^ 64 ≤ 1 / 2 ^ 14 := by
        rw [div_le_div_iff₀ (by positivity) (by positivity)]
        linarith
      linarith)
    cap (fun h => crowd (hashed wide key h) cap K k) (by
      intro h
      unfold crowd
      simp only [toI_hashed wide key h (by omega : 3 ≤ cap) hc]
      exact le_of_eq (by congr!))
  have hf : (Fintype.card (κ → UInt64) : ℝ) = (Fintype.card UInt64 : ℝ) ^ Fintype.card κ := by
    rw [Fintype.card_fun]; push_cast; rfl
  rw [← hf] at hav
  exact_mod_cast hav

end CCC.Fhm
