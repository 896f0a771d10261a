import Verif.Proof.SplayWeights
import Verif.Spec.Adaptive
import Verif.Proof.Mono
import Mathlib.Data.List.Dedup
/-
Sequences of searches by splaying, on trees: against a fixed search tree, and by how recently the element was searched.
-/
namespace CCC.Splay
open CCC Tree Adapt

/-- A sequence of searches: the elements they bring to the root, the number of comparisons, the tree afterwards. -/
inductive Finds : Tree → List Nat → Nat → Tree → Prop
  | nil {T} : Finds T [] 0 T
  | cons {c T P x k n xs m T'} : Split c T P x k n → Finds (node x k (P true) (P false)) xs m T' →
      Finds T (x :: xs) (n + 1 + m) T'

variable {w w' : Nat → ℝ}

theorem PotW_le (hw : ∀ i, 0 < w i) {S : ℝ} : ∀ T : Tree, Sw w T ≤ S → PotW w T ≤ T.ids.length * Real.logb 2 S
  | nil, _ => by simp [PotW, ids]
  | node i _ l r, h => by
    have h1 := Sw_nonneg hw l
    have h2 := Sw_nonneg hw r
    have h3 := hw i
    simp only [Sw] at h
    have a := PotW_le hw l (S := S) (by linarith)
    have b := PotW_le hw r (S := S) (by linarith)
    have c := logb_mono (a := w i + Sw w l + Sw w r) (b := S) (by linarith) h
    simp only [PotW, ids, List.length_append, List.length_cons]
    push_cast
    linarith

theorem PotW_ge (hw : ∀ i, 0 < w i) : ∀ T : Tree, (T.ids.map (fun i => Real.logb 2 (w i))).sum ≤ PotW w T
  | nil => by simp [PotW, ids]
  | node i _ l r => by
    have h1 := Sw_nonneg hw l
    have h2 := Sw_nonneg hw r
    have h3 := hw i
    have a := PotW_ge hw l
    have b := PotW_ge hw r
    have c := logb_mono (a := w i) (b := w i + Sw w l + Sw w r) h3 (by linarith)
    simp only [PotW, ids, List.map_append, List.map_cons, List.sum_append, List.sum_cons]
    linarith

theorem Sw_mono : ∀ T : Tree, (∀ i ∈ T.ids, w' i ≤ w i) → Sw w' T ≤ Sw w T
  | nil, _ => le_refl _
  | node i _ l r, h => by
    have a := Sw_mono l (fun j hj => h j (by simp [ids, hj]))
    have b := Sw_mono r (fun j hj => h j (by simp [ids, hj]))
    have c := h i (by simp [ids])
    simp only [Sw]
    linarith

theorem PotW_mono (hw' : ∀ i, 0 < w' i) : ∀ T : Tree, (∀ i ∈ T.ids, w' i ≤ w i) → PotW w' T ≤ PotW w T
  | nil, _ => le_refl _
  | node i m l r, h => by
    have a := PotW_mono hw' l (fun j hj => h j (by simp [ids, hj]))
    have b := PotW_mono hw' r (fun j hj => h j (by simp [ids, hj]))
    have c := Sw_mono (node i m l r) h
    simp only [Sw] at c
    have h1 := Sw_nonneg hw' l
    have h2 := Sw_nonneg hw' r
    have h3 := hw' i
    have d := logb_mono (by linarith) c
    simp only [PotW]
    linarith

theorem Split.Sw_node {c : Nat → Cmp} {X : Tree} {P : Bool → Tree} {x k n : Nat} (h : Split c X P x k n) (w : Nat → ℝ) :
    Sw w (node x k (P true) (P false)) = Sw w X := by
  simp only [Sw]; exact h.Sw_eq w

theorem Finds.Sw_eq {T T' : Tree} {xs : List Nat} {n : Nat} (h : Finds T xs n T') (w : Nat → ℝ) : Sw w T' = Sw w T := by
  induction h with
  | nil => rfl
  | cons h _ ih => rw [ih, h.Sw_node]

/-- Searches, for any weights. -/
theorem Finds.weights (hw : ∀ i, 0 < w i) {T T' : Tree} {xs : List Nat} {n : Nat} (h : Finds T xs n T') :
    (n : ℝ) + 2 * PotW w T' ≤
      2 * PotW w T + (xs.map (fun x => 6 * (Real.logb 2 (Sw w T) - Real.logb 2 (w x)) + 4)).sum := by
  induction h with
  | nil => simp
  | @cons c T P x k n xs m T' h _ ih =>
    have := h.search hw
    rw [h.Sw_node w] at ih
    simp only [List.map_cons, List.sum_cons]
    push_cast at this ih ⊢
    linarith

theorem logb_three : Real.logb 2 3 ≤ 8 / 5 := by
  have h : (5 : ℝ) * Real.logb 2 3 ≤ 8 := by
    have h1 : Real.logb 2 ((3:ℝ) ^ 5) ≤ Real.logb 2 ((2:ℝ) ^ 8) := logb_mono (by norm_num) (by norm_num)
    rw [Real.logb_pow, Real.logb_pow, Real.logb_self_eq_one (by norm_num)] at h1
    push_cast at h1
    linarith
  linarith

theorem sum_map_const_mul (f : Nat → ℝ) (a : ℝ) (l : List Nat) : (l.map (fun i => a * f i)).sum = a * (l.map f).sum := by
  induction l with
  | nil => simp
  | cons x l ih => simp only [List.map_cons, List.sum_cons, ih]; ring

/-- Searches, against a fixed tree: `st i` comparisons find `i` there. -/
theorem Finds.fixed {T T' : Tree} {xs : List Nat} {n : Nat} (h : Finds T xs n T') (st : Nat → Nat)
    (hK : (T.ids.map (fun i => (1 / 3 : ℝ) ^ st i)).sum ≤ 1) (hp : T'.ids.Perm T.ids) :
    n ≤ (xs.map (fun x => 10 * st x + 4)).sum + 4 * (T.ids.map st).sum := by
  have hw : ∀ i, 0 < (fun i => (1 / 3 : ℝ) ^ st i) i := fun i => by positivity
  have h1 := h.weights hw
  have h2 := PotW_le hw (S := 1) T (by rw [Sw_ids]; exact hK)
  have h3 := PotW_ge hw T'
  rw [Real.logb_one, mul_zero] at h2
  have h3' := logb_three
  have h30 : 0 ≤ Real.logb 2 3 := Real.logb_nonneg (by norm_num) (by norm_num)
  have hlg : ∀ i, Real.logb 2 ((1 / 3 : ℝ) ^ st i) = - Real.logb 2 3 * st i := by
    intro i
    rw [Real.logb_pow, one_div, Real.logb_inv]
    ring
  have h4 : (T'.ids.map (fun i => Real.logb 2 ((1 / 3 : ℝ) ^ st i))).sum = - Real.logb 2 3 * ((T.ids.map st).sum : ℕ) := by
    rw [(hp.map _).sum_eq]
    simp only [hlg]
    rw [sum_map_const_mul (fun i => (st i : ℝ))]
    congr 1
    induction T.ids with
    | nil => simp
    | cons x l ih => simp only [List.map_cons, List.sum_cons, ih]; push_cast; ring
  rw [h4] at h3
  have h5 : (xs.map (fun x => 6 * (Real.logb 2 (Sw (fun i => (1 / 3 : ℝ) ^ st i) T) - Real.logb 2 ((1 / 3 : ℝ) ^ st x)) + 4)).sum
      ≤ ((xs.map (fun x => 10 * st x + 4)).sum : ℕ) := by
    rcases Nat.eq_zero_or_pos T.ids.length with h0 | h0
    · cases h with
      | nil => simp
      | @cons _ _ P _ _ _ _ _ _ hs _ =>
        exfalso
        have := hs.W_eq
        rw [W_ids T, h0] at this
        have a := W_pos (P true)
        have b := W_pos (P false)
        omega
    · have hS : Real.logb 2 (Sw (fun i => (1 / 3 : ℝ) ^ st i) T) ≤ 0 := by
        have hS0 : 0 < Sw (fun i => (1 / 3 : ℝ) ^ st i) T := by
          cases T with
          | nil => simp [ids] at h0
          | node i k l r =>
            have := Sw_nonneg hw l
            have := Sw_nonneg hw r
            have := hw i
            simp only [Sw]
            linarith
        have := logb_mono hS0 (b := 1) (by rw [Sw_ids]; exact hK)
        rwa [Real.logb_one] at this
      clear h1 h
      induction xs with
      | nil => simp
      | cons x xs ih =>
        simp only [List.map_cons, List.sum_cons, hlg] at ih ⊢
        push_cast at ih ⊢
        have h0 : (0 : ℝ) ≤ st x := Nat.cast_nonneg _
        nlinarith
  have h6 : (0 : ℝ) ≤ ((T.ids.map st).sum : ℕ) := Nat.cast_nonneg _
  have : (n : ℝ) ≤ (((xs.map (fun x => 10 * st x + 4)).sum + 4 * (T.ids.map st).sum : ℕ) : ℝ) := by
    push_cast at *
    nlinarith
  exact_mod_cast this

/-! ### Recency -/

theorem idx_sum (f : Nat → ℝ) : ∀ ρ : List Nat, ρ.Nodup →
    (ρ.map (fun i => f (ρ.idxOf i))).sum = ((List.range ρ.length).map f).sum := by
  intro ρ
  induction ρ generalizing f with
  | nil => simp
  | cons a ρ ih =>
    intro hn
    have ⟨h1, h2⟩ := List.nodup_cons.1 hn
    rw [List.length_cons, List.range_succ_eq_map]
    simp only [List.map_cons, List.sum_cons, List.idxOf_cons_self, List.map_map]
    rw [← (show ((List.range ρ.length).map (f ∘ Nat.succ)).sum = _ from rfl), ← ih _ h2]
    congr 2
    refine List.map_congr_left (fun i hi => ?_)
    have : a ≠ i := fun e => h1 (by rw [e]; exact hi)
    rw [List.idxOf_cons_ne _ this]
    rfl

theorem square_sum (n : Nat) :
    ((List.range (n + 1)).map (fun j : Nat => (1 : ℝ) / ((j : ℝ) + 1) ^ 2)).sum ≤ 2 - 1 / ((n : ℝ) + 1) := by
  induction n with
  | zero => norm_num
  | succ n ih =>
    rw [List.range_succ, List.map_append, List.sum_append]
    simp only [List.map_cons, List.map_nil, List.sum_cons, List.sum_nil, add_zero]
    have h0 : (0 : ℝ) ≤ n := Nat.cast_nonneg n
    push_cast
    have : (1 : ℝ) / ((n : ℝ) + 1 + 1) ^ 2 ≤ 1 / ((n : ℝ) + 1) - 1 / ((n : ℝ) + 1 + 1) := by
      rw [div_sub_div _ _ (by linarith) (by linarith), div_le_div_iff₀ (by positivity) (by positivity)]
      nlinarith
    linarith

/-- Weights by recency. -/
noncomputable def rw2 (ρ : List Nat) (i : Nat) : ℝ := 1 / ((ρ.idxOf i : ℝ) + 1) ^ 2

theorem rw2_pos (ρ : List Nat) (i : Nat) : 0 < rw2 ρ i := by
  have : (0 : ℝ) ≤ (ρ.idxOf i : ℝ) := Nat.cast_nonneg _
  unfold rw2
  positivity

theorem rw2_logb (ρ : List Nat) (i : Nat) : Real.logb 2 (rw2 ρ i) = - (2 * Real.logb 2 ((ρ.idxOf i : ℝ) + 1)) := by
  rw [rw2, one_div, Real.logb_inv, Real.logb_pow]
  push_cast
  ring

theorem rw2_sum {T : Tree} {ρ : List Nat} (hp : T.ids.Perm ρ) (hn : ρ.Nodup) :
    Sw (rw2 ρ) T = ((List.range ρ.length).map (fun j : Nat => (1 : ℝ) / ((j : ℝ) + 1) ^ 2)).sum := by
  rw [Sw_ids, (hp.map _).sum_eq, ← idx_sum _ ρ hn]
  rfl

theorem rw2_sum_le {T : Tree} {ρ : List Nat} (hp : T.ids.Perm ρ) (hn : ρ.Nodup) : Sw (rw2 ρ) T ≤ 2 := by
  rw [rw2_sum hp hn]
  cases h : ρ.length with
  | zero => simp
  | succ n =>
    have := square_sum n
    have h0 : (0 : ℝ) ≤ 1 / ((n : ℝ) + 1) := by positivity
    linarith

theorem idxOf_erase {x i : Nat} (h : i ≠ x) : ∀ ρ : List Nat, ρ.idxOf i ≤ (ρ.erase x).idxOf i + 1
  | [] => by simp
  | a :: ρ => by
    have := idxOf_erase h ρ
    by_cases hx : a = x
    · subst hx
      rw [List.erase_cons_head, List.idxOf_cons_ne _ (Ne.symm h)]
    · rw [List.erase_cons_tail (by simpa using hx)]
      by_cases hi : a = i
      · subst hi; simp
      · rw [List.idxOf_cons_ne _ hi, List.idxOf_cons_ne _ hi]
        omega

theorem idxOf_erase_lt {x y z : Nat} (hy : y ≠ x) (hz : z ≠ x) : ∀ ρ : List Nat,
    (ρ.erase x).idxOf z < (ρ.erase x).idxOf y → ρ.idxOf z < ρ.idxOf y
  | [], h => by simp at h
  | a :: ρ, h => by
    have ih := idxOf_erase_lt hy hz ρ
    by_cases hx : a = x
    · subst hx
      rw [List.erase_cons_head] at h
      have : ρ.erase a = ρ.erase a := rfl
      rw [List.idxOf_cons_ne _ (Ne.symm hy), List.idxOf_cons_ne _ (Ne.symm hz)]
      omega
    · rw [List.erase_cons_tail (by simpa using hx)] at h
      by_cases hay : a = y
      · subst hay; simp at h
      · by_cases haz : a = z
        · subst haz
          rw [List.idxOf_cons_self, List.idxOf_cons_ne _ hay]
          omega
        · rw [List.idxOf_cons_ne _ hay, List.idxOf_cons_ne _ haz] at *
          have := ih (by omega)
          omega

/-- The element just searched for becomes the most recent one. -/
def touch (ρ : List Nat) (x : Nat) : List Nat := x :: ρ.erase x

theorem touch_perm {ρ : List Nat} {x : Nat} (h : x ∈ ρ) : (touch ρ x).Perm ρ := (List.perm_cons_erase h).symm

theorem touch_rw2 {ρ : List Nat} {x i : Nat} (h : i ≠ x) : rw2 (touch ρ x) i ≤ rw2 ρ i := by
  have h1 := idxOf_erase h ρ
  have h2 : (touch ρ x).idxOf i = (ρ.erase x).idxOf i + 1 := List.idxOf_cons_ne _ (Ne.symm h)
  have h3 : (ρ.idxOf i : ℝ) ≤ ((touch ρ x).idxOf i : ℝ) := by rw [h2]; exact_mod_cast h1
  have h4 : (0 : ℝ) ≤ (ρ.idxOf i : ℝ) := Nat.cast_nonneg _
  unfold rw2
  apply one_div_le_one_div_of_le (by positivity)
  nlinarith

theorem touch_PotW {ρ : List Nat} {x k : Nat} {A B : Tree} (hp : (node x k A B).ids.Perm ρ) (hn : ρ.Nodup) :
    PotW (rw2 (touch ρ x)) (node x k A B) ≤ PotW (rw2 ρ) (node x k A B) := by
  have hx : x ∈ ρ := hp.subset (by simp [ids])
  have hp' : (node x k A B).ids.Perm (touch ρ x) := hp.trans (touch_perm hx).symm
  have hn' : (touch ρ x).Nodup := (touch_perm hx).nodup_iff.2 hn
  have e : Sw (rw2 (touch ρ x)) (node x k A B) = Sw (rw2 ρ) (node x k A B) := by
    rw [rw2_sum hp' hn', rw2_sum hp hn, (touch_perm hx).length_eq]
  have hni := hp.nodup_iff.2 hn
  simp only [ids, List.nodup_append, List.nodup_cons] at hni
  obtain ⟨_, ⟨h2, _⟩, h3⟩ := hni
  have a := PotW_mono (rw2_pos (touch ρ x)) A (w := rw2 ρ) (fun i hi => touch_rw2 (fun e => h3 i hi x (by simp) e))
  have b := PotW_mono (rw2_pos (touch ρ x)) B (w := rw2 ρ) (fun i hi => touch_rw2 (fun e => h2 (e ▸ hi)))
  simp only [Sw] at e
  simp only [PotW, e]
  linarith

/-- What lies before an element in the order of recency was searched for since. -/
def Recent (ρ past : List Nat) : Prop := ∀ y ∈ past, ∀ z, ρ.idxOf z < ρ.idxOf y → z ∈ past.takeWhile (fun j => !(y == j))

theorem Recent.touch {ρ past : List Nat} {x : Nat} (h : Recent ρ past) : Recent (touch ρ x) (x :: past) := by
  intro y hy z hz
  by_cases e : y = x
  · subst e
    simp [Splay.touch] at hz
  · rcases List.mem_cons.1 hy with rfl | hy
    · exact absurd rfl e
    · rw [List.takeWhile_cons_of_pos (by simpa using e)]
      by_cases e2 : z = x
      · exact e2 ▸ List.mem_cons_self
      · refine List.mem_cons_of_mem _ (h y hy z ?_)
        simp only [Splay.touch, List.idxOf_cons_ne _ (Ne.symm e), List.idxOf_cons_ne _ (Ne.symm e2)] at hz
        exact idxOf_erase_lt e e2 ρ (by omega)

theorem distinct_eq (l : List Nat) : distinct (· == ·) l = l.dedup.length := by
  induction l with
  | nil => rfl
  | cons a l ih =>
    rw [distinct, ih]
    by_cases h : a ∈ l
    · rw [List.dedup_cons_of_mem h, if_pos (by simpa using h)]
      omega
    · rw [List.dedup_cons_of_notMem h, if_neg (by simpa using h), List.length_cons]
      omega

/-- The place of an element in the order of recency is at most its gap. -/
theorem Recent.gap {ρ past : List Nat} {x N : Nat} (h : Recent ρ past) (hn : ρ.Nodup) (hN : ρ.length = N) (hx : x ∈ ρ) :
    ρ.idxOf x ≤ gap (· == ·) N past x := by
  have hlt := List.idxOf_lt_length_of_mem hx
  unfold Adapt.gap
  split
  · next hm =>
    have hm : x ∈ past := by simpa using hm
    rw [distinct_eq]
    have hsub : ρ.take (ρ.idxOf x) ⊆ (past.takeWhile (fun j => !(x == j))).dedup := by
      intro z hz
      rw [List.mem_dedup]
      refine h x hm z ?_
      obtain ⟨j, hj, rfl⟩ := List.mem_iff_getElem.1 hz
      rw [List.getElem_take, hn.idxOf_getElem]
      simp only [List.length_take] at hj
      omega
    have := (List.subperm_of_subset ((List.take_sublist _ _).nodup hn) hsub).length_le
    rw [List.length_take] at this
    exact le_trans (by omega) this
  · omega

/-- Searches, by recency. -/
theorem Finds.recency {T T' : Tree} {xs : List Nat} {n : Nat} (h : Finds T xs n T') : ∀ {ρ past : List Nat},
    T.ids.Perm ρ → ρ.Nodup → Recent ρ past → (∀ {c X P x k n}, Split c X P x k n → (node x k (P true) (P false)).ids.Perm X.ids) →
    ∃ ρ', T'.ids.Perm ρ' ∧ ρ'.Nodup ∧ (n : ℝ) + 2 * PotW (rw2 ρ') T' ≤ 2 * PotW (rw2 ρ) T +
      ((gaps (· == ·) ρ.length past xs).map (fun g : Nat => 12 * Real.logb 2 ((g : ℝ) + 1) + 10)).sum := by
  induction h with
  | nil =>
    intro ρ past hp hn _ _
    exact ⟨ρ, hp, hn, by simp [gaps]⟩
  | @cons c T P x k n xs m T' h _ ih =>
    intro ρ past hp hn hr hids
    have hp1 := (hids h).trans hp
    have hx : x ∈ ρ := hp1.subset (by simp [ids])
    obtain ⟨ρ', q1, q2, q3⟩ := ih (ρ := touch ρ x) (past := x :: past) (hp1.trans (touch_perm hx).symm)
      ((touch_perm hx).nodup_iff.2 hn) hr.touch hids
    refine ⟨ρ', q1, q2, ?_⟩
    have h1 := h.search (rw2_pos ρ)
    have h2 := touch_PotW hp1 hn
    rw [(touch_perm hx).length_eq] at q3
    have h3 : Real.logb 2 (Sw (rw2 ρ) T) ≤ 1 := by
      have h0 : 0 < Sw (rw2 ρ) T := by
        rw [← h.Sw_node]
        have := Sw_nonneg (rw2_pos ρ) (P true)
        have := Sw_nonneg (rw2_pos ρ) (P false)
        have := rw2_pos ρ x
        simp only [Sw]
        linarith
      have := logb_mono h0 (rw2_sum_le hp hn)
      rwa [Real.logb_self_eq_one (by norm_num)] at this
    have h4 := hr.gap hn rfl hx
    have h5 : Real.logb 2 ((ρ.idxOf x : ℝ) + 1) ≤ Real.logb 2 ((gap (· == ·) ρ.length past x : ℝ) + 1) := by
      have a : (0 : ℝ) ≤ (ρ.idxOf x : ℝ) := Nat.cast_nonneg _
      have b : (ρ.idxOf x : ℝ) ≤ (gap (· == ·) ρ.length past x : ℝ) := by exact_mod_cast h4
      exact logb_mono (by linarith) (by linarith)
    rw [rw2_logb] at h1
    simp only [gaps, List.map_cons, List.sum_cons]
    push_cast at h1 q3 ⊢
    linarith

theorem sum_ge {f : Nat → ℝ} {b : ℝ} : ∀ {l : List Nat}, (∀ i ∈ l, b ≤ f i) → (l.length : ℝ) * b ≤ (l.map f).sum
  | [], _ => by simp
  | a :: l, h => by
    have h1 := sum_ge (l := l) (fun i hi => h i (List.mem_cons_of_mem _ hi))
    have h2 := h a List.mem_cons_self
    simp only [List.length_cons, List.map_cons, List.sum_cons]
    push_cast
    linarith

/-- Searches, by recency, from a tree that was not searched before. -/
theorem Finds.working_set {T T' : Tree} {xs : List Nat} {n : Nat} (h : Finds T xs n T') (hn : T.ids.Nodup)
    (hids : ∀ {c X P x k n}, Split c X P x k n → (node x k (P true) (P false)).ids.Perm X.ids) :
    (n : ℝ) ≤ ((gaps (· == ·) T.ids.length [] xs).map (fun g : Nat => 12 * Real.logb 2 ((g : ℝ) + 1) + 10)).sum +
      T.ids.length * (4 * Real.logb 2 T.ids.length + 2) := by
  obtain ⟨ρ', p1, p2, p3⟩ := h.recency (ρ := T.ids) (past := []) (List.Perm.refl _) hn (fun y hy => by simp at hy) hids
  have h1 := PotW_le (rw2_pos T.ids) (S := 2) T (rw2_sum_le (List.Perm.refl _) hn)
  rw [Real.logb_self_eq_one (by norm_num)] at h1
  have h2 := PotW_ge (rw2_pos ρ') T'
  have hlen : T'.ids.length = T.ids.length := by
    have : ∀ {T xs n T'}, Finds T xs n T' → T'.ids.length = T.ids.length := by
      intro T xs n T' h
      induction h with
      | nil => rfl
      | cons h _ ih => rw [ih, (hids h).length_eq]
    exact this h
  have h3 : - (T.ids.length * (2 * Real.logb 2 T.ids.length)) ≤ (T'.ids.map (fun i => Real.logb 2 (rw2 ρ' i))).sum := by
    have hb : ∀ i ∈ T'.ids, - (2 * Real.logb 2 T.ids.length) ≤ Real.logb 2 (rw2 ρ' i) := by
      intro i hi
      rw [rw2_logb]
      have a := List.idxOf_lt_length_of_mem (p1.subset hi)
      rw [← p1.length_eq, hlen] at a
      have b : (0 : ℝ) ≤ (ρ'.idxOf i : ℝ) := Nat.cast_nonneg _
      have c : (ρ'.idxOf i : ℝ) + 1 ≤ (T.ids.length : ℝ) := by exact_mod_cast a
      have := logb_mono (by linarith) c
      linarith
    have := sum_ge hb
    rw [hlen] at this
    linarith
  push_cast at p3
  linarith

theorem nd_ids_perm (d : Bool) (i k : Nat) (A B : Tree) : (nd d i k A B).ids.Perm (i :: (A.ids ++ B.ids)) := by
  cases d
  · simp only [nd_false, ids]; exact List.perm_middle
  · simp only [nd_true, ids]; exact (List.perm_middle).trans ((List.perm_append_comm).cons i)

theorem setP_ids_perm (P : Bool → Tree) (d : Bool) (t : Tree) :
    ((setP P d t true).ids ++ (setP P d t false).ids).Perm (t.ids ++ (P (!d)).ids) := by
  cases d
  · simp only [setP]; exact List.perm_append_comm
  · simp [setP]

theorem sum_ids_perm (P : Bool → Tree) (d : Bool) :
    ((P true).ids ++ (P false).ids).Perm ((P d).ids ++ (P (!d)).ids) := by
  cases d
  · exact List.perm_append_comm
  · simp

theorem Split.ids_perm' {c : Nat → Cmp} {X : Tree} {P : Bool → Tree} {x k n : Nat} (h : Split c X P x k n) :
    (x :: ((P true).ids ++ (P false).ids)).Perm X.ids := by
  induction h with
  | found => simp only [ids]; exact List.perm_middle.symm
  | last => exact ((setP_ids_perm _ _ _).cons _).trans (by simpa [ids] using (nd_ids_perm _ _ _ nil _).symm)
  | @zzLast d i k j m A B =>
    refine ((setP_ids_perm _ _ _).cons _).trans ?_
    refine (((nd_ids_perm d i k B A).append_right _).cons j).trans (.trans ?_ (nd_ids_perm d i k _ A).symm)
    have := (nd_ids_perm d j m nil B).symm.append_right A.ids
    refine .trans ?_ (this.cons i)
    simp only [ids, List.nil_append, List.append_nil, List.cons_append]
    exact List.Perm.swap _ _ _
  | @zz d i k j m A B Z P x kx n _ _ _ _ ih =>
    have h1 := ((sum_ids_perm P d).symm.cons x).trans ih
    rw [List.perm_iff_count] at h1 ⊢
    intro a
    have h1 := h1 a
    have e1 := (setP_ids_perm P d (nd d j m (P d) (nd d i k B A))).count_eq a
    have e2 := (nd_ids_perm d j m (P d) (nd d i k B A)).count_eq a
    have e3 := (nd_ids_perm d i k B A).count_eq a
    have e4 := (nd_ids_perm d i k (nd d j m Z B) A).count_eq a
    have e5 := (nd_ids_perm d j m Z B).count_eq a
    simp only [List.count_cons, List.count_append] at *
    omega
  | @zig d i k A Y P x kx n _ _ _ _ ih =>
    have h1 := ((sum_ids_perm P d).symm.cons x).trans ih
    rw [List.perm_iff_count] at h1 ⊢
    intro a
    have h1 := h1 a
    have e1 := (setP_ids_perm P d (nd d i k (P d) A)).count_eq a
    have e2 := (nd_ids_perm d i k (P d) A).count_eq a
    have e4 := (nd_ids_perm d i k Y A).count_eq a
    simp only [List.count_cons, List.count_append] at *
    omega

theorem Split.ids_perm {c : Nat → Cmp} {X : Tree} {P : Bool → Tree} {x k n : Nat} (h : Split c X P x k n) :
    (node x k (P true) (P false)).ids.Perm X.ids := by
  refine .trans ?_ h.ids_perm'
  simp only [ids]
  exact List.perm_middle

theorem Finds.ids_perm {T T' : Tree} {xs : List Nat} {n : Nat} (h : Finds T xs n T') : T'.ids.Perm T.ids := by
  induction h with
  | nil => exact .refl _
  | cons h _ ih => exact ih.trans h.ids_perm

/-! ### Keys -/

variable {κ : Type} {cmp : κ → κ → Cmp} (hc : LawfulCmp cmp) {kf : Nat → κ}
include hc

theorem search_congr {a b : κ} (e : cmp a b = .eql) : ∀ F : Fixed κ, F.search cmp a = F.search cmp b
  | .leaf => rfl
  | .node l j r => by
    simp only [Fixed.search, hc.eql_congr_left e j, search_congr e l, search_congr e r]

omit hc in
theorem search_pos {k : κ} {n : Nat} : ∀ {F : Fixed κ}, F.search cmp k = some n → 1 ≤ n
  | .leaf, h => by simp [Fixed.search] at h
  | .node l j r, h => by
    simp only [Fixed.search] at h
    split at h
    · cases h; exact Nat.le_refl _
    · obtain ⟨m, _, rfl⟩ := Option.map_eq_some_iff.1 h; omega
    · obtain ⟨m, _, rfl⟩ := Option.map_eq_some_iff.1 h; omega
    · cases h

omit hc in
theorem sum_three (f : Nat → ℝ) (p : Nat → Cmp) (hp : ∀ i, p i ≠ .err) (is : List Nat) : (is.map f).sum =
    ((is.filter (fun i => p i == .les)).map f).sum + ((is.filter (fun i => p i == .eql)).map f).sum +
      ((is.filter (fun i => p i == .grt)).map f).sum := by
  induction is with
  | nil => simp
  | cons i is ih =>
    have := hp i
    simp only [List.map_cons, List.sum_cons, ih, List.filter_cons]
    cases e : p i <;> simp_all <;> ring

/-- Kraft's inequality for search trees. -/
theorem kraft : ∀ (F : Fixed κ) (is : List Nat), is.Pairwise (fun a b => cmp (kf a) (kf b) = .les) →
    (∀ i ∈ is, (F.search cmp (kf i)).isSome) → (is.map (fun i => (1 / 3 : ℝ) ^ F.cost cmp (kf i))).sum ≤ 1
  | .leaf, is, _, hf => by
    cases is with
    | nil => simp
    | cons i is => have := hf i List.mem_cons_self; simp [Fixed.search] at this
  | .node l j r, is, hp, hf => by
    rw [sum_three _ (fun i => cmp (kf i) j) (fun i => hc.noErr _ _)]
    have side : ∀ (G : Fixed κ) (c : Cmp), (∀ k, cmp k j = c → Fixed.search cmp (.node l j r) k = (G.search cmp k).map (· + 1)) →
        (∀ js : List Nat, js.Pairwise (fun a b => cmp (kf a) (kf b) = .les) → (∀ i ∈ js, (G.search cmp (kf i)).isSome) →
          (js.map (fun i => (1 / 3 : ℝ) ^ G.cost cmp (kf i))).sum ≤ 1) →
        ((is.filter (fun i => cmp (kf i) j == c)).map (fun i => (1 / 3 : ℝ) ^ Fixed.cost cmp (.node l j r) (kf i))).sum ≤ 1 / 3 := by
      intro G c hG ih
      have h1 := ih (is.filter (fun i => cmp (kf i) j == c)) (hp.filter _) (by
        intro i hi
        rw [List.mem_filter] at hi
        have := hf i hi.1
        rw [hG _ (by simpa using hi.2)] at this
        simpa using this)
      have h2 : (is.filter (fun i => cmp (kf i) j == c)).map (fun i => (1 / 3 : ℝ) ^ Fixed.cost cmp (.node l j r) (kf i))
          = (is.filter (fun i => cmp (kf i) j == c)).map (fun i => (1 / 3 : ℝ) * (1 / 3 : ℝ) ^ G.cost cmp (kf i)) := by
        refine List.map_congr_left (fun i hi => ?_)
        rw [List.mem_filter] at hi
        have := hf i hi.1
        have e := hG (kf i) (by simpa using hi.2)
        rw [e] at this
        obtain ⟨n, hn⟩ := Option.isSome_iff_exists.1 (show (G.search cmp (kf i)).isSome by simpa using this)
        simp only [Fixed.cost, e, hn, Option.map_some, Option.getD_some, pow_succ]
        ring
      rw [h2, sum_map_const_mul (fun i => (1 / 3 : ℝ) ^ G.cost cmp (kf i))]
      linarith
    have hl := side l .les (fun k h => by simp only [Fixed.search, h]) (kraft l)
    have hr := side r .grt (fun k h => by simp only [Fixed.search, h]) (kraft r)
    have hm : ((is.filter (fun i => cmp (kf i) j == .eql)).map (fun i => (1 / 3 : ℝ) ^ Fixed.cost cmp (.node l j r) (kf i))).sum
        ≤ 1 / 3 := by
      have hp' : (is.filter (fun i => cmp (kf i) j == .eql)).Pairwise (fun a b => cmp (kf a) (kf b) = .les) := hp.filter _
      have hall : ∀ i ∈ is.filter (fun i => cmp (kf i) j == .eql), cmp (kf i) j = .eql := by
        intro i hi; rw [List.mem_filter] at hi; simpa using hi.2
      match e : is.filter (fun i => cmp (kf i) j == .eql) with
      | [] => norm_num
      | [i] =>
        have := hall i (by rw [e]; simp)
        simp only [List.map_cons, List.map_nil, List.sum_cons, List.sum_nil, Fixed.cost, Fixed.search, this, Option.getD_some]
        norm_num
      | i :: i' :: rest =>
        exfalso
        have h1 := hall i (by rw [e]; simp)
        have h2 := hall i' (by rw [e]; simp)
        rw [e] at hp'
        have h3 := (List.pairwise_cons.1 hp').1 i' (by simp)
        rw [hc.eql_congr_left h1, hc.symm h2] at h3
        cases h3
    linarith

/-- Lookups of the keys `ks` find the elements `xs`. -/
def Hits (cmp : κ → κ → Cmp) (kf : Nat → κ) : List κ → List Nat → Prop := List.Forall₂ (fun k x => cmp k (kf x) = .eql)

theorem Finds.against {T T' : Tree} {xs : List Nat} {ks : List κ} {n : Nat} (h : Finds T xs n T')
    (hp : T.ids.Pairwise (fun a b => cmp (kf a) (kf b) = .les)) (hh : Hits cmp kf ks xs) (hx : ∀ x ∈ xs, x ∈ T.ids) (F : Fixed κ)
    (hF : ∀ i ∈ T.ids, (F.search cmp (kf i)).isSome) :
    n ≤ 14 * (ks.map (F.cost cmp)).sum + 4 * (T.ids.map (fun i => F.cost cmp (kf i))).sum := by
  have h1 := h.fixed (fun i => F.cost cmp (kf i)) (kraft hc F T.ids hp hF) h.ids_perm
  refine h1.trans (Nat.add_le_add_right ?_ _)
  clear h h1
  induction hh with
  | nil => simp
  | @cons k x ks xs e _ ih =>
    have := ih (fun y hy => hx y (List.mem_cons_of_mem _ hy))
    obtain ⟨m, hm⟩ := Option.isSome_iff_exists.1 (hF x (hx x List.mem_cons_self))
    have h2 := search_pos hm
    have h3 : F.cost cmp (kf x) = m := by simp [Fixed.cost, hm]
    have h4 : F.cost cmp k = m := by simp [Fixed.cost, search_congr hc e, hm]
    simp only [List.map_cons, List.sum_cons, h3, h4]
    omega

theorem pairwise_ne {is : List Nat} (hp : is.Pairwise (fun a b => cmp (kf a) (kf b) = .les)) {x y : Nat} (hx : x ∈ is)
    (hy : y ∈ is) (hne : x ≠ y) : cmp (kf x) (kf y) ≠ .eql := by
  induction is with
  | nil => cases hx
  | cons a is ih =>
    have ⟨h1, h2⟩ := List.pairwise_cons.1 hp
    rcases List.mem_cons.1 hx with e1 | hx
    · rcases List.mem_cons.1 hy with e2 | hy
      · exact absurd (e1.trans e2.symm) hne
      · rw [e1, h1 y hy]; simp
    · rcases List.mem_cons.1 hy with e2 | hy
      · intro he
        have := h1 x hx
        rw [← e2, hc.symm he] at this
        cases this
      · exact ih h2 hx hy

theorem hit_same {is : List Nat} (hp : is.Pairwise (fun a b => cmp (kf a) (kf b) = .les)) {k k' : κ} {x x' : Nat}
    (h : cmp k (kf x) = .eql) (h' : cmp k' (kf x') = .eql) (hx : x ∈ is) (hx' : x' ∈ is) : sameKey cmp k k' = (x == x') := by
  unfold sameKey
  rw [hc.eql_congr_left h, hc.eql_congr h']
  by_cases e : x = x'
  · subst e; simp [hc.refl]
  · rw [beq_eq_false_iff_ne.2 e, beq_eq_false_iff_ne]
    intro he
    exact pairwise_ne hc hp hx hx' e he

theorem hits_gaps {is : List Nat} (hp : is.Pairwise (fun a b => cmp (kf a) (kf b) = .les)) {N : Nat} {ks : List κ} {xs : List Nat}
    (hh : Hits cmp kf ks xs) : ∀ {past : List κ} {pastx : List Nat}, Hits cmp kf past pastx → (∀ x ∈ xs, x ∈ is) →
    (∀ x ∈ pastx, x ∈ is) → gaps (sameKey cmp) N past ks = gaps (· == ·) N pastx xs := by
  have any_eq : ∀ {k : κ} {x : Nat} {past : List κ} {pastx : List Nat}, cmp k (kf x) = .eql → x ∈ is → Hits cmp kf past pastx →
      (∀ x ∈ pastx, x ∈ is) → past.any (sameKey cmp k) = pastx.any (fun y => x == y) := by
    intro k x past pastx h hx hh hm
    induction hh with
    | nil => rfl
    | cons e _ ih =>
      rw [List.any_cons, List.any_cons, ih (fun y hy => hm y (List.mem_cons_of_mem _ hy)),
        hit_same hc hp h e hx (hm _ List.mem_cons_self)]
  have while_hits : ∀ {k : κ} {x : Nat} {past : List κ} {pastx : List Nat}, cmp k (kf x) = .eql → x ∈ is → Hits cmp kf past pastx →
      (∀ x ∈ pastx, x ∈ is) →
      Hits cmp kf (past.takeWhile (fun j => !sameKey cmp k j)) (pastx.takeWhile (fun j => !(x == j))) := by
    intro k x past pastx h hx hh hm
    induction hh with
    | nil => exact .nil
    | @cons j y _ _ e _ ih =>
      have he := hit_same hc hp h e hx (hm _ List.mem_cons_self)
      rw [List.takeWhile_cons, List.takeWhile_cons, he]
      split
      · exact .cons e (ih (fun y hy => hm y (List.mem_cons_of_mem _ hy)))
      · exact .nil
  have distinct_hits : ∀ {past : List κ} {pastx : List Nat}, Hits cmp kf past pastx → (∀ x ∈ pastx, x ∈ is) →
      distinct (sameKey cmp) past = distinct (· == ·) pastx := by
    intro past pastx hh hm
    induction hh with
    | nil => rfl
    | cons e h ih =>
      have hm' := fun y hy => hm y (List.mem_cons_of_mem _ hy)
      rw [distinct, distinct, ih hm', any_eq e (hm _ List.mem_cons_self) h hm']
  induction hh with
  | nil => intros; rfl
  | @cons k x ks xs e _ ih =>
    intro past pastx hpast hm hmp
    have hx := hm x List.mem_cons_self
    rw [gaps, gaps, ih (past := k :: past) (pastx := x :: pastx) (.cons e hpast) (fun y hy => hm y (List.mem_cons_of_mem _ hy))
      (by intro y hy; rcases List.mem_cons.1 hy with rfl | hy; exacts [hx, hmp y hy])]
    congr 1
    have hsub : ∀ y ∈ pastx.takeWhile (fun j => !(x == j)), y ∈ is := fun y hy => hmp y (List.takeWhile_subset _ hy)
    unfold gap
    rw [any_eq e hx hpast hmp, distinct_hits (while_hits e hx hpast hmp) hsub]

theorem Finds.lately {T T' : Tree} {xs : List Nat} {ks : List κ} {n : Nat} (h : Finds T xs n T') (hn : T.ids.Nodup)
    (hp : T.ids.Pairwise (fun a b => cmp (kf a) (kf b) = .les)) (hh : Hits cmp kf ks xs) (hx : ∀ x ∈ xs, x ∈ T.ids) :
    (n : ℝ) ≤ ((gaps (sameKey cmp) T.ids.length [] ks).map (fun g : Nat => 12 * Real.logb 2 ((g : ℝ) + 1) + 10)).sum +
      T.ids.length * (4 * Real.logb 2 T.ids.length + 2) := by
  rw [hits_gaps hc hp hh (past := []) (pastx := []) .nil hx (by simp)]
  exact h.working_set hn (fun h => h.ids_perm)

end CCC.Splay
