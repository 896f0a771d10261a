import Verif.Proof.FlatHashMapGrow
import Mathlib.Data.Finset.Card
import Mathlib.Data.Finset.Max
import Mathlib.Algebra.BigOperators.Group.Finset.Basic
import Mathlib.Algebra.Order.BigOperators.Group.Finset
import Mathlib.Order.Interval.Finset.Nat
/-
Where the next empty slot is: if it is `r` steps behind a slot then there are `r` intervals of slots, of growing length,
that are the home of at least as many keys as they have slots.
-/
namespace CCC.Fhm
open CCC HashMap Finset

variable {α κ : Type} {c : Cfg κ α}

theorem dist_sub {cap i q b : Nat} (hi : 2 ≤ i) (hi' : i < cap) (hq : 2 ≤ q) (hq' : q < cap) (hb : 2 ≤ b) (hb' : b < cap)
    (h : distance cap q b ≤ distance cap i b) : distance cap i q = distance cap i b - distance cap q b := by
  unfold distance at *
  split at h <;> split at h <;> split <;> omega

theorem dist_sub' {cap i q b : Nat} (hi : 2 ≤ i) (hi' : i < cap) (hq : 2 ≤ q) (hq' : q < cap) (hb : 2 ≤ b) (hb' : b < cap)
    (h : distance cap i q ≤ distance cap i b) : distance cap q b = distance cap i b - distance cap i q := by
  unfold distance at *
  split at h <;> split at h <;> split <;> omega

/-- The slot `t` steps behind `b`. -/
def ahead (cap b t : Nat) : Nat := if b + t < cap then b + t else b + t - (cap - 2)

theorem ahead_spec {cap b t : Nat} (hb : 2 ≤ b) (hb' : b < cap) (ht : t < cap - 2) :
    2 ≤ ahead cap b t ∧ ahead cap b t < cap ∧ distance cap (ahead cap b t) b = t := by
  unfold ahead distance
  split <;> split <;> omega

/-- The slot `q` is one of the `L` slots from the one on that is `j` steps before `v`. -/
def Window (cap j L v q : Nat) : Prop := ∃ b, 2 ≤ b ∧ b < cap ∧ distance cap v b = j ∧ distance cap q b < L

open Classical in
/-- How many windows around the home of `k` are the home of as many keys of `K` as they have slots (but one). -/
noncomputable def crowd (c : Cfg κ α) (cap : Nat) (K : Finset κ) (k : κ) : Nat :=
  ∑ L ∈ range cap, ∑ j ∈ range L,
    if L - 1 ≤ #{a ∈ K.erase k | Window cap j L (toI c cap (filter c k)) (toI c cap (filter c a))} then 1 else 0

open Classical in
/-- The next empty slot behind the home of `k` is at most that far away. -/
theorem near_crowd {s : Fhm α} (t : Tbl c s) (heq : ∀ a b, c.eq a b = true ↔ a = b) (K : Finset κ)
    (hK : ∀ x ∈ vals s, c.key x ∈ K) (k : κ) : Near s (toI c s.cap (filter c k)) (crowd c s.cap K k) := by
  have hcap := t.cap
  have hh := toI_range c (cap := s.cap) (by omega) (filter c k)
  set i := toI c s.cap (filter c k) with hi0
  obtain ⟨j1, hj1, hj1', he1⟩ := t.exists_empty
  let E : Finset ℕ := {q ∈ Ico 2 s.cap | (s.mem q).hash = 0}
  have hE : E.Nonempty := ⟨j1, by simp [E, hj1, hj1', he1]⟩
  have hmE : ∀ q, q ∈ E ↔ (2 ≤ q ∧ q < s.cap) ∧ (s.mem q).hash = 0 := by intro q; simp [E]
  obtain ⟨j, hjE, hjm⟩ := exists_min_image E (fun q => distance s.cap q i) hE
  obtain ⟨e, heE, hem⟩ := exists_min_image E (fun q => distance s.cap i q) hE
  obtain ⟨⟨hj, hj'⟩, hej⟩ := (hmE j).1 hjE
  obtain ⟨⟨he, he'⟩, hee⟩ := (hmE e).1 heE
  refine ⟨j, hj, hj', hej, ?_⟩
  generalize hr : distance s.cap j i = r at *
  by_cases hr0 : r = 0
  · omega
  have hiocc : (s.mem i).hash ≠ 0 := by
    intro h0
    have := hjm i ((hmE i).2 ⟨hh, h0⟩)
    rw [dist_self] at this
    omega
  have hei : e ≠ i := by intro h; rw [h] at hee; exact hiocc hee
  have hb := inc_range (cap := s.cap) (by omega) he
  set b := increment s.cap e with hb0
  have hd1 := dist_to_inc he he' hh.1 hh.2 hei
  rw [← hb0] at hd1
  set d := distance s.cap i b with hd0
  -- the slots of the run are occupied
  have hocc : ∀ q, 2 ≤ q → q < s.cap → distance s.cap q b < d + r → (s.mem q).hash ≠ 0 := by
    intro q hq hq' hql h0
    have hqE := (hmE q).2 ⟨⟨hq, hq'⟩, h0⟩
    rcases Nat.le_total (distance s.cap q b) d with h | h
    · have h1 := dist_sub hh.1 hh.2 hq hq' hb.1 hb.2 h
      have h2 := hem q hqE
      rw [hd1, h1] at h2
      omega
    · have h1 := dist_sub hq hq' hh.1 hh.2 hb.1 hb.2 h
      have h2 := hjm q hqE
      rw [h1] at h2
      omega
  have hdr : d + r < s.cap - 2 := by
    have h1 := dist_lt (cap := s.cap) he he' hb.1 hb.2
    by_contra hcon
    exact hocc e he he' (by omega) hee
  -- each of them has its home in the run
  have hhome : ∀ q, 2 ≤ q → q < s.cap → distance s.cap q b < d + r →
      distance s.cap (toI c s.cap (s.mem q).hash) b ≤ distance s.cap q b := by
    intro q hq hq' hql
    have ho := hocc q hq hq' hql
    have h1 := RH.below (by omega) t.rh he he' hee _ q rfl hq hq' ho
    have hqe : e ≠ q := by intro h; rw [← h] at ho; exact ho hee
    have h2 := dist_to_inc he he' hq hq' hqe
    rw [← hb0] at h2
    have h3 := toI_range c (cap := s.cap) (by omega) (s.mem q).hash
    unfold dd at h1
    have h4 := dist_sub' hq hq' h3.1 h3.2 hb.1 hb.2 (by omega)
    omega
  have hcount : ∀ L, L ≤ d + r →
      L - 1 ≤ #{a ∈ K.erase k | Window s.cap d L (toI c s.cap (filter c k)) (toI c s.cap (filter c a))} := by
    intro L hL
    have hmem : ∀ q ∈ range L, (2 ≤ ahead s.cap b q ∧ ahead s.cap b q < s.cap ∧ distance s.cap (ahead s.cap b q) b = q) := by
      intro q hq
      rw [mem_range] at hq
      exact ahead_spec hb.1 hb.2 (by omega)
    have hinj : Set.InjOn (fun q => c.key (s.mem (ahead s.cap b q)).val) (range L) := by
      intro p hp q hq hpq
      by_contra hne
      obtain ⟨p1, p2, p3⟩ := hmem p hp
      obtain ⟨q1, q2, q3⟩ := hmem q hq
      have hp' := mem_range.1 (mem_coe.1 hp)
      have hq' := mem_range.1 (mem_coe.1 hq)
      have hl : ∀ x y : Cell α, c.eq (c.key x.val) (c.key y.val) = false → c.eq (c.key y.val) (c.key x.val) = false := by
        intro x y h
        cases hb : c.eq (c.key y.val) (c.key x.val) with
        | false => rfl
        | true =>
          rw [(heq _ _).2 ((heq _ _).1 hb).symm] at h
          exact h
      have := slot_unique (R := fun x y => c.eq (c.key x.val) (c.key y.val) = false) hl t.uniq p1 p2 q1 q2
        (hocc _ p1 p2 (by omega)) (hocc _ q1 q2 (by omega)) (by intro h; rw [h] at p3; omega)
      rw [(heq _ _).2 hpq] at this
      cases this
    have hsub : (range L).image (fun q => c.key (s.mem (ahead s.cap b q)).val) ⊆
        {a ∈ K | Window s.cap d L (toI c s.cap (filter c k)) (toI c s.cap (filter c a))} := by
      intro a ha
      rw [mem_image] at ha
      obtain ⟨q, hq, rfl⟩ := ha
      obtain ⟨q1, q2, q3⟩ := hmem q hq
      rw [mem_range] at hq
      have ho := hocc _ q1 q2 (by omega)
      rw [mem_filter]
      refine ⟨hK _ (Tbl.mem_vals q1 q2 ho), b, hb.1, hb.2, rfl, ?_⟩
      rw [← t.good _ (mem_cells.2 ⟨_, q1, q2, ho, rfl⟩)]
      have := hhome _ q1 q2 (by omega)
      omega
    have h1 := card_le_card hsub
    rw [card_image_of_injOn hinj, card_range] at h1
    rw [filter_erase]
    have h2 := pred_card_le_card_erase (s := {a ∈ K | Window s.cap d L (toI c s.cap (filter c k)) (toI c s.cap (filter c a))}) (a := k)
    omega
  -- count the windows
  unfold crowd
  calc r = ∑ L ∈ Ioc d (d + r), 1 := by simp
    _ ≤ ∑ L ∈ Ioc d (d + r), ∑ j ∈ range L,
        (if L - 1 ≤ #{a ∈ K.erase k | Window s.cap j L (toI c s.cap (filter c k)) (toI c s.cap (filter c a))} then 1 else 0) := by
      refine sum_le_sum fun L hL => ?_
      rw [mem_Ioc] at hL
      refine le_trans ?_ (single_le_sum (f := fun j => if L - 1 ≤ #{a ∈ K.erase k | Window s.cap j L (toI c s.cap (filter c k)) (toI c s.cap (filter c a))} then 1 else 0)
        (fun _ _ => Nat.zero_le _) (mem_range.2 hL.1))
      rw [if_pos (hcount L hL.2)]
    _ ≤ _ := by
      refine sum_le_sum_of_subset ?_
      intro L hL
      rw [mem_Ioc] at hL
      rw [mem_range]
      omega

end CCC.Fhm
