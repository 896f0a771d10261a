import Verif.Proof.OrderedMapCost
import Verif.Proof.FlatOrderedMapCost
import Verif.Proof.OrderedMapSpine
/-
C62.  The splay tree maps promise amortised logarithmic cost: however unbalanced the tree becomes, a history of calls on a
map that never holds more than `N` elements costs a logarithmic number of comparisons for each call on average.
-/
namespace CCC.Om
open CCC Splay PtrMap MapSpec

variable {α κ : Type} {cmp : κ → κ → Cmp} {key : α → κ}

/-- C62.  Every history of calls, from the empty ordered map, that never stores more than `N` elements: the calls answer
as specified, and the user's comparison function is called at most `26 log₂ (N + 2) + 11` times for each call on average.
`runN` is `run` with these calls counted. -/
theorem C62_om_amortized (hc : LawfulCmp cmp) (mem : Nat → α) (al : Bool) (ops : List (Op α κ)) (N : Nat)
    (hs : safeRun cmp key al [] ops) (hN : ∀ pre, pre <+: ops → (specRun cmp key al [] pre).1.length ≤ N) :
    ∃ s n, run cmp key (init mem al) ops = some (s, (specRun cmp key al [] ops).2) ∧
      runN cmp key (init mem al) ops 0 = some ((s, (specRun cmp key al [] ops).2), n) ∧
      (n : ℝ) ≤ ops.length * (26 * Real.logb 2 (N + 2) + 11) := by
  have hL : lg (N + 2) = Real.logb 2 (N + 2) := by simp [lg]
  have hinit : Ok cmp key (init mem al) [] Tree.nil := init_ok mem al
  obtain ⟨r, n, hcost, hp⟩ := runN_pays hc (L := lg (N + 2)) (lg_ge_one (by omega)) ops (s := init mem al) (l := [])
    ⟨_, hinit⟩ hs (fun pre h => lg_mono (by omega) (by have := hN pre h; simp only [init, Rom.init]; omega))
  obtain ⟨s, e, ⟨T, o⟩, _⟩ := run_spec hc ops (s := init mem al) (l := []) ⟨_, hinit⟩ hs
  have := (runN_er cmp key (init mem al) ops).eq hcost
  rw [e] at this
  cases this
  refine ⟨s, n, e, by have := hcost 0; rw [Nat.zero_add] at this; exact this, ?_⟩
  rw [hinit.phi] at hp
  have h0 := phi_nonneg o.whole (K := 12 * lg (N + 2) + 5) (by have := lg_ge_one (a := N + 2) (by omega); linarith)
  simp only [Pot, W, Nat.cast_one, sub_self, mul_zero, zero_add] at hp
  rw [← hL]
  linarith

/-- A history the theorem speaks about: three insertions in ascending order, a query, a removal, `clear`. -/
example : safeRun natCmp id false [] [.tryInsert 1 10 none, .tryInsert 2 20 none, .tryInsert 3 30 none, .get 10,
    .equalRange 5 25, .removeEntry 20, .clear] ∧
    ∀ pre, pre <+: [.tryInsert 1 10 none, .tryInsert 2 20 none, .tryInsert 3 30 none, .get 10,
    .equalRange 5 25, .removeEntry 20, .clear] → (specRun natCmp id false [] pre : List (Nat × Nat) × _).1.length ≤ 3 := by
  constructor
  · refine ⟨⟨?_, ?_⟩, trivial, ⟨?_, ?_⟩, trivial, ⟨?_, ?_⟩, trivial, trivial, trivial, trivial, trivial, trivial, trivial,
      trivial, trivial, trivial⟩ <;> simp [fresh, goodAns, specStep, lookup, addAt, place, natCmp, ekey]
  · intro pre h
    rw [← List.mem_inits] at h
    revert pre
    decide

/-- The counter of `runN` moves by exactly one with each call of the comparison function. -/
example (c : Nat → Option Cmp) (a n : Nat) : cnt c a n = (c a).map (fun q => (q, n + 1)) := by
  show (do let q ← c a; pure (q, n + 1)) = _
  cases c a <;> rfl

/-- C62 fails for `ccc_om_begin` and `ccc_om_rbegin`, which walk down the tree without splaying, although they are
documented as "Amortized O(lg N)": no constants bound the links they follow.  `runB` is `run` with these links
counted. -/
theorem C62_om_begin_violated : ¬ ∃ c d : ℝ, ∀ (ops : List (Op Nat Nat)) (N : Nat),
    safeRun natCmp id false [] ops → (∀ pre, pre <+: ops → (specRun natCmp id false [] pre).1.length ≤ N) →
    ∀ s rs n, runB natCmp id (init (fun _ => 0) false) ops 0 = some ((s, rs), n) →
    (n : ℝ) ≤ ops.length * (c * Real.logb 2 (N + 2) + d) := by
  rintro ⟨c, d, h⟩
  obtain ⟨m, hm⟩ := exists_nat_ge (2 * |c| + 2 * |d| + 4)
  have hc := abs_nonneg c
  have hd := abs_nonneg d
  have hm4 : 4 ≤ m := by
    have : (4 : ℝ) ≤ m := by linarith
    exact_mod_cast this
  -- `n + 3 = 2 ^ m`
  have hp : m * m ≤ 2 ^ m := by
    clear hm
    induction m, hm4 using Nat.le_induction with
    | base => decide
    | succ m hm ih =>
      rw [Nat.pow_succ]
      nlinarith
  obtain ⟨n, hn⟩ : ∃ n, n + 3 = 2 ^ m := ⟨2 ^ m - 3, by have : 4 * 4 ≤ m * m := Nat.mul_le_mul hm4 hm4; omega⟩
  obtain ⟨s, rs, hcost⟩ := begin_cost (fun _ => 0) n (n + 1)
  have := h (ascending (n + 1) ++ List.replicate (n + 1) (.begin : Op Nat Nat)) (n + 1) (safe_ascending (n + 1) (n + 1) 0)
    (fun pre hpre => by have := size_ascending (n + 1) (n + 1) 0 pre hpre; rw [Nat.zero_add] at this; exact this)
    s rs _ (hcost 0)
  have hlog : Real.logb 2 ((n + 1 : ℕ) + 2) = m := by
    have e : (((n + 1 : ℕ) : ℝ) + 2) = 2 ^ m := by
      have : ((n + 3 : ℕ) : ℝ) = ((2 ^ m : ℕ) : ℝ) := by rw [hn]
      push_cast at this ⊢
      linarith
    rw [e, Real.logb_pow, Real.logb_self_eq_one (by norm_num), mul_one]
  rw [hlog] at this
  have hlen : (ascending (n + 1) ++ List.replicate (n + 1) (.begin : Op Nat Nat)).length = 2 * (n + 1) := by
    simp [ascending]; omega
  rw [hlen] at this
  have hn' : ((n + 3 : ℕ) : ℝ) = ((2 ^ m : ℕ) : ℝ) := by rw [hn]
  have hp' : ((m * m : ℕ) : ℝ) ≤ ((2 ^ m : ℕ) : ℝ) := by exact_mod_cast hp
  rw [← hn'] at hp'
  push_cast at this hp'
  have hn0 : (0 : ℝ) ≤ n := Nat.cast_nonneg n
  have h1 : (n : ℝ) ≤ 2 * (c * m + d) := by
    have h2 : ((n : ℝ) + 1) * n ≤ ((n : ℝ) + 1) * (2 * (c * m + d)) := by linarith
    exact le_of_mul_le_mul_left h2 (by linarith)
  have hcm : c * m ≤ |c| * m := mul_le_mul_of_nonneg_right (le_abs_self c) (Nat.cast_nonneg m)
  have hdm := le_abs_self d
  have hm4' : (4 : ℝ) ≤ m := by exact_mod_cast hm4
  nlinarith

end CCC.Om

namespace CCC.Fom
open CCC Splay FlatMap MapSpec
open CCC.Frm (Junk)

variable {α κ : Type} {cmp : κ → κ → Cmp} {key : α → κ}

/-- C62 for the flat ordered map, with a buffer of any capacity, with or without permission to allocate, whatever the user's
allocation function answers. -/
theorem C62_fom_amortized (hc : LawfulCmp cmp) (mem : Junk α) (cap : Nat) (al : Bool) (ops : List (Op α κ (Junk α)))
    (N : Nat) (hs : safeRun cmp key al ⟨[], cap, false⟩ ops)
    (hN : ∀ pre, pre <+: ops → (specRunS cmp key al ⟨[], cap, false⟩ pre).1.l.length ≤ N) :
    ∃ s n, run cmp key (init mem cap al) ops = some (s, (specRunS cmp key al ⟨[], cap, false⟩ ops).2) ∧
      runN cmp key (init mem cap al) ops 0 = some ((s, (specRunS cmp key al ⟨[], cap, false⟩ ops).2), n) ∧
      (n : ℝ) ≤ ops.length * (18 * Real.logb 2 (N + 2) + 8) := by
  have hL : lg (N + 2) = Real.logb 2 (N + 2) := by simp [lg]
  have hinit : Ok cmp key (init mem cap al) ⟨[], cap, false⟩ Tree.nil := init_ok mem cap al
  obtain ⟨r, n, hcost, hp⟩ := runN_pays hc (L := lg (N + 2)) ops (s := init mem cap al) (st := ⟨[], cap, false⟩)
    ⟨_, hinit⟩ hs (fun pre h => lg_mono (by omega) (by have := hN pre h; simp only [init, Frm.init]; omega))
  obtain ⟨s, e, ⟨T, o⟩, _⟩ := run_spec hc ops (s := init mem cap al) (st := ⟨[], cap, false⟩) ⟨_, hinit⟩ hs
  have := (runN_er cmp key (init mem cap al) ops).eq hcost
  rw [e] at this
  cases this
  refine ⟨s, n, e, by have := hcost 0; rw [Nat.zero_add] at this; exact this, ?_⟩
  rw [hinit.phi, o.phi] at hp
  have h0 := Pot_nonneg T
  simp only [Pot, mul_zero, zero_add] at hp
  rw [← hL]
  linarith

/-- A history the theorem speaks about: a buffer for two elements and no permission to allocate, so the third insertion is
refused; a query, a removal, `clear`. -/
def someCalls : List (Op Nat Nat (Junk Nat)) := [.tryInsert 10 none, .tryInsert 20 none, .tryInsert 30 none, .get 10,
    .equalRange 5 25, .removeEntry 20, .clear]
example : safeRun natCmp id false ⟨[], 3, false⟩ someCalls ∧
    (∀ pre, pre <+: someCalls → (specRunS natCmp id false ⟨[], 3, false⟩ pre).1.l.length ≤ 2) ∧
    (specRunS natCmp id false ⟨[], 3, false⟩ (someCalls.take 3)).1.l.length = 2 := by
  refine ⟨⟨trivial, trivial, trivial, trivial, trivial, trivial, trivial, trivial, trivial, trivial, trivial, trivial,
    trivial, trivial, trivial⟩, ?_, by decide⟩
  intro pre h
  rw [← List.mem_inits] at h
  revert pre
  decide

end CCC.Fom
