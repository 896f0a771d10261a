import Verif.Props.OrderedMultimap
import Verif.Proof.MultiCost
/-
C62 for the ordered multimap.
-/
namespace CCC.Omm
open CCC Splay Tree MultiSpec

variable {α κ : Type} {cmp : κ → κ → Cmp} {key : α → κ}

/-- C62 for the ordered multimap, with and without permission to allocate, for every allowed and safe history from the empty
multimap that never stores more than `N` elements, equal ones counted.  `runN` is `run` with the comparisons counted. -/
theorem C62_omm_amortized (hc : LawfulCmp cmp) (br : Nat → Bool → Slot) (par : Nat → Slot) (mem : Nat → α) (al : Bool)
    (off : Nat) (ops : List (MultiSpec.Op α κ)) (N : Nat) (hs : okRun cmp key al off (none_ α) ops)
    (hN : ∀ pre, pre <+: ops → (MultiSpec.specRun cmp key al (none_ α) pre).1.elems.length ≤ N) :
    ∃ s n, run cmp key (init br par mem al off) ops = some (s, (MultiSpec.specRun cmp key al (none_ α) ops).2) ∧
      runN cmp key (init br par mem al off) ops 0 = some ((s, (MultiSpec.specRun cmp key al (none_ α) ops).2), n) ∧
      (n : ℝ) ≤ ops.length * (26 * Real.logb 2 (N + 2) + 11) := by
  have hL : lg (N + 2) = Real.logb 2 (N + 2) := by simp [lg]
  have hinit : Sim cmp key al off (init br par mem al off) (none_ α) := init_sim br par mem
  obtain ⟨r, n, hcost, hp⟩ := runN_pays hc (L := lg (N + 2)) ops hinit hs
    (fun pre h => lg_mono (by omega) (by have := hN pre h; omega))
  obtain ⟨s, e, A, D, h, T, o⟩ := run_sim hc ops hinit hs
  have := (runN_er cmp key (init br par mem al off) ops).eq hcost
  rw [e] at this
  cases this
  refine ⟨s, n, e, by have := hcost 0; rw [Nat.zero_add] at this; exact this, ?_⟩
  obtain ⟨A0, D0, h0, T0, o0⟩ := hinit
  have eA : A0 = [] := by have := o0.elems; simpa using this.symm
  subst eA
  have eT : T0 = nil := by
    cases T0 with
    | nil => rfl
    | node i k l r => exact absurd (o0.core.memT (n := i) (by simp [ids])) (by simp)
  subst eT
  rw [o0.core.phi, o.core.phi, o0.sz] at hp
  have h1 := Pot_nonneg T
  have h2 : 0 ≤ (12 * lg (N + 2) + 5) * (s.sz : ℝ) :=
    mul_nonneg (by have := lg_ge_one (a := N + 2) (by omega); linarith) (Nat.cast_nonneg _)
  simp only [Pot, mul_zero, List.length_nil, Nat.cast_zero, add_zero] at hp
  rw [← hL]
  linarith

/-- A history the theorem speaks about: equal keys, queries, pops, a range, a removal by entry, `clear`. -/
def someCalls : List (MultiSpec.Op (Nat × Nat) Nat) := [.insert 1 (5, 0) none, .insert 2 (7, 1) none, .insert 3 (7, 2) none, .max,
    .popMax, .equalRange 9 4, .extract 1, .insert 4 (6, 0) none, .removeEntry 6, .clear]
example : okRun natCmp (Prod.fst : Nat × Nat → Nat) false 8 (none_ _) someCalls ∧
    (∀ pre, pre <+: someCalls → (MultiSpec.specRun natCmp (Prod.fst : Nat × Nat → Nat) false (none_ _) pre).1.elems.length ≤ 3) := by
  constructor
  · simp [someCalls, okRun, okOp, safeOp, MultiSpec.specStep, oldest, without, PtrMap.addAt, St.add, St.forget, St.take,
      PtrMap.fresh, goodAns, descending, arrange, putBehind, natCmp]
  · intro pre h
    rw [← List.mem_inits] at h
    revert pre
    decide

end CCC.Omm
