import Verif.Proof.RealtimeMapAccess
import Verif.Props.RealtimeMap
import Verif.Proof.OrderedMapSpine
import Mathlib.Analysis.SpecialFunctions.Log.Base
/-
C63.  The realtime maps promise logarithmic worst case cost.  `stepN` is `step` with the accesses to stored elements
counted: reading or writing a link, a rank parity, and comparing the key of an element.
-/
namespace CCC.Rom
open CCC PtrMap MapSpec Wavl Tree

variable {α κ : Type} {cmp : κ → κ → Cmp} {key : α → κ}

/-- The rank of a tree of `n` elements. -/
theorem rk_log {T : Tree} (h : Valid T) {n : Nat} (hn : T.ids.length ≤ n) : (T.rk : ℝ) ≤ 2 * Real.logb 2 (n + 1) := by
  have h1 : 2 ^ T.rk ≤ (n + 1) ^ 2 := Nat.le_trans h.size_bound (Nat.pow_le_pow_left (by omega) 2)
  have h2 : (2 : ℝ) ^ T.rk ≤ ((n : ℝ) + 1) ^ 2 := by exact_mod_cast h1
  have h3 := Real.logb_le_logb_of_le (b := 2) (by norm_num) (by positivity) h2
  rw [Real.logb_pow, Real.logb_pow, Real.logb_self_eq_one (by norm_num), mul_one] at h3
  exact_mod_cast h3

/-- C63.  Every call on a realtime ordered map of `n` elements, in the worst case and not only on average, makes at most
`38 log₂ (n + 1) + 96` accesses to stored elements.  Excepted are `clear`, see below, and the test function `validate`,
which visit every element. -/
theorem C63_rom_logarithmic (hc : LawfulCmp cmp) {s : Rom α} {l : List (Nat × α)} (h : Reach cmp key s l) {op : Op α κ}
    (ok : okOp cmp key s.alloc l op) (h1 : op ≠ .clear) (_ : op ≠ .validate) :
    ∃ s' n, step cmp key s op = some (s', (specStep cmp key s.alloc l op).2) ∧
      stepN cmp key s op 0 = some ((s', (specStep cmp key s.alloc l op).2), n) ∧
      (n : ℝ) ≤ 38 * Real.logb 2 (l.length + 1) + 96 := by
  obtain ⟨T, o⟩ := h.sim hc
  obtain ⟨s', e, _, _⟩ := step_spec hc o op ok
  obtain ⟨m, hm, hcost⟩ := step_bd hc o ok h1 _ e
  refine ⟨s', m, e, by have := hcost 0; rw [Nat.zero_add] at this; exact this, ?_⟩
  have hT : T.ids.length ≤ l.length := by rw [o.list]; simp [elems]
  have hr := rk_log o.valid hT
  have hm' : (m : ℝ) ≤ 19 * T.rk + 96 := by exact_mod_cast hm
  linarith

/-- C63.  `clear` makes at most `n (34 log₂ (n + 1) + 98)` accesses. -/
theorem C63_rom_clear (hc : LawfulCmp cmp) {s : Rom α} {l : List (Nat × α)} (h : Reach cmp key s l) :
    ∃ s' d n, clear s = some (s', d, .ok) ∧ clearN s 0 = some ((s', d, .ok), n) ∧
      (n : ℝ) ≤ l.length * (34 * Real.logb 2 (l.length + 1) + 98) := by
  obtain ⟨T, o⟩ := h.sim hc
  obtain ⟨s', d, e, _⟩ := clearLoop_spec l.length [] o rfl
  rw [List.nil_append] at e
  have hb : ∀ {T : Tree}, Valid T → T.ids.length ≤ l.length → T.rk ≤ ⌊2 * Real.logb 2 (l.length + 1)⌋₊ :=
    fun hv hl => Nat.le_floor (rk_log hv hl)
  obtain ⟨m, hm, hcost⟩ := clearLoop_bd l.length [] o rfl hb _ e
  refine ⟨s', d, m, by simp [clear, e], ?_, ?_⟩
  · have := hcost 0
    rw [Nat.zero_add] at this
    simp [clearN, this]
  · have hf : ((⌊2 * Real.logb 2 (l.length + 1)⌋₊ : ℕ) : ℝ) ≤ 2 * Real.logb 2 (l.length + 1) := by
      refine Nat.floor_le ?_
      have := Real.logb_nonneg (b := 2) (x := (l.length : ℝ) + 1) (by norm_num) (by
        have : (0 : ℝ) ≤ l.length := Nat.cast_nonneg _
        linarith)
      linarith
    have hm' : (m : ℝ) ≤ l.length * (17 * ⌊2 * Real.logb 2 (l.length + 1)⌋₊ + 98) := by exact_mod_cast hm
    refine le_trans hm' (mul_le_mul_of_nonneg_left ?_ (Nat.cast_nonneg _))
    linarith

/-- Maps of every size are reachable. -/
theorem ascending_reach (n : Nat) : ∃ s, Reach natCmp (id : Nat → Nat) s (Om.nums n) := by
  have hs : ∀ j i, okRun natCmp id false (Om.nums i) ((List.range' (i + 1) j).map (fun i => .tryInsert i i none)) ∧
      (specRun natCmp id false (Om.nums i) ((List.range' (i + 1) j).map (fun i => .tryInsert i i none))).1 =
        Om.nums (i + j) := by
    intro j
    induction j with
    | zero => intro i; exact ⟨trivial, rfl⟩
    | succ j ih =>
      intro i
      rw [List.range'_succ, List.map_cons]
      simp only [okRun, specRun]
      rw [Om.spec_insert, show i + (j + 1) = i + 1 + j by omega]
      exact ⟨⟨⟨Om.fresh_nums i, fun n h => by cases h⟩, (ih (i + 1)).1⟩, (ih (i + 1)).2⟩
  have h := hs n 0
  rw [Nat.zero_add] at h
  obtain ⟨s, e⟩ := C29_rom_history natCmp_lawful (fun _ => (0 : Nat)) false _ h.1
  exact ⟨s, _, _, _, h.1, ⟨_, e⟩, by have := h.2; rw [Nat.zero_add] at this; exact this⟩

/-- C63 fails for `ccc_rom_clear` as documented, "O(N)": it removes the root again and again, and each time walks to the
smallest element of the right subtree.  No constants bound its accesses by a linear function of the number of
elements. -/
theorem C63_rom_clear_violated : ¬ ∃ c d : ℝ, ∀ (s : Rom Nat) (l : List (Nat × Nat)), Reach natCmp id s l →
    ∀ r n, clearN s 0 = some (r, n) → (n : ℝ) ≤ c * l.length + d := by
  rintro ⟨c, d, h⟩
  obtain ⟨j, hj⟩ := exists_nat_ge (2 * |c| + |d| + 1)
  obtain ⟨s, hs⟩ := ascending_reach (2 ^ (2 * (j + 1)) + 2 ^ (2 * (j + 1)))
  obtain ⟨T, o⟩ := hs.sim natCmp_lawful
  have hlen : (Om.nums (2 ^ (2 * (j + 1)) + 2 ^ (2 * (j + 1)))).length = 2 ^ (2 * (j + 1)) + 2 ^ (2 * (j + 1)) := by
    simp [Om.nums]
  obtain ⟨s', e, e1, _⟩ := clearLoop_spec _ [] o hlen
  obtain ⟨m, hm, hcost⟩ := clearLoop_lo (2 * (j + 1)) _ [] o hlen _ e1
  have hN : clearN s 0 = some ((s', [] ++ e, .ok), m) := by
    have := hcost 0
    rw [Nat.zero_add] at this
    simp [clearN, this]
  have := h s _ hs _ _ hN
  rw [hlen] at this
  rw [Nat.add_sub_cancel, show 2 * (j + 1) / 2 - 1 = j by omega] at hm
  have hm' : (2 : ℝ) ^ (2 * (j + 1)) * j ≤ m := by exact_mod_cast hm
  have hp : (1 : ℝ) ≤ 2 ^ (2 * (j + 1)) := one_le_pow₀ (by norm_num)
  push_cast at this
  have hc := le_abs_self c
  have hd := le_abs_self d
  have hd0 := abs_nonneg d
  nlinarith

/-- The hypotheses of `C63_rom_logarithmic` are met by a map of four elements and a removal. -/
example : ∃ s l, Reach natCmp (Prod.fst : Nat × Nat → Nat) s l ∧ l.length = 4 ∧
    okOp natCmp Prod.fst s.alloc l (.removeEntry 3) ∧ ∃ s' r n, stepN natCmp Prod.fst s (.removeEntry 3) 0 = some ((s', r), n) ∧
      (n : ℝ) ≤ 38 * Real.logb 2 (4 + 1) + 96 := by
  obtain ⟨s, h⟩ := sample_reach
  obtain ⟨s', n, _, e, hn⟩ := C63_rom_logarithmic natCmp_lawful h (op := .removeEntry 3) trivial (by simp) (by simp)
  exact ⟨s, _, h, rfl, trivial, s', _, n, e, by simpa using hn⟩

/-- Maps of any size to which `C63_rom_clear` applies. -/
example (n : Nat) : ∃ s l, Reach natCmp (id : Nat → Nat) s l ∧ l.length = n := by
  obtain ⟨s, h⟩ := ascending_reach n
  exact ⟨s, _, h, by simp [Om.nums]⟩

/-- The counter moves by exactly one with each access. -/
example {β : Type} (y : Option β) (n : Nat) : acc y n = y.map (fun r => (r, n + 1)) := Count.acc_run y n

end CCC.Rom
