import Verif.Proof.FlatHashMapAmortised
import Verif.Props.FlatHashMap
/-
Work done by the flat hash map on the average over all hash functions (C73).

`hashed wide key h` is the map with the hash function `h`, plain equality of keys and any function `key` from elements to
keys.  The set of keys is finite, so there are finitely many functions from keys to 64 bit values and the average over all
of them is a finite sum divided by their number; sums are compared with multiples of that number.  The history of calls,
the stored elements and the keys looked for are fixed before: nothing is assumed about them.

`runN` is the history as `run` executes it, but it also counts: the slots that a lookup, an insertion, a removal or a
rehash inspects, and the slots that are zeroed (`Verif/Model/FlatHashMapCost.lean`).  `Costs x m r` says that the counting
program `x` yields `r` and counts `m`.  The work of `validate` is not counted.
-/
namespace CCC.Fhm
open CCC HashMap

variable {α κ : Type}

theorem fits_init {n : Nat} (b : Bool) (hn : goodCap n) (hc : n ≤ 2 ^ 50) : Fits 0 (⟨[], n, b⟩ : St α) :=
  ⟨hn, by simp, by simp, hc⟩

/-- Every history of `m` calls from an empty map of capacity `n`: with every hash function it runs as it should, and the
slots inspected and wiped are on the average at most `28000 m + n + 40000` plus the capacities the map has when it is
cleared.  Missing: see `C73_fhm_violated` for `clear`; the calls that `safeRun` excludes (C37); capacities above `2 ^ 50`
and histories above `2 ^ 46` calls, for which the hash values are not spread evenly enough over the slots. -/
theorem C73_fhm_amortised_partial [Fintype κ] [DecidableEq κ] (wide : Bool) (key : α → κ) (mem : Nat → Cell α) (n : Nat) (al b : Bool)
    (ops : List (Op α κ)) (hn : goodCap n) (hb : b = false → ∀ i, i < n → (mem i).hash = 0) (hc : n ≤ 2 ^ 50)
    (hm : ops.length ≤ 2 ^ 46) (h0 : κ → UInt64) (hok : safeRun (hashed wide key h0) al ⟨[], n, b⟩ ops) :
    ∃ cost : (κ → UInt64) → Nat,
      (∀ h, ∃ s, run (hashed wide key h) (init mem n al) ops = some (s, (specRun (hashed wide key h0) al ⟨[], n, b⟩ ops).2) ∧
        Costs (runN (hashed wide key h) (init mem n al) ops) (cost h) (s, (specRun (hashed wide key h0) al ⟨[], n, b⟩ ops).2)) ∧
      ∑ h, cost h ≤ (28000 * ops.length + n + 40000 + cleared (hashed wide key h0) al ⟨[], n, b⟩ ops) *
        Fintype.card (κ → UInt64) := by
  have hrun : ∀ h : κ → UInt64, ∃ m, (∃ s, run (hashed wide key h) (init mem n al) ops =
      some (s, (specRun (hashed wide key h0) al ⟨[], n, b⟩ ops).2) ∧ Costs (runN (hashed wide key h) (init mem n al) ops) m
        (s, (specRun (hashed wide key h0) al ⟨[], n, b⟩ ops).2)) ∧
      m ≤ n + runCost (hashed wide key h) al ⟨[], n, b⟩ ops + cleared (hashed wide key h0) al ⟨[], n, b⟩ ops := by
    intro h
    obtain ⟨s, m, h1, h2, h3⟩ := run_cost (hashed_lawful wide key h) (hashed_eq wide key h) ops (init_sim al hn hb)
      (safeRun_hashed wide key h0 h al ops _ hok)
    rw [cleared_hashed wide key h h0] at h3
    rw [specRun_hashed wide key h h0] at h1 h2
    refine ⟨m, ⟨s, h2, h1⟩, le_trans h3 ?_⟩
    have : toWipe (init mem n al) ≤ n := by unfold toWipe; split <;> simp [init]
    rw [show (init mem n al).hasAlloc = al from rfl]
    omega
  choose cost hcost hle using hrun
  refine ⟨cost, hcost, le_trans (Finset.sum_le_sum (fun h _ => hle h)) ?_⟩
  rw [Finset.sum_add_distrib, Finset.sum_add_distrib, Finset.sum_const, Finset.sum_const, Finset.card_univ, smul_eq_mul, smul_eq_mul]
  have h1 := runCost_average wide key h0 al ops (fits_init b hn hc) (by omega)
  have h2 : saved (⟨[], n, b⟩ : St α) ≤ 40000 := by unfold saved; simp only [List.length_nil]; omega
  have h3 : (28000 * ops.length + n + 40000 + cleared (hashed wide key h0) al ⟨[], n, b⟩ ops) * Fintype.card (κ → UInt64) =
      Fintype.card (κ → UInt64) * n + (28000 * ops.length + 40000) * Fintype.card (κ → UInt64) +
        Fintype.card (κ → UInt64) * cleared (hashed wide key h0) al ⟨[], n, b⟩ ops := by ring
  rw [h3]
  have h4 := le_trans h1 (Nat.mul_le_mul_right _ (by omega : 28000 * ops.length + saved (⟨[], n, b⟩ : St α) ≤ 28000 * ops.length + 40000))
  omega

theorem cleared_none [DecidableEq κ] (c : Cfg κ α) (al : Bool) : ∀ (ops : List (Op α κ)) (st : St α), Op.clear ∉ ops → cleared c al st ops = 0 := by
  intro ops
  induction ops with
  | nil => intro st _; rfl
  | cons o os ih =>
    intro st h
    rw [List.mem_cons, not_or] at h
    rw [cleared, ih _ h.2]
    cases o <;> first | rfl | exact absurd rfl h.1

/-- The same without `clear`: a constant for each call. -/
theorem C73_fhm_constant_partial [Fintype κ] [DecidableEq κ] (wide : Bool) (key : α → κ) (mem : Nat → Cell α) (n : Nat) (al b : Bool)
    (ops : List (Op α κ)) (hn : goodCap n) (hb : b = false → ∀ i, i < n → (mem i).hash = 0) (hc : n ≤ 2 ^ 50)
    (hm : ops.length ≤ 2 ^ 46) (hcl : Op.clear ∉ ops) (h0 : κ → UInt64)
    (hok : safeRun (hashed wide key h0) al ⟨[], n, b⟩ ops) :
    ∃ cost : (κ → UInt64) → Nat,
      (∀ h, ∃ s, run (hashed wide key h) (init mem n al) ops = some (s, (specRun (hashed wide key h0) al ⟨[], n, b⟩ ops).2) ∧
        Costs (runN (hashed wide key h) (init mem n al) ops) (cost h) (s, (specRun (hashed wide key h0) al ⟨[], n, b⟩ ops).2)) ∧
      ∑ h, cost h ≤ (28000 * ops.length + n + 40000) * Fintype.card (κ → UInt64) := by
  have h := C73_fhm_amortised_partial wide key mem n al b ops hn hb hc hm h0 hok
  rw [cleared_none _ _ _ _ hcl, Nat.add_zero] at h
  exact h

theorem fits_run [Fintype κ] [DecidableEq κ] (c : Cfg κ α) (al : Bool) : ∀ (ops : List (Op α κ)) {M : Nat} {st : St α}, Fits M st →
    M + ops.length ≤ 2 ^ 46 → Fits (M + ops.length) (specRun c al st ops).1 := by
  intro ops
  induction ops with
  | nil => intro M st h _; exact h
  | cons o os ih =>
    intro M st h hM
    rw [List.length_cons] at hM ⊢
    have := ih (step_facts c al h (by omega) o).1 (by omega)
    rw [show M + 1 + os.length = M + (os.length + 1) by omega] at this
    exact this

/-- After any history a lookup of any key, stored or not, inspects on the average at most 3601 slots, however many elements
there are. -/
theorem C73_fhm_lookup_partial [Fintype κ] [DecidableEq κ] (wide : Bool) (key : α → κ) (mem : Nat → Cell α) (n : Nat) (al b : Bool)
    (ops : List (Op α κ)) (hn : goodCap n) (hb : b = false → ∀ i, i < n → (mem i).hash = 0) (hc : n ≤ 2 ^ 50)
    (hm : ops.length ≤ 2 ^ 46) (h0 : κ → UInt64) (hok : safeRun (hashed wide key h0) al ⟨[], n, b⟩ ops)
    (hs : (specRun (hashed wide key h0) al ⟨[], n, b⟩ ops).1.cap = 0 ∨ (specRun (hashed wide key h0) al ⟨[], n, b⟩ ops).1.stale = false)
    (k : κ) :
    ∃ cost : (κ → UInt64) → Nat,
      (∀ h, ∃ s outs p, run (hashed wide key h) (init mem n al) ops = some (s, outs) ∧
        Costs (getN (hashed wide key h) s k) (cost h) p ∧ get (hashed wide key h) s k = some p ∧
        view s p = lookup (hashed wide key h0) k (specRun (hashed wide key h0) al ⟨[], n, b⟩ ops).1.l) ∧
      ∑ h, cost h ≤ 3601 * Fintype.card (κ → UInt64) := by
  set st := (specRun (hashed wide key h0) al ⟨[], n, b⟩ ops).1 with hst
  have hf : Fits (0 + ops.length) st := fits_run _ al ops (fits_init b hn hc) (by omega)
  have hrun : ∀ h : κ → UInt64, ∃ m, (∃ s outs p, run (hashed wide key h) (init mem n al) ops = some (s, outs) ∧
        Costs (getN (hashed wide key h) s k) m p ∧ get (hashed wide key h) s k = some p ∧
        view s p = lookup (hashed wide key h0) k st.l) ∧
      m ≤ run1 (hashed wide key h) st.cap (keys key st.l) k + 1 := by
    intro h
    obtain ⟨s, h1, h2, h3⟩ := run_spec (hashed_lawful wide key h) ops (init_sim al hn hb)
      (safeRun_hashed wide key h0 h al ops _ hok)
    have hal : (init mem n al).hasAlloc = al := rfl
    rw [hal, specRun_hashed wide key h h0, ← hst] at h2
    obtain ⟨p, h4, h5⟩ := h2.get_eq (hashed_lawful wide key h) hs k
    have hclose : Close (hashed wide key h) s k (run1 (hashed wide key h) st.cap (keys key st.l) k) := by
      rcases h2.body with ⟨t, p⟩ | ⟨hz, hnil, hb'⟩
      · have := t.cap
        refine .inr ⟨by omega, ?_⟩
        have hcap := h2.cap
        unfold run1
        rw [if_neg (by omega), ← hcap]
        exact near_crowd t (hashed_eq wide key h) _ (fun x hx => mem_keys (key := key) (p.subset hx)) k
      · rcases hb' with hb' | ⟨hb', hw⟩
        · exact .inl hb'
        · have hcap := h2.cap
          have hw := hw (by have : st.cap ≠ 0 := by omega
                            simpa [this] using hs)
          have hh := toI_range (hashed wide key h) (cap := s.cap) (by omega) (filter (hashed wide key h) k)
          exact .inr ⟨by omega, _, hh.1, hh.2, hw _ hh.2, by rw [dist_self]; omega⟩
    have hbd : Bd (getN (hashed wide key h) s k) (get (hashed wide key h) s k) (run1 (hashed wide key h) st.cap (keys key st.l) k + 1) := by
      unfold getN get
      refine Bd.ite (fun _ => (Bd.pure _).mono (by omega)) (fun _ => ?_)
      exact Bd.tally (m' := 0) (fun e m hq => ⟨(find_post hclose hq).1, Bd.pure _⟩)
    obtain ⟨m, hm', hc'⟩ := hbd p h4
    exact ⟨m, ⟨s, _, p, h1, hc', h4, h5⟩, hm'⟩
  choose cost hcost hle using hrun
  refine ⟨cost, hcost, le_trans (Finset.sum_le_sum (fun h _ => hle h)) ?_⟩
  rw [Finset.sum_add_distrib, Finset.sum_const, Finset.card_univ, smul_eq_mul, mul_one]
  have h1 := run1_average wide key hf k
  generalize Fintype.card (κ → UInt64) = N at *
  omega

/-- A history used to show that hypotheses are met: 8 keys, growth from nothing to 11 and 37 slots, removals. -/
def averageOps : List (Op (Fin 8 × Nat) (Fin 8)) :=
  [.insert (0, 0) none, .tryInsert (0, 0) (some fun _ => (3, 9)), .tryInsert (1, 0) none, .tryInsert (2, 0) none,
   .tryInsert (3, 0) none, .tryInsert (4, 0) none, .tryInsert (5, 0) none, .tryInsert (6, 0) none,
   .remove (3, 9), .tryInsert (3, 0) none, .tryInsert (7, 0) (some fun _ => (3, 9)), .capacity, .remove (2, 2),
   .get 7 id, .get 2 id]

theorem averageOps_ok (h : Fin 8 → UInt64) : safeRun (hashed true Prod.fst h) true ⟨[], 0, true⟩ averageOps := by
  simp [averageOps, safeRun, safeOp, okOp, specStep, lookup, room, wanted, primes, without, hashed]

def averageMem : Nat → Cell (Fin 8 × Nat) := fun i => ⟨UInt64.ofNat (3 * i), (1, 77)⟩

example : ∃ cost : (Fin 8 → UInt64) → Nat,
    (∀ h, ∃ s outs, run (hashed true Prod.fst h) (init averageMem 0 true) averageOps = some (s, outs) ∧
      Costs (runN (hashed true Prod.fst h) (init averageMem 0 true) averageOps) (cost h) (s, outs)) ∧
    ∑ h, cost h ≤ 460000 * Fintype.card (Fin 8 → UInt64) := by
  obtain ⟨cost, h1, h2⟩ := C73_fhm_constant_partial true Prod.fst averageMem 0 true true averageOps (.inl rfl) (by simp) (by simp)
    (by simp [averageOps]) (by simp [averageOps]) (fun _ => 0) (averageOps_ok _)
  exact ⟨cost, fun h => (h1 h).elim fun s hs => ⟨s, _, hs⟩, le_trans h2 (Nat.mul_le_mul_right _ (by simp [averageOps]))⟩

example : ∃ cost : (Fin 8 → UInt64) → Nat,
    (∀ h, ∃ s outs p, run (hashed true Prod.fst h) (init averageMem 0 true) averageOps = some (s, outs) ∧
      Costs (getN (hashed true Prod.fst h) s 5) (cost h) p ∧ get (hashed true Prod.fst h) s 5 = some p ∧
      view s p = some (5, 0)) ∧
    ∑ h, cost h ≤ 3601 * Fintype.card (Fin 8 → UInt64) := by
  have hst : (specRun (hashed true Prod.fst fun _ : Fin 8 => 0) true ⟨[], 0, true⟩ averageOps).1 =
      ⟨[(7, 0), (3, 0), (6, 0), (5, 0), (4, 0), (1, 0), (0, 0)], 37, false⟩ := by
    simp [averageOps, specRun, specStep, lookup, room, wanted, primes, without, assign, hashed]
  have h := C73_fhm_lookup_partial true Prod.fst averageMem 0 true true averageOps (.inl rfl) (by simp) (by simp)
    (by simp [averageOps]) (fun _ => 0) (averageOps_ok _) (by rw [hst]; exact .inr rfl) 5
  rw [hst] at h
  simpa [lookup, hashed] using h

/-! ### Clearing -/

/-- The counter never goes down. -/
def Grows {β : Type} (x : Count β) : Prop := ∀ n r n', x n = some (r, n') → n ≤ n'

theorem Grows.pure {β : Type} (a : β) : Grows (pure a : Count β) := by
  intro n r n' h; cases h; omega

theorem Grows.lift {β : Type} (y : Option β) : Grows (liftM y : Count β) := by
  intro n r n' h
  cases y with
  | none => cases h
  | some a => cases h; omega

theorem Grows.tally {β : Type} (y : Option (β × Nat)) : Grows (tally y) := by
  intro n r n' h
  cases y with
  | none => cases h
  | some a => cases h; omega

theorem Grows.bind {β γ : Type} {x : Count β} {f : β → Count γ} (hx : Grows x) (hf : ∀ a, Grows (f a)) : Grows (x >>= f) := by
  intro n r n' h
  cases h1 : x n with
  | none =>
    have : (x >>= f) n = none := by show Option.bind (x n) _ = _; rw [h1]; rfl
    rw [this] at h; cases h
  | some a =>
    have : (x >>= f) n = f a.1 a.2 := by show Option.bind (x n) _ = _; rw [h1]; rfl
    rw [this] at h
    have e1 := hx n a.1 a.2 h1
    have e2 := hf a.1 a.2 r n' h
    omega

theorem Grows.ite {β : Type} {p : Prop} [Decidable p] {x y : Count β} (hx : Grows x) (hy : Grows y) : Grows (if p then x else y) := by
  split <;> assumption

theorem bind_some' {β γ : Type} {x : Count β} {f : β → Count γ} {n : Nat} {r : γ × Nat} (h : (x >>= f) n = some r) :
    ∃ a, x n = some a ∧ f a.1 a.2 = some r := by
  have : (x >>= f) n = Option.bind (x n) (fun a => f a.1 a.2) := rfl
  rw [this] at h
  exact Option.bind_eq_some_iff.1 h

/-- The first insertion after `clear` wipes all slots. -/
theorem insert_wipes {c : Cfg κ α} {s : Fhm α} (hz : s.sz = 0) (hc : 6 ≤ s.cap) (x : α) {n n' : Nat} {r : Fhm α × Out α}
    (h : stepN c s (.insert x none) n = some (r, n')) : n + s.cap ≤ n' := by
  simp only [stepN] at h
  obtain ⟨a, h1, h2⟩ := bind_some' h
  cases h2
  unfold insertN at h1
  obtain ⟨b, h3, h4⟩ := bind_some' h1
  have g1 : b.2 ≤ a.2 := by
    refine (?_ : Grows _) _ _ _ h4
    refine Grows.ite ?_ (Grows.ite (Grows.pure _) ?_)
    · exact (Grows.lift _).bind (fun _ => (Grows.lift _).bind (fun _ => (Grows.lift _).bind (fun _ => (Grows.lift _).bind (fun _ =>
        (Grows.lift _).bind (fun _ => Grows.pure _)))))
    · exact (Grows.lift _).bind (fun _ => (Grows.tally _).bind (fun _ => Grows.pure _))
  unfold entryN at h3
  obtain ⟨d, h5, h6⟩ := bind_some' h3
  have g2 : d.2 ≤ b.2 := (?_ : Grows _) _ _ _ h6
  swap
  · exact (Grows.tally _).bind (fun _ => Grows.pure _)
  have g3 : n + s.cap ≤ d.2 := by
    unfold maybeResizeN at h5
    rw [if_pos ⟨by omega, by omega⟩] at h5
    obtain ⟨e, h7, h8⟩ := bind_some' h5
    cases h7
    rw [if_pos (by simp only [sizeSet]; rw [if_neg (by omega)]; omega)] at h8
    cases h8
    exact le_refl _
  omega

/-- A map of `n` slots that is filled with one element and cleared again, `t` times. -/
def clearOps (κ : Type) (x : α) : Nat → List (Op α κ)
  | 0 => []
  | t + 1 => .clear :: .insert x none :: clearOps κ x t

theorem clearOps_cost [DecidableEq κ] {c : Cfg κ α} (hl : Lawful c) (heq : ∀ a b, c.eq a b = true ↔ a = b) (x : α) (n : Nat) (hn : 6 ≤ n) :
    ∀ (t : Nat) {s : Fhm α} {st : St α}, Sim c s st → s.cap = n →
    ∃ r m, run c s (clearOps κ x t) = some r ∧ Costs (runN c s (clearOps κ x t)) m r ∧ n * t ≤ m := by
  intro t
  induction t with
  | zero => intro s st _ _; exact ⟨_, 0, rfl, .pure _, by omega⟩
  | succ t ih =>
    intro s st h hc
    obtain ⟨s1, m1, c1, e1, h1, a1, _⟩ := step_cost hl heq h .clear trivial trivial
    obtain ⟨s2, m2, c2, e2, h2, a2, _⟩ := step_cost hl heq h1 (.insert x none) trivial trivial
    have hz : s1.sz = 0 := by
      simp only [step, clear] at e1
      rw [← (Prod.mk.inj (Option.some.inj e1)).1]
    have hc1 : s1.cap = n := by rw [h1.cap, ← hc, h.cap]; rfl
    have hc2 : s2.cap = n := by
      rw [h2.cap, ← hc1, h1.cap]
      simp only [specStep, lookup, List.find?_nil]
      have hr : ∀ al (q : St α), (room al false q).1.cap = q.cap := by
        intro al q; unfold room; split
        · rfl
        · simp
      split <;> simp [hr]
    obtain ⟨r, m, e3, c3, hm⟩ := ih h2 hc2
    have hw := insert_wipes hz (by omega) x (c2 0)
    generalize (specStep c s.hasAlloc st Op.clear).2 = o1 at *
    generalize (specStep c s1.hasAlloc (specStep c s.hasAlloc st Op.clear).1 (Op.insert x none)).2 = o2 at *
    refine ⟨(r.1, o1 :: o2 :: r.2), m1 + (m2 + m), ?_, ?_, ?_⟩
    rotate_left
    · simp only [clearOps, runN]
      refine c1.bind (m' := m2 + m) ?_
      refine Costs.bind (m := m2 + m) (m' := 0) (r := (r.1, o2 :: r.2)) ?_ (.pure _)
      refine c2.bind (m' := m) ?_
      exact c3.bind (m' := 0) (.pure _)
    · rw [Nat.mul_succ]; omega
    · simp only [clearOps, run, e1, e2, e3, Option.bind_eq_bind, Option.bind_some]

/-- C73 fails for `clear`: whatever the hash function, `2 t` calls on a map of `n` slots inspect or wipe at least `n t` slots,
although the map never holds more than one element. -/
theorem C73_fhm_violated [DecidableEq κ] (wide : Bool) (key : α → κ) (h : κ → UInt64) (mem : Nat → Cell α) (n : Nat) (al : Bool)
    (hn : 6 ≤ n) (x : α) (t : Nat) :
    (clearOps κ x t).length = 2 * t ∧
    ∃ r m, run (hashed wide key h) (init mem n al) (clearOps κ x t) = some r ∧
      Costs (runN (hashed wide key h) (init mem n al) (clearOps κ x t)) m r ∧ n * t ≤ m := by
  refine ⟨?_, ?_⟩
  · induction t with
    | zero => rfl
    | succ t ih => rw [clearOps, List.length_cons, List.length_cons, ih]; omega
  · exact clearOps_cost (hashed_lawful wide key h) (hashed_eq wide key h) x n hn t
      (init_sim (b := true) al (.inr hn) (by simp)) rfl

/-- Two thousand calls on a map that holds at most one element cost a million. -/
example (h : Fin 8 → UInt64) : ∃ r m, run (hashed true Prod.fst h) (init averageMem 1000 false) (clearOps (Fin 8) (3, 4) 1000) = some r ∧
    Costs (runN (hashed true Prod.fst h) (init averageMem 1000 false) (clearOps (Fin 8) (3, 4) 1000)) m r ∧ 1000 * 1000 ≤ m :=
  (C73_fhm_violated true Prod.fst h averageMem 1000 false (by omega) (3, 4) 1000).2

end CCC.Fhm
