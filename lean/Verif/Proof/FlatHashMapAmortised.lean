import Verif.Proof.FlatHashMapUsed
import Verif.Proof.FlatHashMapAverage
/-
The cost of a history of the flat hash map, on the average over all hash functions.
-/
namespace CCC.Fhm
open CCC HashMap Finset

variable {α κ : Type} {c : Cfg κ α}

/-! ### One call -/

/-- `crowd`, or nothing for a map without memory. -/
noncomputable def run1 (c : Cfg κ α) (cap : Nat) (K : Finset κ) (k : κ) : Nat := if cap = 0 then 0 else crowd c cap K k

/-- The stored keys. -/
def keys [DecidableEq κ] (key : α → κ) (l : List α) : Finset κ := (l.map key).toFinset

theorem keys_card [DecidableEq κ] (key : α → κ) (l : List α) : #(keys key l) ≤ l.length := by
  have := List.toFinset_card_le (l.map key)
  rw [List.length_map] at this
  exact this

theorem mem_keys [DecidableEq κ] {key : α → κ} {l : List α} {x : α} (h : x ∈ l) : key x ∈ keys key l := by
  unfold keys
  rw [List.mem_toFinset]
  exact List.mem_map_of_mem h

/-- What wiping the memory will cost. -/
def toWipe (s : Fhm α) : Nat := if s.sz < 2 then s.cap else 0

/-- The cost of growing from `st`. -/
noncomputable def growCost [DecidableEq κ] (c : Cfg κ α) (al ok : Bool) (st : St α) : Nat :=
  if (room al ok st).1.cap ≠ st.cap then
    (room al ok st).1.cap + st.cap + (st.l.map (fun x => 2 * (run1 c (room al ok st).1.cap (keys c.key st.l) (c.key x) + 1))).sum else 0

/-- The cost of a call, without the wiping. -/
noncomputable def opCost [DecidableEq κ] (c : Cfg κ α) (al : Bool) (st : St α) (op : Op α κ) : Nat :=
  match looks (c := c) op with
  | some (k, some ans) => growCost c al ans.isSome st + 2 * (run1 c (room al ans.isSome st).1.cap (keys c.key st.l) k + 1)
  | some (k, none) => 2 * (run1 c st.cap (keys c.key st.l) k + 1)
  | none => 0

theorem Tbl.full {s : Fhm α} (t : Tbl c s) : Full s := by
  intro i hi hi' ho
  have := t.sz
  have hm : s.mem i ∈ cells s.mem s.cap := mem_cells.2 ⟨i, hi, hi', ho, rfl⟩
  have := List.length_pos_of_mem hm
  omega

/-- What a call costs, and that the memory is wiped only once. -/
theorem step_cost [DecidableEq κ] (hl : Lawful c) (heq : ∀ a b, c.eq a b = true ↔ a = b) {s : Fhm α} {st : St α} (h : Sim c s st)
    (op : Op α κ) (hok : okOp c st op) (hs : safeOp c s.hasAlloc st op) :
    ∃ s' m, Costs (stepN c s op) m (s', (specStep c s.hasAlloc st op).2) ∧ step c s op = some (s', (specStep c s.hasAlloc st op).2) ∧
      Sim c s' (specStep c s.hasAlloc st op).1 ∧ s'.hasAlloc = s.hasAlloc ∧
      m + toWipe s' ≤ toWipe s + opCost c s.hasAlloc st op + lost st op := by
  obtain ⟨s', h1, h2, h3⟩ := step_good hl h op hok hs
  have hcap' := h2.cap
  have hcap := h.cap
  have hWle : toWipe s' ≤ s'.cap := by unfold toWipe; split <;> omega
  have hWu : Used s' → toWipe s' = 0 := by
    intro hu
    unfold toWipe
    split
    · by_contra h0
      have h6 : 2 ≤ s'.cap := by
        rcases h2.body with ⟨t, _⟩ | ⟨_, _, hb⟩
        · have := t.cap; omega
        · omega
      have := hu h6
      omega
    · rfl
  cases hlk : looks (c := c) op with
  | none =>
    obtain ⟨m, hm, hc⟩ := step_bd_none (c := c) (s := s) hlk _ h1
    refine ⟨s', m, hc, h1, h2, h3, ?_⟩
    unfold opCost
    rw [hlk]
    cases op <;> simp only [looks, reduceCtorEq] at hlk
    · rw [← (Prod.mk.inj (Option.some.inj h1)).1]; simp only [lost]; omega
    · rw [← (Prod.mk.inj (Option.some.inj h1)).1]; simp only [lost]; omega
    · rw [← (Prod.mk.inj (Option.some.inj h1)).1]; simp only [lost]; omega
    · simp only [step, Option.bind_eq_bind, Option.bind_eq_some_iff] at h1
      obtain ⟨_, _, h1⟩ := h1
      rw [← (Prod.mk.inj (Option.some.inj h1)).1]; simp only [lost]; omega
    · simp only [specStep] at hcap'
      simp only [lost]; omega
  | some q =>
    obtain ⟨k, a⟩ := q
    have hnc : lost st op = 0 := by
      cases op <;> first | rfl | simp [looks] at hlk
    rw [hnc]
    unfold opCost
    rw [hlk]
    cases a with
    | none =>
      simp only
      have hsafe : st.cap = 0 ∨ st.stale = false := by
        cases op <;> simp [looks] at hlk <;> exact hs
      have hclose : Close c s k (run1 c st.cap (keys c.key st.l) k) ∧ Full s := by
        rcases h.body with ⟨t, p⟩ | ⟨hz, hn, hb⟩
        · have := t.cap
          refine ⟨.inr ⟨by omega, ?_⟩, t.full⟩
          unfold run1
          rw [if_neg (by omega), ← hcap]
          exact near_crowd t heq _ (fun x hx => mem_keys (p.subset hx)) k
        · rcases hb with hb | ⟨hb, hw⟩
          · exact ⟨.inl hb, fun i _ hi' => by omega⟩
          · have hw := hw (by have : st.cap ≠ 0 := by omega
                              simpa [this] using hsafe)
            have hh := toI_range c (cap := s.cap) (by omega) (filter c k)
            exact ⟨.inr ⟨by omega, _, hh.1, hh.2, hw _ hh.2, by rw [dist_self]; omega⟩, fun i _ hi' ho => absurd (hw i hi') ho⟩
      obtain ⟨m, hm, hc⟩ := step_bd_find hlk hclose.1 _ h1
      refine ⟨s', m, hc, h1, h2, h3, ?_⟩
      have hu := step_used_find hlk hclose.1 hclose.2 _ h1
      have hceq : s'.cap = s.cap := by
        rw [hcap', hcap]
        cases op <;> simp only [looks, Option.some.injEq, Prod.mk.injEq, reduceCtorEq, and_false] at hlk <;> simp only [specStep] <;> split <;> rfl
      have : toWipe s' ≤ toWipe s := by
        by_cases hs2 : Used s
        · rw [hWu (hu hs2)]; omega
        · unfold Used at hs2
          have : toWipe s = s.cap := by unfold toWipe; rw [if_pos (by omega)]
          omega
      omega
    | some ans =>
      simp only
      have hm := maybeResize_bd hl h ans (fun x => run1 c (room s.hasAlloc ans.isSome st).1.cap (keys c.key st.l) (c.key x)) (by
        intro t ht htc hx x hxl
        unfold run1
        have := ht.cap
        rw [if_neg (by omega), ← htc]
        exact near_crowd ht heq _ (fun y hy => mem_keys (hx y hy)) _)
      have hr : ∀ p, maybeResize c s ans = some p →
          Close c p.1 k (run1 c (room s.hasAlloc ans.isSome st).1.cap (keys c.key st.l) k) ∧ Used p.1 ∧ Full p.1 := by
        intro p hp
        obtain ⟨s1, r, e1, _, e3, e4⟩ := maybeResize_spec hl h ans
        rw [e1] at hp
        cases hp
        have key : ∀ (t : Tbl c s1) (p : (vals s1).Perm st.l),
            Close c s1 k (run1 c (room s.hasAlloc ans.isSome st).1.cap (keys c.key st.l) k) ∧ Used s1 ∧ Full s1 := by
          intro t p
          have h6 := t.cap
          refine ⟨.inr ⟨by omega, ?_⟩, fun _ => by have := t.sz; omega, t.full⟩
          unfold run1
          rw [← e3, if_neg (by omega)]
          exact near_crowd t heq _ (fun x hx => mem_keys (p.subset hx)) k
        rcases e4 with ⟨_, _, t, p, _⟩ | ⟨_, _, ⟨t, p, _⟩ | ⟨_, h0, _, _⟩⟩
        · exact key t p
        · exact key t p
        · exact ⟨.inl h0, fun h2 => by simp only at h2; omega, fun i _ hi' => by simp only at hi'; omega⟩
      obtain ⟨m, hm', hc⟩ := step_bd_entry hlk hm (fun p hp => (hr p hp).1) _ h1
      refine ⟨s', m, hc, h1, h2, h3, ?_⟩
      have hu := hWu (step_used_entry hlk hr _ h1)
      unfold growCost
      rw [hu]
      unfold toWipe
      omega

/-! ### A history -/

/-- The cost of a history, without the wiping. -/
noncomputable def runCost [DecidableEq κ] (c : Cfg κ α) (al : Bool) : St α → List (Op α κ) → Nat
  | _, [] => 0
  | st, o :: os => opCost c al st o + runCost c al (specStep c al st o).1 os

theorem run_cost [DecidableEq κ] (hl : Lawful c) (heq : ∀ a b, c.eq a b = true ↔ a = b) : ∀ (ops : List (Op α κ)) {s : Fhm α} {st : St α},
    Sim c s st → safeRun c s.hasAlloc st ops →
    ∃ s' m, Costs (runN c s ops) m (s', (specRun c s.hasAlloc st ops).2) ∧
      run c s ops = some (s', (specRun c s.hasAlloc st ops).2) ∧
      m ≤ toWipe s + runCost c s.hasAlloc st ops + cleared c s.hasAlloc st ops := by
  intro ops
  induction ops with
  | nil => intro s st h _; exact ⟨s, 0, .pure _, rfl, by omega⟩
  | cons o os ih =>
    intro s st h hs
    obtain ⟨s1, m1, h1, h2, h3, h4, h5⟩ := step_cost hl heq h o hs.1 hs.2.1
    have hs2 : safeRun c s1.hasAlloc (specStep c s.hasAlloc st o).1 os := by rw [h4]; exact hs.2.2
    obtain ⟨s2, m2, k1, k2, k3⟩ := ih h3 hs2
    rw [h4] at k1 k2 k3
    refine ⟨s2, m1 + m2, ?_, ?_, ?_⟩
    · simp only [runN, specRun]
      refine h1.bind (m' := m2) ?_
      exact k1.bind (m' := 0) (.pure _)
    · simp only [run, h2, Option.bind_eq_bind, Option.bind_some, k2, specRun]
    · simp only [runCost, cleared]
      omega

/-! ### The average -/

/-- Consecutive capacities. -/
theorem wanted_le (n cap : Nat) : wanted n cap ≤ 8 * (n + 2) := by
  have key : ∀ (ps : List Nat) (x p0 : Nat), p0 ≤ x → List.IsChain (fun a b => b ≤ 4 * a) (p0 :: ps) →
      (ps.find? (fun p => decide (p > x))).getD 0 ≤ 4 * x := by
    intro ps
    induction ps with
    | nil => intro x p0 _ _; simp
    | cons p ps ih =>
      intro x p0 h0 hc
      rw [List.isChain_cons_cons] at hc
      rw [List.find?_cons]
      by_cases hp : p > x
      · simp only [hp, decide_true, Option.getD_some]; omega
      · simp only [hp, decide_false]
        exact ih x p (by omega) hc.2
  unfold wanted
  split
  · omega
  · have := key primes (2 * (n + 2)) 3 (by omega) (by decide)
    omega

theorem wanted_gt {n cap : Nat} (h0 : cap ≠ 0) (h : wanted n cap ≠ 0) : 2 * (n + 2) < wanted n cap := by
  unfold wanted at *
  rw [if_neg h0] at *
  cases hf : primes.find? (fun p => decide (p > 2 * (n + 2))) with
  | none => rw [hf] at h; simp at h
  | some p =>
    have := List.find?_some hf
    simp at this
    simpa using this

/-- What has been put aside for the next growth. -/
def saved (st : St α) : Nat := 2000 * (10 * (st.l.length + 2) - 5 * st.cap)

/-- Not too full, and not too large. -/
structure Fits (M : Nat) (st : St α) : Prop where
  zero : st.cap = 0 ∨ 6 ≤ st.cap
  load : 5 * st.l.length ≤ 4 * st.cap
  size : st.l.length ≤ M
  cap : st.cap ≤ 2 ^ 50

theorem room_facts (al ok : Bool) {M : Nat} {st : St α} (h : Fits M st) (hM : M ≤ 2 ^ 46) :
    Fits M (room al ok st).1 ∧ ((room al ok st).2 = true → 5 * (st.l.length + 1) ≤ 4 * (room al ok st).1.cap ∧ (room al ok st).1.cap ≠ 0) ∧
      ((room al ok st).1.cap ≠ st.cap →
        (room al ok st).1.cap + st.cap + 7202 * st.l.length + saved (room al ok st).1 ≤ saved st) ∧
      saved (room al ok st).1 ≤ saved st := by
  obtain ⟨h0, h1, h2, h3⟩ := h
  have hM' : M ≤ 70368744177664 := hM
  have h3' : st.cap ≤ 1125899906842624 := h3
  unfold room
  split
  · rename_i hc
    exact ⟨⟨h0, h1, h2, h3⟩, fun _ => ⟨by simp only; omega, hc.1⟩, fun h => absurd rfl h, by simp [saved]⟩
  · rename_i hc
    split
    · rename_i hg
      simp only [Bool.and_eq_true, decide_eq_true_eq] at hg
      have hle := wanted_le st.l.length st.cap
      have hlt := hg.2
      have hgt : 2 * (st.l.length + 2) < wanted st.l.length st.cap := by
        by_cases hz : st.cap = 0
        · have : st.l.length = 0 := by omega
          rw [wanted, if_pos hz, this]; omega
        · exact wanted_gt hz (by omega)
      have hw6 : 6 ≤ wanted st.l.length st.cap := by
        rcases h0 with h0 | h0
        · rw [wanted, if_pos h0]; omega
        · omega
      refine ⟨⟨.inr hw6, ?_, h2, ?_⟩, fun _ => ⟨?_, ?_⟩, fun _ => ?_, ?_⟩ <;> simp only [saved]
      · omega
      · show _ ≤ 1125899906842624; omega
      · omega
      · omega
      · omega
      · omega
    · exact ⟨⟨h0, h1, h2, h3⟩, fun h => by simp at h, fun h => absurd rfl h, by simp [saved]⟩

/-- What a call does to the contents. -/
theorem step_facts (c : Cfg κ α) (al : Bool) {M : Nat} {st : St α} (h : Fits M st) (hM : M + 1 ≤ 2 ^ 46) (op : Op α κ) :
    Fits (M + 1) (specStep c al st op).1 ∧
      saved (specStep c al st op).1 ≤ (match looks (c := c) op with
        | some (_, some ans) => saved (room al ans.isSome st).1
        | _ => saved st) + 20000 := by
  have hM0 : M ≤ 2 ^ 46 := by omega
  have hsame : ∀ {st' : St α} {l : List α}, Fits M st' → l.length ≤ st'.l.length → Fits (M + 1) { st' with l := l } :=
    fun hf hl => ⟨hf.zero, by have := hf.load; simp only; omega, by have := hf.size; simp only; omega, hf.cap⟩
  have hsave : ∀ {st' : St α} {l : List α}, l.length ≤ st'.l.length + 1 → saved { st' with l := l } ≤ saved st' + 20000 := by
    intro st' l hl
    unfold saved
    simp only
    omega
  have hmap : ∀ (k : κ) (x : α), (assign c k x st.l).length = st.l.length := fun k x => by simp [assign]
  have hwo : ∀ (k : κ), (without c k st.l).length ≤ st.l.length := fun k => by unfold without; exact List.length_filter_le _ _
  have hrm : ∀ ok, (room al ok st).1.l.length = st.l.length := fun ok => by rw [room_l]
  have hput : ∀ ok x, (room al ok st).2 = true → Fits (M + 1) { (room al ok st).1 with l := x :: st.l } := by
    intro ok x hr
    obtain ⟨f1, f2, _, _⟩ := room_facts al ok h hM0
    have := f2 hr
    refine ⟨f1.zero, ?_, ?_, f1.cap⟩
    · simp only [List.length_cons]; omega
    · have := h.size; simp only [List.length_cons]; omega
  have hR : ∀ ok, Fits M (room al ok st).1 := fun ok => (room_facts al ok h hM0).1
  have hup : ∀ {st' : St α}, Fits M st' → Fits (M + 1) st' := fun hf => ⟨hf.zero, hf.load, by have := hf.size; omega, hf.cap⟩
  have hle : ∀ (a : Nat), a ≤ a + 20000 := fun a => by omega
  cases op <;> simp only [specStep, looks] <;> (try split)
  all_goals first
    | exact ⟨hup h, hle _⟩
    | exact ⟨hup (hR _), hle _⟩
    | exact ⟨hsame (hR _) (by rw [hrm, hmap]), hsave (by rw [hrm, hmap]; omega)⟩
    | exact ⟨hsame (hR _) (by rw [hrm]; exact hwo _), hsave (by rw [hrm]; exact le_trans (hwo _) (by omega))⟩
    | exact ⟨hput _ _ ‹_›, hsave (by rw [hrm]; simp)⟩
    | exact ⟨hsame h (by rw [hmap]), hsave (by rw [hmap]; omega)⟩
    | exact ⟨hsame h (hwo _), hsave (le_trans (hwo _) (by omega))⟩
    | exact ⟨⟨h.zero, by simp, by simp, h.cap⟩, hsave (st' := { st with stale := true }) (by simp)⟩

variable [Fintype κ] [DecidableEq κ]

theorem run1_average (wide : Bool) (key : α → κ) {M : Nat} {st : St α} (h : Fits M st) (k : κ) :
    ∑ h : κ → UInt64, run1 (hashed wide key h) st.cap (keys key st.l) k ≤ 3600 * Fintype.card (κ → UInt64) := by
  unfold run1
  rcases h.zero with h0 | h0
  · simp [h0]
  · have : st.cap ≠ 0 := by omega
    simp only [this, if_false]
    have h1 := keys_card key st.l
    have h2 := h.load
    exact crowd_average wide key h0 h.cap _ (by omega) k

theorem grow_average (wide : Bool) (key : α → κ) (al ok : Bool) {M : Nat} {st : St α} (h : Fits M st) (hM : M ≤ 2 ^ 46) :
    ∑ h : κ → UInt64, growCost (hashed wide key h) al ok st + saved (room al ok st).1 * Fintype.card (κ → UInt64) ≤
      saved st * Fintype.card (κ → UInt64) := by
  obtain ⟨f1, _, f3, f4⟩ := room_facts al ok h hM
  unfold growCost
  by_cases hc : (room al ok st).1.cap ≠ st.cap
  · simp only [hc, if_true, not_false_eq_true, ne_eq]
    have f3 := f3 hc
    have hsum : ∀ l : List α, ∑ h : κ → UInt64, (l.map (fun x => 2 * (run1 (hashed wide key h) (room al ok st).1.cap
        (keys key st.l) (key x) + 1))).sum ≤ (7202 * l.length) * Fintype.card (κ → UInt64) := by
      intro l
      induction l with
      | nil => simp
      | cons x l ih =>
        simp only [List.map_cons, List.sum_cons, List.length_cons, sum_add_distrib]
        have h1 := run1_average wide key f1 (key x)
        rw [room_l] at h1
        have h2 : ∑ h : κ → UInt64, 2 * (run1 (hashed wide key h) (room al ok st).1.cap (keys key st.l) (key x) + 1) ≤
            7202 * Fintype.card (κ → UInt64) := by
          rw [← mul_sum, sum_add_distrib, sum_const, card_univ, smul_eq_mul, mul_one]
          generalize Fintype.card (κ → UInt64) = N at *
          omega
        refine le_trans (Nat.add_le_add h2 ih) ?_
        rw [← Nat.add_mul]
        exact Nat.mul_le_mul_right _ (by omega)
    rw [sum_add_distrib, sum_const, card_univ, smul_eq_mul]
    refine le_trans (Nat.add_le_add_right (Nat.add_le_add_left (hsum st.l) _) _) ?_
    rw [Nat.mul_comm (Fintype.card _), ← Nat.add_mul, ← Nat.add_mul]
    exact Nat.mul_le_mul_right _ f3
  · simp only [hc, if_false, sum_const_zero, Nat.zero_add]
    exact Nat.mul_le_mul_right _ f4

theorem specStep_hashed (wide : Bool) (key : α → κ) (h h' : κ → UInt64) (al : Bool) (st : St α) (op : Op α κ) :
    specStep (hashed wide key h) al st op = specStep (hashed wide key h') al st op := by cases op <;> rfl

theorem op_average (wide : Bool) (key : α → κ) (h0 : κ → UInt64) (al : Bool) {M : Nat} {st : St α} (h : Fits M st) (hM : M + 1 ≤ 2 ^ 46)
    (op : Op α κ) :
    ∑ h : κ → UInt64, opCost (hashed wide key h) al st op +
        saved (specStep (hashed wide key h0) al st op).1 * Fintype.card (κ → UInt64) ≤
      (28000 + saved st) * Fintype.card (κ → UInt64) := by
  have hM0 : M ≤ 2 ^ 46 := by omega
  have hs := (step_facts (hashed wide key h0) al h hM op).2
  have hlk : ∀ h, looks (c := hashed wide key h) op = looks (c := hashed wide key h0) op := by
    intro h; cases op <;> rfl
  unfold opCost
  simp only [hlk]
  have h2 : ∀ (cap : Nat) (k : κ), ∑ h : κ → UInt64, run1 (hashed wide key h) cap (keys key st.l) k ≤
      3600 * Fintype.card (κ → UInt64) →
      ∑ h : κ → UInt64, 2 * (run1 (hashed wide key h) cap (keys key st.l) k + 1) ≤ 7202 * Fintype.card (κ → UInt64) := by
    intro cap k h1
    rw [← mul_sum, sum_add_distrib, sum_const, card_univ, smul_eq_mul, mul_one]
    generalize Fintype.card (κ → UInt64) = N at *
    omega
  cases hl : looks (c := hashed wide key h0) op with
  | none =>
    rw [hl] at hs
    simp only at hs ⊢
    rw [sum_const_zero, Nat.zero_add]
    exact Nat.mul_le_mul_right _ (by omega)
  | some q =>
    obtain ⟨k, a⟩ := q
    rw [hl] at hs
    cases a with
    | none =>
      simp only at hs ⊢
      refine le_trans (Nat.add_le_add_right (h2 st.cap k (run1_average wide key h k)) _) ?_
      rw [← Nat.add_mul]
      exact Nat.mul_le_mul_right _ (by omega)
    | some ans =>
      simp only at hs ⊢
      rw [sum_add_distrib]
      have g := grow_average wide key al ans.isSome h hM0
      have f1 := (room_facts al ans.isSome h hM0).1
      have h1 := run1_average wide key f1 k
      rw [room_l] at h1
      have h3 := h2 _ k h1
      have h4 := Nat.mul_le_mul_right (Fintype.card (κ → UInt64)) hs
      rw [Nat.add_mul] at h4 ⊢
      have h5 : ∑ h : κ → UInt64, 2 * (run1 (hashed wide key h) (room al ans.isSome st).1.cap (keys (hashed wide key h).key st.l) k + 1) ≤
        7202 * Fintype.card (κ → UInt64) := h3
      generalize Fintype.card (κ → UInt64) = N at *
      omega

theorem runCost_average (wide : Bool) (key : α → κ) (h0 : κ → UInt64) (al : Bool) : ∀ (ops : List (Op α κ)) {M : Nat} {st : St α},
    Fits M st → M + ops.length ≤ 2 ^ 46 →
    ∑ h : κ → UInt64, runCost (hashed wide key h) al st ops ≤ (28000 * ops.length + saved st) * Fintype.card (κ → UInt64) := by
  intro ops
  induction ops with
  | nil => intro M st _ _; simp [runCost]
  | cons o os ih =>
    intro M st h hM
    rw [List.length_cons] at hM ⊢
    simp only [runCost]
    rw [sum_add_distrib]
    have h1 := op_average wide key h0 al h (by omega) o
    have h2 := ih (step_facts (hashed wide key h0) al h (by omega) o).1 (by omega)
    have h3 : ∑ h : κ → UInt64, runCost (hashed wide key h) al (specStep (hashed wide key h) al st o).1 os =
        ∑ h : κ → UInt64, runCost (hashed wide key h) al (specStep (hashed wide key h0) al st o).1 os :=
      sum_congr rfl (fun h _ => by rw [specStep_hashed wide key h h0])
    rw [h3]
    have e1 : (28000 * (os.length + 1) + saved st) * Fintype.card (κ → UInt64) = 28000 * os.length * Fintype.card (κ → UInt64) +
      (28000 + saved st) * Fintype.card (κ → UInt64) := by ring
    rw [Nat.add_mul] at h2
    rw [e1]
    omega

theorem safeRun_hashed (wide : Bool) (key : α → κ) (h h' : κ → UInt64) (al : Bool) : ∀ (ops : List (Op α κ)) (st : St α),
    safeRun (hashed wide key h) al st ops → safeRun (hashed wide key h') al st ops := by
  intro ops
  induction ops with
  | nil => intro st _; trivial
  | cons o os ih =>
    intro st hs
    refine ⟨?_, ?_, ?_⟩
    · have := hs.1; cases o <;> exact this
    · have := hs.2.1; cases o <;> exact this
    · rw [specStep_hashed wide key h' h]; exact ih _ hs.2.2

theorem specRun_hashed (wide : Bool) (key : α → κ) (h h' : κ → UInt64) (al : Bool) : ∀ (ops : List (Op α κ)) (st : St α),
    specRun (hashed wide key h) al st ops = specRun (hashed wide key h') al st ops := by
  intro ops
  induction ops with
  | nil => intro st; rfl
  | cons o os ih =>
    intro st
    simp only [specRun]
    rw [specStep_hashed wide key h h', ih]

theorem cleared_hashed (wide : Bool) (key : α → κ) (h h' : κ → UInt64) (al : Bool) : ∀ (ops : List (Op α κ)) (st : St α),
    cleared (hashed wide key h) al st ops = cleared (hashed wide key h') al st ops := by
  intro ops
  induction ops with
  | nil => intro st; rfl
  | cons o os ih =>
    intro st
    simp only [cleared]
    rw [specStep_hashed wide key h h', ih]

omit [Fintype κ] in
theorem hashed_eq (wide : Bool) (key : α → κ) (h : κ → UInt64) (a b : κ) : (hashed wide key h).eq a b = true ↔ a = b := by
  simp [hashed]

omit [Fintype κ] in
theorem hashed_lawful (wide : Bool) (key : α → κ) (h : κ → UInt64) : Lawful (hashed wide key h) where
  refl a := by simp [hashed]
  symm a b := by simp only [hashed_eq]; exact fun h => h.symm
  trans a b d := by simp only [hashed_eq]; exact fun h h' => h.trans h'
  hash a b hab := by rw [(hashed_eq wide key h a b).1 hab]

end CCC.Fhm
