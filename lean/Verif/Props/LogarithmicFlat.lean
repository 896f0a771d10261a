import Verif.Proof.FlatRealtimeMapAccess
import Verif.Props.FlatRealtimeMap
import Verif.Props.Logarithmic
/-
C63 for the flat realtime ordered map: logarithmic search and removal in the worst case, insertion on average.  `stepN` is
`step` with the accesses to slots counted: reading or writing a link, a rank parity or the data of a slot, comparing the key
of a slot, copying a slot, and, when the buffer is moved to larger memory, one for each of its slots.
-/
namespace CCC.Frm
open CCC FlatMap MapSpec Wavl Tree

variable {α κ : Type} {cmp : κ → κ → Cmp} {key : α → κ}

/-- C63.  Every call on a flat realtime ordered map of `n` elements makes at most `38 log₂ (n + 1) + 111` accesses to
slots, and, if the call replaced the buffer by a larger one, one more for each slot of the old buffer.  Excepted is the
test function `validate`. -/
theorem C63_frm_logarithmic (hc : LawfulCmp cmp) {s : Frm α} {st : St α} (h : Reach cmp key s st) {op : Op α κ (Junk α)}
    (ok : okOp cmp key st op) (_ : op ≠ .validate) :
    ∃ s' n, step cmp key s op = some (s', (specStep cmp key s.hasAlloc st op).2) ∧
      stepN cmp key s op 0 = some ((s', (specStep cmp key s.hasAlloc st op).2), n) ∧
      (n : ℝ) ≤ 38 * Real.logb 2 (st.l.length + 1) + 111 + (if s'.cap = s.cap then 0 else s.cap : ℕ) := by
  obtain ⟨T, o⟩ := h.sim hc
  obtain ⟨s', e, _, _⟩ := step_spec hc o op ok
  obtain ⟨m, hm, hcost⟩ := step_bd hc o ok _ e
  refine ⟨s', m, e, by have := hcost 0; rw [Nat.zero_add] at this; exact this, ?_⟩
  have hr := Rom.rk_log o.valid (Nat.le_of_eq o.length)
  have hm' : (m : ℝ) ≤ (if s'.cap = s.cap then 0 else s.cap : ℕ) + (19 * T.rk + 111) := by exact_mod_cast hm
  linarith

/-! ### On average -/

theorem place_length {E κ : Type} (cmp : κ → κ → Cmp) (key : E → κ) (e : E) (l : List E) :
    (place cmp key e l).length ≤ l.length + 1 := by
  unfold place
  have : (l.filter (fun x => cmp (key e) (key x) == .grt)).length + (l.filter (fun x => cmp (key e) (key x) == .les)).length
      ≤ l.length := by
    induction l with
    | nil => simp
    | cons a l ih =>
      simp only [List.filter_cons, List.length_cons]
      cases hc : cmp (key e) (key a) <;> simp <;> omega
  simp only [List.length_append, List.length_cons]
  omega

/-- How much the slots in use exceed half of the buffer: what was saved up for moving it. -/
def pot (st : St α) : Nat := 2 * (if st.started then st.l.length + 1 else 0) - st.cap

theorem room_pot {al ok : Bool} {st : St α} (h : st.started = true → st.l.length + 1 ≤ st.cap)
    (h' : st.started = false → st.l = []) :
    pot (room al ok st).1 + moved st.cap (room al ok st).1.cap ≤ pot st + 2 ∧
    ((room al ok st).2 = true → ∀ l' : List (Nat × α), l'.length ≤ st.l.length + 1 →
      pot { (room al ok st).1 with l := l' } + moved st.cap (room al ok st).1.cap ≤ pot st + 4) := by
  unfold room
  cases hs : st.started with
  | true =>
    have h := h hs
    simp only [if_true]
    unfold grow
    by_cases h1 : st.l.length + 1 < st.cap
    · rw [if_pos h1]
      simp only [pot, hs, if_true, moved]
      exact ⟨by omega, fun _ l' hl => by omega⟩
    · rw [if_neg h1]
      cases al && ok with
      | false => simp [pot, moved]
      | true =>
        have hc : st.cap ≠ 0 := by omega
        simp only [if_true, if_neg hc, pot, hs, moved, show ¬ st.cap * 2 = st.cap by omega, if_false]
        exact ⟨by omega, fun _ l' hl => by omega⟩
  | false =>
    have hl := h' hs
    simp only [Bool.false_eq_true, if_false]
    unfold grow
    by_cases h0 : 0 < st.cap
    · rw [if_pos h0]
      by_cases h1 : 1 < st.cap
      · simp only [if_pos h1, pot, hs, hl, moved, if_true, Bool.false_eq_true, if_false, List.length_nil]
        exact ⟨by omega, fun _ l' hl => by omega⟩
      · simp only [if_neg h1]
        cases al && ok with
        | false =>
          simp only [Bool.false_eq_true, if_false, pot, hl, hs, moved, if_true, List.length_nil]
          exact ⟨by omega, fun h => by simp at h⟩
        | true =>
          have hc : st.cap = 1 := by omega
          simp only [if_true, pot, hs, hl, moved, hc, Bool.false_eq_true, if_false, List.length_nil]
          norm_num
          intro l' hl
          omega
    · rw [if_neg h0]
      have hc : st.cap = 0 := by omega
      cases al && ok with
      | false => simp [pot, hs, hl, moved]
      | true =>
        simp only [if_true, hc, pot, hs, hl, moved, Bool.false_eq_true, if_false, List.length_nil,
          show (1 : Nat) < 8 by omega]
        norm_num
        intro l' hl
        omega

theorem add_pot {al ok : Bool} {st : St α} {x : α} (h : st.started = true → st.l.length + 1 ≤ st.cap)
    (h' : st.started = false → st.l = []) :
    pot (add cmp key al ok st x).1 + moved st.cap (add cmp key al ok st x).1.cap ≤ pot st + 4 := by
  obtain ⟨h1, h2⟩ := room_pot (al := al) (ok := ok) h h'
  unfold add
  cases hr : room al ok st with
  | mk s1 b =>
    rw [hr] at h1 h2
    cases b with
    | false => simp only at h1 ⊢; omega
    | true => exact h2 rfl _ (place_length _ _ _ _)

theorem pot_same {st : St α} {l' : List (Nat × α)} (h : l'.length ≤ st.l.length) :
    pot { st with l := l' } + moved st.cap ({ st with l := l' } : St α).cap ≤ pot st + 4 := by
  simp only [pot, moved, if_true]
  cases st.started <;> simp only [if_true, Bool.false_eq_true, if_false] <;> omega

theorem step_pot {al : Bool} {st : St α} (op : Op α κ (Junk α)) (h : st.started = true → st.l.length + 1 ≤ st.cap)
    (h' : st.started = false → st.l = []) :
    pot (specStep cmp key al st op).1 + moved st.cap (specStep cmp key al st op).1.cap ≤ pot st + 4 := by
  have same : pot st + moved st.cap st.cap ≤ pot st + 4 := by simp [moved]
  have ad : ∀ {ok x}, _ := fun {ok} {x} => add_pot (cmp := cmp) (key := key) (al := al) (ok := ok) (x := x) h h'
  have wr : ∀ {a x}, _ := fun {a} {x} => pot_same (st := st) (Nat.le_of_eq (write_length a x st.l))
  have dr : ∀ {k r}, _ := fun {k} {r} => pot_same (st := st) (l' := drop cmp key k r st.l) (by
    simp only [drop, erase, List.length_map]; exact List.length_filter_le _ _)
  cases op with
  | insert x ans | insertOrAssign x ans | insertOrAssignW k x ans =>
    simp only [specStep]
    split
    · exact wr
    · have := ad (ok := ans.isSome) (x := x)
      split <;> (rename_i e; rw [e] at this; exact this)
  | tryInsert x ans | tryInsertW k x ans =>
    simp only [specStep]
    split
    · exact same
    · have := ad (ok := ans.isSome) (x := x)
      split <;> (rename_i e; rw [e] at this; exact this)
  | remove x | removeEntry x =>
    simp only [specStep]
    split
    · exact dr
    · exact same
  | orInsert k x ans | orInsertW k x ans =>
    simp only [specStep]
    split
    · exact same
    · exact ad
  | insertEntry k x ans | insertEntryW k x ans =>
    simp only [specStep]
    split
    · exact wr
    · exact ad
  | andModify k f =>
    simp only [specStep]
    split
    · exact wr
    · exact same
  | equalRange b e | equalRrange b e => simp only [specStep]; split <;> exact same
  | clear => exact pot_same (l' := []) (Nat.zero_le _)
  | _ => exact same

theorem run_pays (hc : LawfulCmp cmp) {L : ℝ} (ops : List (Op α κ (Junk α))) : ∀ {s : Frm α} {st : St α}, Sim cmp key s st →
    okRun cmp key s.hasAlloc st ops →
    (∀ pre, pre <+: ops → Real.logb 2 ((specRun cmp key s.hasAlloc st pre).1.l.length + 1) ≤ L) →
    ∃ s' m, run cmp key s ops = some (s', (specRun cmp key s.hasAlloc st ops).2) ∧
      Costs (runN cmp key s ops) m (s', (specRun cmp key s.hasAlloc st ops).2) ∧
      (m : ℝ) ≤ ops.length * (38 * L + 115) + pot st := by
  induction ops with
  | nil =>
    intro s st _ _ _
    refine ⟨s, 0, rfl, .pure _, ?_⟩
    simp
  | cons op ops ih =>
    intro s st ⟨T, o⟩ hok hL
    obtain ⟨s1, e, ⟨T1, o1⟩, a1⟩ := step_spec hc o op hok.1
    obtain ⟨m, hm, hcost⟩ := step_bd hc o hok.1 _ e
    have hr := Rom.rk_log o.valid (Nat.le_of_eq o.length)
    have hL0 : Real.logb 2 (st.l.length + 1) ≤ L := hL [] (List.nil_prefix)
    obtain ⟨s2, m2, e2, hcost2, hm2⟩ := ih (s := s1) ⟨T1, o1⟩ (by rw [a1]; exact hok.2) (fun pre hp => by
      have := hL (op :: pre) (List.cons_prefix_cons.2 ⟨rfl, hp⟩)
      rw [a1]
      exact this)
    refine ⟨s2, m + m2, ?_, ?_, ?_⟩
    · simp [run, e, e2, specRun, a1]
    · intro q
      simp only [runN, Count.bind_run, hcost q, hcost2 (q + m), Option.bind_some, Count.pure_run, Nat.add_assoc]
      rw [a1]
      rfl
    · have hp := step_pot (cmp := cmp) (key := key) (al := s.hasAlloc) op (st := st) (fun hs => by
          have := o.started hs
          rw [← o.1, ← this.sz]; exact this.le) (fun hs => by
          obtain ⟨_, ⟨h, _⟩ | ⟨_, h, _⟩⟩ := o
          · rw [hs] at h; cases h
          · exact h)
      have hm' : m ≤ moved st.cap (specStep cmp key s.hasAlloc st op).1.cap + (19 * T.rk + 111) := by
        rw [← o.1, ← o1.1]; exact hm
      have hp' : (pot (specStep cmp key s.hasAlloc st op).1 : ℝ) + moved st.cap (specStep cmp key s.hasAlloc st op).1.cap ≤
        pot st + 4 := by exact_mod_cast hp
      have hm'' : (m : ℝ) ≤ moved st.cap (specStep cmp key s.hasAlloc st op).1.cap + (19 * T.rk + 111) := by exact_mod_cast hm'
      push_cast
      rw [List.length_cons]
      push_cast
      linarith

/-- C63.  Every history of calls on a new flat realtime ordered map, over a buffer of any capacity, that never stores more
than `N` elements: the calls answer as specified, and make at most `38 log₂ (N + 1) + 115` accesses to slots each on
average, moving the buffer to larger memory included. -/
theorem C63_frm_amortized (hc : LawfulCmp cmp) (mem : Junk α) (n : Nat) (al : Bool) (ops : List (Op α κ (Junk α))) (N : Nat)
    (hok : okRun cmp key al ⟨[], n, false⟩ ops) (_ : .validate ∉ ops)
    (hN : ∀ pre, pre <+: ops → (specRun cmp key al ⟨[], n, false⟩ pre).1.l.length ≤ N) :
    ∃ s m, run cmp key (init mem n al) ops = some (s, (specRun cmp key al ⟨[], n, false⟩ ops).2) ∧
      runN cmp key (init mem n al) ops 0 = some ((s, (specRun cmp key al ⟨[], n, false⟩ ops).2), m) ∧
      (m : ℝ) ≤ ops.length * (38 * Real.logb 2 (N + 1) + 115) := by
  obtain ⟨s, m, e, hcost, hm⟩ := run_pays hc (L := Real.logb 2 (N + 1)) ops
    ⟨_, init_ok (cmp := cmp) (key := key) mem n al⟩ hok (fun pre hp => by
      have h := hN pre hp
      exact Real.logb_le_logb_of_le (by norm_num) (by positivity) (by
        have : ((specRun cmp key al ⟨[], n, false⟩ pre).1.l.length : ℝ) ≤ N := by exact_mod_cast h
        exact add_le_add_left this 1))
  refine ⟨s, m, e, by have := hcost 0; rw [Nat.zero_add] at this; exact this, ?_⟩
  have : pot (⟨[], n, false⟩ : St α) = 0 := by simp [pot]
  rw [this] at hm
  simpa using hm

/-- The hypotheses of `C63_frm_logarithmic` are met by a map of four elements and a removal. -/
example : ∃ s, Reach natCmp (Prod.fst : Nat × Nat → Nat) s sampleSt ∧
    okOp (J := Junk (Nat × Nat)) natCmp Prod.fst sampleSt (.removeEntry 3) ∧ ∃ s' r n, stepN natCmp Prod.fst s (.removeEntry 3) 0 = some ((s', r), n) ∧
      (n : ℝ) ≤ 38 * Real.logb 2 (4 + 1) + 111 + (if s'.cap = s.cap then 0 else s.cap : ℕ) := by
  obtain ⟨s, h⟩ := sample_reach
  obtain ⟨s', n, _, e, hn⟩ := C63_frm_logarithmic natCmp_lawful h (op := .removeEntry 3) trivial (by simp)
  exact ⟨s, h, trivial, s', _, n, e, by simpa [sampleSt] using hn⟩

/-- The hypotheses of `C63_frm_amortized` are met by the sample history, which stores at most five elements. -/
example : ∃ s r m, runN natCmp (Prod.fst : Nat × Nat → Nat) (init sampleJunk 0 true) sampleOps 0 = some ((s, r), m) ∧
    (m : ℝ) ≤ 16 * (38 * Real.logb 2 (5 + 1) + 115) := by
  obtain ⟨s, m, _, e, hm⟩ := C63_frm_amortized natCmp_lawful sampleJunk 0 true sampleOps 5 sampleOps_ok (by simp [sampleOps])
    (by
      have : ∀ pre ∈ sampleOps.inits, (specRun natCmp Prod.fst true ⟨[], 0, false⟩ pre).1.l.length ≤ 5 := by
        simp [sampleOps, specRun, specStep, lookup, add, room, grow, place, write, drop, erase, natCmp, ekey]
      exact fun pre hp => this pre (List.mem_inits _ _ |>.2 hp))
  exact ⟨s, _, m, e, by simpa [sampleOps] using hm⟩

end CCC.Frm
