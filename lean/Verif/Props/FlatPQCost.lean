import Verif.Proof.FlatPQCost
import Verif.Props.FlatPQ
/-
C64: a flat priority queue takes logarithmic time for each call and linear time for `heapify`.

The work counted is every call of the user's comparison function, every copy of an element, and, when the buffer is moved
to larger memory, one copy for each of its slots.
-/
namespace CCC.Fpq
variable {α : Type}

/-- As `step`. -/
def stepN (q : Fpq α) : Op α → Count (Fpq α × Out α)
  | .push x a a' => do let r ← q.pushN x a a'; pure (r.1, .ptr (r.1.deref r.2))
  | .front => pure (q, .ptr (q.deref q.front))
  | .pop => do let r ← q.popN; pure (r.1, .res r.2)
  | .erase e => do let r ← q.eraseN e; pure (r.1, .handle (q.load e) (.res r.2))
  | .update e f => do let r ← q.updateN e f; pure (r.1, .handle (q.load e) (.ptr (r.1.deref r.2)))
  | .heapify xs a => do let r ← q.heapifyN xs a; pure (r.1, .res r.2)
  | .clear => pure (q.clear.1, .res q.clear.2.1)

/-- As `run`. -/
def runN (q : Fpq α) : List (Op α) → Count (Fpq α × List (Out α))
  | [] => pure (q, [])
  | op :: ops => do
    let (q, o) ← q.stepN op
    let (q, os) ← runN q ops
    pure (q, o :: os)

/-- What a call may cost in a queue of `n` elements: logarithmic, but linear in the input for `heapify`. -/
def allowed (n : Nat) : Op α → Nat
  | .heapify xs _ => 6 * xs.length
  | _ => 5 * Nat.log 2 (n + 1) + 4

theorem map_bind {β γ : Type} (x : Option β) (f : β → γ) : x.map f = x.bind (fun r => some (f r)) := by cases x <;> rfl

theorem step_bd (q : Fpq α) (hr : q.buf.sz = 0 ∨ q.buf.sz < q.buf.cap) (op : Op α) :
    BdR (q.stepN op) (q.step op) (fun r => moved q.buf.cap r.1.buf.cap + allowed q.size op) := by
  have hl : Nat.log 2 q.buf.sz ≤ Nat.log 2 (q.buf.sz + 1) := log_pos_le (by omega)
  cases op with
  | push x a a' =>
    simp only [step, map_bind, stepN]
    exact BdR.bind (push_bd q x a a' hr) (b := fun _ _ => 0) (fun r _ => BdR.pure _ _)
      (fun r p _ hp => by cases hp; simp only [allowed, size]; omega)
  | front => exact BdR.pure _ _
  | pop =>
    simp only [step, map_bind, stepN]
    exact (Bd.bind (pop_bd q) (b := allowed q.size (.pop : Op α)) (by simp only [allowed, size]; omega)
      (fun r _ => Bd.pure _ _)).le (fun r => by omega)
  | erase e =>
    simp only [step, map_bind, stepN]
    exact (Bd.bind (erase_bd q e) (b := allowed q.size (.erase e : Op α)) (by simp only [allowed, size]; omega)
      (fun r _ => Bd.pure _ _)).le (fun r => by omega)
  | update e f =>
    simp only [step, map_bind, stepN]
    exact (Bd.bind (update_bd q e f) (b := allowed q.size (.update e f : Op α)) (by simp only [allowed, size]; omega)
      (fun r _ => Bd.pure _ _)).le (fun r => by omega)
  | heapify xs a =>
    simp only [step, map_bind, stepN]
    exact BdR.bind (heapify_bd q xs a) (b := fun _ _ => 0) (fun r _ => BdR.pure _ _)
      (fun r p _ hp => by cases hp; simp only [allowed]; omega)
  | clear => exact BdR.pure _ _

/-- C64.  Every call but `heapify` on a flat priority queue of `n` elements does its work with at most
`5 log₂ (n + 1) + 4` comparisons and copies, and, if the call replaced the buffer by a larger one, one more copy for each
slot of the old buffer. -/
theorem C64_fpq_logarithmic (q : Fpq α) (h : q.Inv) (op : Op α) (ho : q.HandleOk op) (hop : ∀ xs a, op ≠ .heapify xs a) :
    ∃ q' o n, q.step op = some (q', o) ∧ q.stepN op 0 = some ((q', o), n) ∧
      n ≤ 5 * Nat.log 2 (q.size + 1) + 4 + if q'.buf.cap = q.buf.cap then 0 else q.buf.cap := by
  obtain ⟨q', o, e, _⟩ := C14_step q h op ho
  obtain ⟨n, hn, hc⟩ := step_bd q h.room op _ e
  refine ⟨q', o, n, e, by have := hc 0; rw [Nat.zero_add] at this; exact this, ?_⟩
  have : allowed q.size op = 5 * Nat.log 2 (q.size + 1) + 4 := by
    cases op <;> first | rfl | exact absurd rfl (hop _ _)
  rw [this] at hn
  simp only [moved] at hn
  omega

/-- C64.  `heapify` of `n` elements takes at most `6 n` comparisons and copies, and, if it replaced the buffer by a larger
one, one more copy for each slot of the old buffer. -/
theorem C64_fpq_heapify (q : Fpq α) (h : q.Inv) (xs : List α) (ans : AllocAns α) :
    ∃ q' r n, q.heapify xs ans = some (q', r) ∧ q.heapifyN xs ans 0 = some ((q', r), n) ∧
      n ≤ 6 * xs.length + if q'.buf.cap = q.buf.cap then 0 else q.buf.cap := by
  have : ∃ q' r, q.heapify xs ans = some (q', r) := by
    rcases C14_heapify q h xs ans with ⟨_, q', e, _⟩ | ⟨_, r, _, e⟩
    · exact ⟨_, _, e⟩
    · exact ⟨_, _, e⟩
  obtain ⟨q', r, e⟩ := this
  obtain ⟨n, hn, hc⟩ := heapify_bd q xs ans _ e
  refine ⟨q', r, n, e, by have := hc 0; rw [Nat.zero_add] at this; exact this, ?_⟩
  simp only [moved] at hn
  omega

/-- C64.  `ccc_fpq_heapify_init` makes a queue of an array of `n` elements with one spare slot, with at most `5 n`
comparisons and copies. -/
theorem C64_fpq_heapify_init (mem : Nat → α) (cap n : Nat) (hasAlloc : Bool) (cmp : α → α → Cmp) (order : Cmp)
    (hc : LawfulCmp cmp) (ho : IsOrder order) (hn : n < cap) :
    ∃ q' m, (init mem cap hasAlloc cmp order).inPlaceHeapify n = some q' ∧
      (init mem cap hasAlloc cmp order).inPlaceHeapifyN n 0 = some (q', m) ∧ m ≤ 5 * n := by
  obtain ⟨q', e, _⟩ := C13_heapify_init_partial mem cap n hasAlloc cmp order hc ho hn
  obtain ⟨m, hm, hcost⟩ := inPlaceHeapify_bd _ _ _ e
  exact ⟨q', m, e, by have := hcost 0; rw [Nat.zero_add] at this; exact this, hm⟩

/-! ### On average -/

/-- How much the slots in use exceed half of the buffer: what was saved up for moving it. -/
def pot (q : Fpq α) : Nat := 2 * q.buf.sz - q.buf.cap

/-- What a call may cost on average in a queue of at most `n` elements. -/
def allowedAvg (n : Nat) : Op α → Nat
  | .heapify xs _ => 8 * xs.length + 1
  | _ => 5 * Nat.log 2 (n + 1) + 6

theorem push_cap {q : Fpq α} {x : α} {a a' : AllocAns α} {r : Fpq α × Slot}
    (h : q.push x a a' = some r) (hr : q.buf.sz = 0 ∨ q.buf.sz < q.buf.cap) :
    r.1.buf.cap = q.buf.cap ∨ (q.buf.sz + 1 ≥ q.buf.cap ∧ r.1.buf.cap ≥ 2 * q.buf.cap) := by
  unfold push at h
  split at h
  · rename_i hf
    simp only at h
    split at h
    · left
      cases h
      rename_i hne
      revert hne
      simp only [Buf.alloc]
      repeat' split
      all_goals simp
    · rename_i hok
      right
      refine ⟨hf, ?_⟩
      rw [pushRoom_cap h]
      have h1 := alloc_cap (Classical.not_not.1 hok)
      have h2 := alloc_sz q.buf (q.buf.cap * 2) (q.buf.fn a)
      by_cases h0 : q.buf.cap = 0
      · omega
      · simp only [Buf.allocBack]
        rw [if_neg (by omega)]
        simp only
        omega
  · left
    rw [pushRoom_cap h]
    simp only [Buf.allocBack]
    rw [if_neg (by omega)]

theorem popBack_cap (b : Buf α) : b.popBack.1.cap = b.cap := by
  unfold Buf.popBack Buf.popBackN
  split <;> rfl

theorem pop_cap {q : Fpq α} {r : Fpq α × Res} (h : q.pop = some r) : r.1.buf.cap = q.buf.cap := by
  unfold pop at h
  split at h
  · cases h; rfl
  split at h
  · cases h; exact popBack_cap _
  · simp only [Option.bind_eq_bind, Option.bind_eq_some_iff, Option.pure_def, Option.some.injEq] at h
    obtain ⟨q1, h1, r1, h2, rfl⟩ := h
    rw [bubbleDown_cap _ _ _ _ _ rfl h2]
    exact (popBack_cap _).trans (swap_cap h1)

theorem erase_cap {q : Fpq α} {e : Nat} {r : Fpq α × Res} (h : q.erase e = some r) : r.1.buf.cap = q.buf.cap := by
  unfold erase at h
  split at h
  · cases h; rfl
  split at h
  · cases h; exact popBack_cap _
  split at h
  · cases h
  split at h
  · cases h; exact popBack_cap _
  · simp only [Option.bind_eq_bind, Option.bind_eq_some_iff] at h
    obtain ⟨q1, h1, x, _, y, _, h⟩ := h
    split at h
    · simp only [Option.bind_eq_some_iff, Option.pure_def, Option.some.injEq] at h
      obtain ⟨r1, h2, rfl⟩ := h
      rw [bubbleUp_cap _ _ _ _ h2]
      exact (popBack_cap _).trans (swap_cap h1)
    split at h
    · simp only [Option.bind_eq_some_iff, Option.pure_def, Option.some.injEq] at h
      obtain ⟨r1, h2, rfl⟩ := h
      rw [bubbleDown_cap _ _ _ _ _ rfl h2]
      exact (popBack_cap _).trans (swap_cap h1)
    · cases h; exact (popBack_cap _).trans (swap_cap h1)

theorem update_cap {q : Fpq α} {e : Nat} {f : α → α} {r : Fpq α × Slot} (h : q.update e f = some r) :
    r.1.buf.cap = q.buf.cap := by
  unfold update at h
  split at h
  · cases h; rfl
  · simp only [Option.bind_eq_bind, Option.bind_eq_some_iff, Option.pure_def, Option.some.injEq] at h
    obtain ⟨x, _, b, hb, r1, h, rfl⟩ := h
    have e : r1.1.buf.cap = b.cap := by
      unfold updateFixup at h
      simp only at h
      split at h
      · cases h
      split at h
      · exact bubbleDown_cap _ _ _ _ _ rfl h
      · simp only [Option.bind_eq_bind, Option.bind_eq_some_iff] at h
        obtain ⟨x, _, y, _, h⟩ := h
        split at h
        · exact bubbleUp_cap _ _ _ _ h
        split at h
        · exact bubbleDown_cap _ _ _ _ _ rfl h
        · cases h; rfl
    exact e.trans (store_cap hb)

theorem heapify_cap {q : Fpq α} {xs : List α} {a : AllocAns α} {r : Fpq α × Res} (h : q.heapify xs a = some r)
    (hc : r.1.buf.cap ≠ q.buf.cap) : r.1.buf.cap = xs.length + 1 ∧ q.buf.cap ≤ xs.length := by
  unfold heapify at h
  simp only at h
  split at h
  · split at h
    · rename_i hne
      cases h
      exact absurd (by
        revert hne
        simp only [Buf.alloc]
        repeat' split
        all_goals simp) hc
    · rename_i hf hok
      split at h
      · cases h
      · simp only [Option.map_eq_some_iff] at h
        obtain ⟨q1, h, rfl⟩ := h
        refine ⟨?_, by omega⟩
        rw [heapifyLoop_cap _ _ _ _ h]
        exact (sizeSet_sz _ _).2.trans (alloc_cap (Classical.not_not.1 hok))
  · split at h
    · cases h
    · simp only [Option.map_eq_some_iff] at h
      obtain ⟨q1, h, rfl⟩ := h
      exact absurd ((heapifyLoop_cap _ _ _ _ h).trans (sizeSet_sz _ _).2) hc

theorem sz_of_perm {q : Fpq α} {l : List α} (h : q.contents.Perm l) : q.buf.sz = l.length := by
  have := h.length_eq
  simpa [contents, window_length] using this

theorem contents_length (q : Fpq α) : q.contents.length = q.buf.sz := by simp [contents, window_length]

/-- The work of a call, the moves of the buffer included, is covered by what was saved before. -/
theorem step_pays (q : Fpq α) (h : q.Inv) (op : Op α) (ho : q.HandleOk op) {q' : Fpq α} {o : Out α}
    (e : q.step op = some (q', o)) :
    pot q' + (moved q.buf.cap q'.buf.cap + allowed q.size op) ≤ pot q + allowedAvg q.size op := by
  have still : ∀ c, moved c c = 0 := fun c => by simp [moved]
  have less : ∀ c c', moved c c' ≤ c := fun c c' => by unfold moved; split <;> omega
  have hroom := h.room
  cases op with
  | push x a a' =>
    simp only [step, Option.map_eq_some_iff, Prod.mk.injEq] at e
    obtain ⟨r, e, rfl, _⟩ := e
    have hsz : r.1.buf.sz ≤ q.buf.sz + 1 := by
      rcases C14_push q h x a a' with ⟨_, q1, k, e1, _, hp, _⟩ | ⟨_, e1⟩
      · rw [e] at e1; cases e1
        have := sz_of_perm hp
        rw [List.length_cons, contents_length] at this
        simp only; omega
      · rw [e] at e1; cases e1; simp
    simp only [pot, allowed, allowedAvg]
    rcases push_cap e hroom with h1 | ⟨h1, h2⟩
    · rw [h1, still]; omega
    · have := less q.buf.cap r.1.buf.cap
      omega
  | front =>
    simp only [step, Option.some.injEq, Prod.mk.injEq] at e
    obtain ⟨rfl, _⟩ := e
    simp only [still, allowed, allowedAvg]; omega
  | pop =>
    simp only [step, Option.map_eq_some_iff, Prod.mk.injEq] at e
    obtain ⟨r, e, rfl, _⟩ := e
    have hsz : r.1.buf.sz ≤ q.buf.sz := by
      by_cases h0 : q.size = 0
      · rw [C14_pop_empty q h0] at e; cases e; simp
      · obtain ⟨q1, k, x, _, _, e1, _, hp, _⟩ := C14_pop q h (by omega)
        rw [e] at e1; cases e1
        have := sz_of_perm hp
        rw [List.length_cons, contents_length] at this
        simp only; omega
    simp only [pop_cap e, still, pot, allowed, allowedAvg]; omega
  | erase i =>
    simp only [step, Option.map_eq_some_iff, Prod.mk.injEq] at e
    obtain ⟨r, e, rfl, _⟩ := e
    have hsz : r.1.buf.sz ≤ q.buf.sz := by
      obtain ⟨q1, e1, _, hp, _⟩ := C14_erase q h i ho
      rw [e] at e1; cases e1
      have := sz_of_perm hp
      rw [List.length_cons, contents_length] at this
      simp only; omega
    simp only [erase_cap e, still, pot, allowed, allowedAvg]; omega
  | update i f =>
    simp only [step, Option.map_eq_some_iff, Prod.mk.injEq] at e
    obtain ⟨r, e, rfl, _⟩ := e
    have hsz : r.1.buf.sz = q.buf.sz := by
      obtain ⟨q1, k, l, e1, _, _, _, hp, hp', _⟩ := C14_update q h i ho f
      rw [e] at e1; cases e1
      rw [sz_of_perm hp, sz_of_perm hp']
      simp
    simp only [update_cap e, still, pot, allowed, allowedAvg]; omega
  | heapify xs a =>
    simp only [step, Option.map_eq_some_iff, Prod.mk.injEq] at e
    obtain ⟨r, e, rfl, _⟩ := e
    simp only [allowed, allowedAvg]
    rcases C14_heapify q h xs a with ⟨_, q1, e1, hi, hp, _⟩ | ⟨_, r1, _, e1⟩
    · rw [e] at e1; cases e1
      have hs := sz_of_perm hp
      have hr := hi.room
      simp only [pot]
      by_cases hc : q1.buf.cap = q.buf.cap
      · rw [hc, still]; omega
      · obtain ⟨h1, h2⟩ := heapify_cap e hc
        have := less q.buf.cap q1.buf.cap
        simp only at h1
        omega
    · rw [e] at e1; cases e1
      simp only [still]; omega
  | clear =>
    simp only [step, Option.some.injEq, Prod.mk.injEq] at e
    obtain ⟨rfl, _⟩ := e
    have h1 : q.clear.1.buf.cap = q.buf.cap := (sizeSet_sz q.buf 0).2
    have h2 : q.clear.1.buf.sz ≤ 0 := (sizeSet_sz q.buf 0).1
    simp only [h1, still, pot, allowed, allowedAvg]; omega

theorem allowedAvg_mono {n N : Nat} (h : n ≤ N) (op : Op α) : allowedAvg n op ≤ allowedAvg N op := by
  have := log_pos_le (show n + 1 ≤ N + 1 by omega)
  cases op <;> simp only [allowedAvg] <;> omega

theorem runN_pays (N : Nat) (ops : List (Op α)) : ∀ (q : Fpq α), q.Inv → q.HistOk ops →
    (∀ pre q' os, pre <+: ops → q.run pre = some (q', os) → q'.size ≤ N) →
    ∃ q' os m, q.run ops = some (q', os) ∧ Costs (q.runN ops) m (q', os) ∧
      m ≤ pot q + (ops.map (allowedAvg N)).sum := by
  induction ops with
  | nil =>
    intro q _ _ _
    exact ⟨q, [], 0, rfl, .pure _, by simp⟩
  | cons op ops ih =>
    intro q h ho hN
    obtain ⟨q1, o, e, hi, _⟩ := C14_step q h op ho.1
    obtain ⟨m, hm, hc⟩ := step_bd q h.room op _ e
    obtain ⟨q2, os, m2, e2, hc2, hm2⟩ := ih q1 hi (ho.2 q1 o e) (fun pre q' os hp hr =>
      hN (op :: pre) q' (o :: os) (List.cons_prefix_cons.2 ⟨rfl, hp⟩) (by simp [run, e, hr]))
    refine ⟨q2, o :: os, m + m2, by simp [run, e, e2], ?_, ?_⟩
    · exact hc.bind (f := fun r => do let r2 ← runN r.1 ops; pure (r2.1, r.2 :: r2.2)) (hc2.out (fun r2 => (r2.1, o :: r2.2)))
    · have h1 := step_pays q h op ho.1 e
      have h2 := allowedAvg_mono (hN [] q [] List.nil_prefix rfl) op
      simp only [List.map_cons, List.sum_cons] at hm ⊢
      omega

/-- C64.  Every history of calls on a new flat priority queue, over a buffer of any capacity, that never holds more than
`N` elements: the calls answer as they should (`C13_history`), and take on average at most `5 log₂ (N + 1) + 6` comparisons
and copies, moves of the buffer to larger memory included; a `heapify` of `n` elements takes at most `8 n + 1` on average. -/
theorem C64_fpq_amortized (mem : Nat → α) (cap : Nat) (hasAlloc : Bool) (cmp : α → α → Cmp) (order : Cmp)
    (hc : LawfulCmp cmp) (ho : IsOrder order) (ops : List (Op α)) (N : Nat)
    (hok : (init mem cap hasAlloc cmp order).HistOk ops)
    (hN : ∀ pre q' os, pre <+: ops → (init mem cap hasAlloc cmp order).run pre = some (q', os) → q'.size ≤ N) :
    ∃ q' os m, (init mem cap hasAlloc cmp order).run ops = some (q', os) ∧
      (init mem cap hasAlloc cmp order).runN ops 0 = some ((q', os), m) ∧
      m ≤ (ops.map fun op => match op with
        | .heapify xs _ => 8 * xs.length + 1
        | _ => 5 * Nat.log 2 (N + 1) + 6).sum := by
  obtain ⟨q', os, m, e, hcost, hm⟩ := runN_pays N ops _ (init_inv mem cap hasAlloc hc ho) hok hN
  refine ⟨q', os, m, e, by have := hcost 0; rw [Nat.zero_add] at this; exact this, ?_⟩
  have h0 : pot (init mem cap hasAlloc cmp order) = 0 := by simp [pot, init, Buf.init]
  rw [h0, Nat.zero_add] at hm
  refine hm.trans (le_of_eq ?_)
  congr 1

/-- The hypotheses of `C64_fpq_logarithmic` are met by a queue of four elements and an erasure. -/
example : ∃ q : Fpq Nat, q.Inv ∧ q.size = 4 ∧ q.HandleOk (.erase 2) ∧
    ∃ q' o n, q.stepN (.erase 2) 0 = some ((q', o), n) ∧
      n ≤ 14 + if q'.buf.cap = q.buf.cap then 0 else q.buf.cap := by
  obtain ⟨q, e, hi, hp, _⟩ := C13_heapify_init_partial (fun i => 10 - i) 8 4 false natCmp .les natCmp_lawful (Or.inl rfl)
    (by omega)
  have hs : q.size = 4 := by have := sz_of_perm hp; simpa [window_length, size] using this
  obtain ⟨q', o, n, _, h2, h3⟩ := C64_fpq_logarithmic q hi (.erase 2) (by show 2 < q.size; omega) (by simp)
  refine ⟨q, hi, hs, by show 2 < q.size; omega, q', o, n, h2, ?_⟩
  rw [hs] at h3
  have : Nat.log 2 5 = 2 := by rw [Nat.log_eq_iff] <;> simp
  rw [this] at h3
  exact h3

/-- The hypotheses of `C64_fpq_heapify` are met by inputs of any length. -/
example (n : Nat) : exQ.Inv ∧ (List.range n).length = n :=
  ⟨init_inv _ _ _ natCmp_lawful (Or.inl rfl), by simp⟩

/-- The hypotheses of `C64_fpq_amortized` are met by any number of pushes into a queue without memory of its own. -/
example (n : Nat) (j : Nat → Nat) : ∃ q' os m,
    (init (fun _ => 0) 0 true natCmp .les).runN (List.replicate n (.push 1 (some j) (some j))) 0 = some ((q', os), m) ∧
      m ≤ n * (5 * Nat.log 2 (n + 1) + 6) := by
  have hok : ∀ k (q : Fpq Nat), q.HistOk (List.replicate k (.push 1 (some j) (some j))) := by
    intro k
    induction k with
    | zero => intro q; trivial
    | succ k ih => intro q; exact ⟨trivial, fun q' _ _ => ih q'⟩
  have hsz : ∀ k (q q' : Fpq Nat) os, q.Inv → q.run (List.replicate k (.push 1 (some j) (some j))) = some (q', os) →
      q'.size ≤ q.size + k := by
    intro k
    induction k with
    | zero => intro q q' os _ h; simp [run] at h; rw [h.1]; omega
    | succ k ih =>
      intro q q' os hi h
      obtain ⟨q1, o, e, hi1, hs, _⟩ := C14_step q hi (.push 1 (some j) (some j)) trivial
      simp only [List.replicate_succ, run, e, Option.bind_eq_bind, Option.bind_some, Option.bind_eq_some_iff] at h
      obtain ⟨⟨q2, os2⟩, h2, h3⟩ := h
      simp only [Option.pure_def, Option.some.injEq, Prod.mk.injEq] at h3
      rw [← h3.1]
      have := ih q1 q2 os2 hi1 h2
      have h4 : q1.size ≤ q.size + 1 := by
        rcases hs with ⟨_, hp⟩ | ⟨_, hp⟩
        · have := sz_of_perm hp
          rw [List.length_cons, contents_length] at this
          exact Nat.le_of_eq this
        · have := sz_of_perm hp
          rw [contents_length] at this
          show q1.buf.sz ≤ q.buf.sz + 1
          omega
      omega
  obtain ⟨q', os, m, _, h2, h3⟩ := C64_fpq_amortized (fun _ => 0) 0 true natCmp .les natCmp_lawful (Or.inl rfl)
    (List.replicate n (.push 1 (some j) (some j))) n (hok n _) (by
      intro pre q' os hp hr
      obtain ⟨k, hk, rfl⟩ : ∃ k, k ≤ n ∧ pre = List.replicate k (.push 1 (some j) (some j)) := by
        have h1 := hp.length_le
        have h2 := List.prefix_iff_eq_take.1 hp
        rw [List.length_replicate] at h1
        exact ⟨pre.length, h1, by rw [h2]; simp [h1]⟩
      have := hsz k _ _ _ (init_inv _ _ _ natCmp_lawful (Or.inl rfl)) hr
      have h0 : (init (fun _ => 0) 0 true natCmp .les : Fpq Nat).size = 0 := rfl
      omega)
  exact ⟨q', os, m, h2, by rw [List.map_replicate, List.sum_replicate_nat] at h3; exact h3⟩

end CCC.Fpq
