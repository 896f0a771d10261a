import Verif.Model.FlatDequeCost
import Verif.Proof.Bounds
import Verif.Props.Buffer
import Verif.Props.FlatDequeMore
/-
C71: a push on a buffer or on a double-ended queue copies a constant number of elements, amortised over any history if the
container may allocate, and in the worst case if it may not.
-/
namespace CCC

namespace Buf
variable {α : Type}

/-- A counted call of the stack interface. -/
def stackN (b : Buf α) : Op α → Count (Buf α × Out)
  | .pushBack x ans => do let r ← b.pushBackN x ans; pure (r.1, .slot r.2)
  | .emplaceBack x ans => do let r ← b.emplaceBackN x ans; pure (r.1, .slot r.2)
  | op => liftM (b.step op)

/-- A counted history. -/
def stackRunN (b : Buf α) : List (Op α) → Count (Buf α × List Out)
  | [] => pure (b, [])
  | op :: ops => do
    let (b, o) ← b.stackN op
    let (b, os) ← stackRunN b ops
    pure (b, o :: os)

/-- The number of elements a call is given to store. -/
def pushed : Op α → Nat
  | .pushBack .. => 1
  | .emplaceBack .. => 1
  | _ => 0

/-- What earlier calls have paid in advance. -/
def pot (b : Buf α) : Nat := 2 * b.sz - b.cap

theorem allocBack_pays {b : Buf α} (h : b.Good) (ans : AllocAns α) :
    ∃ m, Costs (b.allocBackN ans) m (b.allocBack ans) ∧
      m + (b.allocBack ans).1.pot ≤ b.pot + 2 := by
  obtain ⟨hl, hs⟩ := h
  unfold allocBackN allocBack
  by_cases hc : b.sz = b.cap
  · rw [if_pos hc, if_pos hc]
    have key : ∀ c, (b.cap = 0 ∧ c = 8) ∨ (0 < b.cap ∧ c = b.cap * 2) →
        ∃ m, Costs (b.allocN c (b.fn ans)) m (b.alloc c (b.fn ans)) ∧ m ≤ b.cap ∧
          (b.alloc c (b.fn ans)).1.sz = b.sz ∧
          ((b.alloc c (b.fn ans)).2 = .ok ∧ (b.alloc c (b.fn ans)).1.cap = c ∨
           (b.alloc c (b.fn ans)).2 ≠ .ok ∧ m = 0 ∧ (b.alloc c (b.fn ans)).1.cap = b.cap) := by
      intro c hcc
      unfold allocN alloc
      cases hf : b.fn ans with
      | none => exact ⟨0, .pure _, by omega, rfl, Or.inr ⟨by simp, rfl, rfl⟩⟩
      | some a =>
        simp only
        have h0 : c ≠ 0 := by omega
        rw [if_neg h0, if_neg h0]
        cases a with
        | none => exact ⟨0, .pure _, by omega, rfl, Or.inr ⟨by simp, rfl, rfl⟩⟩
        | some junk => exact ⟨_, .work rfl, by omega, rfl, Or.inl ⟨rfl, rfl⟩⟩
    have fin : ∀ c, (b.cap = 0 ∧ c = 8) ∨ (0 < b.cap ∧ c = b.cap * 2) → ∃ m,
        Costs ((b.allocN c (b.fn ans)) >>= fun r => if r.2 ≠ .ok then pure (r.1, none)
          else pure ({ r.1 with sz := r.1.sz + 1 }, some r.1.sz)) m
          (if (b.alloc c (b.fn ans)).2 ≠ .ok then ((b.alloc c (b.fn ans)).1, none)
            else ({ (b.alloc c (b.fn ans)).1 with sz := (b.alloc c (b.fn ans)).1.sz + 1 },
              some (b.alloc c (b.fn ans)).1.sz)) ∧
          m + (if (b.alloc c (b.fn ans)).2 ≠ .ok then ((b.alloc c (b.fn ans)).1, none)
            else ({ (b.alloc c (b.fn ans)).1 with sz := (b.alloc c (b.fn ans)).1.sz + 1 },
              some (b.alloc c (b.fn ans)).1.sz) : Buf α × Slot).1.pot ≤ b.pot + 2 := by
      intro c hcc
      obtain ⟨m, hm, hle, hsz, hh⟩ := key c hcc
      rcases hh with ⟨hr, hcap⟩ | ⟨hr, h0, hcap⟩
      · refine ⟨m, ?_, ?_⟩
        · refine hm.bind (m' := 0) ?_
          simp only [hr, ne_eq, not_true_eq_false, if_false]
          exact .pure _
        · simp only [hr, ne_eq, not_true_eq_false, if_false, pot, hsz, hcap]
          omega
      · refine ⟨m, ?_, ?_⟩
        · refine hm.bind (m' := 0) ?_
          simp only [hr, ne_eq, not_false_eq_true, if_true]
          exact .pure _
        · simp only [hr, ne_eq, not_false_eq_true, if_true, pot, hsz, hcap]
          omega
    by_cases hz : b.cap = 0
    · simpa [hz, startCapacity] using fin 8 (Or.inl ⟨hz, rfl⟩)
    · simpa [hz] using fin (b.cap * 2) (Or.inr ⟨by omega, rfl⟩)
  · rw [if_neg hc, if_neg hc]
    exact ⟨0, .pure _, by simp only [pot]; omega⟩

theorem push_pays {b : Buf α} (h : b.Good) (x : α) (ans : AllocAns α) {r : Buf α × Slot} (hr : b.pushBack x ans = some r) :
    ∃ m, Costs (b.pushBackN x ans) m r ∧ m + r.1.pot ≤ b.pot + 3 := by
  obtain ⟨m, hm, hp⟩ := allocBack_pays h ans
  unfold pushBack at hr
  unfold pushBackN
  cases ha : b.allocBack ans with
  | mk b' s =>
    rw [ha] at hm hp hr
    cases s with
    | none =>
      cases hr
      exact ⟨m, hm.bind (m' := 0) (.pure _), by omega⟩
    | some i =>
      simp only at hr hp
      cases hs : b'.store i x with
      | none => rw [hs] at hr; cases hr
      | some b'' =>
        rw [hs] at hr
        cases hr
        refine ⟨m + 1, hm.bind (m' := 1) ?_, ?_⟩
        · exact Costs.bind (m := 1) (m' := 0) (.work hs) (.pure _)
        · have : b''.pot = b'.pot := by
            unfold store at hs
            split at hs
            · cases hs; rfl
            · cases hs
          simp only [this]; omega

theorem stack_pays {b : Buf α} (h : b.Good) (op : Op α) (hop : IsStackOp op) {r : Buf α × Out} (hr : b.step op = some r) :
    ∃ m, Costs (b.stackN op) m r ∧ m + r.1.pot ≤ b.pot + 3 * pushed op := by
  cases op with
  | pushBack x ans =>
    simp only [step, Option.map_eq_some_iff] at hr
    obtain ⟨a, ha, rfl⟩ := hr
    obtain ⟨m, hm, hp⟩ := push_pays h x ans ha
    exact ⟨m, hm.bind (m' := 0) (.pure _), by simpa [pushed] using hp⟩
  | emplaceBack x ans =>
    simp only [step, Option.map_eq_some_iff] at hr
    obtain ⟨a, ha, rfl⟩ := hr
    obtain ⟨m, hm, hp⟩ := push_pays h x ans ha
    exact ⟨m, hm.bind (m' := 0) (.pure _), by simpa [pushed] using hp⟩
  | popBack =>
    refine ⟨0, .lift hr, ?_⟩
    simp only [step, popBack, popBackN, Option.some.injEq] at hr
    subst hr
    simp only [pot]
    split <;> simp only <;> omega
  | popBackN n =>
    refine ⟨0, .lift hr, ?_⟩
    simp only [step, popBackN, Option.some.injEq] at hr
    subst hr
    simp only [pot]
    split <;> simp only <;> omega
  | _ => exact hop.elim

/-- **C71.**  Over any history of pushes and pops of a buffer, with any answers of the allocation function, the number of
copied elements (including those the allocation function copies to new memory) is at most three for each pushed element,
and one for each element the buffer held before. -/
theorem C71_buf_amortized (ops : List (Op α)) : ∀ (b : Buf α), b.Good → (∀ op ∈ ops, IsStackOp op) →
    ∃ b' os m, b.runOuts ops = some (b', os) ∧ Costs (b.stackRunN ops) m (b', os) ∧
      m ≤ 3 * (ops.map pushed).sum + b.sz := by
  have key : ∀ (ops : List (Op α)) (b : Buf α), b.Good → (∀ op ∈ ops, IsStackOp op) →
      ∃ b' os m, b.runOuts ops = some (b', os) ∧ Costs (b.stackRunN ops) m (b', os) ∧
        m ≤ 3 * (ops.map pushed).sum + b.pot := by
    intro ops
    induction ops with
    | nil => intro b _ _; exact ⟨b, [], 0, rfl, .pure _, by simp⟩
    | cons op ops ih =>
      intro b h hops
      obtain ⟨b', e, hg, _, _⟩ := C02_stack_step b h op (hops op (by simp))
      obtain ⟨m, hm, hp⟩ := stack_pays h op (hops op (by simp)) e
      obtain ⟨b2, os, m2, e2, hm2, hp2⟩ := ih b' hg (fun o ho => hops o (List.mem_cons_of_mem _ ho))
      refine ⟨b2, (stackSpec b.hasAlloc b.stack op).2 :: os, m + m2, by simp [runOuts, e, e2], ?_, ?_⟩
      · exact hm.bind (m' := m2) (hm2.bind (m' := 0) (.pure _))
      · simp only [List.map_cons, List.sum_cons] at hp hp2 ⊢; omega
  intro b h hops
  obtain ⟨b', os, m, e, hm, hp⟩ := key ops b h hops
  exact ⟨b', os, m, e, hm, by have := h.2; simp only [pot] at hp; omega⟩

/-- Hypotheses are met: a buffer of two slots that grows at the third push. -/
example : (init (fun _ => 0) 2 true : Buf Nat).Good ∧
    (∀ op ∈ [Op.pushBack 1 none, .pushBack 2 none, .pushBack 3 (some fun _ => 0), .popBack], IsStackOp op) ∧
    (((init (fun _ => 0) 2 true : Buf Nat).stackRunN
      [Op.pushBack 1 none, .pushBack 2 none, .pushBack 3 (some fun _ => 0), .popBack]) 0).map (·.2) = some 5 := by
  refine ⟨⟨rfl, by simp [init]⟩, by simp [IsStackOp], by decide +kernel⟩

end Buf

namespace Fdeq
variable {α : Type}

/-- A counted call. -/
def stepN (d : Fdeq α) : Op α → Count (Fdeq α × Out α)
  | .pushBack x a => do let r ← d.pushBackN x a; pure (r.1, .ptr (r.1.deref r.2))
  | .pushFront x a => do let r ← d.pushFrontN x a; pure (r.1, .ptr (r.1.deref r.2))
  | .pushBackRange xs a => do let r ← d.pushBackRangeN xs a; pure (r.1, .res r.2)
  | .pushFrontRange xs a => do let r ← d.pushFrontRangeN xs a; pure (r.1, .res r.2)
  | .popBack => pure (d.popBack.1, .res d.popBack.2)
  | .popFront => pure (d.popFront.1, .res d.popFront.2)
  | .clear => do let r ← (liftM (d.clear false) : Count _); pure (r.1, .res r.2.1)

/-- A counted history. -/
def runN (d : Fdeq α) : List (Op α) → Count (Fdeq α × List (Out α))
  | [] => pure (d, [])
  | op :: ops => do
    let (d, o) ← d.stepN op
    let (d, os) ← runN d ops
    pure (d, o :: os)

/-- The number of elements a call is given to store. -/
def pushed : Op α → Nat
  | .pushBack .. => 1
  | .pushFront .. => 1
  | .pushBackRange xs _ => xs.length
  | .pushFrontRange xs _ => xs.length
  | _ => 0

/-- What earlier calls have paid in advance. -/
def pot (d : Fdeq α) : Nat := 2 * d.buf.sz - d.buf.cap

theorem unrotate_bd (d : Fdeq α) (g : Nat → α) : Bd (d.unrotateN g) (d.unrotate g) d.buf.sz := by
  intro r hr
  unfold unrotate at hr
  unfold unrotateN
  simp only at hr ⊢
  generalize hf : min d.buf.sz (d.buf.cap - d.front) = first at hr ⊢
  split at hr
  · cases hr
  · rename_i h1
    rw [if_neg h1]
    split at hr
    · rename_i h2
      split at hr
      · cases hr
      · rename_i h3
        cases hr
        refine ⟨first + (d.buf.sz - first), by omega, Costs.bind (.work rfl) ?_⟩
        rw [if_pos h2, if_neg h3]
        exact .work rfl
    · rename_i h2
      cases hr
      refine ⟨first + 0, by omega, Costs.bind (.work rfl) ?_⟩
      rw [if_neg h2]
      exact .pure _

/-- What `maybe_resize` does, and what it costs. -/
theorem maybe_pays {d : Fdeq α} (hs : d.buf.sz ≤ d.buf.cap) (n : Nat) (ans : AllocAns α) {r : Fdeq α × Res}
    (hr : d.maybeResize n ans = some r) :
    ∃ m, Costs (d.maybeResizeN n ans) m r ∧ r.1.buf.sz = d.buf.sz ∧ r.1.buf.sz ≤ r.1.buf.cap ∧
      r.1.buf.hasAlloc = d.buf.hasAlloc ∧ m ≤ d.buf.sz ∧
      m + (2 * (d.buf.sz + n) - r.1.buf.cap) ≤ d.pot + 2 * n ∧
      m + r.1.pot ≤ d.pot + n ∧
      (d.buf.hasAlloc = false → m = 0 ∧ r.1 = d) ∧ (d.buf.sz + n < d.buf.cap → m = 0 ∧ r.1 = d) ∧
      (r.2 ≠ .ok → m = 0 ∧ r.1 = d) := by
  unfold maybeResize at hr
  unfold maybeResizeN
  simp only [pot]
  split at hr
  · rename_i h1
    cases hr
    rw [if_pos h1]
    exact ⟨0, .pure _, rfl, hs, rfl, by omega, by simp only; omega, by simp only; omega, by simp, by simp, by simp⟩
  · rename_i h1
    rw [if_neg h1]
    split at hr
    · rename_i h2
      cases hr
      rw [if_pos h2]
      exact ⟨0, .pure _, rfl, hs, rfl, by omega, by simp only; omega, by simp only; omega, by simp, by simp, by simp⟩
    · rename_i h2
      rw [if_neg h2]
      cases ans with
      | none =>
        cases hr
        exact ⟨0, .pure _, rfl, hs, rfl, by omega, by simp only; omega, by simp only; omega, by simp, by simp, by simp⟩
      | some junk =>
        simp only at hr ⊢
        by_cases hz : d.buf.sz = 0
        · simp only [hz, ne_eq, not_true_eq_false, if_false] at hr ⊢
          cases hr
          refine ⟨0, Costs.bind (m := 0) (m' := 0) (.pure _) (.pure _), rfl, ?_, rfl, by omega, ?_, ?_, fun h => absurd h h2, ?_, ?_⟩
          · simp only; split <;> omega
          · simp only; split <;> omega
          · simp only [hz]; split <;> omega
          · intro h; omega
          · simp
        · simp only [hz, ne_eq, not_false_eq_true, if_true] at hr ⊢
          cases hu : d.unrotate junk with
          | none => rw [hu] at hr; cases hr
          | some g =>
            rw [hu] at hr
            cases hr
            obtain ⟨m, hm, hc⟩ := unrotate_bd d junk g hu
            have hc0 : d.buf.cap ≠ 0 := by omega
            refine ⟨m, hc.bind (m' := 0) (.pure _), rfl, ?_, rfl, hm, ?_, ?_, ?_, ?_, by simp⟩
            · simp only [hc0, not_false_eq_true, if_true]; omega
            · simp only [hc0, not_false_eq_true, if_true]; omega
            · simp only [hc0, not_false_eq_true, if_true]; omega
            · intro h; exact absurd h h2
            · intro h; omega

theorem fill_pays {d : Fdeq α} {s : Slot} {x : α} {r : Fdeq α × Slot} (hr : d.fill s x = some r) :
    ∃ m, m ≤ 1 ∧ Costs (d.fillN s x) m r ∧ r.1.buf.sz = d.buf.sz ∧ r.1.buf.cap = d.buf.cap ∧
      r.1.buf.hasAlloc = d.buf.hasAlloc := by
  unfold fill at hr
  unfold fillN
  cases s with
  | none => cases hr; exact ⟨0, by omega, .pure _, rfl, rfl, rfl⟩
  | some k =>
    simp only [Option.map_eq_some_iff] at hr ⊢
    obtain ⟨b, hb, rfl⟩ := hr
    refine ⟨1, by omega, Costs.bind (m := 1) (m' := 0) (.work hb) (.pure _), ?_⟩
    unfold Buf.store at hb
    split at hb
    · cases hb; exact ⟨rfl, rfl, rfl⟩
    · cases hb

theorem sizePlus_le {b : Buf α} {n : Nat} (h : b.sz ≤ b.cap) :
    (b.sizePlus n).1.sz ≤ b.sz + n ∧ (b.sizePlus n).1.sz ≤ b.cap ∧ (b.sizePlus n).1.cap = b.cap ∧
      (b.sizePlus n).1.hasAlloc = b.hasAlloc := by
  unfold Buf.sizePlus
  split
  · exact ⟨by simp only; omega, by simp only; omega, rfl, rfl⟩
  · exact ⟨by simp only; omega, by simp only; omega, rfl, rfl⟩

theorem sizeSet_eq (b : Buf α) (n : Nat) : (b.sizeSet n).1.sz = min n b.cap ∧ (b.sizeSet n).1.cap = b.cap ∧
    (b.sizeSet n).1.hasAlloc = b.hasAlloc := by
  unfold Buf.sizeSet
  split
  · exact ⟨by simp only; omega, rfl, rfl⟩
  · exact ⟨by simp only; omega, rfl, rfl⟩

/-- What a call may do to the size, the capacity and the allocation permission, with `m` copies. -/
structure Pays (d d' : Fdeq α) (n m : Nat) : Prop where
  le : d'.buf.sz ≤ d'.buf.cap
  keep : d'.buf.hasAlloc = d.buf.hasAlloc
  pays : m + d'.pot ≤ d.pot + 3 * n
  worst : m ≤ d.buf.sz + n
  fixed : d.buf.hasAlloc = false → m ≤ n

theorem allocBack_pays {d : Fdeq α} (hs : d.buf.sz ≤ d.buf.cap) {ans : AllocAns α} {r : Fdeq α × Slot}
    (hr : d.allocBack ans = some r) :
    ∃ m, Costs (d.allocBackN ans) m r ∧ r.1.buf.sz ≤ r.1.buf.cap ∧ r.1.buf.hasAlloc = d.buf.hasAlloc ∧
      m + r.1.pot ≤ d.pot + 2 ∧ m ≤ d.buf.sz ∧ (d.buf.hasAlloc = false → m = 0) := by
  unfold allocBack at hr
  simp only [Option.bind_eq_bind, Option.bind_eq_some_iff] at hr
  obtain ⟨⟨d1, res⟩, h1, hr⟩ := hr
  obtain ⟨m, hm, e1, e2, e3, e4, e5, e6, e7, e8, e9⟩ := maybe_pays hs 0 ans h1
  simp only [pot] at e1 e2 e3 e4 e5 e6 e7 ⊢
  unfold allocBackN
  simp only at hr ⊢
  split at hr
  · rename_i hc
    cases hr
    refine ⟨m, hm.bind (m' := 0) ?_, by omega, e3, by simp only; omega, e4, fun h => (e7 h).1⟩
    simp only [if_pos hc]
    exact .pure _
  · rename_i hc
    simp only [Option.bind_eq_some_iff] at hr
    obtain ⟨k, hk, hr⟩ := hr
    split at hr
    · rename_i hok
      cases hr
      have := sizePlus_le (n := 1) e2
      refine ⟨m, hm.bind (m' := 0) ?_, by simp only; omega, by simp only; rw [this.2.2.2, e3], by simp only; omega, e4,
        fun h => (e7 h).1⟩
      simp only [if_neg hc]
      exact Costs.bind (m := 0) (m' := 0) (.lift hk) (by simp only [if_pos hok]; exact .pure _)
    · rename_i hok
      cases hr
      refine ⟨m, hm.bind (m' := 0) ?_, e2, e3, by simp only; omega, e4, fun h => (e7 h).1⟩
      simp only [if_neg hc]
      exact Costs.bind (m := 0) (m' := 0) (.lift hk) (by simp only [if_neg hok]; exact .pure _)

theorem allocFront_pays {d : Fdeq α} (hs : d.buf.sz ≤ d.buf.cap) {ans : AllocAns α} {r : Fdeq α × Slot}
    (hr : d.allocFront ans = some r) :
    ∃ m, Costs (d.allocFrontN ans) m r ∧ r.1.buf.sz ≤ r.1.buf.cap ∧ r.1.buf.hasAlloc = d.buf.hasAlloc ∧
      m + r.1.pot ≤ d.pot + 2 ∧ m ≤ d.buf.sz ∧ (d.buf.hasAlloc = false → m = 0) := by
  unfold allocFront at hr
  simp only [Option.bind_eq_bind, Option.bind_eq_some_iff] at hr
  obtain ⟨⟨d1, res⟩, h1, hr⟩ := hr
  obtain ⟨m, hm, e1, e2, e3, e4, e5, e6, e7, e8, e9⟩ := maybe_pays hs 0 ans h1
  simp only [pot] at e1 e2 e3 e4 e5 e6 e7 ⊢
  unfold allocFrontN
  simp only at hr ⊢
  split at hr
  · rename_i hc
    cases hr
    refine ⟨m, hm.bind (m' := 0) ?_, by omega, e3, by simp only; omega, e4, fun h => (e7 h).1⟩
    simp only [if_pos hc]
    exact .pure _
  · rename_i hc
    split at hr
    · rename_i hok
      cases hr
      have := sizePlus_le (n := 1) e2
      refine ⟨m, hm.bind (m' := 0) ?_, by simp only; omega, by simp only; rw [this.2.2.2, e3], by simp only; omega, e4,
        fun h => (e7 h).1⟩
      simp only [if_neg hc, if_pos hok]
      exact .pure _
    · rename_i hok
      cases hr
      refine ⟨m, hm.bind (m' := 0) ?_, e2, e3, by simp only; omega, e4, fun h => (e7 h).1⟩
      simp only [if_neg hc, if_neg hok]
      exact .pure _

theorem pushBack_pays {d : Fdeq α} (hs : d.buf.sz ≤ d.buf.cap) {x : α} {ans : AllocAns α} {r : Fdeq α × Slot}
    (hr : d.pushBack x ans = some r) : ∃ m, Costs (d.pushBackN x ans) m r ∧ Pays d r.1 1 m := by
  unfold pushBack at hr
  simp only [Option.bind_eq_bind, Option.bind_eq_some_iff] at hr
  obtain ⟨⟨d1, s⟩, h1, hr⟩ := hr
  obtain ⟨m, hm, e2, e3, e4, e5, e6⟩ := allocBack_pays hs h1
  obtain ⟨m', hm', hc', f1, f2, f3⟩ := fill_pays hr
  refine ⟨m + m', hm.bind hc', ⟨by omega, by rw [f3, e3], ?_, by omega, fun h => by have := e6 h; omega⟩⟩
  simp only [pot] at e4 f1 f2 ⊢
  omega

theorem pushFront_pays {d : Fdeq α} (hs : d.buf.sz ≤ d.buf.cap) {x : α} {ans : AllocAns α} {r : Fdeq α × Slot}
    (hr : d.pushFront x ans = some r) : ∃ m, Costs (d.pushFrontN x ans) m r ∧ Pays d r.1 1 m := by
  unfold pushFront at hr
  simp only [Option.bind_eq_bind, Option.bind_eq_some_iff] at hr
  obtain ⟨⟨d1, s⟩, h1, hr⟩ := hr
  obtain ⟨m, hm, e2, e3, e4, e5, e6⟩ := allocFront_pays hs h1
  obtain ⟨m', hm', hc', f1, f2, f3⟩ := fill_pays hr
  refine ⟨m + m', hm.bind hc', ⟨by omega, by rw [f3, e3], ?_, by omega, fun h => by have := e6 h; omega⟩⟩
  simp only [pot] at e4 f1 f2 ⊢
  omega

theorem putRange_keep {b b' : Buf α} {a : Nat} {xs : List α} (h : putRange b a xs = some b') :
    b'.sz = b.sz ∧ b'.cap = b.cap ∧ b'.hasAlloc = b.hasAlloc := by
  unfold putRange at h
  split at h
  · cases h; exact ⟨rfl, rfl, rfl⟩
  · cases h

theorem moveRange_keep {b b' : Buf α} {a c n : Nat} (h : moveRange b a c n = some b') :
    b'.sz = b.sz ∧ b'.cap = b.cap ∧ b'.hasAlloc = b.hasAlloc := by
  unfold moveRange at h
  split at h
  · cases h; exact ⟨rfl, rfl, rfl⟩
  · cases h

/-- The optional second `memcpy`. -/
theorem put2 {p : Prop} [Decidable p] {b b' : Buf α} {a : Nat} {xs : List α}
    (h : (if p then putRange b a xs else some b) = some b') :
    ∃ m, m ≤ (if p then xs.length else 0) ∧ Costs (if p then putRangeN b a xs else pure b) m b' ∧
      b'.sz = b.sz ∧ b'.cap = b.cap ∧ b'.hasAlloc = b.hasAlloc := by
  by_cases hp : p
  · simp only [if_pos hp] at h ⊢
    exact ⟨xs.length, Nat.le_refl _, .work h, putRange_keep h⟩
  · simp only [if_neg hp] at h ⊢
    cases h; exact ⟨0, Nat.le_refl _, .pure _, rfl, rfl, rfl⟩

/-- The optional second `memmove`. -/
theorem move2 {p : Prop} [Decidable p] {b b' : Buf α} {a c n : Nat}
    (h : (if p then moveRange b a c n else some b) = some b') :
    ∃ m, m ≤ n ∧ Costs (if p then moveRangeN b a c n else pure b) m b' ∧
      b'.sz = b.sz ∧ b'.cap = b.cap ∧ b'.hasAlloc = b.hasAlloc := by
  by_cases hp : p
  · simp only [if_pos hp] at h ⊢
    exact ⟨n, Nat.le_refl _, .work h, moveRange_keep h⟩
  · simp only [if_neg hp] at h ⊢
    cases h; exact ⟨0, Nat.zero_le _, .pure _, rfl, rfl, rfl⟩

theorem pushBackRange_pays {d : Fdeq α} (hs : d.buf.sz ≤ d.buf.cap) {xs : List α} {ans : AllocAns α} {r : Fdeq α × Res}
    (hr : d.pushBackRange xs ans = some r) : ∃ m, Costs (d.pushBackRangeN xs ans) m r ∧ Pays d r.1 xs.length m := by
  unfold pushBackRange at hr
  simp only [Option.bind_eq_bind, Option.bind_eq_some_iff] at hr
  obtain ⟨⟨d1, res⟩, h1, hr⟩ := hr
  obtain ⟨m, hm, e1, e2, e3, e4, e5, e6, e7, e8, e9⟩ := maybe_pays hs xs.length ans h1
  simp only [pot] at e1 e2 e3 e4 e5 e6 e7
  unfold pushBackRangeN
  simp only at hr ⊢
  split at hr
  · rename_i hc
    cases hr
    refine ⟨m, hm.bind (m' := 0) ?_, ⟨e2, e3, by simp only [pot]; omega, by omega, fun h => by have := (e7 h).1; omega⟩⟩
    simp only [if_pos hc]
    exact .pure _
  · rename_i hc
    split at hr
    · rename_i hn
      simp only [Option.bind_eq_some_iff] at hr
      obtain ⟨b, hb, hr⟩ := hr
      cases hr
      obtain ⟨b1, b2, b3⟩ := putRange_keep hb
      obtain ⟨s1, s2, s3⟩ := sizeSet_eq b d1.buf.cap
      refine ⟨m + d1.buf.cap, hm.bind ?_, ⟨by simp only; omega, by simp only; rw [s3, b3, e3],
        by simp only [pot]; omega, by omega, fun h => by have := (e7 h).1; omega⟩⟩
      simp only [if_neg hc, if_pos hn]
      refine Costs.bind (m := d1.buf.cap) (m' := 0) ?_ (.pure _)
      have := Costs.work (n := (xs.drop (xs.length - d1.buf.cap)).length) hb
      unfold putRangeN
      rwa [show (xs.drop (xs.length - d1.buf.cap)).length = d1.buf.cap by rw [List.length_drop]; omega] at this ⊢
    · rename_i hn
      simp only [Option.bind_eq_some_iff] at hr
      obtain ⟨back, hk, b, hb, b', hb', hr⟩ := hr
      cases hr
      obtain ⟨b1, b2, b3⟩ := putRange_keep hb
      obtain ⟨m2, hm2, hc2, c1, c2, c3⟩ := put2 hb'
      obtain ⟨s1, s2, s3⟩ := sizeSet_eq b' (min d1.buf.cap (d1.buf.sz + xs.length))
      have hle : m2 ≤ xs.length - min xs.length (d1.buf.cap - back) := by
        rw [List.length_drop] at hm2
        split at hm2 <;> omega
      refine ⟨m + (0 + ((xs.take (min xs.length (d1.buf.cap - back))).length + (m2 + 0))), hm.bind ?_, ⟨by simp only; omega, by simp only; rw [s3, c3, b3, e3],
        ?_, ?_, ?_⟩⟩
      · simp only [if_neg hc, if_neg hn]
        refine Costs.bind (.lift hk) ?_
        refine Costs.bind (.work hb) ?_
        exact Costs.bind hc2 (.pure _)
      · rw [List.length_take]; simp only [pot]; omega
      · rw [List.length_take]; omega
      · intro h; have := (e7 h).1; rw [List.length_take]; omega

theorem pushFrontRange_pays {d : Fdeq α} (hs : d.buf.sz ≤ d.buf.cap) {xs : List α} {ans : AllocAns α} {r : Fdeq α × Res}
    (hr : d.pushFrontRange xs ans = some r) : ∃ m, Costs (d.pushFrontRangeN xs ans) m r ∧ Pays d r.1 xs.length m := by
  unfold pushFrontRange at hr
  simp only [Option.bind_eq_bind, Option.bind_eq_some_iff] at hr
  obtain ⟨⟨d1, res⟩, h1, hr⟩ := hr
  obtain ⟨m, hm, e1, e2, e3, e4, e5, e6, e7, e8, e9⟩ := maybe_pays hs xs.length ans h1
  simp only [pot] at e1 e2 e3 e4 e5 e6 e7
  unfold pushFrontRangeN
  simp only at hr ⊢
  split at hr
  · rename_i hc
    cases hr
    refine ⟨m, hm.bind (m' := 0) ?_, ⟨e2, e3, by simp only [pot]; omega, by omega, fun h => by have := (e7 h).1; omega⟩⟩
    simp only [if_pos hc]
    exact .pure _
  · rename_i hc
    split at hr
    · rename_i hn
      simp only [Option.bind_eq_some_iff] at hr
      obtain ⟨b, hb, hr⟩ := hr
      cases hr
      obtain ⟨b1, b2, b3⟩ := putRange_keep hb
      obtain ⟨s1, s2, s3⟩ := sizeSet_eq b d1.buf.cap
      refine ⟨m + d1.buf.cap, hm.bind ?_, ⟨by simp only; omega, by simp only; rw [s3, b3, e3],
        by simp only [pot]; omega, by omega, fun h => by have := (e7 h).1; omega⟩⟩
      simp only [if_neg hc, if_pos hn]
      refine Costs.bind (m := d1.buf.cap) (m' := 0) ?_ (.pure _)
      have := Costs.work (n := (xs.drop (xs.length - d1.buf.cap)).length) hb
      unfold putRangeN
      rwa [show (xs.drop (xs.length - d1.buf.cap)).length = d1.buf.cap by rw [List.length_drop]; omega] at this ⊢
    · rename_i hn
      simp only [Option.bind_eq_some_iff] at hr
      generalize hsp : frontFreeSlot d1.front d1.buf.cap + 1 = ahead at hr ⊢
      obtain ⟨b, hb, b', hb', hr⟩ := hr
      cases hr
      obtain ⟨b1, b2, b3⟩ := putRange_keep hb
      obtain ⟨m2, hm2, hc2, c1, c2, c3⟩ := put2 hb'
      obtain ⟨s1, s2, s3⟩ := sizeSet_eq b' (min d1.buf.cap (d1.buf.sz + xs.length))
      have hle : m2 ≤ xs.length - min xs.length ahead := by
        rw [List.length_take] at hm2
        split at hm2 <;> omega
      refine ⟨m + ((xs.drop (xs.length - min xs.length ahead)).length + (m2 + 0)), hm.bind ?_, ⟨by simp only; omega,
        by simp only; rw [s3, c3, b3, e3], ?_, ?_, ?_⟩⟩
      · simp only [if_neg hc, if_neg hn, hsp]
        refine Costs.bind (.work hb) ?_
        exact Costs.bind hc2 (.pure _)
      · rw [List.length_drop]; simp only [pot]; omega
      · rw [List.length_drop]; omega
      · intro h; have := (e7 h).1; rw [List.length_drop]; omega

theorem step_pays {d : Fdeq α} (hs : d.buf.sz ≤ d.buf.cap) (op : Op α) {r : Fdeq α × Out α} (hr : d.step op = some r) :
    ∃ m, Costs (d.stepN op) m r ∧ Pays d r.1 (pushed op) m := by
  cases op with
  | pushBack x a =>
    simp only [step, Option.map_eq_some_iff] at hr
    obtain ⟨q, hq, rfl⟩ := hr
    obtain ⟨m, hm, hp⟩ := pushBack_pays hs hq
    exact ⟨m, hm.bind (m' := 0) (.pure _), hp⟩
  | pushFront x a =>
    simp only [step, Option.map_eq_some_iff] at hr
    obtain ⟨q, hq, rfl⟩ := hr
    obtain ⟨m, hm, hp⟩ := pushFront_pays hs hq
    exact ⟨m, hm.bind (m' := 0) (.pure _), hp⟩
  | pushBackRange x a =>
    simp only [step, Option.map_eq_some_iff] at hr
    obtain ⟨q, hq, rfl⟩ := hr
    obtain ⟨m, hm, hp⟩ := pushBackRange_pays hs hq
    exact ⟨m, hm.bind (m' := 0) (.pure _), hp⟩
  | pushFrontRange x a =>
    simp only [step, Option.map_eq_some_iff] at hr
    obtain ⟨q, hq, rfl⟩ := hr
    obtain ⟨m, hm, hp⟩ := pushFrontRange_pays hs hq
    exact ⟨m, hm.bind (m' := 0) (.pure _), hp⟩
  | popBack =>
    cases hr
    refine ⟨0, .pure _, ?_, ?_, ?_, by omega, by omega⟩ <;> simp only [popBack, Buf.sizeMinus, pot] <;> split <;> simp only <;> omega
  | popFront =>
    cases hr
    refine ⟨0, .pure _, ?_, ?_, ?_, by omega, by omega⟩ <;> simp only [popFront, Buf.sizeMinus, pot] <;> split <;>
      (try split) <;> simp only <;> omega
  | clear =>
    simp only [step, Option.map_eq_some_iff] at hr
    obtain ⟨q, hq, rfl⟩ := hr
    refine ⟨0, Costs.bind (m := 0) (m' := 0) (.lift hq) (.pure _), ?_⟩
    simp only [clear, if_true, Option.some.injEq] at hq
    subst hq
    obtain ⟨s1, s2, s3⟩ := sizeSet_eq d.buf 0
    refine ⟨?_, s3, ?_, by omega, by omega⟩ <;> simp only [pot] <;> omega

/-- **C71.**  Over any history of pushes, range pushes, pops and clears of a double-ended queue, with any answers of the
allocation function, the number of copied elements is at most three for each element pushed, and one for each element the
queue held before. -/
theorem C71_fdeq_amortized (ops : List (Op α)) (d : Fdeq α) (hs : d.size ≤ d.capacity) {d' : Fdeq α} {os : List (Out α)}
    (hr : d.run ops = some (d', os)) :
    ∃ m, Costs (d.runN ops) m (d', os) ∧ m ≤ 3 * (ops.map pushed).sum + d.size := by
  have key : ∀ (ops : List (Op α)) (d : Fdeq α), d.buf.sz ≤ d.buf.cap → ∀ d' os, d.run ops = some (d', os) →
      ∃ m, Costs (d.runN ops) m (d', os) ∧ m ≤ 3 * (ops.map pushed).sum + d.pot := by
    intro ops
    induction ops with
    | nil => intro d _ d' os hr; cases hr; exact ⟨0, .pure _, by simp⟩
    | cons op ops ih =>
      intro d hs d' os hr
      simp only [run, Option.bind_eq_bind, Option.bind_eq_some_iff] at hr
      obtain ⟨⟨d1, o⟩, h1, ⟨d2, os2⟩, h2, hr⟩ := hr
      cases hr
      obtain ⟨m, hm, hp⟩ := step_pays hs op h1
      obtain ⟨m2, hm2, hp2⟩ := ih d1 hp.le _ _ h2
      refine ⟨m + m2, hm.bind (m' := m2) (hm2.bind (m' := 0) (.pure _)), ?_⟩
      have := hp.pays
      simp only [List.map_cons, List.sum_cons] at hp2 this ⊢
      omega
  obtain ⟨m, hm, hp⟩ := key ops d hs d' os hr
  exact ⟨m, hm, by simp only [pot, size, capacity] at hp hs ⊢; omega⟩

/-- **C71**, for a new queue: the history is defined, acts on a sequence, and copies at most three elements for each
element pushed (the restriction on ranges is that of C07). -/
theorem C71_fdeq_new (mem : Nat → α) (cap : Nat) (ops : List (Op α)) (hops : ∀ op ∈ ops, RangeOk cap op) :
    ∃ d' os m, Costs ((init mem cap true).runN ops) m (d', os) ∧ seqSpecRun ops [] os d'.seq ∧
      m ≤ 3 * (ops.map pushed).sum := by
  obtain ⟨d', os, e, _, hq⟩ := C07_history_partial ops (init mem cap true) (init_inv _ _ _) rfl hops
  obtain ⟨m, hm, hp⟩ := C71_fdeq_amortized ops _ (by simp [init, Buf.init, size]) e
  exact ⟨d', os, m, hm, hq, by simpa [init, Buf.init, size] using hp⟩

/-- **C71**, without allocation permission: no call copies more elements than it is given to store, so a push copies at
most one and a pop none. -/
theorem C71_fdeq_fixed (d : Fdeq α) (hs : d.size ≤ d.capacity) (ha : d.buf.hasAlloc = false) (op : Op α)
    {d' : Fdeq α} {o : Out α} (hr : d.step op = some (d', o)) :
    ∃ m, Costs (d.stepN op) m (d', o) ∧ m ≤ pushed op := by
  obtain ⟨m, hm, hp⟩ := step_pays hs op hr
  exact ⟨m, hm, hp.fixed ha⟩

/-- **C71**: any single call copies at most the elements stored and those it is given. -/
theorem C71_fdeq_worst (d : Fdeq α) (hs : d.size ≤ d.capacity) (op : Op α)
    {d' : Fdeq α} {o : Out α} (hr : d.step op = some (d', o)) :
    ∃ m, Costs (d.stepN op) m (d', o) ∧ m ≤ d.size + pushed op := by
  obtain ⟨m, hm, hp⟩ := step_pays hs op hr
  exact ⟨m, hm, hp.worst⟩

/-- Insertion of a range in the middle: the tail is moved once. -/
theorem pushRange_worst {d : Fdeq α} (h : d.Inv) {k : Nat} (hk0 : 0 < k) (hk : k < d.buf.sz) {xs : List α}
    {ans : AllocAns α} {r : Fdeq α × Slot} (hr : d.pushRange ((d.front + k) % d.buf.cap) xs ans = some r) :
    ∃ m, Costs (d.pushRangeN ((d.front + k) % d.buf.cap) xs ans) m r ∧ m ≤ d.buf.sz + xs.length := by
  have hs := h.sz
  unfold pushRange at hr
  simp only [Option.bind_eq_bind, Option.bind_eq_some_iff] at hr
  obtain ⟨⟨d1, res⟩, h1, hr⟩ := hr
  obtain ⟨m, hm, e1, e2, e3, e4, e5, e6, e7, e8, e9⟩ := maybe_pays hs xs.length ans h1
  simp only [pot] at e1 e2 e3 e4 e5 e6 e7
  unfold pushRangeN
  simp only at hr ⊢
  split at hr
  · rename_i hc
    cases hr
    refine ⟨m, hm.bind (m' := 0) ?_, by omega⟩
    simp only [if_pos hc]
    exact .pure _
  · rename_i hc
    split at hr
    · rename_i hn
      simp only [Option.bind_eq_some_iff] at hr
      obtain ⟨b, hb, hr⟩ := hr
      cases hr
      refine ⟨m + d1.buf.cap, hm.bind ?_, by omega⟩
      simp only [if_neg hc, if_pos hn]
      refine Costs.bind (m := d1.buf.cap) (m' := 0) ?_ (.pure _)
      have := Costs.work (n := (xs.drop (xs.length - d1.buf.cap)).length) hb
      unfold putRangeN
      rwa [show (xs.drop (xs.length - d1.buf.cap)).length = d1.buf.cap by rw [List.length_drop]; omega] at this ⊢
    · rename_i hn
      split at hr
      · cases hr
      · rename_i hz
        have hm0 : m = 0 ∧ d1 = d := by
          by_cases hroom : d.buf.sz + xs.length < d.buf.cap
          · exact e8 hroom
          · refine e7 ?_
            cases ha : d.buf.hasAlloc with
            | false => rfl
            | true => exact absurd ⟨hroom, ha⟩ hz
        obtain ⟨rfl, rfl⟩ := hm0
        simp only [Option.bind_eq_some_iff] at hr
        obtain ⟨pos, hpos, back, hback, b1, hb1, b2, hb2, b3, hb3, b4, hb4, hr⟩ := hr
        have hfr := h.front
        have hcap : 0 < d1.buf.cap := by omega
        have hpos' : pos = (d1.front + k) % d1.buf.cap := by
          unfold indexOf at hpos
          split at hpos
          · cases hpos; rfl
          · cases hpos
        have hback' : back = (d1.front + d1.buf.sz) % d1.buf.cap := by
          unfold backFreeSlot modCap at hback
          rw [if_neg (by omega)] at hback
          cases hback; rfl
        have hlt : d1.front < d1.buf.cap := by omega
        rw [mod_wrap (by omega)] at hpos' hback'
        generalize hmi : (pos + xs.length) % d1.buf.cap = moveI at *
        generalize htm : (if back > pos then back - pos else d1.buf.cap - pos + back) = toMove at *
        have htm' : toMove = d1.buf.sz - k := by
          subst htm
          split at hpos' <;> split at hback' <;> split <;> omega
        generalize hmc : (if back < pos then min (d1.buf.cap - pos) (if moveI + toMove > d1.buf.cap then d1.buf.cap - moveI else toMove)
          else min (back - pos) (if moveI + toMove > d1.buf.cap then d1.buf.cap - moveI else toMove)) = chunk at *
        have hmc' : chunk ≤ toMove := by
          subst hmc
          split <;> split <;> omega
        obtain ⟨m2, hm2, hc2, _⟩ := move2 hb2
        obtain ⟨m4, hm4, hc4, _⟩ := put2 hb4
        have hle : m4 ≤ xs.length - min xs.length (d1.buf.cap - pos) := by
          rw [List.length_drop] at hm4
          split at hm4 <;> omega
        cases hr
        refine ⟨0 + (0 + (0 + (chunk + (m2 + ((xs.take (min xs.length (d1.buf.cap - pos))).length + (m4 + 0)))))), hm.bind ?_, ?_⟩
        · simp only [if_neg hc, if_neg hn, if_neg hz]
          refine Costs.bind (.lift hpos) ?_
          refine Costs.bind (.lift hback) ?_
          simp only [hmi, htm, hmc]
          refine Costs.bind (.work hb1) ?_
          refine Costs.bind hc2 ?_
          refine Costs.bind (.work hb3) ?_
          exact Costs.bind hc4 (.pure _)
        · rw [List.length_take]; omega

/-- **C71**: inserting a range before any element of the queue, or at its end, copies at most the elements stored and
those it is given. -/
theorem C71_fdeq_insert_range (d : Fdeq α) (h : d.Inv) (pos : Slot) (xs : List α) (ans : AllocAns α)
    (hp : pos = none ∨ ∃ k, k < d.size ∧ pos = d.at_ k) {d' : Fdeq α} {s : Slot}
    (hr : d.insertRange pos xs ans = some (d', s)) :
    ∃ m, Costs (d.insertRangeN pos xs ans) m (d', s) ∧ m ≤ d.size + xs.length := by
  have hs := h.sz
  unfold insertRange at hr
  unfold insertRangeN
  simp only at hr ⊢
  split at hr
  · rename_i h0
    cases hr
    rw [if_pos h0]
    exact ⟨0, .pure _, by omega⟩
  rename_i h0
  rw [if_neg h0]
  split at hr
  · rename_i hb
    rw [if_pos hb]
    simp only [Option.bind_eq_bind, Option.bind_eq_some_iff] at hr
    obtain ⟨⟨d1, res⟩, h1, hr⟩ := hr
    obtain ⟨m, hm, hpay⟩ := pushFrontRange_pays hs h1
    refine ⟨m, hm.bind (m' := 0) ?_, hpay.worst⟩
    simp only at hr ⊢
    split at hr
    · rename_i hc
      cases hr; rw [if_pos hc]; exact .pure _
    · rename_i hc
      rw [if_neg hc]
      simp only [Option.bind_eq_some_iff] at hr
      obtain ⟨a, ha, hr⟩ := hr
      cases hr
      exact Costs.bind (m := 0) (m' := 0) (.lift ha) (.pure _)
  rename_i hb
  rw [if_neg hb]
  cases pos with
  | none =>
    simp only [Option.bind_eq_bind, Option.bind_eq_some_iff] at hr
    obtain ⟨⟨d1, res⟩, h1, hr⟩ := hr
    obtain ⟨m, hm, hpay⟩ := pushBackRange_pays hs h1
    refine ⟨m, hm.bind (m' := 0) ?_, hpay.worst⟩
    simp only at hr ⊢
    split at hr
    · rename_i hc
      cases hr; rw [if_pos hc]; exact .pure _
    · rename_i hc
      rw [if_neg hc]
      simp only [Option.bind_eq_some_iff] at hr
      obtain ⟨a, ha, hr⟩ := hr
      cases hr
      exact Costs.bind (m := 0) (m' := 0) (.lift ha) (.pure _)
  | some p =>
    simp only at hr ⊢
    rcases hp with hp | ⟨k, hk, hp⟩
    · cases hp
    · have hfr := h.front
      have hcap : 0 < d.buf.cap := by have : k < d.buf.sz := hk; omega
      have hk' : k < d.buf.sz := hk
      have hpk : p = (d.front + k) % d.buf.cap := by
        have hlt := Nat.mod_lt (d.front + k) hcap
        simp only [at_, Buf.at_] at hp
        rw [if_neg (by omega), if_neg (by omega)] at hp
        exact Option.some.inj hp
      have hk0 : 0 < k := by
        rcases Nat.eq_zero_or_pos k with rfl | h
        · exfalso
          apply hb
          have hlt : d.front < d.buf.cap := by omega
          rw [hpk, begin, if_neg (by omega), Buf.at_, if_neg (by omega), Nat.add_zero, Nat.mod_eq_of_lt hlt]
        · exact h
      subst hpk
      exact pushRange_worst h hk0 hk' hr

/-- Hypotheses are met and the bounds are not slack by much: a queue of two slots that grows at the third push, and an
insertion before its second element. -/
example : (∀ op ∈ [Op.pushBack 1 none, .pushFront 2 none, .pushBack 3 (some fun _ => 0), .popFront], RangeOk 2 op) ∧
    (((init (fun _ => 0) 2 true : Fdeq Nat).runN
      [Op.pushBack 1 none, .pushFront 2 none, .pushBack 3 (some fun _ => 0), .popFront]) 0).map (·.2) = some 5 := by
  refine ⟨by simp [RangeOk], by decide +kernel⟩

/-- Hypotheses of `C71_fdeq_insert_range` are met: two elements inserted before the second of three, four copies. -/
example : let d : Fdeq Nat := { buf := Buf.init (fun i => i) 8 false 3, front := 0 }
    d.Inv ∧ 1 < d.size ∧ ((d.insertRangeN (d.at_ 1) [8, 9] none) 0).map (fun r => (r.1.1.seq, r.2)) =
      some ([0, 8, 9, 1, 2], 4) := by
  refine ⟨⟨rfl, by simp [Buf.init], by simp [Buf.init]⟩, by simp [size, Buf.init], by decide +kernel⟩

end Fdeq
end CCC
