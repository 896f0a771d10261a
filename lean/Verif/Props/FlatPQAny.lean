import Verif.Props.FlatPQ
/-
C81 for `src/flat_priority_queue.c`: a comparison function that obeys no rule at all, replaced by another one between
any two calls, and elements overwritten behind the queue's back, can spoil the order of the queue but nothing else.

Vocabulary: `Sound` — what is left of the invariant when the order of the elements means nothing; `Ev` — a call made
with the comparison function of the moment, or an element overwritten in place by the program.  The specification of
a call is that of C13/C14 (`SpecStep`) with "is ahead of" replaced by a relation that never holds: everything about
which elements are stored and what is answered stays, everything about order goes.
-/
namespace CCC.Fpq
variable {α : Type}

/-- Capacity describes the allocation, and one slot is free for swapping unless the queue is empty. -/
structure Sound (q : Fpq α) : Prop where
  len : q.buf.len = q.buf.cap
  room : q.buf.sz = 0 ∨ q.buf.sz < q.buf.cap

theorem Inv.sound {q : Fpq α} (h : q.Inv) : q.Sound := ⟨h.len, h.room⟩

/-- A fresh queue is sound whatever the comparison function and the order are. -/
theorem init_sound (mem : Nat → α) (cap : Nat) (hasAlloc : Bool) (cmp : α → α → Cmp) (order : Cmp) :
    (init mem cap hasAlloc cmp order).Sound := ⟨rfl, Or.inl rfl⟩

/-! ### helper lemmas -/

/-- `bubble_up` ends and exchanges elements, whatever the comparisons answer -/
theorem bubbleUp_any (t : Nat) (i : Nat) :
    ∀ (q : Fpq α), q.buf.len = q.buf.cap → q.buf.sz ≤ t → t < q.buf.cap → i < q.buf.sz →
      ∃ q' j, q.bubbleUp (some t) i = some (q', j) ∧ Same q q' ∧ j < q.buf.sz ∧
        q'.buf.mem j = q.buf.mem i ∧ (window q'.buf.mem 0 q.buf.sz).Perm (window q.buf.mem 0 q.buf.sz) := by
  induction i using Nat.strongRecOn with
  | _ i ih =>
  intro q hl hst ht hi
  rw [bubbleUp]
  by_cases h0 : i = 0
  · subst h0
    exact ⟨q, 0, by simp, Same.refl q, hi, rfl, List.Perm.refl _⟩
  rw [if_neg h0]
  have hp : (i - 1) / 2 < i := by omega
  simp only [load_eq hl (show i < q.buf.cap by omega), load_eq hl (show (i-1)/2 < q.buf.cap by omega),
    Option.bind_eq_bind, Option.bind_some]
  by_cases hb : q.wins (q.buf.mem i) (q.buf.mem ((i - 1) / 2)) = true
  · rw [if_pos hb]
    obtain ⟨q1, e1, hs1, hm1⟩ := swap_eq (q := q) hl (t := t) (i := (i-1)/2) (j := i) ht (by omega) (by omega)
      (by omega) (by omega) (by omega)
    have hm1' : ∀ k, k < q.buf.sz → q1.buf.mem k = xchg q.buf.mem ((i-1)/2) i k := fun k hk => hm1 k (by omega)
    obtain ⟨q', j, e, hs, hj, hmj, hperm⟩ := ih ((i-1)/2) hp q1 (by rw [hs1.len, hs1.cap, hl])
      (by rw [hs1.sz]; exact hst) (by rw [hs1.cap]; exact ht) (by rw [hs1.sz]; omega)
    rw [hs1.sz] at hj hperm
    refine ⟨q', j, by simp [e1, e], hs1.trans hs, hj, ?_, ?_⟩
    · rw [hmj, hm1' _ (by omega), xchg_left]
    · refine hperm.trans ?_
      have : window q1.buf.mem 0 q.buf.sz = window (xchg q.buf.mem ((i-1)/2) i) 0 q.buf.sz := by
        apply window_congr; intro k hk; simpa using hm1' k hk
      rw [this]
      exact window_xchg_perm _ _ _ _ (by omega) hi
  · rw [if_neg hb]
    exact ⟨q, i, rfl, Same.refl q, hi, rfl, List.Perm.refl _⟩

theorem pickChild_any {q : Fpq α} (hl : q.buf.len = q.buf.cap) (hsz : q.buf.sz ≤ q.buf.cap) {i : Nat}
    (hi : i * 2 + 1 < q.buf.sz) : ∃ c, q.pickChild (i * 2 + 1) = some c ∧ i < c ∧ c < q.buf.sz := by
  unfold pickChild
  by_cases h1 : i * 2 + 1 + 1 < q.buf.sz
  · rw [if_pos h1]
    simp only [load_eq hl (show i * 2 + 1 + 1 < q.buf.cap by omega), load_eq hl (show i * 2 + 1 < q.buf.cap by omega),
      Option.bind_eq_bind, Option.bind_some]
    by_cases hb : q.wins (q.buf.mem (i * 2 + 1 + 1)) (q.buf.mem (i * 2 + 1)) = true
    · exact ⟨i * 2 + 2, by simp [hb], by omega, by omega⟩
    · exact ⟨i * 2 + 1, by simp [hb], by omega, by omega⟩
  · rw [if_neg h1]
    exact ⟨i * 2 + 1, rfl, by omega, by omega⟩

/-- `bubble_down` ends and exchanges elements, whatever the comparisons answer -/
theorem bubbleDown_any (t m : Nat) :
    ∀ (i : Nat) (q : Fpq α), q.buf.sz - i = m → q.buf.len = q.buf.cap → q.buf.sz ≤ t → t < q.buf.cap →
      ∃ q' j, q.bubbleDown (some t) i = some (q', j) ∧ Same q q' ∧
        (i < q.buf.sz → j < q.buf.sz ∧ q'.buf.mem j = q.buf.mem i) ∧
        (window q'.buf.mem 0 q.buf.sz).Perm (window q.buf.mem 0 q.buf.sz) := by
  induction m using Nat.strongRecOn with
  | _ m ih =>
  intro i q hm hl hst ht
  rw [bubbleDown]
  by_cases hlt : i * 2 + 1 < q.buf.sz
  case neg =>
    rw [if_neg hlt]
    exact ⟨q, i, rfl, Same.refl q, fun h => ⟨h, rfl⟩, List.Perm.refl _⟩
  rw [if_pos hlt]
  obtain ⟨c, ec, hic, hcn⟩ := pickChild_any hl (by omega) hlt
  simp only [ec, load_eq hl (show c < q.buf.cap by omega), load_eq hl (show i < q.buf.cap by omega),
    Option.bind_eq_bind, Option.bind_some]
  by_cases hb : q.wins (q.buf.mem c) (q.buf.mem i) = true
  · rw [if_pos hb]
    obtain ⟨q1, e1, hs1, hm1⟩ := swap_eq (q := q) hl (t := t) (i := c) (j := i) ht (by omega) (by omega)
      (by omega) (by omega) (by omega)
    have hm1' : ∀ k, k < q.buf.sz → q1.buf.mem k = xchg q.buf.mem c i k := fun k hk => hm1 k (by omega)
    obtain ⟨q', j, e, hs, hj, hperm⟩ := ih (q1.buf.sz - c) (by rw [hs1.sz]; omega) c q1 rfl
      (by rw [hs1.len, hs1.cap, hl]) (by rw [hs1.sz]; exact hst) (by rw [hs1.cap]; exact ht)
    rw [hs1.sz] at hj hperm
    refine ⟨q', j, by simp [e1, e], hs1.trans hs, ?_, ?_⟩
    · intro _
      refine ⟨(hj hcn).1, ?_⟩
      rw [(hj hcn).2, hm1' _ hcn, xchg_left]
    · refine hperm.trans ?_
      have : window q1.buf.mem 0 q.buf.sz = window (xchg q.buf.mem c i) 0 q.buf.sz := by
        apply window_congr; intro k hk; simpa using hm1' k hk
      rw [this]
      exact window_xchg_perm _ _ _ _ hcn (by omega)
  · rw [if_neg hb]
    exact ⟨q, i, rfl, Same.refl q, fun h => ⟨h, rfl⟩, List.Perm.refl _⟩

theorem heapifyLoop_any (t : Nat) (m : Nat) :
    ∀ (q : Fpq α), q.buf.len = q.buf.cap → q.buf.sz ≤ t → t < q.buf.cap →
      ∃ q', q.heapifyLoop (some t) m = some q' ∧ Same q q' ∧
        (window q'.buf.mem 0 q.buf.sz).Perm (window q.buf.mem 0 q.buf.sz) := by
  induction m with
  | zero => intro q _ _ _; exact ⟨q, rfl, Same.refl q, List.Perm.refl _⟩
  | succ m ih =>
    intro q hl hst ht
    obtain ⟨q1, j, e1, hs1, _, hperm1⟩ := bubbleDown_any t _ m q rfl hl hst ht
    obtain ⟨q2, e2, hs2, hperm2⟩ := ih q1 (by rw [hs1.len, hs1.cap, hl]) (by rw [hs1.sz]; exact hst)
      (by rw [hs1.cap]; exact ht)
    rw [hs1.sz] at hperm2
    exact ⟨q2, by simp [heapifyLoop, e1, e2], hs1.trans hs2, hperm2.trans hperm1⟩

theorem pushRoom_any {q : Fpq α} (h : q.Sound) (hr : q.buf.sz + 1 < q.buf.cap) (x : α) (ans : AllocAns α) :
    ∃ q' k, q.pushRoom x ans = some (q', some k) ∧ q'.Sound ∧ q'.contents.Perm (x :: q.contents) ∧
      k < q'.buf.sz ∧ q'.buf.mem k = x := by
  have hl := h.len
  have hne : q.buf.sz ≠ q.buf.cap := by omega
  have ha : q.buf.allocBack ans = ({ q.buf with sz := q.buf.sz + 1 }, some q.buf.sz) := by
    simp [Buf.allocBack, hne]
  have hlt : q.buf.sz < q.buf.len := by omega
  let q1 : Fpq α := { q with buf := { q.buf with sz := q.buf.sz + 1, mem := upd q.buf.mem q.buf.sz x } }
  have hst : ({ q.buf with sz := q.buf.sz + 1 } : Buf α).store q.buf.sz x = some q1.buf := by
    simp [Buf.store, hlt, q1]
  have hcont : window q1.buf.mem 0 q1.buf.sz = q.contents ++ [x] := by
    simp only [q1, window_succ, contents]
    congr 1
    · apply window_congr; intro i hi; exact upd_ne _ _ (by omega)
    · simp
  unfold pushRoom
  simp only [ha, hst, Option.bind_eq_bind, Option.bind_some]
  by_cases h1 : q1.buf.sz > 1
  · rw [if_pos h1]
    have hat : q1.buf.at_ q1.buf.sz = some q1.buf.sz := by
      simp only [Buf.at_, q1]; rw [if_neg (by omega)]
    obtain ⟨q', j, e, hs, hj, hmj, hperm⟩ := bubbleUp_any q1.buf.sz q.buf.sz q1 hl
      (Nat.le_refl _) (by simp only [q1]; omega) (by simp only [q1]; omega)
    have hj' : q'.buf.at_ j = some j := by
      simp only [Buf.at_]; rw [if_neg]; rw [hs.cap]; simp only [q1] at hj ⊢; omega
    refine ⟨q', j, ?_, ?_, ?_, ?_, ?_⟩
    · rw [hat]
      have e' : bubbleUp { q with buf := q1.buf } (some q1.buf.sz) (q1.buf.sz - 1) = some (q', j) := e
      simp [e', hj']
    · refine ⟨by rw [hs.len, hs.cap]; exact hl, ?_⟩
      right; rw [hs.sz, hs.cap]; simp only [q1]; omega
    · unfold contents
      rw [hs.sz]
      refine hperm.trans ?_
      rw [hcont]
      exact List.perm_append_singleton x _
    · rw [hs.sz]; exact hj
    · rw [hmj]; simp [q1]
  · rw [if_neg h1]
    have h0 : q.buf.sz = 0 := by simp only [q1] at h1; omega
    refine ⟨q1, 0, ?_, ?_, ?_, ?_, ?_⟩
    · have : q1.buf.at_ 0 = some 0 := by simp only [Buf.at_, q1]; rw [if_neg (by omega)]
      simp [this, q1]
    · exact ⟨hl, Or.inr (by simp only [q1]; omega)⟩
    · unfold contents; rw [hcont]; exact List.perm_append_singleton x _
    · simp only [q1]; omega
    · simp [q1, h0]

/-! ### The calls -/

/-- **C81.**  `push` with any comparison function. -/
theorem C81_fpq_push (q : Fpq α) (h : q.Sound) (x : α) (ans ans' : AllocAns α) :
    (¬ PushRefused q ans ans' ∧ ∃ q' k, q.push x ans ans' = some (q', some k) ∧ q'.Sound ∧
        q'.contents.Perm (x :: q.contents) ∧ k < q'.size ∧ q'.buf.mem k = x) ∨
    (PushRefused q ans ans' ∧ q.push x ans ans' = some (q, none)) := by
  have hl := h.len
  have hroom := h.room
  unfold push
  by_cases hr : q.buf.sz + 1 ≥ q.buf.cap
  · rw [if_pos hr]
    cases hal : q.buf.hasAlloc with
    | false =>
      right
      refine ⟨⟨hr, Or.inl hal⟩, ?_⟩
      simp [Buf.fn, hal, Buf.alloc]
    | true =>
      by_cases h0 : q.buf.cap = 0
      · have hs0 : q.buf.sz = 0 := by omega
        have hl0 : q.buf.len = 0 := by omega
        have hq : q.buf.alloc (q.buf.cap * 2) (q.buf.fn ans) = (q.buf, .ok) := by
          obtain ⟨⟨mem, len, sz, cap, ha⟩, cmp, order⟩ := q
          simp at *
          simp [Buf.fn, hal, Buf.alloc, h0, hl0]
        simp only [hq]
        cases ans' with
        | none =>
          right
          refine ⟨⟨hr, Or.inr (by simp [h0])⟩, ?_⟩
          simp [pushRoom, Buf.allocBack, hs0, h0, Buf.fn, hal, Buf.alloc, Buf.startCapacity]
        | some junk =>
          left
          refine ⟨by simp [PushRefused, h0, hal], ?_⟩
          -- the allocation inside `alloc_back` yields eight slots
          let b8 : Buf α := { q.buf with mem := fun i => if i < q.buf.len then q.buf.mem i else junk i, len := 8, cap := 8 }
          let q8 : Fpq α := { q with buf := b8 }
          have hinv8 : q8.Sound := ⟨rfl, Or.inl hs0⟩
          obtain ⟨q', k, e, hi, hc, hk, hm⟩ := pushRoom_any hinv8 (by simp only [q8, b8]; omega) x (some junk)
          refine ⟨q', k, ?_, hi, ?_, hk, hm⟩
          · rw [← e]
            unfold pushRoom
            have e1 : q.buf.allocBack (some junk) = ({ b8 with sz := b8.sz + 1 }, some b8.sz) := by
              simp [Buf.allocBack, hs0, h0, Buf.fn, hal, Buf.alloc, Buf.startCapacity, b8]
            have e2 : q8.buf.allocBack (some junk) = ({ b8 with sz := b8.sz + 1 }, some b8.sz) := by
              simp [Buf.allocBack, q8, b8, hs0]
            simp only [e1, e2]
            simp [q8]
          · have : q8.contents = q.contents := by simp [contents, q8, b8, hs0, window_zero]
            rw [this] at hc; exact hc
      · cases ans with
        | none =>
          right
          refine ⟨⟨hr, Or.inr (by simp [h0])⟩, ?_⟩
          have h2 : q.buf.cap * 2 ≠ 0 := by omega
          simp [Buf.fn, hal, Buf.alloc, h2]
        | some junk =>
          left
          refine ⟨by simp [PushRefused, h0, hal], ?_⟩
          let b2 : Buf α := { q.buf with mem := fun i => if i < q.buf.len then q.buf.mem i else junk i,
                                         len := q.buf.cap * 2, cap := q.buf.cap * 2 }
          let q2 : Fpq α := { q with buf := b2 }
          have hq : q.buf.alloc (q.buf.cap * 2) (q.buf.fn (some junk)) = (b2, .ok) := by
            have h2 : q.buf.cap * 2 ≠ 0 := by omega
            simp [Buf.fn, hal, Buf.alloc, h2, b2]
          have hm2 : ∀ i, i < q.buf.sz → b2.mem i = q.buf.mem i := by
            intro i hi; simp only [b2]; rw [if_pos (by omega)]
          have hinv2 : q2.Sound := ⟨rfl, Or.inr (by simp only [q2, b2]; omega)⟩
          obtain ⟨q', k, e, hi, hc, hk, hm⟩ := pushRoom_any hinv2 (by simp only [q2, b2]; omega) x ans'
          refine ⟨q', k, ?_, hi, ?_, hk, hm⟩
          · simp only [hq]; simpa using e
          · have : q2.contents = q.contents := by
              unfold contents; apply window_congr; intro i hi; simpa using hm2 i hi
            rw [this] at hc; exact hc
  · rw [if_neg hr]
    left
    refine ⟨fun hc => hr hc.1, ?_⟩
    exact pushRoom_any h (by omega) x ans'

/-- **C81.**  `pop` on a non-empty queue removes exactly the element `front` points to, with any comparison function. -/
theorem C81_fpq_pop (q : Fpq α) (h : q.Sound) (hne : 0 < q.size) :
    ∃ q' k x, q.front = some k ∧ q.load k = some x ∧ q.pop = some (q', .ok) ∧ q'.Sound ∧
      q.contents.Perm (x :: q'.contents) := by
  have hl := h.len
  have hroom := h.room
  have hne' : 0 < q.buf.sz := hne
  have hcap : 0 < q.buf.cap := by omega
  have hfront : q.front = some 0 := by
    simp only [front, Buf.at_]; rw [if_neg (by omega), if_neg (by omega)]
  have hload : q.load 0 = some (q.buf.mem 0) := load_eq hl hcap
  unfold pop
  rw [if_neg (by omega)]
  by_cases h1 : q.buf.sz = 1
  · rw [if_pos h1, popBack_sz (by omega)]
    refine ⟨_, 0, _, hfront, hload, rfl, ?_, ?_⟩
    · exact ⟨hl, Or.inl (by simp [h1])⟩
    · simp [contents, h1, window]
  · rw [if_neg h1]
    have hat : q.buf.at_ q.buf.sz = some q.buf.sz := by simp only [Buf.at_]; rw [if_neg (by omega)]
    obtain ⟨q1, e1, hs1, hm1⟩ := swap_eq (q := q) hl (t := q.buf.sz) (i := 0) (j := q.buf.sz - 1) (by omega) hcap
      (by omega) (by omega) (by omega) (by omega)
    let q2 : Fpq α := { q1 with buf := { q1.buf with sz := q.buf.sz - 1 } }
    have hq2 : { q1 with buf := q1.buf.popBack.1 } = q2 := by
      rw [popBack_sz (by rw [hs1.sz]; omega)]; simp only [q2, hs1.sz]
    obtain ⟨q', j, e, hs, _, hperm⟩ := bubbleDown_any q.buf.sz _ 0 q2 rfl
      (by simp only [q2]; rw [hs1.len, hs1.cap]; exact hl) (by simp only [q2]; omega)
      (by simp only [q2]; rw [hs1.cap]; omega)
    refine ⟨q', 0, _, hfront, hload, ?_, ?_, ?_⟩
    · rw [hat]; simp only [e1, Option.bind_eq_bind, Option.bind_some, hq2, e]; rfl
    · refine ⟨?_, ?_⟩
      · rw [hs.len, hs.cap]; simp only [q2]; rw [hs1.len, hs1.cap]; exact hl
      · right; rw [hs.sz, hs.cap]; simp only [q2]; rw [hs1.cap]; omega
    · have hp1 := window_xchg_perm q.buf.mem q.buf.sz 0 (q.buf.sz - 1) (by omega) (by omega)
      have hsplit : window (xchg q.buf.mem 0 (q.buf.sz - 1)) 0 q.buf.sz
          = window (xchg q.buf.mem 0 (q.buf.sz - 1)) 0 (q.buf.sz - 1) ++ [q.buf.mem 0] := by
        conv => lhs; rw [show q.buf.sz = (q.buf.sz - 1) + 1 by omega]
        rw [window_succ]; simp [xchg_right]
      have hw : window q2.buf.mem 0 q2.buf.sz = window (xchg q.buf.mem 0 (q.buf.sz - 1)) 0 (q.buf.sz - 1) := by
        simp only [q2]; apply window_congr; intro i hi; rw [hm1 _ (by omega)]
      have hc' : q'.contents.Perm (window (xchg q.buf.mem 0 (q.buf.sz - 1)) 0 (q.buf.sz - 1)) := by
        unfold contents; rw [hs.sz, ← hw]; exact hperm
      unfold contents at *
      refine hp1.symm.trans ?_
      rw [hsplit]
      refine (List.perm_append_singleton _ _).trans ?_
      exact List.Perm.cons _ hc'.symm

/-- **C81.**  `erase` of the element in slot `e` removes exactly that element, with any comparison function. -/
theorem C81_fpq_erase (q : Fpq α) (h : q.Sound) (e : Nat) (he : e < q.size) :
    ∃ q', q.erase e = some (q', .ok) ∧ q'.Sound ∧ q.contents.Perm (q.buf.mem e :: q'.contents) := by
  have hl := h.len
  have hroom := h.room
  have he' : e < q.buf.sz := he
  unfold erase
  rw [if_neg (by omega)]
  by_cases h1 : q.buf.sz = 1
  · rw [if_pos h1, popBack_sz (by omega)]
    refine ⟨_, rfl, ⟨hl, Or.inl (by simp [h1])⟩, ?_⟩
    have : e = 0 := by omega
    simp [contents, h1, window, this]
  rw [if_neg h1, if_neg (by omega)]
  by_cases h2 : e = q.buf.sz - 1
  · rw [if_pos h2, popBack_sz (by omega)]
    refine ⟨_, rfl, ⟨hl, Or.inr (by simp only; omega)⟩, ?_⟩
    unfold contents
    simp only
    conv => lhs; rw [show q.buf.sz = (q.buf.sz - 1) + 1 by omega, window_succ]
    rw [h2]; simp only [Nat.zero_add]
    exact List.perm_append_singleton _ _
  rw [if_neg h2]
  have hat : q.buf.at_ q.buf.sz = some q.buf.sz := by simp only [Buf.at_]; rw [if_neg (by omega)]
  obtain ⟨q1, e1, hs1, hm1⟩ := swap_eq (q := q) hl (t := q.buf.sz) (i := e) (j := q.buf.sz - 1) (by omega) (by omega)
    (by omega) (by omega) (by omega) (by omega)
  let q2 : Fpq α := { q1 with buf := { q1.buf with sz := q.buf.sz - 1 } }
  have hq2 : { q1 with buf := q1.buf.popBack.1 } = q2 := by
    rw [popBack_sz (by rw [hs1.sz]; omega)]; simp only [q2, hs1.sz]
  have hl1 : q1.buf.len = q1.buf.cap := by rw [hs1.len, hs1.cap]; exact hl
  have hl2 : q2.buf.len = q2.buf.cap := hl1
  have hload1 : q1.load (q1.buf.sz - 1) = some (q.buf.mem e) := by
    rw [load_eq hl1 (by rw [hs1.sz, hs1.cap]; omega), hs1.sz, hm1 _ (by omega), xchg_right]
  have hme : q2.buf.mem e = q.buf.mem (q.buf.sz - 1) := by
    simp only [q2]; rw [hm1 _ (by omega), xchg_left]
  have hload2 : q2.load e = some (q.buf.mem (q.buf.sz - 1)) := by
    rw [load_eq hl2 (by simp only [q2]; rw [hs1.cap]; omega), hme]
  have hsz2 : q2.buf.sz = q.buf.sz - 1 := rfl
  have hcap2 : q2.buf.cap = q.buf.cap := hs1.cap
  -- contents after the swap
  have hp1 := window_xchg_perm q.buf.mem q.buf.sz e (q.buf.sz - 1) (by omega) (by omega)
  have hsplit : window (xchg q.buf.mem e (q.buf.sz - 1)) 0 q.buf.sz
      = window (xchg q.buf.mem e (q.buf.sz - 1)) 0 (q.buf.sz - 1) ++ [q.buf.mem e] := by
    conv => lhs; rw [show q.buf.sz = (q.buf.sz - 1) + 1 by omega]
    rw [window_succ]; simp [xchg_right]
  have hw2 : window q2.buf.mem 0 q2.buf.sz = window (xchg q.buf.mem e (q.buf.sz - 1)) 0 (q.buf.sz - 1) := by
    rw [hsz2]; simp only [q2]; apply window_congr; intro i hi; rw [hm1 _ (by omega)]
  have hfin : ∀ q' : Fpq α, Same q2 q' → (window q'.buf.mem 0 q2.buf.sz).Perm (window q2.buf.mem 0 q2.buf.sz) →
      q'.Sound ∧ q.contents.Perm (q.buf.mem e :: q'.contents) := by
    intro q' hs hperm
    refine ⟨⟨by rw [hs.len, hs.cap]; exact hl2, Or.inr (by rw [hs.sz, hs.cap, hsz2, hcap2]; omega)⟩, ?_⟩
    unfold contents
    refine hp1.symm.trans ?_
    rw [hsplit]
    refine (List.perm_append_singleton _ _).trans (List.Perm.cons _ ?_)
    rw [← hw2, hs.sz]; exact hperm.symm
  rw [hat]
  simp only [e1, hload1, Option.bind_eq_bind, Option.bind_some, hq2, hload2]
  by_cases c1 : q2.cmp (q.buf.mem (q.buf.sz - 1)) (q.buf.mem e) = q2.order
  · rw [if_pos c1]
    obtain ⟨q', j, eb, hs, _, _, hperm⟩ := bubbleUp_any q.buf.sz e q2 hl2
      (by rw [hsz2]; omega) (by rw [hcap2]; omega) (by rw [hsz2]; omega)
    exact ⟨q', by simp [eb], hfin q' hs hperm⟩
  · rw [if_neg c1]
    by_cases c2 : q2.cmp (q.buf.mem (q.buf.sz - 1)) (q.buf.mem e) ≠ .eql
    · rw [if_pos c2]
      obtain ⟨q', j, eb, hs, _, hperm⟩ := bubbleDown_any q.buf.sz _ e q2 rfl hl2
        (by rw [hsz2]; omega) (by rw [hcap2]; omega)
      exact ⟨q', by simp [eb], hfin q' hs hperm⟩
    · rw [if_neg c2]
      exact ⟨q2, rfl, hfin q2 (Same.refl _) (List.Perm.refl _)⟩

/-- **C81.**  `update` of the element in slot `e` replaces exactly that element by its updated value and returns the
slot where that value now is, with any comparison function. -/
theorem C81_fpq_update (q : Fpq α) (h : q.Sound) (e : Nat) (he : e < q.size) (f : α → α) :
    ∃ q' k l, q.update e f = some (q', some k) ∧ q'.Sound ∧ k < q'.size ∧ q'.buf.mem k = f (q.buf.mem e) ∧
      q.contents.Perm (q.buf.mem e :: l) ∧ q'.contents.Perm (f (q.buf.mem e) :: l) := by
  have hl := h.len
  have hroom := h.room
  have he' : e < q.buf.sz := he
  have hlt : e < q.buf.len := by omega
  let y := f (q.buf.mem e)
  let q1 : Fpq α := { q with buf := { q.buf with mem := upd q.buf.mem e y } }
  obtain ⟨l, hp, hp1⟩ := window_upd_perm q.buf.mem he' y
  have hat : q1.buf.at_ q1.buf.sz = some q.buf.sz := by simp only [q1, Buf.at_]; rw [if_neg (by omega)]
  have hm1 : ∀ k, k ≠ e → q1.buf.mem k = q.buf.mem k := fun k hk => upd_ne _ _ hk
  have hme : q1.buf.mem e = y := upd_same _ _ _
  -- finishing
  have hmk : ∀ (q' : Fpq α) (j : Nat), Same q1 q' → j < q.buf.sz →
      q'.buf.mem j = y → (window q'.buf.mem 0 q.buf.sz).Perm (window q1.buf.mem 0 q.buf.sz) →
      q1.updateFixup e = some (q', j) →
      ∃ q' k l, q.update e f = some (q', some k) ∧ q'.Sound ∧ k < q'.size ∧ q'.buf.mem k = f (q.buf.mem e) ∧
        q.contents.Perm (q.buf.mem e :: l) ∧ q'.contents.Perm (f (q.buf.mem e) :: l) := by
    intro q' j hs hj hmj hperm hup
    have hsz : q'.buf.sz = q.buf.sz := hs.sz
    have hcap : q'.buf.cap = q.buf.cap := hs.cap
    refine ⟨q', j, l, ?_, ?_, ?_, hmj, hp, ?_⟩
    · unfold update
      rw [if_neg (by omega)]
      have hj' : q'.buf.at_ j = some j := by simp only [Buf.at_]; rw [if_neg (by omega)]
      have hup' : updateFixup { q with buf := { q.buf with mem := upd q.buf.mem e (f (q.buf.mem e)) } } e = some (q', j) := hup
      simp [Buf.load, Buf.store, hlt, hup', hj']
    · exact ⟨by rw [hs.len, hs.cap]; exact hl, Or.inr (by omega)⟩
    · show j < q'.buf.sz; omega
    · unfold contents; rw [hsz]; exact hperm.trans hp1
  have hdown : ∃ q' j, q1.bubbleDown (some q.buf.sz) e = some (q', j) ∧
      Same q1 q' ∧ (j < q.buf.sz ∧ q'.buf.mem j = y) ∧
      (window q'.buf.mem 0 q.buf.sz).Perm (window q1.buf.mem 0 q.buf.sz) := by
    obtain ⟨q', j, eb, hs, hj, hperm⟩ := bubbleDown_any q.buf.sz _ e q1 rfl hl
      (Nat.le_refl _) (by simp only [q1]; omega)
    have := hj he'
    rw [hme] at this
    exact ⟨q', j, eb, hs, this, hperm⟩
  have hupd : q1.updateFixup e = (if e = 0 then q1.bubbleDown (some q.buf.sz) 0
      else if q.cmp y (q.buf.mem ((e - 1) / 2)) = q.order then q1.bubbleUp (some q.buf.sz) e
      else if q.cmp y (q.buf.mem ((e - 1) / 2)) ≠ .eql then q1.bubbleDown (some q.buf.sz) e else some (q1, e)) := by
    unfold updateFixup
    simp only [hat]
    rw [if_neg (by simp only [q1]; omega)]
    split
    · rfl
    · have hcap1 : q1.buf.cap = q.buf.cap := rfl
      rw [load_eq (q := q1) hl (show e < q1.buf.cap by omega), load_eq (q := q1) hl (show (e-1)/2 < q1.buf.cap by omega),
        hme, hm1 _ (show (e-1)/2 ≠ e by omega)]
      rfl
  by_cases h0 : e = 0
  · obtain ⟨q', j, eb, hs, ⟨hj, hmj⟩, hperm⟩ := hdown
    refine hmk q' j hs hj hmj hperm ?_
    rw [hupd, if_pos h0]; rw [← h0]; exact eb
  rw [if_neg h0] at hupd
  by_cases c1 : q.cmp y (q.buf.mem ((e - 1) / 2)) = q.order
  · rw [if_pos c1] at hupd
    obtain ⟨q', j, eb, hs, hj, hmj, hperm⟩ := bubbleUp_any q.buf.sz e q1 hl
      (Nat.le_refl _) (by simp only [q1]; omega) he'
    exact hmk q' j hs hj (hmj.trans hme) hperm (hupd.trans eb)
  rw [if_neg c1] at hupd
  by_cases c2 : q.cmp y (q.buf.mem ((e - 1) / 2)) ≠ .eql
  · rw [if_pos c2] at hupd
    obtain ⟨q', j, eb, hs, ⟨hj, hmj⟩, hperm⟩ := hdown
    exact hmk q' j hs hj hmj hperm (hupd.trans eb)
  · rw [if_neg c2] at hupd
    exact hmk q1 e (Same.refl _) he' hme (List.Perm.refl _) hupd

/-- **C81.**  `heapify` with any comparison function. -/
theorem C81_fpq_heapify (q : Fpq α) (h : q.Sound) (xs : List α) (ans : AllocAns α) :
    (¬ HeapifyRefused q xs.length ans ∧ ∃ q', q.heapify xs ans = some (q', .ok) ∧ q'.Sound ∧ q'.contents.Perm xs) ∨
    (HeapifyRefused q xs.length ans ∧ ∃ r, r ≠ .ok ∧ q.heapify xs ans = some (q, r)) := by
  have hl := h.len
  -- after the allocation
  have go : ∀ b : Buf α, b.len = b.cap → xs.length < b.cap →
      ∃ q', (let b := (b.sizeSet xs.length).1
             if xs.length > b.len then none else
             let b := { b with mem := fun j => match xs[j]? with | some x => x | none => b.mem j }
             let q := { q with buf := b }
             (q.heapifyLoop (b.at_ xs.length) (xs.length / 2 + 1)).map fun q => (q, Res.ok)) = some (q', .ok) ∧ q'.Sound ∧
        q'.contents.Perm xs := by
    intro b hbl hbc
    have hset : (b.sizeSet xs.length).1 = { b with sz := xs.length } := by
      simp only [Buf.sizeSet]; rw [if_neg (by omega)]
    simp only [hset]
    rw [if_neg (by omega)]
    let q0 : Fpq α :=
      { q with buf := { b with sz := xs.length, mem := fun j => match xs[j]? with | some x => x | none => b.mem j } }
    have hat : q0.buf.at_ xs.length = some xs.length := by
      simp only [Buf.at_, q0]; rw [if_neg (by omega)]
    obtain ⟨q', e, hs, hp⟩ := heapifyLoop_any xs.length (xs.length / 2 + 1) q0 hbl (Nat.le_refl _) hbc
    have hat' : ({ b with sz := xs.length, mem := fun j => match xs[j]? with | some x => x | none => b.mem j } :
        Buf α).at_ xs.length = some xs.length := hat
    have e' : heapifyLoop
      { q with buf := { b with sz := xs.length, mem := fun j => match xs[j]? with | some x => x | none => b.mem j } }
      (some xs.length) (xs.length / 2 + 1) = some q' := e
    refine ⟨q', by rw [hat', e']; rfl, ⟨by rw [hs.len, hs.cap]; exact hbl, Or.inr ?_⟩, ?_⟩
    · rw [hs.sz, hs.cap]; exact hbc
    · unfold contents
      rw [hs.sz]
      refine hp.trans ?_
      have : contents q0 = xs := by
        apply List.ext_getElem
        · simp [contents, window_length, q0]
        · intro i hi1 hi2
          simp [contents, window_getElem, List.getElem?_eq_getElem hi2, q0]
      unfold contents at this
      rw [this]
  unfold heapify
  by_cases hr : xs.length + 1 > q.buf.cap
  · simp only [if_pos hr]
    cases hal : q.buf.hasAlloc with
    | false =>
      right
      exact ⟨⟨hr, Or.inl hal⟩, .noAlloc, by simp, by simp [Buf.fn, hal, Buf.alloc]⟩
    | true =>
      cases ans with
      | none =>
        right
        exact ⟨⟨hr, Or.inr rfl⟩, .memErr, by simp, by simp [Buf.fn, hal, Buf.alloc]⟩
      | some junk =>
        left
        refine ⟨by simp [HeapifyRefused, hal], ?_⟩
        have ha : q.buf.alloc (xs.length + 1) (q.buf.fn (some junk)) =
            ({ q.buf with mem := fun i => if i < q.buf.len then q.buf.mem i else junk i,
                          len := xs.length + 1, cap := xs.length + 1 }, .ok) := by
          simp [Buf.fn, hal, Buf.alloc]
        rw [ha]
        exact go _ rfl (Nat.lt_succ_self _)
  · simp only [if_neg hr]
    left
    exact ⟨fun hc => by have := hc.1; omega, go q.buf hl (by omega)⟩

/-! ### Histories -/

/-- What happens to the queue: a call, made with the comparison function and order of that moment, or the program
overwriting the element in slot `e` through a pointer it holds. -/
inductive Ev (α : Type) where
  | call (cmp : α → α → Cmp) (order : Cmp) (op : Op α)
  | poke (e : Nat) (x : α)

/-- One event, with the answer of the call. -/
def stepAny (q : Fpq α) : Ev α → Option (Fpq α × Option (Out α))
  | .call c o op => (step { q with cmp := c, order := o } op).map fun r => (r.1, some r.2)
  | .poke e x => (q.buf.store e x).map fun b => ({ q with buf := b }, none)

/-- A history of events. -/
def runAny (q : Fpq α) : List (Ev α) → Option (Fpq α × List (Option (Out α)))
  | [] => some (q, [])
  | ev :: evs => do
    let (q, o) ← q.stepAny ev
    let (q, os) ← runAny q evs
    pure (q, o :: os)

/-- The slot used by the event is that of a stored element. -/
def EvOk (q : Fpq α) : Ev α → Prop
  | .call _ _ op => q.HandleOk op
  | .poke e _ => e < q.size

/-- Every slot used along the history is valid at the time. -/
def EvsOk (q : Fpq α) : List (Ev α) → Prop
  | [] => True
  | ev :: evs => q.EvOk ev ∧ ∀ q' o, q.stepAny ev = some (q', o) → EvsOk q' evs

/-- Specification of one event on the bag of elements `l`: as in C13/C14, without any order. -/
def SpecAny : Ev α → List α → Option (Out α) → List α → Prop
  | .call _ _ op, l, o, l' => ∃ o', o = some o' ∧ SpecStep (fun _ _ => False) op l o' l'
  | .poke _ x, l, o, l' => o = none ∧ ∃ y r, l.Perm (y :: r) ∧ l'.Perm (x :: r)

/-- Specification of a history of events. -/
def SpecRunAny : List (Ev α) → List α → List (Option (Out α)) → List α → Prop
  | [], l, os, l' => os = [] ∧ l' = l
  | ev :: evs, l, os, l' => ∃ o os' m, os = o :: os' ∧ SpecAny ev l o m ∧ SpecRunAny evs m os' l'

theorem deref_sound {q : Fpq α} (h : q.Sound) {k : Nat} (hk : k < q.size) : q.deref (some k) = some (q.buf.mem k) := by
  have := h.room
  have hk' : k < q.buf.sz := hk
  exact load_eq h.len (by omega)

/-- **C81** for one event of a flat priority queue. -/
theorem C81_fpq_step (q : Fpq α) (h : q.Sound) (ev : Ev α) (ho : q.EvOk ev) :
    ∃ q' o, q.stepAny ev = some (q', o) ∧ q'.Sound ∧ SpecAny ev q.contents o q'.contents := by
  cases ev with
  | poke e x =>
    have he : e < q.buf.sz := ho
    have hr := h.room
    have hlt : e < q.buf.len := by have := h.len; omega
    obtain ⟨l, hp, hp1⟩ := window_upd_perm q.buf.mem he x
    refine ⟨{ q with buf := { q.buf with mem := upd q.buf.mem e x } }, none, by simp [stepAny, Buf.store, hlt],
      ⟨h.len, h.room⟩, rfl, _, l, hp, hp1⟩
  | call c o op =>
    have hs : Sound { q with cmp := c, order := o } := ⟨h.len, h.room⟩
    suffices hh : ∃ q' o', step { q with cmp := c, order := o } op = some (q', o') ∧ q'.Sound ∧
        SpecStep (fun _ _ => False) op q.contents o' q'.contents by
      obtain ⟨q', o', e, hi, hsp⟩ := hh
      exact ⟨q', some o', by simp [stepAny, e], hi, o', rfl, hsp⟩
    cases op with
    | push x a a' =>
      rcases C81_fpq_push _ hs x a a' with ⟨_, q', k, e, hi, hp, hk, hm⟩ | ⟨_, e⟩
      · refine ⟨q', .ptr (some x), ?_, hi, Or.inl ⟨rfl, hp⟩⟩
        simp [step, e, deref_sound hi hk, hm]
      · exact ⟨_, .ptr none, by simp [step, e, deref], hs, Or.inr ⟨rfl, List.Perm.refl _⟩⟩
    | front =>
      by_cases h0 : q.buf.sz = 0
      · exact ⟨_, .ptr none, by simp [step, front, h0, deref], hs, List.Perm.refl _,
          Or.inl ⟨by simp [contents, h0, window_zero], rfl⟩⟩
      · have hr := h.room
        have hf : front { q with cmp := c, order := o } = some 0 := by
          simp only [front, Buf.at_]; rw [if_neg h0, if_neg (by omega)]
        have hd := deref_sound hs (k := 0) (show 0 < q.buf.sz by omega)
        refine ⟨_, .ptr (some (q.buf.mem 0)), by simp only [step, hf, hd], hs, List.Perm.refl _, Or.inr ⟨_, ?_, rfl, ?_⟩⟩
        · unfold contents; rw [mem_window]; exact ⟨0, by omega, rfl⟩
        · intro _ _ hc; exact hc
    | pop =>
      by_cases h0 : q.buf.sz = 0
      · have : q.contents = [] := by simp [contents, h0, window_zero]
        exact ⟨_, .res .inputErr, by simp [step, C14_pop_empty { q with cmp := c, order := o } h0], hs,
          Or.inl ⟨this, this, rfl⟩⟩
      · obtain ⟨q', k, x, _, _, e, hi, hp⟩ := C81_fpq_pop _ hs (show 0 < q.buf.sz by omega)
        exact ⟨q', .res .ok, by simp [step, e], hi, Or.inr ⟨rfl, x, hp, fun _ _ hc => hc⟩⟩
    | erase e =>
      obtain ⟨q', he, hi, hp⟩ := C81_fpq_erase _ hs e ho
      have hl : load { q with cmp := c, order := o } e = some (q.buf.mem e) := deref_sound hs ho
      exact ⟨q', .handle (some (q.buf.mem e)) (.res .ok), by simp [step, he, hl], hi, _, rfl, hp⟩
    | update e f =>
      obtain ⟨q', k, l, he, hi, hk, hm, hp, hp'⟩ := C81_fpq_update _ hs e ho f
      have hl : load { q with cmp := c, order := o } e = some (q.buf.mem e) := deref_sound hs ho
      exact ⟨q', .handle (some (q.buf.mem e)) (.ptr (some (f (q.buf.mem e)))),
        by simp [step, he, hl, deref_sound hi hk, hm], hi, _, l, rfl, hp, hp'⟩
    | heapify xs a =>
      rcases C81_fpq_heapify _ hs xs a with ⟨_, q', e, hi, hp⟩ | ⟨_, r, hr, e⟩
      · exact ⟨q', .res .ok, by simp [step, e], hi, Or.inl ⟨rfl, hp⟩⟩
      · exact ⟨_, .res r, by simp [step, e], hs, Or.inr ⟨r, hr, rfl, List.Perm.refl _⟩⟩
    | clear =>
      refine ⟨_, _, rfl, ⟨?_, ?_⟩, ?_, ?_⟩ <;> simp [clear, Buf.sizeSet, h.len, contents, window_zero]

/-- **C81.**  Every history of a flat priority queue, with comparison functions that obey no rule and may change between
calls and with elements overwritten in place, runs to completion without undefined behaviour, and the elements stored
and the answers are those of a bag. -/
theorem C81_fpq_history (evs : List (Ev α)) : ∀ (q : Fpq α), q.Sound → q.EvsOk evs →
    ∃ q' os, q.runAny evs = some (q', os) ∧ q'.Sound ∧ SpecRunAny evs q.contents os q'.contents := by
  induction evs with
  | nil => intro q h _; exact ⟨q, [], rfl, h, rfl, rfl⟩
  | cons ev evs ih =>
    intro q h ho
    obtain ⟨q1, o, e, hi, hs⟩ := C81_fpq_step q h ev ho.1
    obtain ⟨q2, os, e2, hi2, hs2⟩ := ih q1 hi (ho.2 q1 o e)
    exact ⟨q2, o :: os, by simp [runAny, e, e2], hi2, o, os, q1.contents, rfl, hs, hs2⟩

/-- The hypotheses are met by a history whose comparison function claims that everything is ahead of everything,
then that nothing is, and in between overwrites an element. -/
example : (init (fun _ => 0) 8 false (fun _ _ => Cmp.les) .les : Fpq Nat).Sound ∧
    (init (fun _ => 0) 8 false (fun _ _ => Cmp.les) .les : Fpq Nat).EvsOk
      [.call (fun _ _ => .les) .les (.push 5 none none), .poke 0 9, .call (fun _ _ => .err) .grt (.push 3 none none),
       .call (fun _ _ => .les) .les .pop] := by
  have hi := init_sound (fun _ => 0) 8 false (fun (_ _ : Nat) => Cmp.les) .les
  refine ⟨hi, trivial, fun q1 o1 e1 => ⟨?_, fun q2 o2 _ => ⟨trivial, fun q3 o3 _ => ⟨trivial, fun _ _ _ => trivial⟩⟩⟩⟩
  obtain ⟨q', o', e, _, o'', _, hsp⟩ := C81_fpq_step _ hi (.call (fun _ _ => .les) .les (.push 5 none none)) trivial
  rw [e] at e1; cases e1
  rcases hsp with ⟨_, hp⟩ | ⟨rfl, _⟩
  · have := hp.length_eq
    show 0 < q1.buf.sz
    simp [contents, window_length] at this
    omega
  · exfalso
    simp [stepAny, step, init, Buf.init, push, pushRoom, Buf.allocBack, Buf.store, deref, Buf.at_, load, Buf.load] at e
    simp_all

end CCC.Fpq
