import Verif.Proof.FlatPQ
/-
Property theorems for `src/flat_priority_queue.c` (C13–C17, part of C46 and C47).

Vocabulary: `contents q` — the list of stored elements (order irrelevant, compared with `List.Perm`);
`Beats cmp order a b` — `a` is strictly ahead of `b` (Verif/Spec/Order.lean); `Inv` — the state a program can
observe between calls.
-/
namespace CCC.Fpq
variable {α : Type}

/-- Specification: the stored elements. -/
def contents (q : Fpq α) : List α := window q.buf.mem 0 q.buf.sz

/-- `a` is strictly ahead of `b` in this queue's order. -/
def beats (q : Fpq α) (a b : α) : Prop := Beats q.cmp q.order a b

/-- Invariant between calls: capacity describes the allocation; one slot is free for swapping (or the queue is
empty); no element beats its parent; the user's comparison is lawful and the order is min or max. -/
structure Inv (q : Fpq α) : Prop where
  len : q.buf.len = q.buf.cap
  room : q.buf.sz = 0 ∨ q.buf.sz < q.buf.cap
  ord : HeapOrd q.beats q.buf.mem q.buf.sz
  cmp : LawfulCmp q.cmp
  order : IsOrder q.order

/-- A fresh queue over user memory (`ccc_fpq_init`). -/
def init (mem : Nat → α) (cap : Nat) (hasAlloc : Bool) (cmp : α → α → Cmp) (order : Cmp) : Fpq α :=
  { buf := Buf.init mem cap hasAlloc, cmp, order }

theorem init_inv (mem : Nat → α) (cap : Nat) (hasAlloc : Bool) {cmp : α → α → Cmp} {order : Cmp}
    (hc : LawfulCmp cmp) (ho : IsOrder order) : (init mem cap hasAlloc cmp order).Inv := by
  refine ⟨rfl, Or.inl rfl, ?_, hc, ho⟩
  intro k hk hkn; simp [init, Buf.init] at hkn

/-! ### helper lemmas -/

theorem Inv.swo {q : Fpq α} (h : q.Inv) : SWO q.beats := h.cmp.swo h.order
theorem wins_iff {q : Fpq α} (a b : α) : q.wins a b = true ↔ q.beats a b := by simp [wins, beats, Beats]

theorem Same.beats {q q' : Fpq α} (h : Same q q') : q'.beats = q.beats := by
  funext a b; simp [Fpq.beats, h.cmp, h.order]

theorem window_split (f : Nat → α) {n e : Nat} (he : e < n) :
    window f 0 n = window f 0 e ++ f e :: window f (e + 1) (n - e - 1) := by
  have : n = e + (1 + (n - e - 1)) := by omega
  conv => lhs; rw [this]
  rw [window_append, Nat.add_comm 1 (n - e - 1), window_cons]; simp

theorem window_upd_perm (f : Nat → α) {n e : Nat} (he : e < n) (y : α) :
    ∃ l, (window f 0 n).Perm (f e :: l) ∧ (window (upd f e y) 0 n).Perm (y :: l) := by
  refine ⟨window f 0 e ++ window f (e + 1) (n - e - 1), ?_, ?_⟩
  · rw [window_split f he]; exact List.perm_middle
  · rw [window_split _ he]
    have h1 : window (upd f e y) 0 e = window f 0 e := by
      apply window_congr; intro i hi; exact upd_ne _ _ (by omega)
    have h2 : window (upd f e y) (e + 1) (n - e - 1) = window f (e + 1) (n - e - 1) := by
      apply window_congr; intro i hi; exact upd_ne _ _ (by omega)
    rw [h1, h2, upd_same]; exact List.perm_middle

theorem heapOrd_mono {w : α → α → Prop} {f : Nat → α} {m n : Nat} (h : HeapOrd w f n) (hmn : m ≤ n) :
    HeapOrd w f m := fun k hk hkm => h k hk (by omega)

/-- `pushRoom` when there is room for the element and the swap slot -/
theorem pushRoom_spec {q : Fpq α} (h : q.Inv) (hr : q.buf.sz + 1 < q.buf.cap) (x : α) (ans : AllocAns α) :
    ∃ q' k, q.pushRoom x ans = some (q', some k) ∧ q'.Inv ∧ q'.contents.Perm (x :: q.contents) ∧
      k < q'.buf.sz ∧ q'.buf.mem k = x ∧ q'.cmp = q.cmp ∧ q'.order = q.order := by
  have hl := h.len
  have hne : q.buf.sz ≠ q.buf.cap := by omega
  have ha : q.buf.allocBack ans = ({ q.buf with sz := q.buf.sz + 1 }, some q.buf.sz) := by
    simp [Buf.allocBack, hne]
  have hlt : q.buf.sz < q.buf.len := by omega
  let q1 : Fpq α := { q with buf := { q.buf with sz := q.buf.sz + 1, mem := upd q.buf.mem q.buf.sz x } }
  have hst : ({ q.buf with sz := q.buf.sz + 1 } : Buf α).store q.buf.sz x = some q1.buf := by
    simp [Buf.store, hlt, q1]
  have hcont : window q1.buf.mem 0 q1.buf.sz = q.contents ++ [x] := by
    simp only [q1, window_succ, contents]
    congr 1
    · apply window_congr; intro i hi; exact upd_ne _ _ (by omega)
    · simp
  have hup : HeapUp q.beats q1.buf.mem q1.buf.sz q.buf.sz := by
    constructor
    · intro k hk hkn hki
      simp only [q1] at hkn ⊢
      rw [upd_ne _ _ hki, upd_ne _ _ (by omega)]
      exact h.ord k hk (by omega)
    · intro k hk hkn hpk; simp only [q1] at hkn; omega
  unfold pushRoom
  simp only [ha, hst, Option.bind_eq_bind, Option.bind_some]
  by_cases h1 : q1.buf.sz > 1
  · rw [if_pos h1]
    have hat : q1.buf.at_ q1.buf.sz = some q1.buf.sz := by
      simp only [Buf.at_, q1]; rw [if_neg (by omega)]
    obtain ⟨q', j, e, hs, hj, hmj, hord, hperm⟩ := bubbleUp_spec (w := q.beats) h.swo q1.buf.sz q.buf.sz q1 hl
      (Nat.le_refl _) (by simp only [q1]; omega) (by simp only [q1]; omega) (fun a b => wins_iff a b) hup
    have hj' : q'.buf.at_ j = some j := by
      simp only [Buf.at_]; rw [if_neg]; rw [hs.cap]; simp only [q1] at hj ⊢; omega
    refine ⟨q', j, ?_, ?_, ?_, ?_, ?_, hs.cmp, hs.order⟩
    · rw [hat]
      have e' : bubbleUp { q with buf := q1.buf } (some q1.buf.sz) (q1.buf.sz - 1) = some (q', j) := e
      simp [e', hj']
    · refine ⟨by rw [hs.len, hs.cap]; exact hl, ?_, ?_, by rw [hs.cmp]; exact h.cmp, by rw [hs.order]; exact h.order⟩
      · right; rw [hs.sz, hs.cap]; simp only [q1]; omega
      · rw [hs.sz, hs.beats]; exact hord
    · unfold contents
      rw [hs.sz]
      refine hperm.trans ?_
      rw [hcont]
      exact List.perm_append_singleton x _
    · rw [hs.sz]; exact hj
    · rw [hmj]; simp [q1]
  · rw [if_neg h1]
    have h0 : q.buf.sz = 0 := by simp only [q1] at h1; omega
    refine ⟨q1, 0, ?_, ?_, ?_, ?_, ?_, rfl, rfl⟩
    · have : q1.buf.at_ 0 = some 0 := by simp only [Buf.at_, q1]; rw [if_neg (by omega)]
      simp [this, q1]
    · refine ⟨hl, Or.inr (by simp only [q1]; omega), ?_, h.cmp, h.order⟩
      intro k hk hkn; simp only [q1] at hkn; omega
    · unfold contents; rw [hcont]; exact List.perm_append_singleton x _
    · simp only [q1]; omega
    · simp [q1, h0]

/-! ### Operation theorems (C14–C16) -/

/-- When a push fails: memory is needed (`size + 1 ≥ capacity`) and not obtained. -/
def PushRefused (q : Fpq α) (ans ans' : AllocAns α) : Prop :=
  q.buf.sz + 1 ≥ q.buf.cap ∧ (q.buf.hasAlloc = false ∨ (if q.buf.cap = 0 then ans' = none else ans = none))

/-- **C14, C15, C16.**  `push` either stores exactly the new element and returns its slot, or, when memory is needed
and refused, returns NULL and leaves the queue unchanged. -/
theorem C14_push (q : Fpq α) (h : q.Inv) (x : α) (ans ans' : AllocAns α) :
    (¬ PushRefused q ans ans' ∧ ∃ q' k, q.push x ans ans' = some (q', some k) ∧ q'.Inv ∧
        q'.contents.Perm (x :: q.contents) ∧ k < q'.size ∧ q'.buf.mem k = x ∧ q'.cmp = q.cmp ∧ q'.order = q.order) ∨
    (PushRefused q ans ans' ∧ q.push x ans ans' = some (q, none)) := by
  have hl := h.len
  have hroom := h.room
  unfold push
  by_cases hr : q.buf.sz + 1 ≥ q.buf.cap
  · rw [if_pos hr]
    cases hal : q.buf.hasAlloc with
    | false =>
      right
      refine ⟨⟨hr, Or.inl hal⟩, ?_⟩
      simp [Buf.fn, hal, Buf.alloc]
    | true =>
      by_cases h0 : q.buf.cap = 0
      · have hs0 : q.buf.sz = 0 := by omega
        have hl0 : q.buf.len = 0 := by omega
        have hq : q.buf.alloc (q.buf.cap * 2) (q.buf.fn ans) = (q.buf, .ok) := by
          obtain ⟨⟨mem, len, sz, cap, ha⟩, cmp, order⟩ := q
          simp at *
          simp [Buf.fn, hal, Buf.alloc, h0, hl0]
        simp only [hq]
        cases ans' with
        | none =>
          right
          refine ⟨⟨hr, Or.inr (by simp [h0])⟩, ?_⟩
          simp [pushRoom, Buf.allocBack, hs0, h0, Buf.fn, hal, Buf.alloc, Buf.startCapacity]
        | some junk =>
          left
          refine ⟨by simp [PushRefused, h0, hal], ?_⟩
          -- the allocation inside `alloc_back` yields eight slots
          let b8 : Buf α := { q.buf with mem := fun i => if i < q.buf.len then q.buf.mem i else junk i, len := 8, cap := 8 }
          let q8 : Fpq α := { q with buf := b8 }
          have hinv8 : q8.Inv := by
            refine ⟨rfl, Or.inl hs0, ?_, h.cmp, h.order⟩
            intro k hk hkn; simp only [q8, b8] at hkn; omega
          obtain ⟨q', k, e, hi, hc, hk, hm, hcmp, hord⟩ := pushRoom_spec hinv8 (by simp only [q8, b8]; omega) x (some junk)
          refine ⟨q', k, ?_, hi, ?_, hk, hm, hcmp, hord⟩
          · rw [← e]
            unfold pushRoom
            have e1 : q.buf.allocBack (some junk) = ({ b8 with sz := b8.sz + 1 }, some b8.sz) := by
              simp [Buf.allocBack, hs0, h0, Buf.fn, hal, Buf.alloc, Buf.startCapacity, b8]
            have e2 : q8.buf.allocBack (some junk) = ({ b8 with sz := b8.sz + 1 }, some b8.sz) := by
              simp [Buf.allocBack, q8, b8, hs0]
            simp only [e1, e2]
            simp [q8]
          · have : q8.contents = q.contents := by simp [contents, q8, b8, hs0, window_zero]
            rw [this] at hc; exact hc
      · cases ans with
        | none =>
          right
          refine ⟨⟨hr, Or.inr (by simp [h0])⟩, ?_⟩
          have h2 : q.buf.cap * 2 ≠ 0 := by omega
          simp [Buf.fn, hal, Buf.alloc, h2]
        | some junk =>
          left
          refine ⟨by simp [PushRefused, h0, hal], ?_⟩
          let b2 : Buf α := { q.buf with mem := fun i => if i < q.buf.len then q.buf.mem i else junk i,
                                         len := q.buf.cap * 2, cap := q.buf.cap * 2 }
          let q2 : Fpq α := { q with buf := b2 }
          have hq : q.buf.alloc (q.buf.cap * 2) (q.buf.fn (some junk)) = (b2, .ok) := by
            have h2 : q.buf.cap * 2 ≠ 0 := by omega
            simp [Buf.fn, hal, Buf.alloc, h2, b2]
          have hm2 : ∀ i, i < q.buf.sz → b2.mem i = q.buf.mem i := by
            intro i hi; simp only [b2]; rw [if_pos (by omega)]
          have hinv2 : q2.Inv := by
            refine ⟨rfl, Or.inr (by simp only [q2, b2]; omega), ?_, h.cmp, h.order⟩
            intro k hk hkn
            simp only [q2] at hkn ⊢
            rw [hm2 k hkn, hm2 _ (by simp only [b2] at hkn; omega)]
            exact h.ord k hk hkn
          obtain ⟨q', k, e, hi, hc, hk, hm, hcmp, hord⟩ := pushRoom_spec hinv2 (by simp only [q2, b2]; omega) x ans'
          refine ⟨q', k, ?_, hi, ?_, hk, hm, hcmp, hord⟩
          · simp only [hq]; simpa using e
          · have : q2.contents = q.contents := by
              unfold contents; apply window_congr; intro i hi; simpa using hm2 i hi
            rw [this] at hc; exact hc
  · rw [if_neg hr]
    left
    refine ⟨fun hc => hr hc.1, ?_⟩
    exact pushRoom_spec h (by omega) x ans'

/-- `pop_back` on a queue of one element -/
theorem popBack_sz {q : Fpq α} (h1 : q.buf.sz ≥ 1) :
    q.buf.popBack.1 = { q.buf with sz := q.buf.sz - 1 } := by
  simp only [Buf.popBack, Buf.popBackN]; rw [if_neg (by omega)]

/-- **C14.**  `pop` on a non-empty queue removes exactly the front element. -/
theorem C14_pop (q : Fpq α) (h : q.Inv) (hne : 0 < q.size) :
    ∃ q' k x, q.front = some k ∧ q.load k = some x ∧ q.pop = some (q', .ok) ∧ q'.Inv ∧
      q.contents.Perm (x :: q'.contents) ∧ q'.cmp = q.cmp ∧ q'.order = q.order := by
  have hl := h.len
  have hroom := h.room
  have hne' : 0 < q.buf.sz := hne
  have hcap : 0 < q.buf.cap := by omega
  have hfront : q.front = some 0 := by
    simp only [front, Buf.at_]; rw [if_neg (by omega), if_neg (by omega)]
  have hload : q.load 0 = some (q.buf.mem 0) := load_eq hl hcap
  unfold pop
  rw [if_neg (by omega)]
  by_cases h1 : q.buf.sz = 1
  · rw [if_pos h1, popBack_sz (by omega)]
    refine ⟨_, 0, _, hfront, hload, rfl, ?_, ?_, rfl, rfl⟩
    · refine ⟨hl, Or.inl (by simp [h1]), ?_, h.cmp, h.order⟩
      intro k hk hkn; simp [h1] at hkn
    · simp [contents, h1, window]
  · rw [if_neg h1]
    have hat : q.buf.at_ q.buf.sz = some q.buf.sz := by simp only [Buf.at_]; rw [if_neg (by omega)]
    obtain ⟨q1, e1, hs1, hm1⟩ := swap_eq (q := q) hl (t := q.buf.sz) (i := 0) (j := q.buf.sz - 1) (by omega) hcap
      (by omega) (by omega) (by omega) (by omega)
    let q2 : Fpq α := { q1 with buf := { q1.buf with sz := q.buf.sz - 1 } }
    have hq2 : { q1 with buf := q1.buf.popBack.1 } = q2 := by
      rw [popBack_sz (by rw [hs1.sz]; omega)]; simp only [q2, hs1.sz]
    have hb2 : q2.beats = q.beats := by funext a b; simp [beats, q2, hs1.cmp, hs1.order]
    have hm2 : ∀ k, k < q.buf.sz - 1 → k ≠ 0 → q2.buf.mem k = q.buf.mem k := by
      intro k hk hk0
      simp only [q2]; rw [hm1 k (by omega), xchg_other _ hk0 (by omega)]
    have hd : HeapDown q.beats q2.buf.mem q2.buf.sz 0 0 := by
      constructor
      · intro k hk hkn _ hp0
        have hkn' : k < q.buf.sz - 1 := hkn
        rw [hm2 k hkn' (by omega), hm2 _ (by omega) hp0]
        exact h.ord k hk (by omega)
      · intro k _ _ _ h0; omega
    obtain ⟨q', j, e, hs, _, hord, hperm⟩ := bubbleDown_spec (w := q.beats) h.swo q.buf.sz 0 _ 0 q2 rfl
      (by simp only [q2]; rw [hs1.len, hs1.cap]; exact hl) (by simp only [q2]; omega)
      (by simp only [q2]; rw [hs1.cap]; omega) (Nat.le_refl _) (fun a b => by rw [wins_iff, hb2]) hd
    have hbeats' : q'.beats = q.beats := by rw [hs.beats, hb2]
    refine ⟨q', 0, _, hfront, hload, ?_, ?_, ?_, by rw [hs.cmp]; exact hs1.cmp, by rw [hs.order]; exact hs1.order⟩
    · rw [hat]; simp only [e1, Option.bind_eq_bind, Option.bind_some, hq2, e]; rfl
    · refine ⟨?_, ?_, ?_, ?_, ?_⟩
      · rw [hs.len, hs.cap]; simp only [q2]; rw [hs1.len, hs1.cap]; exact hl
      · right; rw [hs.sz, hs.cap]; simp only [q2]; rw [hs1.cap]; omega
      · rw [hs.sz, hbeats']; exact heapFrom_zero.1 hord
      · rw [hs.cmp]; simp only [q2]; rw [hs1.cmp]; exact h.cmp
      · rw [hs.order]; simp only [q2]; rw [hs1.order]; exact h.order
    · have hp1 := window_xchg_perm q.buf.mem q.buf.sz 0 (q.buf.sz - 1) (by omega) (by omega)
      have hsplit : window (xchg q.buf.mem 0 (q.buf.sz - 1)) 0 q.buf.sz
          = window (xchg q.buf.mem 0 (q.buf.sz - 1)) 0 (q.buf.sz - 1) ++ [q.buf.mem 0] := by
        conv => lhs; rw [show q.buf.sz = (q.buf.sz - 1) + 1 by omega]
        rw [window_succ]; simp [xchg_right]
      have hw : window q2.buf.mem 0 q2.buf.sz = window (xchg q.buf.mem 0 (q.buf.sz - 1)) 0 (q.buf.sz - 1) := by
        simp only [q2]; apply window_congr; intro i hi; rw [hm1 _ (by omega)]
      have hc' : q'.contents.Perm (window (xchg q.buf.mem 0 (q.buf.sz - 1)) 0 (q.buf.sz - 1)) := by
        unfold contents; rw [hs.sz, ← hw]; exact hperm
      unfold contents at *
      refine hp1.symm.trans ?_
      rw [hsplit]
      refine (List.perm_append_singleton _ _).trans ?_
      exact List.Perm.cons _ hc'.symm

/-- **C14.**  `pop` on an empty queue is an input error without effect. -/
theorem C14_pop_empty (q : Fpq α) (hne : q.size = 0) : q.pop = some (q, .inputErr) := by
  simp [pop, show q.buf.sz = 0 from hne]

theorem beats_trans_left {q : Fpq α} (h : q.Inv) {a b c : α} (h1 : q.beats a b) (h2 : ¬ q.beats c b) : q.beats a c :=
  h.swo.of_w_of_not h1 h2

/-- three-way comparison in terms of `beats` -/
theorem cmp_cases {q : Fpq α} (h : q.Inv) (a b : α) :
    (q.cmp a b = q.order ∧ q.beats a b) ∨ (q.cmp a b ≠ q.order ∧ q.cmp a b = .eql ∧ ¬ q.beats a b ∧ ¬ q.beats b a) ∨
    (q.cmp a b ≠ q.order ∧ q.cmp a b ≠ .eql ∧ q.beats b a) := by
  have hf := h.cmp.flip
  have hne := h.cmp.noErr a b
  have hne' := h.cmp.noErr b a
  have f1 := hf a b
  have f2 := hf b a
  have ho := h.order
  unfold IsOrder at ho
  simp only [beats, Beats]
  rcases ho with ho | ho <;> rw [ho] <;> cases hab : q.cmp a b <;> cases hba : q.cmp b a <;> simp_all

/-- **C14.**  `erase` of the element in slot `e` removes exactly that element. -/
theorem C14_erase (q : Fpq α) (h : q.Inv) (e : Nat) (he : e < q.size) :
    ∃ q', q.erase e = some (q', .ok) ∧ q'.Inv ∧ q.contents.Perm (q.buf.mem e :: q'.contents) ∧
      q'.cmp = q.cmp ∧ q'.order = q.order := by
  have hl := h.len
  have hroom := h.room
  have he' : e < q.buf.sz := he
  unfold erase
  rw [if_neg (by omega)]
  by_cases h1 : q.buf.sz = 1
  · rw [if_pos h1, popBack_sz (by omega)]
    refine ⟨_, rfl, ?_, ?_, rfl, rfl⟩
    · refine ⟨hl, Or.inl (by simp [h1]), ?_, h.cmp, h.order⟩
      intro k hk hkn; simp [h1] at hkn
    · have : e = 0 := by omega
      simp [contents, h1, window, this]
  rw [if_neg h1, if_neg (by omega)]
  by_cases h2 : e = q.buf.sz - 1
  · rw [if_pos h2, popBack_sz (by omega)]
    refine ⟨_, rfl, ?_, ?_, rfl, rfl⟩
    · refine ⟨hl, Or.inr (by simp only; omega), ?_, h.cmp, h.order⟩
      exact heapOrd_mono h.ord (by simp only; omega)
    · unfold contents
      simp only
      conv => lhs; rw [show q.buf.sz = (q.buf.sz - 1) + 1 by omega, window_succ]
      rw [h2]; simp only [Nat.zero_add]
      exact List.perm_append_singleton _ _
  rw [if_neg h2]
  have hat : q.buf.at_ q.buf.sz = some q.buf.sz := by simp only [Buf.at_]; rw [if_neg (by omega)]
  obtain ⟨q1, e1, hs1, hm1⟩ := swap_eq (q := q) hl (t := q.buf.sz) (i := e) (j := q.buf.sz - 1) (by omega) (by omega)
    (by omega) (by omega) (by omega) (by omega)
  let q2 : Fpq α := { q1 with buf := { q1.buf with sz := q.buf.sz - 1 } }
  have hq2 : { q1 with buf := q1.buf.popBack.1 } = q2 := by
    rw [popBack_sz (by rw [hs1.sz]; omega)]; simp only [q2, hs1.sz]
  have hb2 : q2.beats = q.beats := by funext a b; simp [beats, q2, hs1.cmp, hs1.order]
  have hl1 : q1.buf.len = q1.buf.cap := by rw [hs1.len, hs1.cap]; exact hl
  have hl2 : q2.buf.len = q2.buf.cap := hl1
  have hload1 : q1.load (q1.buf.sz - 1) = some (q.buf.mem e) := by
    rw [load_eq hl1 (by rw [hs1.sz, hs1.cap]; omega), hs1.sz, hm1 _ (by omega), xchg_right]
  have hme : q2.buf.mem e = q.buf.mem (q.buf.sz - 1) := by
    simp only [q2]; rw [hm1 _ (by omega), xchg_left]
  have hload2 : q2.load e = some (q.buf.mem (q.buf.sz - 1)) := by
    rw [load_eq hl2 (by simp only [q2]; rw [hs1.cap]; omega), hme]
  have hm2 : ∀ k, k < q.buf.sz - 1 → k ≠ e → q2.buf.mem k = q.buf.mem k := by
    intro k hk hke
    simp only [q2]; rw [hm1 k (by omega), xchg_other _ hke (by omega)]
  have hinv2 : LawfulCmp q2.cmp ∧ IsOrder q2.order := by
    simp only [q2]; rw [hs1.cmp, hs1.order]; exact ⟨h.cmp, h.order⟩
  have hsz2 : q2.buf.sz = q.buf.sz - 1 := rfl
  have hcap2 : q2.buf.cap = q.buf.cap := hs1.cap
  -- contents after the swap
  have hp1 := window_xchg_perm q.buf.mem q.buf.sz e (q.buf.sz - 1) (by omega) (by omega)
  have hsplit : window (xchg q.buf.mem e (q.buf.sz - 1)) 0 q.buf.sz
      = window (xchg q.buf.mem e (q.buf.sz - 1)) 0 (q.buf.sz - 1) ++ [q.buf.mem e] := by
    conv => lhs; rw [show q.buf.sz = (q.buf.sz - 1) + 1 by omega]
    rw [window_succ]; simp [xchg_right]
  have hw2 : window q2.buf.mem 0 q2.buf.sz = window (xchg q.buf.mem e (q.buf.sz - 1)) 0 (q.buf.sz - 1) := by
    rw [hsz2]; simp only [q2]; apply window_congr; intro i hi; rw [hm1 _ (by omega)]
  have hfin : ∀ q' : Fpq α, Same q2 q' → (window q'.buf.mem 0 q2.buf.sz).Perm (window q2.buf.mem 0 q2.buf.sz) →
      q.contents.Perm (q.buf.mem e :: q'.contents) := by
    intro q' hs hperm
    unfold contents
    refine hp1.symm.trans ?_
    rw [hsplit]
    refine (List.perm_append_singleton _ _).trans (List.Perm.cons _ ?_)
    rw [← hw2, hs.sz]; exact hperm.symm
  have hmk : ∀ q' : Fpq α, Same q2 q' → HeapOrd q.beats q'.buf.mem q2.buf.sz → q'.Inv := by
    intro q' hs ho
    refine ⟨by rw [hs.len, hs.cap]; exact hl2, Or.inr (by rw [hs.sz, hs.cap, hsz2, hcap2]; omega), ?_,
      by rw [hs.cmp]; exact hinv2.1, by rw [hs.order]; exact hinv2.2⟩
    rw [hs.sz, hs.beats, hb2]; exact ho
  -- relation of neighbours of `e`
  have hkid : ∀ k, 0 < k → k < q.buf.sz → (k - 1) / 2 = e → ¬ q.beats (q.buf.mem k) (q.buf.mem e) := by
    intro k hk hkn hpk; have := h.ord k hk hkn; rwa [hpk] at this
  have hpar : 0 < e → ¬ q.beats (q.buf.mem e) (q.buf.mem ((e - 1) / 2)) := fun h0 => h.ord e h0 he'
  rw [hat]
  simp only [e1, hload1, Option.bind_eq_bind, Option.bind_some, hq2, hload2]
  have hcmp2 : q2.cmp = q.cmp := hs1.cmp
  have hord2 : q2.order = q.order := hs1.order
  rw [hcmp2, hord2]
  rcases cmp_cases h (q.buf.mem (q.buf.sz - 1)) (q.buf.mem e) with ⟨c1, cb⟩ | ⟨c1, c2, cb, cb'⟩ | ⟨c1, c2, cb⟩
  · rw [if_pos c1]
    have hup : HeapUp q.beats q2.buf.mem q2.buf.sz e := by
      constructor
      · intro k hk hkn hke
        have hkn' : k < q.buf.sz - 1 := hkn
        rw [hm2 k hkn' hke]
        by_cases hpk : (k - 1) / 2 = e
        · rw [hpk, hme]
          intro hc
          exact hkid k hk (by omega) hpk (h.swo.trans hc cb)
        · rw [hm2 _ (by omega) hpk]; exact h.ord k hk (by omega)
      · intro k hk hkn hpk h0
        have hkn' : k < q.buf.sz - 1 := hkn
        rw [hm2 k hkn' (by omega), hm2 _ (by omega) (by omega)]
        exact h.swo.ntrans _ _ _ (hkid k hk (by omega) hpk) (hpar h0)
    obtain ⟨q', j, eb, hs, _, _, hord, hperm⟩ := bubbleUp_spec (w := q.beats) h.swo q.buf.sz e q2 hl2
      (by rw [hsz2]; omega) (by rw [hcap2]; omega) (by rw [hsz2]; omega) (fun a b => by rw [wins_iff, hb2]) hup
    exact ⟨q', by simp [eb], hmk q' hs hord, hfin q' hs hperm, by rw [hs.cmp, hcmp2], by rw [hs.order, hord2]⟩
  · rw [if_neg c1, if_neg (by simp [c2])]
    refine ⟨q2, rfl, hmk q2 (Same.refl _) ?_, hfin q2 (Same.refl _) (List.Perm.refl _), hcmp2, hord2⟩
    intro k hk hkn
    have hkn' : k < q.buf.sz - 1 := hkn
    by_cases hke : k = e
    · subst hke
      rw [hme, hm2 _ (by omega) (by omega)]
      exact h.swo.ntrans _ _ _ cb (hpar hk)
    · rw [hm2 k hkn' hke]
      by_cases hpk : (k - 1) / 2 = e
      · rw [hpk, hme]; exact h.swo.ntrans _ _ _ (hkid k hk (by omega) hpk) cb'
      · rw [hm2 _ (by omega) hpk]; exact h.ord k hk (by omega)
  · rw [if_neg c1, if_pos c2]
    have hd : HeapDown q.beats q2.buf.mem q2.buf.sz 0 e := by
      constructor
      · intro k hk hkn _ hpk
        have hkn' : k < q.buf.sz - 1 := hkn
        rw [hm2 _ (show (k-1)/2 < q.buf.sz - 1 by omega) hpk]
        by_cases hke : k = e
        · subst hke; rw [hme]
          exact h.swo.ntrans _ _ _ (h.swo.asym _ _ cb) (hpar hk)
        · rw [hm2 k hkn' hke]; exact h.ord k hk (by omega)
      · intro k hk hkn hpk h0 _
        have hkn' : k < q.buf.sz - 1 := hkn
        rw [hm2 k hkn' (by omega), hm2 _ (by omega) (by omega)]
        exact h.swo.ntrans _ _ _ (hkid k hk (by omega) hpk) (hpar h0)
    obtain ⟨q', j, eb, hs, _, hord, hperm⟩ := bubbleDown_spec (w := q.beats) h.swo q.buf.sz 0 _ e q2 rfl hl2
      (by rw [hsz2]; omega) (by rw [hcap2]; omega) (Nat.zero_le _) (fun a b => by rw [wins_iff, hb2]) hd
    exact ⟨q', by simp [eb], hmk q' hs (heapFrom_zero.1 hord), hfin q' hs hperm, by rw [hs.cmp, hcmp2],
      by rw [hs.order, hord2]⟩

/-- **C14, C15.**  `update` (also `increase`/`decrease`) of the element in slot `e` replaces exactly that element by
its updated value and returns the slot where the updated value now is. -/
theorem C14_update (q : Fpq α) (h : q.Inv) (e : Nat) (he : e < q.size) (f : α → α) :
    ∃ q' k l, q.update e f = some (q', some k) ∧ q'.Inv ∧ k < q'.size ∧ q'.buf.mem k = f (q.buf.mem e) ∧
      q.contents.Perm (q.buf.mem e :: l) ∧ q'.contents.Perm (f (q.buf.mem e) :: l) ∧
      q'.cmp = q.cmp ∧ q'.order = q.order := by
  have hl := h.len
  have hroom := h.room
  have he' : e < q.buf.sz := he
  have hlt : e < q.buf.len := by omega
  let y := f (q.buf.mem e)
  let q1 : Fpq α := { q with buf := { q.buf with mem := upd q.buf.mem e y } }
  obtain ⟨l, hp, hp1⟩ := window_upd_perm q.buf.mem he' y
  have hat : q1.buf.at_ q1.buf.sz = some q.buf.sz := by simp only [q1, Buf.at_]; rw [if_neg (by omega)]
  have hm1 : ∀ k, k ≠ e → q1.buf.mem k = q.buf.mem k := fun k hk => upd_ne _ _ hk
  have hme : q1.buf.mem e = y := upd_same _ _ _
  have hkid : ∀ k, 0 < k → k < q.buf.sz → (k - 1) / 2 = e → ¬ q.beats (q.buf.mem k) (q.buf.mem e) := by
    intro k hk hkn hpk; have := h.ord k hk hkn; rwa [hpk] at this
  have hpar : 0 < e → ¬ q.beats (q.buf.mem e) (q.buf.mem ((e - 1) / 2)) := fun h0 => h.ord e h0 he'
  have hkp : ∀ k, 0 < k → k < q.buf.sz → (k - 1) / 2 = e → 0 < e →
      ¬ q.beats (q.buf.mem k) (q.buf.mem ((e - 1) / 2)) := fun k hk hkn hpk h0 =>
    h.swo.ntrans _ _ _ (hkid k hk hkn hpk) (hpar h0)
  have hb1 : q1.beats = q.beats := rfl
  -- finishing
  have hmk : ∀ (q' : Fpq α) (j : Nat), Same q1 q' → HeapOrd q.beats q'.buf.mem q.buf.sz → j < q.buf.sz →
      q'.buf.mem j = y → (window q'.buf.mem 0 q.buf.sz).Perm (window q1.buf.mem 0 q.buf.sz) →
      q1.updateFixup e = some (q', j) →
      ∃ q' k l, q.update e f = some (q', some k) ∧ q'.Inv ∧ k < q'.size ∧ q'.buf.mem k = f (q.buf.mem e) ∧
        q.contents.Perm (q.buf.mem e :: l) ∧ q'.contents.Perm (f (q.buf.mem e) :: l) ∧
        q'.cmp = q.cmp ∧ q'.order = q.order := by
    intro q' j hs ho hj hmj hperm hup
    have hsz : q'.buf.sz = q.buf.sz := hs.sz
    have hcap : q'.buf.cap = q.buf.cap := hs.cap
    refine ⟨q', j, l, ?_, ?_, ?_, hmj, hp, ?_, hs.cmp, hs.order⟩
    · unfold update
      rw [if_neg (by omega)]
      have hj' : q'.buf.at_ j = some j := by simp only [Buf.at_]; rw [if_neg (by omega)]
      have hup' : updateFixup { q with buf := { q.buf with mem := upd q.buf.mem e (f (q.buf.mem e)) } } e = some (q', j) := hup
      simp [Buf.load, Buf.store, hlt, hup', hj']
    · refine ⟨by rw [hs.len, hs.cap]; exact hl, Or.inr (by omega), ?_, by rw [hs.cmp]; exact h.cmp,
        by rw [hs.order]; exact h.order⟩
      rw [hsz, hs.beats]; exact ho
    · show j < q'.buf.sz; omega
    · unfold contents; rw [hsz]; exact hperm.trans hp1
  have hdown : (0 < e → ¬ q.beats y (q.buf.mem ((e - 1) / 2))) → ∃ q' j, q1.bubbleDown (some q.buf.sz) e = some (q', j) ∧
      Same q1 q' ∧ (j < q.buf.sz ∧ q'.buf.mem j = y) ∧ HeapOrd q.beats q'.buf.mem q.buf.sz ∧
      (window q'.buf.mem 0 q.buf.sz).Perm (window q1.buf.mem 0 q.buf.sz) := by
    intro hyp
    have hd : HeapDown q.beats q1.buf.mem q1.buf.sz 0 e := by
      constructor
      · intro k hk hkn _ hpk
        have hkn' : k < q.buf.sz := hkn
        rw [hm1 _ hpk]
        by_cases hke : k = e
        · subst hke; rw [hme]; exact hyp hk
        · rw [hm1 _ hke]; exact h.ord k hk hkn'
      · intro k hk hkn hpk h0 _
        rw [hm1 k (by omega), hm1 _ (by omega)]
        exact hkp k hk hkn hpk h0
    obtain ⟨q', j, eb, hs, hj, hord, hperm⟩ := bubbleDown_spec (w := q.beats) h.swo q.buf.sz 0 _ e q1 rfl hl
      (Nat.le_refl _) (by simp only [q1]; omega) (Nat.zero_le _) (fun a b => by rw [wins_iff, hb1]) hd
    have := hj he'
    rw [hme] at this
    exact ⟨q', j, eb, hs, this, heapFrom_zero.1 hord, hperm⟩
  have hupd : q1.updateFixup e = (if e = 0 then q1.bubbleDown (some q.buf.sz) 0
      else if q.cmp y (q.buf.mem ((e - 1) / 2)) = q.order then q1.bubbleUp (some q.buf.sz) e
      else if q.cmp y (q.buf.mem ((e - 1) / 2)) ≠ .eql then q1.bubbleDown (some q.buf.sz) e else some (q1, e)) := by
    unfold updateFixup
    simp only [hat]
    rw [if_neg (by simp only [q1]; omega)]
    split
    · rfl
    · have hcap1 : q1.buf.cap = q.buf.cap := rfl
      rw [load_eq (q := q1) hl (show e < q1.buf.cap by omega), load_eq (q := q1) hl (show (e-1)/2 < q1.buf.cap by omega),
        hme, hm1 _ (show (e-1)/2 ≠ e by omega)]
      rfl
  by_cases h0 : e = 0
  · obtain ⟨q', j, eb, hs, ⟨hj, hmj⟩, hord, hperm⟩ := hdown (by omega)
    refine hmk q' j hs hord hj hmj hperm ?_
    rw [hupd, if_pos h0]; rw [← h0]; exact eb
  rw [if_neg h0] at hupd
  rcases cmp_cases h y (q.buf.mem ((e - 1) / 2)) with ⟨c1, cb⟩ | ⟨c1, c2, cb, cb'⟩ | ⟨c1, c2, cb⟩
  · rw [if_pos c1] at hupd
    have hup : HeapUp q.beats q1.buf.mem q1.buf.sz e := by
      constructor
      · intro k hk hkn hke
        have hkn' : k < q.buf.sz := hkn
        rw [hm1 k hke]
        by_cases hpk : (k - 1) / 2 = e
        · rw [hpk, hme]
          intro hc
          exact hkp k hk hkn' hpk (by omega) (h.swo.trans hc cb)
        · rw [hm1 _ hpk]; exact h.ord k hk hkn'
      · intro k hk hkn hpk hpos
        rw [hm1 k (by omega), hm1 _ (by omega)]
        exact hkp k hk hkn hpk hpos
    obtain ⟨q', j, eb, hs, hj, hmj, hord, hperm⟩ := bubbleUp_spec (w := q.beats) h.swo q.buf.sz e q1 hl
      (Nat.le_refl _) (by simp only [q1]; omega) he' (fun a b => by rw [wins_iff, hb1]) hup
    exact hmk q' j hs hord hj (hmj.trans hme) hperm (hupd.trans eb)
  · rw [if_neg c1, if_neg (by simp [c2])] at hupd
    refine hmk q1 e (Same.refl _) ?_ he' hme (List.Perm.refl _) hupd
    intro k hk hkn
    by_cases hke : k = e
    · subst hke; rw [hme, hm1 _ (by omega)]; exact cb
    · rw [hm1 k hke]
      by_cases hpk : (k - 1) / 2 = e
      · rw [hpk, hme]
        exact h.swo.ntrans _ _ _ (hkp k hk hkn hpk (by omega)) cb'
      · rw [hm1 _ hpk]; exact h.ord k hk hkn
  · rw [if_neg c1, if_pos c2] at hupd
    obtain ⟨q', j, eb, hs, ⟨hj, hmj⟩, hord, hperm⟩ := hdown (fun _ => h.swo.asym _ _ cb)
    exact hmk q' j hs hord hj hmj hperm (hupd.trans eb)

/-- the common end of `ccc_fpq_heapify` and `ccc_fpq_heapify_init` -/
theorem heapifyLoop_inv (q : Fpq α) (n : Nat) (hl : q.buf.len = q.buf.cap) (hn : n < q.buf.cap) (hsz : q.buf.sz = n)
    (hc : LawfulCmp q.cmp) (ho : IsOrder q.order) :
    ∃ q', q.heapifyLoop (q.buf.at_ n) (n / 2 + 1) = some q' ∧ q'.Inv ∧ q'.contents.Perm q.contents ∧
      q'.cmp = q.cmp ∧ q'.order = q.order := by
  have hat : q.buf.at_ n = some n := by simp only [Buf.at_]; rw [if_neg (by omega)]
  rw [hat]
  obtain ⟨q', e, hs, hord, hperm⟩ := heapifyLoop_spec (w := q.beats) (hc.swo ho) n (n / 2 + 1) q hl (by omega) hn
    (fun a b => wins_iff a b) (by intro k hk hkn hm; omega)
  refine ⟨q', e, ⟨by rw [hs.len, hs.cap]; exact hl, Or.inr (by rw [hs.sz, hs.cap]; omega), ?_, by rw [hs.cmp]; exact hc,
    by rw [hs.order]; exact ho⟩, ?_, hs.cmp, hs.order⟩
  · rw [hs.sz, hs.beats]; exact heapFrom_zero.1 hord
  · unfold contents; rw [hs.sz]; exact hperm

/-- When heapify fails: more room is needed and not obtained. -/
def HeapifyRefused (q : Fpq α) (n : Nat) (ans : AllocAns α) : Prop :=
  q.buf.cap < n + 1 ∧ (q.buf.hasAlloc = false ∨ ans = none)

/-- **C13, C14.**  `heapify` replaces the stored elements by exactly those of the input array, or, when memory is
needed and refused, reports it and changes nothing. -/
theorem C14_heapify (q : Fpq α) (h : q.Inv) (xs : List α) (ans : AllocAns α) :
    (¬ HeapifyRefused q xs.length ans ∧ ∃ q', q.heapify xs ans = some (q', .ok) ∧ q'.Inv ∧ q'.contents.Perm xs ∧
      q'.cmp = q.cmp ∧ q'.order = q.order) ∨
    (HeapifyRefused q xs.length ans ∧ ∃ r, r ≠ .ok ∧ q.heapify xs ans = some (q, r)) := by
  have hl := h.len
  -- after the allocation
  have go : ∀ b : Buf α, b.len = b.cap → xs.length < b.cap →
      ∃ q', (let b := (b.sizeSet xs.length).1
             if xs.length > b.len then none else
             let b := { b with mem := fun j => match xs[j]? with | some x => x | none => b.mem j }
             let q := { q with buf := b }
             (q.heapifyLoop (b.at_ xs.length) (xs.length / 2 + 1)).map fun q => (q, Res.ok)) = some (q', .ok) ∧ q'.Inv ∧
        q'.contents.Perm xs ∧ q'.cmp = q.cmp ∧ q'.order = q.order := by
    intro b hbl hbc
    have hset : (b.sizeSet xs.length).1 = { b with sz := xs.length } := by
      simp only [Buf.sizeSet]; rw [if_neg (by omega)]
    simp only [hset]
    rw [if_neg (by omega)]
    obtain ⟨q', e, hi, hp, h1, h2⟩ := heapifyLoop_inv
      { q with buf := { b with sz := xs.length, mem := fun j => match xs[j]? with | some x => x | none => b.mem j } }
      xs.length hbl hbc rfl h.cmp h.order
    refine ⟨q', by rw [e]; rfl, hi, hp.trans ?_, h1, h2⟩
    have : contents ({ q with buf := { b with sz := xs.length,
                                              mem := fun j => match xs[j]? with | some x => x | none => b.mem j } } : Fpq α) = xs := by
      apply List.ext_getElem
      · simp [contents, window_length]
      · intro i hi1 hi2
        simp [contents, window_getElem, List.getElem?_eq_getElem hi2]
    rw [this]
  unfold heapify
  by_cases hr : xs.length + 1 > q.buf.cap
  · simp only [if_pos hr]
    cases hal : q.buf.hasAlloc with
    | false =>
      right
      exact ⟨⟨hr, Or.inl hal⟩, .noAlloc, by simp, by simp [Buf.fn, hal, Buf.alloc]⟩
    | true =>
      cases ans with
      | none =>
        right
        exact ⟨⟨hr, Or.inr rfl⟩, .memErr, by simp, by simp [Buf.fn, hal, Buf.alloc]⟩
      | some junk =>
        left
        refine ⟨by simp [HeapifyRefused, hal], ?_⟩
        have ha : q.buf.alloc (xs.length + 1) (q.buf.fn (some junk)) =
            ({ q.buf with mem := fun i => if i < q.buf.len then q.buf.mem i else junk i,
                          len := xs.length + 1, cap := xs.length + 1 }, .ok) := by
          simp [Buf.fn, hal, Buf.alloc]
        rw [ha]
        exact go _ rfl (Nat.lt_succ_self _)
  · simp only [if_neg hr]
    left
    exact ⟨fun hc => by have := hc.1; omega, go q.buf hl (by omega)⟩

/-- **C13.**  `ccc_fpq_heapify_init` over a user array with one spare slot builds a queue of exactly the `n` elements
found there. -/
theorem C13_heapify_init_partial (mem : Nat → α) (cap n : Nat) (hasAlloc : Bool) (cmp : α → α → Cmp) (order : Cmp)
    (hc : LawfulCmp cmp) (ho : IsOrder order) (hn : n < cap) :
    ∃ q', (init mem cap hasAlloc cmp order).inPlaceHeapify n = some q' ∧ q'.Inv ∧
      q'.contents.Perm (window mem 0 n) ∧ q'.cmp = cmp ∧ q'.order = order := by
  unfold inPlaceHeapify
  rw [if_neg (by simp [init, Buf.init]; omega)]
  have hset : ((init mem cap hasAlloc cmp order).buf.sizeSet n).1 = { Buf.init mem cap hasAlloc with sz := n } := by
    have hn' : ¬ n > (init mem cap hasAlloc cmp order).buf.cap := by simp [init, Buf.init]; omega
    simp only [Buf.sizeSet, if_neg hn']; rfl
  simp only [hset]
  exact heapifyLoop_inv { init mem cap hasAlloc cmp order with buf := { Buf.init mem cap hasAlloc with sz := n } } n rfl hn
    rfl hc ho

/-- What is missing from `C13_heapify_init_partial`: with no spare slot (`n = capacity`, which the documentation allows)
the elements of the array are silently not part of the queue. -/
theorem C13_heapify_init_full_array_lost (mem : Nat → α) (n : Nat) (hasAlloc : Bool) (cmp : α → α → Cmp) (order : Cmp) :
    ∃ q', (init mem n hasAlloc cmp order).inPlaceHeapify n = some q' ∧ q'.contents = [] := by
  refine ⟨init mem n hasAlloc cmp order, ?_, rfl⟩
  unfold inPlaceHeapify; rw [if_pos (by simp [init, Buf.init])]

/-- **C13.**  The front of a queue is a stored element that no stored element beats; it is NULL exactly when empty. -/
theorem C13_front (q : Fpq α) (h : q.Inv) :
    (q.contents = [] ∧ q.front = none) ∨
    ∃ k x, q.front = some k ∧ k < q.size ∧ q.load k = some x ∧ x ∈ q.contents ∧ ∀ y ∈ q.contents, ¬ q.beats y x := by
  by_cases h0 : q.buf.sz = 0
  · left; simp [contents, front, h0, window_zero]
  · right
    have hroom := h.room
    refine ⟨0, q.buf.mem 0, ?_, by simp only [size]; omega, load_eq h.len (by omega), ?_, ?_⟩
    · simp only [front, Buf.at_]; rw [if_neg h0, if_neg (by omega)]
    · unfold contents; rw [mem_window]; exact ⟨0, by omega, rfl⟩
    · intro y hy
      unfold contents at hy; rw [mem_window] at hy
      obtain ⟨k, hk, rfl⟩ := hy
      rw [Nat.zero_add]
      exact root_best h.swo h.ord k hk

/-- **C14.**  `clear` empties the queue and hands each stored element to the destructor exactly once. -/
theorem C14_clear (q : Fpq α) (h : q.Inv) :
    q.clear.1.Inv ∧ q.clear.1.contents = [] ∧ q.clear.2.1 = .ok ∧ q.clear.2.2 = q.contents ∧
      q.clear.1.cmp = q.cmp ∧ q.clear.1.order = q.order := by
  have : q.buf.sizeSet 0 = ({ q.buf with sz := 0 }, .ok) := by simp [Buf.sizeSet]
  simp only [clear, this]
  refine ⟨⟨h.len, Or.inl rfl, ?_, h.cmp, h.order⟩, rfl, trivial, rfl, trivial, trivial⟩
  intro k hk hkn; simp at hkn

/-! ### Histories (C13, C14, C15) -/

/-- Calls a program can make.  Handles are slots of the queue. -/
inductive Op (α : Type) where
  | push (x : α) (ans ans' : AllocAns α)
  | front
  | pop
  | erase (e : Nat)
  | update (e : Nat) (f : α → α)
  | heapify (xs : List α) (ans : AllocAns α)
  | clear

/-- What the program sees: the value behind the returned pointer, or the result code.  For `erase` and `update`, also
the value behind the handle just before the call. -/
inductive Out (α : Type) where
  | ptr (v : Option α)
  | res (r : Res)
  | handle (before : Option α) (o : Out α)

/-- the value behind a returned pointer -/
def deref (q : Fpq α) (s : Slot) : Option α := s.bind q.load

/-- One call. -/
def step (q : Fpq α) : Op α → Option (Fpq α × Out α)
  | .push x a a' => (q.push x a a').map fun r => (r.1, .ptr (r.1.deref r.2))
  | .front => some (q, .ptr (q.deref q.front))
  | .pop => q.pop.map fun r => (r.1, .res r.2)
  | .erase e => (q.erase e).map fun r => (r.1, .handle (q.load e) (.res r.2))
  | .update e f => (q.update e f).map fun r => (r.1, .handle (q.load e) (.ptr (r.1.deref r.2)))
  | .heapify xs a => (q.heapify xs a).map fun r => (r.1, .res r.2)
  | .clear => some (q.clear.1, .res q.clear.2.1)

/-- A history. -/
def run (q : Fpq α) : List (Op α) → Option (Fpq α × List (Out α))
  | [] => some (q, [])
  | op :: ops => do
    let (q, o) ← q.step op
    let (q, os) ← run q ops
    pure (q, o :: os)

/-- The documented requirement: a handle refers to a stored element when it is used. -/
def HandleOk (q : Fpq α) : Op α → Prop
  | .erase e => e < q.size
  | .update e _ => e < q.size
  | _ => True

/-- Every handle used along the history is valid at the time. -/
def HistOk (q : Fpq α) : List (Op α) → Prop
  | [] => True
  | op :: ops => q.HandleOk op ∧ ∀ q' o, q.step op = some (q', o) → HistOk q' ops

/-- Specification of one call on the bag of elements `l` (a list up to permutation) under "is strictly ahead of" `w`. -/
def SpecStep (w : α → α → Prop) : Op α → List α → Out α → List α → Prop
  | .push x _ _, l, o, l' => (o = .ptr (some x) ∧ l'.Perm (x :: l)) ∨ (o = .ptr none ∧ l'.Perm l)
  | .front, l, o, l' => l'.Perm l ∧ ((l = [] ∧ o = .ptr none) ∨ ∃ x ∈ l, o = .ptr (some x) ∧ ∀ y ∈ l, ¬ w y x)
  | .pop, l, o, l' => (l = [] ∧ l' = [] ∧ o = .res .inputErr) ∨
      (o = .res .ok ∧ ∃ x, l.Perm (x :: l') ∧ ∀ y ∈ l, ¬ w y x)
  | .erase _, l, o, l' => ∃ x, o = .handle (some x) (.res .ok) ∧ l.Perm (x :: l')
  | .update _ f, l, o, l' => ∃ x r, o = .handle (some x) (.ptr (some (f x))) ∧ l.Perm (x :: r) ∧ l'.Perm (f x :: r)
  | .heapify xs _, l, o, l' => (o = .res .ok ∧ l'.Perm xs) ∨ (∃ r, r ≠ .ok ∧ o = .res r ∧ l'.Perm l)
  | .clear, _, o, l' => o = .res .ok ∧ l' = []

/-- Specification of a history. -/
def SpecRun (w : α → α → Prop) : List (Op α) → List α → List (Out α) → List α → Prop
  | [], l, os, l' => os = [] ∧ l' = l
  | op :: ops, l, os, l' => ∃ o os' m, os = o :: os' ∧ SpecStep w op l o m ∧ SpecRun w ops m os' l'

theorem deref_some {q : Fpq α} (h : q.Inv) {k : Nat} (hk : k < q.size) : q.deref (some k) = some (q.buf.mem k) := by
  have := h.room
  have hk' : k < q.buf.sz := hk
  exact load_eq h.len (by omega)

/-- **C13, C14, C15** for one call. -/
theorem C14_step (q : Fpq α) (h : q.Inv) (op : Op α) (ho : q.HandleOk op) :
    ∃ q' o, q.step op = some (q', o) ∧ q'.Inv ∧ SpecStep q.beats op q.contents o q'.contents ∧ q'.beats = q.beats := by
  have hb : ∀ q' : Fpq α, q'.cmp = q.cmp → q'.order = q.order → q'.beats = q.beats := by
    intro q' h1 h2; funext a b; simp [beats, h1, h2]
  cases op with
  | push x a a' =>
    rcases C14_push q h x a a' with ⟨_, q', k, e, hi, hp, hk, hm, h1, h2⟩ | ⟨_, e⟩
    · refine ⟨q', .ptr (some x), ?_, hi, Or.inl ⟨rfl, hp⟩, hb q' h1 h2⟩
      simp [step, e, deref_some hi hk, hm]
    · exact ⟨q, .ptr none, by simp [step, e, deref], h, Or.inr ⟨rfl, List.Perm.refl _⟩, rfl⟩
  | front =>
    rcases C13_front q h with ⟨h1, h2⟩ | ⟨k, x, h1, _, h2, h3, h4⟩
    · exact ⟨q, .ptr none, by simp [step, h2, deref], h, ⟨List.Perm.refl _, Or.inl ⟨h1, rfl⟩⟩, rfl⟩
    · exact ⟨q, .ptr (some x), by simp [step, h1, deref, h2], h, ⟨List.Perm.refl _, Or.inr ⟨x, h3, rfl, h4⟩⟩, rfl⟩
  | pop =>
    by_cases h0 : q.size = 0
    · refine ⟨q, .res .inputErr, by simp [step, C14_pop_empty q h0], h, ?_, rfl⟩
      have : q.contents = [] := by simp [contents, show q.buf.sz = 0 from h0, window_zero]
      exact Or.inl ⟨this, this, rfl⟩
    · obtain ⟨q', k, x, hf, hl, e, hi, hp, h1, h2⟩ := C14_pop q h (by omega)
      refine ⟨q', .res .ok, by simp [step, e], hi, Or.inr ⟨rfl, x, hp, ?_⟩, hb q' h1 h2⟩
      rcases C13_front q h with ⟨_, h4⟩ | ⟨k', x', g1, _, g2, _, g4⟩
      · rw [hf] at h4; simp at h4
      · rw [hf] at g1; cases g1; rw [hl] at g2; cases g2; exact g4
  | erase e =>
    obtain ⟨q', he, hi, hp, h1, h2⟩ := C14_erase q h e ho
    have hl : q.load e = some (q.buf.mem e) := deref_some h ho
    exact ⟨q', .handle (some (q.buf.mem e)) (.res .ok), by simp [step, he, hl], hi, ⟨_, rfl, hp⟩, hb q' h1 h2⟩
  | update e f =>
    obtain ⟨q', k, l, he, hi, hk, hm, hp, hp', h1, h2⟩ := C14_update q h e ho f
    have hl : q.load e = some (q.buf.mem e) := deref_some h ho
    exact ⟨q', .handle (some (q.buf.mem e)) (.ptr (some (f (q.buf.mem e)))), by simp [step, he, hl, deref_some hi hk, hm],
      hi, ⟨_, l, rfl, hp, hp'⟩, hb q' h1 h2⟩
  | heapify xs a =>
    rcases C14_heapify q h xs a with ⟨_, q', e, hi, hp, h1, h2⟩ | ⟨_, r, hr, e⟩
    · exact ⟨q', .res .ok, by simp [step, e], hi, Or.inl ⟨rfl, hp⟩, hb q' h1 h2⟩
    · exact ⟨q, .res r, by simp [step, e], h, Or.inr ⟨r, hr, rfl, List.Perm.refl _⟩, rfl⟩
  | clear =>
    obtain ⟨h1, h2, h3, _, h5, h6⟩ := C14_clear q h
    exact ⟨q.clear.1, .res .ok, by simp [step, h3], h1, ⟨rfl, h2⟩, hb _ h5 h6⟩

/-- **C13, C14, C15.**  Every history of a flat priority queue with valid handles runs to completion without
undefined behaviour and does what a bag with an extreme element does. -/
theorem C13_history (ops : List (Op α)) : ∀ (q : Fpq α), q.Inv → q.HistOk ops →
    ∃ q' os, q.run ops = some (q', os) ∧ q'.Inv ∧ SpecRun q.beats ops q.contents os q'.contents := by
  induction ops with
  | nil => intro q h _; exact ⟨q, [], rfl, h, rfl, rfl⟩
  | cons op ops ih =>
    intro q h ho
    obtain ⟨q1, o, e, hi, hs, hb⟩ := C14_step q h op ho.1
    obtain ⟨q2, os, e2, hi2, hs2⟩ := ih q1 hi (ho.2 q1 o e)
    refine ⟨q2, o :: os, by simp [run, e, e2], hi2, o, os, q1.contents, rfl, hs, ?_⟩
    rw [← hb]; exact hs2

/-- A concrete queue: natural numbers, minimum first, eight slots of user memory. -/
def exQ : Fpq Nat := init (fun _ => 0) 8 false natCmp .les

/-- The hypotheses of `C13_history` are met by a history with pushes, an update, an erase and a pop. -/
example : exQ.Inv ∧ exQ.HistOk [.push 5 none none, .push 3 none none, .update 1 (· - 4), .erase 1, .pop, .front] := by
  refine ⟨init_inv _ _ _ natCmp_lawful (Or.inl rfl), ?_⟩
  have hi : exQ.Inv := init_inv _ _ _ natCmp_lawful (Or.inl rfl)
  have hpos : ∀ (q : Fpq Nat) (x : Nat) (q' : Fpq Nat) (k : Nat), q.Inv → q.buf.sz + 1 < q.buf.cap →
      ∀ o, q.step (.push x none none) = some (q', o) → q'.Inv ∧ q'.buf.sz = q.buf.sz + 1 := by
    intro q x q' k hq hr o he
    rcases C14_push q hq x none none with ⟨_, q1, k1, e1, hi1, hp1, _⟩ | ⟨hc, _⟩
    · simp only [step, e1, Option.map_some, Option.some.injEq, Prod.mk.injEq] at he
      obtain ⟨rfl, _⟩ := he
      refine ⟨hi1, ?_⟩
      have := hp1.length_eq
      simpa [contents, window_length] using this
    · have := hc.1; omega
  refine ⟨trivial, fun q1 o1 e1 => ?_⟩
  obtain ⟨hi1, hs1⟩ := hpos exQ 5 q1 0 hi (by simp [exQ, init, Buf.init]) o1 e1
  have hs1' : q1.buf.sz = 1 := hs1
  refine ⟨trivial, fun q2 o2 e2 => ?_⟩
  have hc1 : q1.buf.cap = 8 := by
    have : exQ.buf.sz + 1 < exQ.buf.cap := by simp [exQ, init, Buf.init]
    simp only [step] at e1
    revert e1
    simp [exQ, init, Buf.init, push, pushRoom, Buf.allocBack, Buf.store, Buf.at_]
    rintro rfl _; rfl
  obtain ⟨hi2, hs2⟩ := hpos q1 3 q2 0 hi1 (by omega) o2 e2
  refine ⟨show 1 < q2.buf.sz by omega, fun q3 o3 e3 => ?_⟩
  obtain ⟨q3', k, l, e3', hi3, _, _, hp, hp', _⟩ := C14_update q2 hi2 1 (show 1 < q2.buf.sz by omega) (· - 4)
  simp only [step, e3', Option.map_some, Option.some.injEq, Prod.mk.injEq] at e3
  obtain ⟨rfl, _⟩ := e3
  have hs3 : q3'.buf.sz = 2 := by
    have a := hp.length_eq; have b := hp'.length_eq
    simp [contents, window_length] at a b; omega
  refine ⟨show 1 < q3'.buf.sz by omega, fun q4 o4 e4 => ⟨trivial, fun q5 o5 e5 => ⟨trivial, fun _ _ _ => trivial⟩⟩⟩

/-! ### C16: refused pushes -/

/-- **C16.**  A refused push returns NULL and leaves the queue exactly as it was. -/
theorem C16_push_refused (q : Fpq α) (h : q.Inv) (x : α) (ans ans' : AllocAns α) (hr : PushRefused q ans ans') :
    q.push x ans ans' = some (q, none) := by
  rcases C14_push q h x ans ans' with ⟨hn, _⟩ | ⟨_, e⟩
  · exact absurd hr hn
  · exact e

/-- A queue meets the hypotheses: two slots of user memory, one element. -/
example : ∃ q : Fpq Nat, q.Inv ∧ PushRefused q none none :=
  ⟨{ buf := { mem := fun _ => 7, len := 2, sz := 1, cap := 2, hasAlloc := false }, cmp := natCmp, order := .les },
   ⟨rfl, Or.inr (by simp), by intro k hk hkn; simp at hkn; omega, natCmp_lawful, Or.inl rfl⟩,
   by simp, Or.inl rfl⟩

/-- The macro form does not have the property: on a queue without allocation holding capacity − 1 elements,
`ccc_fpq_emplace` returns NULL and yet the queue's size grows, so that an unwritten slot becomes an element. -/
theorem C16_emplace_refused_not_unchanged :
    ∃ (q q' : Fpq Nat), q.Inv ∧ q.emplace 5 none none = some (q', none) ∧ q.size = 1 ∧ q'.size = 2 ∧
      q.contents = [7] ∧ q'.contents = [7, 0] := by
  let b : Buf Nat := { mem := fun i => if i = 0 then 7 else 0, len := 2, sz := 1, cap := 2, hasAlloc := false }
  let q : Fpq Nat := { buf := b, cmp := natCmp, order := .les }
  refine ⟨q, { q with buf := { q.buf with sz := 2 } }, ?_, ?_, rfl, rfl, ?_, ?_⟩
  · exact ⟨rfl, Or.inr (by simp [q, b]), by intro k hk hkn; simp [q, b] at hkn; omega, natCmp_lawful, Or.inl rfl⟩
  · simp [q, b, emplace, Buf.allocBack, Buf.alloc, Buf.fn]
  · simp [q, b, contents, window, List.range_succ]
  · simp [q, b, contents, window, List.range_succ]

/-! ### C17: draining sorts -/

/-- The loop `while (!empty) { *out++ = *front(); pop(); }`. -/
def drain (q : Fpq α) : Nat → Option (List α)
  | 0 => some []
  | n + 1 => do
    let x ← q.deref q.front
    let (q, _) ← q.pop
    let xs ← drain q n
    pure (x :: xs)

/-- **C17.**  Draining a queue yields all its elements, no element being ahead of an earlier one. -/
theorem C17_drain_sorts (n : Nat) : ∀ (q : Fpq α), q.Inv → q.size = n →
    ∃ xs, q.drain n = some xs ∧ xs.Perm q.contents ∧ xs.Pairwise (fun a b => ¬ q.beats b a) := by
  induction n with
  | zero =>
    intro q h hs
    exact ⟨[], rfl, by simp [contents, show q.buf.sz = 0 from hs, window_zero], List.Pairwise.nil⟩
  | succ n ih =>
    intro q h hs
    obtain ⟨q', k, x, hf, hl, e, hi, hp, h1, h2⟩ := C14_pop q h (by omega)
    have hsz : q'.size = n := by
      have := hp.length_eq
      simp [contents, window_length, size] at *; omega
    obtain ⟨xs, ed, hxp, hpw⟩ := ih q' hi hsz
    have hb : q'.beats = q.beats := by funext a b; simp [beats, h1, h2]
    refine ⟨x :: xs, by simp [drain, hf, deref, hl, e, ed], ?_, List.Pairwise.cons ?_ (hb ▸ hpw)⟩
    · exact (List.Perm.cons x hxp).trans hp.symm
    · intro y hy
      rcases C13_front q h with ⟨_, h4⟩ | ⟨k', x', g1, _, g2, _, g4⟩
      · rw [hf] at h4; simp at h4
      · rw [hf] at g1; cases g1; rw [hl] at g2; cases g2
        exact g4 y (hp.symm.subset (List.mem_cons_of_mem _ (hxp.subset hy)))

/-- Hypotheses of `C17_drain_sorts` are met by a queue with three elements. -/
example : ∃ q : Fpq Nat, q.Inv ∧ q.size = 3 ∧ q.contents = [1, 5, 2] := by
  let m : Nat → Nat := fun i => if i = 0 then 1 else if i = 1 then 5 else 2
  refine ⟨{ buf := { mem := m, len := 4, sz := 3, cap := 4, hasAlloc := false }, cmp := natCmp, order := .les }, ⟨rfl, Or.inr (by simp), ?_, natCmp_lawful, Or.inl rfl⟩, rfl, ?_⟩
  · intro k hk hkn
    have hkn' : k < 3 := hkn
    have : k = 1 ∨ k = 2 := by omega
    rcases this with rfl | rfl <;> simp [beats, Beats, natCmp, m]
  · simp [contents, window, m, List.range_succ]

/-! ### C46: validation -/

theorem validateLoop_true (q : Fpq α) (h : q.Inv) (n : Nat) : ∀ i, q.buf.sz ≤ i + n → 2 ≤ q.buf.sz →
    q.validateLoop i = some true := by
  have hroom := h.room
  induction n with
  | zero =>
    intro i hi h2
    rw [validateLoop]; rw [if_neg (by omega)]
  | succ n ih =>
    intro i hi h2
    rw [validateLoop]
    by_cases hle : i ≤ (q.buf.sz - 2) / 2
    · rw [if_pos hle, load_eq h.len (by omega)]
      have hch : ∀ k, 0 < k → (k - 1) / 2 = i → k < q.buf.sz → (q.load k).map (q.wins · (q.buf.mem i)) = some false := by
        intro k hk hki hks
        rw [load_eq h.len (by omega)]
        have := h.ord k hk hks
        rw [hki, ← wins_iff] at this
        simp only [Option.map_some, Option.some.injEq]
        cases hw : q.wins (q.buf.mem k) (q.buf.mem i)
        · rfl
        · exact absurd hw this
      have e1 : q.childBad (i * 2 + 1) (q.buf.mem i) = some false := by
        unfold childBad; split
        · exact hch _ (by omega) (by omega) (by omega)
        · rfl
      have e2 : q.childBad (i * 2 + 2) (q.buf.mem i) = some false := by
        unfold childBad; split
        · exact hch _ (by omega) (by omega) (by omega)
        · rfl
      simp only [Option.bind_eq_bind, Option.bind_some, e1, e2]
      simpa using ih (i + 1) (by omega) h2
    · rw [if_neg hle]

/-- **C46** (flat priority queue).  `validate` accepts every state reachable by valid histories. -/
theorem C46_fpq_validate (q : Fpq α) (h : q.Inv) : q.validate = some true := by
  unfold validate
  split
  · rfl
  · exact validateLoop_true q h q.buf.sz 0 (by omega) (by omega)

/-- … and rejects every state in which some element beats its parent: an accepted state is heap ordered. -/
theorem C46_fpq_validate_sound (q : Fpq α) (hl : q.buf.len = q.buf.cap) (hr : q.buf.sz ≤ q.buf.cap)
    (hv : q.validate = some true) : HeapOrd q.beats q.buf.mem q.buf.sz := by
  have key : ∀ n i, q.buf.sz ≤ i + n → q.validateLoop i = some true →
      ∀ k, 0 < k → k < q.buf.sz → i ≤ (k - 1) / 2 → ¬ q.beats (q.buf.mem k) (q.buf.mem ((k - 1) / 2)) := by
    intro n
    induction n with
    | zero => intro i hi _ k hk hks hik; omega
    | succ n ih =>
      intro i hi hv k hk hks hik
      rw [validateLoop] at hv
      rw [if_pos (by omega), load_eq hl (by omega)] at hv
      simp only [Option.bind_eq_bind, Option.bind_some] at hv
      have hch : ∀ k, k < q.buf.sz → q.childBad k (q.buf.mem i) = some (q.wins (q.buf.mem k) (q.buf.mem i)) := by
        intro k hk; unfold childBad; rw [if_pos hk, load_eq hl (by omega)]; rfl
      have hch' : ∀ k, q.childBad k (q.buf.mem i) = some false → k < q.buf.sz →
          q.wins (q.buf.mem k) (q.buf.mem i) = false := by
        intro k h1 h2; rw [hch k h2] at h1; exact Option.some.inj h1
      cases hbl : q.childBad (i * 2 + 1) (q.buf.mem i) with
      | none => simp [hbl] at hv
      | some bl =>
      cases bl with
      | true => simp [hbl] at hv
      | false =>
      cases hbr : q.childBad (i * 2 + 2) (q.buf.mem i) with
      | none => simp [hbl, hbr] at hv
      | some br =>
      cases br with
      | true => simp [hbl, hbr] at hv
      | false =>
      simp [hbl, hbr] at hv
      by_cases hik' : (k - 1) / 2 = i
      · rw [hik', ← wins_iff]
        have : k = i * 2 + 1 ∨ k = i * 2 + 2 := by omega
        rcases this with rfl | rfl
        · simp [hch' _ hbl hks]
        · simp [hch' _ hbr hks]
      · exact ih (i + 1) (by omega) hv k hk hks (by omega)
  intro k hk hks
  unfold validate at hv
  rw [if_neg (by omega)] at hv
  exact key q.buf.sz 0 (by omega) hv k hk hks (by omega)

/-! ### C47: `clear_and_free` and C16/C43-style copies -/

/-- `ccc_fpq_clear_and_free` on a queue with an allocator gives the memory back but does not reset the size: a
non-empty queue still reports its old size, and front then yields no element although the queue says it has some. -/
theorem C47_fpq_clear_and_free_not_empty (q : Fpq α) (ha : q.buf.hasAlloc = true) (hne : 0 < q.size) :
    q.clearAndFree.2 = .ok ∧ q.clearAndFree.1.size = q.size ∧ q.clearAndFree.1.front = none ∧
      q.clearAndFree.1.buf.len = 0 := by
  have hsz : q.buf.sz ≠ 0 := by have : 0 < q.buf.sz := hne; omega
  simp [clearAndFree, Buf.alloc, Buf.fn, ha, size, front, hsz, Buf.at_]

/-- … and the next push, with any memory the allocator provides, writes outside the allocation. -/
theorem C47_fpq_push_after_free_undefined :
    ∃ q : Fpq Nat, q.Inv ∧ ∀ x junk junk', (q.clearAndFree.1.push x (some junk) (some junk')) = none := by
  refine ⟨{ buf := { mem := fun i => i, len := 16, sz := 9, cap := 16, hasAlloc := true }, cmp := natCmp, order := .les },
    ⟨rfl, Or.inr (by simp), ?_, natCmp_lawful, Or.inl rfl⟩, ?_⟩
  · intro k hk hkn
    have h1 : ¬ k < (k - 1) / 2 := by omega
    simp only [beats, Beats, natCmp, if_neg h1]; split <;> simp
  · intro x junk junk'
    simp [clearAndFree, Buf.alloc, Buf.fn, push, pushRoom, Buf.allocBack, Buf.store]

/-- On an empty queue `clear_and_free` does leave an empty, usable queue. -/
theorem C47_fpq_clear_and_free_partial (q : Fpq α) (h : q.Inv) (hs : q.size = 0) :
    q.clearAndFree.1.Inv ∧ q.clearAndFree.1.contents = [] := by
  have hs' : q.buf.sz = 0 := hs
  have hl := h.len
  cases ha : q.buf.hasAlloc with
  | true =>
    simp only [clearAndFree, Buf.alloc, Buf.fn, ha, if_true]
    refine ⟨⟨rfl, Or.inl hs', ?_, h.cmp, h.order⟩, by simp [contents, hs', window_zero]⟩
    intro k hk hkn; simp [hs'] at hkn
  | false =>
    have : q.clearAndFree.1 = q := by simp [clearAndFree, Buf.alloc, Buf.fn, ha]
    rw [this]; exact ⟨h, by simp [contents, hs', window_zero]⟩

/-- `ccc_fpq_copy` when it succeeds makes the destination hold exactly the source's elements in the source's order.
Hypotheses: source and destination are valid queues (the destination may hold anything). -/
theorem C14_copy (dst src : Fpq α) (hd : dst.Inv) (hsr : src.Inv) (fn : Option (AllocAns α)) :
    ∃ d r, dst.copy src fn = some (d, r) ∧ (r = .ok ↔ src.buf.cap ≤ dst.buf.cap ∨ ∃ junk, fn = some (some junk)) ∧
      (r = .ok → d.Inv ∧ d.contents = src.contents ∧ d.cmp = src.cmp ∧ d.order = src.order) := by
  have hl := hsr.len
  have hld := hd.len
  have hroom := hsr.room
  have fin : ∀ b : Buf α, b.len = b.cap → src.buf.cap ≤ b.cap → b.sz = src.buf.sz →
      ∃ d r, (if src.buf.cap > b.len ∨ src.buf.cap > src.buf.len then none else
        some (({ src with buf := { b with mem := blockWrite b.mem 0 src.buf.mem 0 src.buf.cap } } : Fpq α), Res.ok)) = some (d, r) ∧ r = .ok ∧
      (r = .ok → d.Inv ∧ d.contents = src.contents ∧ d.cmp = src.cmp ∧ d.order = src.order) := by
    intro b hb hc hs
    rw [if_neg (by omega)]
    refine ⟨_, _, rfl, rfl, fun _ => ?_⟩
    have hm : ∀ i, i < src.buf.sz → blockWrite b.mem 0 src.buf.mem 0 src.buf.cap i = src.buf.mem i := by
      intro i hi
      simp only [blockWrite]
      rw [if_pos ⟨by omega, by omega⟩]; simp
    refine ⟨⟨hb, ?_, ?_, hsr.cmp, hsr.order⟩, ?_, rfl, rfl⟩
    · simp only [hs]; omega
    · intro k hk hkn
      simp only [hs] at hkn ⊢
      rw [hm k hkn, hm _ (by omega)]; exact hsr.ord k hk hkn
    · simp only [contents, hs]
      apply window_congr; intro i hi; rw [hm _ (by omega)]
  unfold copy
  by_cases h1 : dst.buf.cap < src.buf.cap ∧ fn = none
  · rw [if_pos h1]; exact ⟨_, _, rfl, by simp [h1.2]; omega, by simp⟩
  · rw [if_neg h1]
    by_cases h2 : dst.buf.cap < src.buf.cap
    · rw [not_and] at h1
      simp only [if_pos h2]
      match fn, h1 h2 with
      | some none, _ =>
        have hne : src.buf.cap ≠ 0 := by omega
        refine ⟨_, .memErr, by simp only [Buf.alloc, if_neg hne]; rfl, by simp; omega, by simp⟩
      | some (some junk), _ =>
        have hne : src.buf.cap ≠ 0 := by omega
        simp only [Buf.alloc, if_neg hne]
        obtain ⟨d, r, e, hr, hd⟩ := fin { dst.buf with sz := src.buf.sz, len := src.buf.cap, cap := src.buf.cap, mem := fun i => if i < dst.buf.len then dst.buf.mem i else junk i } rfl (Nat.le_refl _) rfl
        exact ⟨d, r, e, by simp [hr], hd⟩
    · simp only [if_neg h2]
      obtain ⟨d, r, e, hr, hd⟩ := fin { dst.buf with sz := src.buf.sz } hld (by show src.buf.cap ≤ dst.buf.cap; omega) rfl
      exact ⟨d, r, e, by simp [hr]; omega, hd⟩

end CCC.Fpq
