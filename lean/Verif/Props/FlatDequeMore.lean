import Verif.Props.FlatDeque
/-
Property theorems for `src/flat_double_ended_queue.c`: access and iteration (C10), clear (C11, C47), copy (C12), validation
(C46), insert_range (C48) and the emplace macros (C49).
-/
namespace CCC.Fdeq
variable {α : Type}

/-! ### C10: access and iteration -/

theorem slot_lt {d : Fdeq α} (h : d.Inv) {i : Nat} (hi : i < d.buf.sz) : (d.front + i) % d.buf.cap < d.buf.cap :=
  Nat.mod_lt _ (by have := h.sz; omega)

theorem deref_slot {d : Fdeq α} (h : d.Inv) {i : Nat} (hi : i < d.buf.sz) :
    d.deref (some ((d.front + i) % d.buf.cap)) = d.seq[i]? := by
  have h1 := slot_lt h hi
  have h2 := h.len
  rw [deref_some (by omega), List.getElem?_eq_getElem (by simpa using hi)]
  simp [seq]

/-- **C10.**  `front` points to the first element, NULL when empty. -/
theorem C10_front (d : Fdeq α) (h : d.Inv) : d.deref d.frontElem = d.seq.head? := by
  unfold frontElem
  by_cases h0 : d.buf.sz = 0
  · rw [if_pos h0, show d.seq = [] by rw [← List.length_eq_zero_iff, seq_length]; exact h0]; rfl
  · rw [if_neg h0]
    have hf := h.front; have hs := h.sz
    have hf' : d.front < d.buf.cap := by omega
    have : d.buf.at_ d.front = some ((d.front + 0) % d.buf.cap) := by
      rw [Nat.add_zero, Nat.mod_eq_of_lt hf']; simp only [Buf.at_]; rw [if_neg (by omega)]
    rw [this, deref_slot h (by omega), List.head?_eq_getElem?]

/-- **C10.**  `back` points to the last element, NULL when empty. -/
theorem C10_back (d : Fdeq α) (h : d.Inv) : ∃ s, d.backElem = some s ∧ d.deref s = d.seq.getLast? := by
  unfold backElem
  by_cases h0 : d.buf.sz = 0
  · rw [if_pos h0, show d.seq = [] by rw [← List.length_eq_zero_iff, seq_length]; exact h0]
    exact ⟨none, rfl, rfl⟩
  · rw [if_neg h0]
    have hs := h.sz
    have hlt := slot_lt h (show d.buf.sz - 1 < d.buf.sz by omega)
    refine ⟨some ((d.front + (d.buf.sz - 1)) % d.buf.cap), ?_, ?_⟩
    · simp only [lastElemIndex, modCap]; rw [if_neg (by omega)]
      simp only [Option.map_some, Buf.at_]; rw [if_neg (by omega)]
    · rw [deref_slot h (by omega), List.getLast?_eq_getElem?, seq_length]

/-- **C10.**  `at(i)` points to the `i`-th element for every `i` below the size. -/
theorem C10_at (d : Fdeq α) (h : d.Inv) (i : Nat) (hi : i < d.size) : d.deref (d.at_ i) = d.seq[i]? := by
  have hi' : i < d.buf.sz := hi
  have hlt := slot_lt h hi'
  have hs := h.sz
  unfold at_
  rw [if_neg (by omega)]
  have : d.buf.at_ ((d.front + i) % d.buf.cap) = some ((d.front + i) % d.buf.cap) := by
    simp only [Buf.at_]; rw [if_neg (by omega)]
  rw [this, deref_slot h hi']

/-- **C10.**  `size` and `is_empty` describe the sequence. -/
theorem C10_size (d : Fdeq α) : d.size = d.seq.length ∧ (d.isEmpty = true ↔ d.seq = []) := by
  refine ⟨by simp [size], ?_⟩
  rw [← List.length_eq_zero_iff, seq_length]; simp [isEmpty]

theorem next_spec {d : Fdeq α} (h : d.Inv) {i : Nat} (hi : i < d.buf.sz) :
    d.next ((d.front + i) % d.buf.cap) =
      some (if i + 1 < d.buf.sz then some ((d.front + (i + 1)) % d.buf.cap) else none) := by
  have hlt := slot_lt h hi
  have hs := h.sz
  have hf : d.front < d.buf.cap := by have := h.front; omega
  have hinc : d.increment ((d.front + i) % d.buf.cap) = (d.front + (i + 1)) % d.buf.cap := by
    rw [increment_eq hlt, Nat.mod_add_mod, Nat.add_assoc]
  have hidx : d.indexOf ((d.front + i) % d.buf.cap) = some ((d.front + i) % d.buf.cap) := by
    simp only [indexOf]; rw [if_pos hlt]
  unfold next
  rw [hidx]
  simp only [Option.bind_eq_bind, Option.bind_some, hinc]
  have hlt2 : (d.front + (i + 1)) % d.buf.cap < d.buf.cap := Nat.mod_lt _ (by omega)
  have hval := mod_wrap (cap := d.buf.cap) (x := d.front + (i + 1)) (by omega)
  by_cases h1 : i + 1 < d.buf.sz
  · rw [if_pos h1, if_neg]
    · simp only [Buf.at_]; rw [if_neg (by omega)]; rfl
    · rw [hval]; unfold distance; split <;> (try split) <;> omega
  · rw [if_neg h1, if_pos]
    · rfl
    · rw [hval]; unfold distance; split <;> (try split) <;> omega

theorem rnext_spec {d : Fdeq α} (h : d.Inv) {i : Nat} (hi : i < d.buf.sz) :
    d.rnext ((d.front + i) % d.buf.cap) =
      some (if 0 < i then some ((d.front + (i - 1)) % d.buf.cap) else none) := by
  have hlt := slot_lt h hi
  have hs := h.sz
  have hf : d.front < d.buf.cap := by have := h.front; omega
  have hv := mod_wrap (cap := d.buf.cap) (x := d.front + i) (by omega)
  have hl := mod_wrap (cap := d.buf.cap) (x := d.front + (d.buf.sz - 1)) (by omega)
  have hidx : d.indexOf ((d.front + i) % d.buf.cap) = some ((d.front + i) % d.buf.cap) := by
    simp only [indexOf]; rw [if_pos hlt]
  have hli : d.lastElemIndex = some ((d.front + (d.buf.sz - 1)) % d.buf.cap) := by
    simp only [lastElemIndex, modCap]; rw [if_neg (by omega)]
  unfold rnext
  rw [hidx]
  simp only [Option.bind_eq_bind, Option.bind_some, hli]
  have hdec : d.decrement ((d.front + i) % d.buf.cap) =
      if (d.front + i) % d.buf.cap ≠ 0 then (d.front + i) % d.buf.cap - 1 else d.buf.cap - 1 := by
    unfold decrement capPred; rw [if_neg (show ¬ d.buf.cap = 0 by omega)]
  by_cases h1 : 0 < i
  · have hp := mod_wrap (cap := d.buf.cap) (x := d.front + (i - 1)) (by omega)
    have hdec' : d.decrement ((d.front + i) % d.buf.cap) = (d.front + (i - 1)) % d.buf.cap := by
      rw [hdec, hv, hp]; split <;> split <;> (try split) <;> omega
    have hlt2 : (d.front + (i - 1)) % d.buf.cap < d.buf.cap := Nat.mod_lt _ (by omega)
    rw [hdec', if_pos h1, if_neg]
    · simp only [Buf.at_]; rw [if_neg (by omega)]; rfl
    · rw [hp, hl]; unfold rdistance; split <;> split <;> (try split) <;> omega
  · have hi0 : i = 0 := by omega
    subst hi0
    rw [if_neg h1, if_pos]
    · rfl
    · rw [hdec, hl, Nat.add_zero, Nat.mod_eq_of_lt hf]; unfold rdistance
      split <;> split <;> (try split) <;> omega

/-- A `for (x = begin; x != end; x = next(x))` loop: the values seen (specification of iteration). -/
def collect (d : Fdeq α) (nxt : Nat → Option Slot) (it : Slot) : Option (List α) :=
  match it with
  | none => some []
  | some k => do
    let v ← d.buf.load k
    let it ← nxt k
    let rest ← collect d nxt it
    pure (v :: rest)
partial_fixpoint

theorem load_slot {d : Fdeq α} (h : d.Inv) {i : Nat} (hi : i < d.buf.sz) :
    d.buf.load ((d.front + i) % d.buf.cap) = some (d.buf.mem ((d.front + i) % d.buf.cap)) := by
  have h1 := slot_lt h hi; have h2 := h.len
  simp only [Buf.load]; rw [if_pos (by omega)]

/-- **C10.**  Forward iteration visits the elements of the sequence in order and ends. -/
theorem C10_iterate (d : Fdeq α) (h : d.Inv) : d.collect d.next d.begin = some d.seq := by
  have key : ∀ n i, i + n = d.buf.sz → i < d.buf.sz →
      d.collect d.next (some ((d.front + i) % d.buf.cap)) = some (d.seq.drop i) := by
    intro n
    induction n with
    | zero => intro i h1 h2; omega
    | succ n ih =>
      intro i h1 h2
      rw [collect]
      simp only [load_slot h h2, next_spec h h2, Option.bind_eq_bind, Option.bind_some]
      have hd : d.seq.drop i = d.buf.mem ((d.front + i) % d.buf.cap) :: d.seq.drop (i + 1) := by
        rw [List.drop_eq_getElem_cons (by simpa using h2)]; simp [seq]
      rw [hd]
      by_cases h3 : i + 1 < d.buf.sz
      · rw [if_pos h3, ih (i + 1) (by omega) h3]; rfl
      · rw [if_neg h3, collect, List.drop_of_length_le (by simp; omega)]; rfl
  unfold begin
  by_cases h0 : d.buf.sz = 0
  · rw [if_pos h0, show d.seq = [] by rw [← List.length_eq_zero_iff, seq_length]; exact h0, collect]
  · rw [if_neg h0]
    have hs := h.sz
    have hf : d.front < d.buf.cap := by have := h.front; omega
    have : d.buf.at_ d.front = some ((d.front + 0) % d.buf.cap) := by
      rw [Nat.add_zero, Nat.mod_eq_of_lt hf]; simp only [Buf.at_]; rw [if_neg (by omega)]
    rw [this, key d.buf.sz 0 (by omega) (by omega)]; rfl

/-- **C10.**  Backward iteration visits the elements in reverse order and ends. -/
theorem C10_iterate_reverse (d : Fdeq α) (h : d.Inv) :
    (d.backElem.bind fun s => d.collect d.rnext s) = some d.seq.reverse := by
  have key : ∀ i, i < d.buf.sz →
      d.collect d.rnext (some ((d.front + i) % d.buf.cap)) = some (d.seq.take (i + 1)).reverse := by
    intro i
    induction i with
    | zero =>
      intro h2
      rw [collect]
      simp only [load_slot h h2, rnext_spec h h2, Option.bind_eq_bind, Option.bind_some]
      rw [if_neg (by omega), collect, List.take_succ_eq_append_getElem (by simpa using h2)]
      simp [seq]
    | succ i ih =>
      intro h2
      rw [collect]
      simp only [load_slot h h2, rnext_spec h h2, Option.bind_eq_bind, Option.bind_some]
      rw [if_pos (by omega), show i + 1 - 1 = i by omega, ih (by omega)]
      rw [List.take_succ_eq_append_getElem (i := i + 1) (by simpa using h2), List.reverse_append]
      simp [seq]
  unfold backElem
  by_cases h0 : d.buf.sz = 0
  · rw [if_pos h0, show d.seq = [] by rw [← List.length_eq_zero_iff, seq_length]; exact h0]
    simp only [Option.bind_some]; rw [collect]; rfl
  · rw [if_neg h0]
    have hs := h.sz
    have hlt := slot_lt h (show d.buf.sz - 1 < d.buf.sz by omega)
    simp only [lastElemIndex, modCap]
    rw [if_neg (by omega)]
    simp only [Option.map_some, Option.bind_some, Buf.at_]
    rw [if_neg (by omega), key _ (by omega), List.take_of_length_le (by simp; omega)]

/-- Non-trivial case: a full ring whose front is in the middle. -/
example : ∃ d : Fdeq Nat, d.Inv ∧ d.front = 2 ∧ d.size = 3 ∧ d.seq = [30, 10, 20] :=
  ⟨{ buf := { mem := fun i => 10 * (i + 1), len := 3, sz := 3, cap := 3, hasAlloc := false }, front := 2 },
    ⟨rfl, by simp, Or.inl (by simp)⟩, rfl, rfl, by simp [seq, ring, List.range_succ]⟩

/-! ### C11, C47: clear -/

/-- **C11** (no destructor).  `clear` empties the queue. -/
theorem C11_clear (d : Fdeq α) (h : d.Inv) :
    ∃ d', d.clear false = some (d', .ok, []) ∧ d'.Inv ∧ d'.seq = [] ∧ d'.buf.hasAlloc = d.buf.hasAlloc ∧
      d'.capacity = d.capacity := clear_spec d h

theorem destroyLoop_spec {d : Fdeq α} (hr : d.buf.sz < d.buf.cap) : ∀ n i, i + n = d.buf.sz →
    d.destroyLoop ((d.front + d.buf.sz) % d.buf.cap) ((d.front + i) % d.buf.cap) =
      some ((List.range n).map fun j => some ((d.front + (i + j)) % d.buf.cap)) := by
  intro n
  induction n with
  | zero => intro i hi; rw [destroyLoop, if_pos (by rw [show i = d.buf.sz by omega])]; rfl
  | succ n ih =>
    intro i hi
    have hlt : (d.front + i) % d.buf.cap < d.buf.cap := Nat.mod_lt _ (by omega)
    rw [destroyLoop, if_neg (mod_ne (by omega) (by omega)), increment_eq hlt, Nat.mod_add_mod, Nat.add_assoc, ih (i + 1) (by omega)]
    have : d.buf.at_ ((d.front + i) % d.buf.cap) = some ((d.front + i) % d.buf.cap) := by
      simp only [Buf.at_]; rw [if_neg (by omega)]
    simp only [Option.bind_eq_bind, Option.bind_some, this, List.range_succ_eq_map, List.map_cons, List.map_map]
    rw [Nat.add_zero]
    congr 2
    apply List.map_congr_left
    intro j _; simp only [Function.comp]; congr 3; omega

/-- **C11** (destructor).  When the queue is not full, the destructor is called once per stored element, in order, and
with a pointer to that element. -/
theorem C11_clear_destructor_partial (d : Fdeq α) (h : d.Inv) (hr : d.size < d.capacity) :
    ∃ l, d.clear true = some (d, .ok, l) ∧ l.map d.deref = d.seq.map some ∧ l.Nodup := by
  have hr' : d.buf.sz < d.buf.cap := hr
  have hf : d.front < d.buf.cap := by have := h.front; omega
  refine ⟨(List.range d.buf.sz).map fun j => some ((d.front + (0 + j)) % d.buf.cap), ?_, ?_, ?_⟩
  · have := destroyLoop_spec hr' d.buf.sz 0 (by omega)
    rw [Nat.add_zero, Nat.mod_eq_of_lt hf] at this
    simp only [clear, Bool.true_eq_false, if_false, backFreeSlot, modCap]
    rw [if_neg (by omega)]
    simp only [Option.bind_eq_bind, Option.bind_some, this]; rfl
  · rw [List.map_map]
    apply List.ext_getElem
    · simp
    · intro i h1 h2
      have hi : i < d.buf.sz := by simpa using h1
      have := deref_slot h hi
      simp only [List.getElem_map, List.getElem_range, Function.comp, Nat.zero_add]
      rw [this, List.getElem?_eq_getElem (by simpa using hi)]
  · refine (List.pairwise_map).2 ?_
    refine List.Pairwise.imp_of_mem ?_ (List.pairwise_lt_range (n := d.buf.sz))
    intro a b ha hb hab
    simp only [List.mem_range] at ha hb
    simp only [Nat.zero_add, ne_eq, Option.some.injEq]
    exact mod_ne (by omega) (by omega)

/-- What is missing, and false of the code: `clear` with a destructor never changes the size (nor anything else). -/
theorem C11_clear_destructor_keeps_size (d d' : Fdeq α) (r : Res) (l : List Slot) (e : d.clear true = some (d', r, l)) :
    d' = d := by
  simp only [clear, Bool.true_eq_false, if_false, Option.bind_eq_bind] at e
  cases hb : d.backFreeSlot with
  | none => rw [hb] at e; simp at e
  | some k =>
    rw [hb] at e; simp only [Option.bind_some] at e
    cases hd : d.destroyLoop k d.front with
    | none => rw [hd] at e; simp at e
    | some l' => rw [hd] at e; simp [pure] at e; exact e.1.symm

/-- … on a full queue the destructor is called on no element … -/
theorem C11_clear_destructor_full (d : Fdeq α) (h : d.Inv) (hc : 0 < d.capacity) (hfull : d.size = d.capacity) :
    d.clear true = some (d, .ok, []) := by
  have hfull' : d.buf.sz = d.buf.cap := hfull
  have hc' : 0 < d.buf.cap := hc
  have hf : d.front < d.buf.cap := by have := h.front; omega
  simp only [clear, Bool.true_eq_false, if_false, backFreeSlot, modCap]
  rw [if_neg (by omega), hfull', Nat.add_mod_right, Nat.mod_eq_of_lt hf]
  simp only [Option.bind_eq_bind, Option.bind_some]
  rw [destroyLoop, if_pos rfl]; rfl

/-- … and on a queue without memory it computes a remainder by zero. -/
theorem C11_clear_destructor_zero_capacity (mem : Nat → α) (a : Bool) : (init mem 0 a).clear true = none := by
  simp [clear, init, Buf.init, backFreeSlot, modCap]

/-- **C47** (double-ended queue, no destructor).  After `clear_and_free` of a queue with an allocator the queue is a
fresh queue without memory, so `C07_history_partial` describes every later history. -/
theorem C47_fdeq_clear_and_free (d : Fdeq α) (ha : d.buf.hasAlloc = true) :
    ∃ d', d.clearAndFree false = some (d', .ok, []) ∧ d'.Inv ∧ d'.seq = [] ∧ d'.capacity = 0 ∧ d'.buf.len = 0 ∧
      d'.buf.hasAlloc = true := by
  refine ⟨{ buf := { d.buf with sz := 0, len := 0, cap := 0 }, front := 0 }, ?_, ⟨rfl, by simp, Or.inr ⟨rfl, rfl⟩⟩, rfl, rfl, rfl, ha⟩
  simp [clearAndFree, Buf.alloc, Buf.fn, ha]

/-- **C47**, false with a destructor: the memory is given back but the queue still reports its old size. -/
theorem C47_fdeq_clear_and_free_destructor_keeps_size (d : Fdeq α) (h : d.Inv) (ha : d.buf.hasAlloc = true)
    (hr : d.size < d.capacity) (hne : 0 < d.size) :
    ∃ d' l, d.clearAndFree true = some (d', .ok, l) ∧ d'.size = d.size ∧ d'.capacity = 0 ∧ d'.frontElem = none ∧
      d'.popFront.2 = .ok := by
  have hr' : d.buf.sz < d.buf.cap := hr
  have hne' : d.buf.sz ≠ 0 := by have : 0 < d.buf.sz := hne; omega
  have hf : d.front < d.buf.cap := by have := h.front; omega
  have := destroyLoop_spec hr' d.buf.sz 0 (by omega)
  rw [Nat.add_zero, Nat.mod_eq_of_lt hf] at this
  refine ⟨{ buf := { d.buf with len := 0, cap := 0 }, front := d.front },
    (List.range d.buf.sz).map fun j => some ((d.front + (0 + j)) % d.buf.cap), ?_, rfl, rfl, ?_, ?_⟩
  · simp only [clearAndFree, Bool.true_eq_false, if_false, backFreeSlot, modCap]
    rw [if_neg (show ¬ d.buf.cap = 0 by omega)]
    simp only [Option.bind_eq_bind, Option.bind_some, this, Buf.alloc, Buf.fn, ha, if_true]; rfl
  · simp [frontElem, Buf.at_, hne']
  · have h1 : ¬ 1 > d.buf.sz := by omega
    simp [popFront, Buf.isEmpty, hne', Buf.sizeMinus, h1]

/-- Hypotheses of the two theorems above are met. -/
example : ∃ d : Fdeq Nat, d.Inv ∧ d.buf.hasAlloc = true ∧ d.size < d.capacity ∧ 0 < d.size :=
  ⟨{ buf := { mem := fun i => i, len := 8, sz := 3, cap := 8, hasAlloc := true }, front := 6 },
    ⟨rfl, by simp, Or.inl (by simp)⟩, rfl, by simp [size, capacity], by simp [size]⟩

/-! ### C12: copy -/

/-- **C12.**  The copy succeeds exactly when the destination is big enough or the allocator provides memory; then the
destination holds the source's sequence.  Otherwise the documented error is reported. -/
theorem C12_copy (dst src : Fdeq α) (hd : dst.Inv) (hs : src.Inv) (fn : Option (AllocAns α)) :
    ∃ d' r, dst.copy src fn = some (d', r) ∧
      (r = .ok ↔ src.capacity ≤ dst.capacity ∨ ∃ junk, fn = some (some junk)) ∧
      (r = .ok → d'.Inv ∧ d'.seq = src.seq ∧ d'.buf.hasAlloc = dst.buf.hasAlloc) ∧
      (r ≠ .ok → (fn = none ∧ r = .inputErr ∧ d' = dst) ∨ (fn = some none ∧ r = .memErr)) := by
  have hdl := hd.len
  have hsl := hs.len
  have hss := hs.sz
  have hsf := hs.front
  have hdf := hd.front
  unfold copy
  simp only [capacity]
  by_cases h1 : dst.buf.cap < src.buf.cap ∧ fn = none
  · rw [if_pos h1]
    refine ⟨dst, .inputErr, rfl, ?_, by simp, fun _ => Or.inl ⟨h1.2, rfl, rfl⟩⟩
    constructor
    · intro h; simp at h
    · rintro (h | ⟨j, h⟩)
      · omega
      · rw [h1.2] at h; simp at h
  · rw [if_neg h1]
    by_cases h2 : src.buf.cap = 0
    · rw [if_pos h2]
      refine ⟨_, _, rfl, by simp; omega, fun _ => ⟨⟨hdl, ?_, ?_⟩, ?_, rfl⟩, by simp⟩
      · simp only; omega
      · simp only; omega
      · have hz : src.buf.sz = 0 := by omega
        simp [seq, hz, ring]
    · rw [if_neg h2]
      have hsf' : src.front < src.buf.cap := by omega
      by_cases h3 : dst.buf.cap > src.buf.cap
      · rw [if_pos h3]
        obtain ⟨g', e, hg, _⟩ := unrotate_spec hs dst.buf.mem
        simp only [e, Option.bind_eq_bind, Option.bind_some]
        rw [if_neg (by omega)]
        refine ⟨_, _, rfl, by simp; omega, fun _ => ⟨⟨hdl, by simp only; omega, by simp only; omega⟩, ?_, rfl⟩, by simp⟩
        unfold seq
        apply ring_congr
        intro i hi
        simp only at hi ⊢
        rw [Nat.zero_add, Nat.mod_eq_of_lt (by omega)]
        exact hg i hi
      · rw [if_neg h3]
        have final : ∀ b : Buf α, b.len = src.buf.cap → b.cap = src.buf.cap → b.sz = src.buf.sz →
            (({ buf := { b with mem := blockWrite b.mem 0 src.buf.mem 0 src.buf.cap }, front := src.front } : Fdeq α).Inv ∧
            ({ buf := { b with mem := blockWrite b.mem 0 src.buf.mem 0 src.buf.cap }, front := src.front } : Fdeq α).seq = src.seq) := by
          intro b b1 b2 b3
          refine ⟨⟨by simp only; omega, by simp only; omega, by simp only; omega⟩, ?_⟩
          simp only [seq]
          rw [b2, b3]
          apply ring_congr
          intro i hi
          have := Nat.mod_lt (src.front + i) (show 0 < src.buf.cap by omega)
          simp only [blockWrite]
          rw [if_pos (by omega)]; simp
        by_cases h4 : dst.buf.cap < src.buf.cap
        · simp only [if_pos h4]
          rcases fn with _ | (_ | junk)
          · simp [h4] at h1
          · refine ⟨{ buf := { dst.buf with sz := src.buf.sz }, front := src.front }, .memErr, ?_, ?_, by simp, fun _ => Or.inr ⟨rfl, rfl⟩⟩
            · simp [Buf.alloc, h2]
            · simp; omega
          · simp only [Buf.alloc, if_neg h2]
            simp only [ne_eq, not_true_eq_false, if_false]
            rw [if_neg (by omega)]
            obtain ⟨f1, f2⟩ := final ⟨fun i => if i < dst.buf.len then dst.buf.mem i else junk i, src.buf.cap, src.buf.sz, src.buf.cap,
              dst.buf.hasAlloc⟩ rfl rfl rfl
            exact ⟨_, .ok, rfl, by simp, fun _ => ⟨f1, f2, rfl⟩, by simp⟩
        · simp only [if_neg h4]
          rw [if_neg (by simp), if_neg (by omega)]
          obtain ⟨f1, f2⟩ := final { dst.buf with sz := src.buf.sz } (by simp only; omega) (by simp only; omega) rfl
          exact ⟨_, .ok, rfl, by simp; omega, fun _ => ⟨f1, f2, rfl⟩, by simp⟩

/-- A refused copy is not without effect: the destination takes the size and front of the source, whatever it held. -/
theorem C12_copy_refused_corrupts :
    ∃ dst src d' : Fdeq Nat, dst.Inv ∧ src.Inv ∧ dst.copy src (some none) = some (d', .memErr) ∧ d'.size > d'.capacity :=
  ⟨{ buf := { mem := fun _ => 0, len := 2, sz := 1, cap := 2, hasAlloc := true }, front := 0 },
    { buf := { mem := fun _ => 0, len := 4, sz := 4, cap := 4, hasAlloc := true }, front := 0 },
    { buf := { mem := fun _ => 0, len := 2, sz := 4, cap := 2, hasAlloc := true }, front := 0 },
    ⟨rfl, by simp, Or.inl (by simp)⟩, ⟨rfl, by simp, Or.inl (by simp)⟩, by simp [copy, Buf.alloc], by simp [size, capacity]⟩

/-! ### C46: validation -/

/-- **C46** (double-ended queue).  `validate` accepts every reachable queue. -/
theorem C46_fdeq_validate (d : Fdeq α) (h : d.Inv) : d.validate = some true := by
  unfold validate
  by_cases h0 : d.buf.sz = 0
  · rw [if_pos (by simp [isEmpty, h0])]
  · rw [if_neg (by simp [isEmpty, h0])]
    have hs := h.sz
    have hf : d.front < d.buf.cap := by have := h.front; omega
    have hb : d.begin = some d.front := by
      simp only [begin, if_neg h0, Buf.at_]; rw [if_neg (by omega)]
    have hfwd : ∀ n i, i + n = d.buf.sz → i < d.buf.sz →
        d.validateFwd (some ((d.front + i) % d.buf.cap)) i = some (some d.buf.sz) := by
      intro n
      induction n with
      | zero => intro i h1 h2; omega
      | succ n ih =>
        intro i h1 h2
        rw [validateFwd, if_neg (by omega)]
        simp only [next_spec h h2, Option.bind_eq_bind, Option.bind_some]
        by_cases h3 : i + 1 < d.buf.sz
        · rw [if_pos h3]; exact ih _ (by omega) h3
        · rw [if_neg h3, validateFwd, show i + 1 = d.buf.sz by omega]
    have hbwd : ∀ i, i < d.buf.sz →
        d.validateBwd (some ((d.front + i) % d.buf.cap)) (d.buf.sz - 1 - i) = some (some d.buf.sz) := by
      intro i
      induction i with
      | zero =>
        intro h2
        rw [validateBwd, if_neg (by omega)]
        simp only [rnext_spec h h2, Option.bind_eq_bind, Option.bind_some]
        rw [if_neg (by omega), validateBwd, show d.buf.sz - 1 - 0 + 1 = d.buf.sz by omega]
      | succ i ih =>
        intro h2
        rw [validateBwd, if_neg (by omega)]
        simp only [rnext_spec h h2, Option.bind_eq_bind, Option.bind_some]
        rw [if_pos (by omega), show i + 1 - 1 = i by omega, show d.buf.sz - 1 - (i + 1) + 1 = d.buf.sz - 1 - i by omega]
        exact ih (by omega)
    have hli : d.lastElemIndex = some ((d.front + (d.buf.sz - 1)) % d.buf.cap) := by
      simp only [lastElemIndex, modCap]; rw [if_neg (by omega)]
    have hlt := slot_lt h (show d.buf.sz - 1 < d.buf.sz by omega)
    have hbe : d.backElem = some (some ((d.front + (d.buf.sz - 1)) % d.buf.cap)) := by
      simp only [backElem, if_neg h0, hli, Option.map_some, Buf.at_]; rw [if_neg (by omega)]
    have h1 := hfwd d.buf.sz 0 (by omega) (by omega)
    rw [Nat.add_zero, Nat.mod_eq_of_lt hf] at h1
    have h2 := hbwd (d.buf.sz - 1) (by omega)
    rw [Nat.sub_self] at h2
    simp [hb, h1, hbe, hli, h2]

/-! ### C48: insert_range -/

/-- **C48** (end).  Inserting before the end of a queue that has room appends the range and returns its start. -/
theorem C48_insert_range_end_partial (d : Fdeq α) (h : d.Inv) (xs : List α) (h0 : xs ≠ []) (hne : d.seq ≠ [])
    (hroom : d.size + xs.length < d.capacity) (ans : AllocAns α) :
    ∃ d' s, d.insertRange none xs ans = some (d', s) ∧ d'.Inv ∧ d'.seq = d.seq ++ xs ∧ d'.deref s = xs.head? := by
  have hroom' : d.buf.sz + xs.length < d.buf.cap := hroom
  have hpos : 0 < xs.length := List.length_pos_iff.2 h0
  have hsz : d.buf.sz ≠ 0 := by
    intro hz; exact hne (by rw [← List.length_eq_zero_iff, seq_length]; exact hz)
  have hf : d.front < d.buf.cap := by have := h.front; omega
  obtain ⟨d', e, hi, hs, h1, h2⟩ := backRange_core h xs (by omega)
  have hs' : d'.seq = d.seq ++ xs := by
    rw [hs]; simp only [lastN, List.length_append, seq_length]
    rw [show d.buf.sz + xs.length - d.buf.cap = 0 by omega]; rfl
  have hpb : d.pushBackRange xs ans = some (d', .ok) := by
    unfold pushBackRange
    have : d.maybeResize xs.length ans = some (d, .ok) := by unfold maybeResize; rw [if_pos hroom']
    simp only [this, Option.bind_eq_bind, Option.bind_some, ne_eq, not_true_eq_false, and_false, if_false]
    rw [if_neg (by omega)]; exact e
  have hsz' : d'.buf.sz = d.buf.sz + xs.length := by
    have := congrArg List.length hs'; simpa using this
  refine ⟨d', some ((d'.front + d.buf.sz) % d'.buf.cap), ?_, hi, hs', ?_⟩
  · unfold insertRange
    simp only [Nat.ne_of_gt hpos, if_false]
    have hb : ¬ (none : Slot) = d.begin := by
      simp only [begin, if_neg hsz, Buf.at_]; rw [if_neg (by omega)]; simp
    rw [if_neg hb]
    simp only [hpb, Option.bind_eq_bind, Option.bind_some, ne_eq, not_true_eq_false, if_false]
    rw [if_pos (by omega), hsz', show d.buf.sz + xs.length - xs.length = d.buf.sz by omega]
    have hlt : (d'.front + d.buf.sz) % d'.buf.cap < d'.buf.cap := Nat.mod_lt _ (by omega)
    simp only [atIdx, modCap]
    rw [if_neg (by omega)]
    simp only [Option.map_some, Option.bind_some, Buf.at_]
    rw [if_neg (by omega)]; rfl
  · rw [deref_slot hi (by omega), hs', List.getElem?_append_right (by simp), seq_length, Nat.sub_self, List.head?_eq_getElem?]

/-- **C48** (begin).  Inserting before the first element of a queue that has room prepends the range.  The returned
reference is to the LAST element of the range, not to its start as documented. -/
theorem C48_insert_range_begin_partial (d : Fdeq α) (h : d.Inv) (xs : List α) (h0 : xs ≠ [])
    (hroom : d.size + xs.length < d.capacity) (ans : AllocAns α) :
    ∃ d' s, d.insertRange d.begin xs ans = some (d', s) ∧ d'.Inv ∧ d'.seq = xs ++ d.seq ∧ d'.deref s = xs.getLast? := by
  have hroom' : d.buf.sz + xs.length < d.buf.cap := hroom
  have hpos : 0 < xs.length := List.length_pos_iff.2 h0
  have hf : d.front < d.buf.cap := by have := h.front; omega
  obtain ⟨d', e, hi, hs, h1, h2⟩ := frontRange_core h xs (by omega) h0
  have hs' : d'.seq = xs ++ d.seq := by
    rw [hs, List.take_of_length_le (by simp; omega)]
  have hpb : d.pushFrontRange xs ans = some (d', .ok) := by
    unfold pushFrontRange
    have : d.maybeResize xs.length ans = some (d, .ok) := by unfold maybeResize; rw [if_pos hroom']
    simp only [this, Option.bind_eq_bind, Option.bind_some, ne_eq, not_true_eq_false, and_false, if_false]
    rw [if_neg (by omega)]; exact e
  have hsz' : d'.buf.sz = d.buf.sz + xs.length := by
    have := congrArg List.length hs'; simp at this; omega
  refine ⟨d', some ((d'.front + (xs.length - 1)) % d'.buf.cap), ?_, hi, hs', ?_⟩
  · unfold insertRange
    simp only [Nat.ne_of_gt hpos, if_false, if_true]
    simp only [hpb, Option.bind_eq_bind, Option.bind_some, ne_eq, not_true_eq_false, if_false]
    have hlt : (d'.front + (xs.length - 1)) % d'.buf.cap < d'.buf.cap := Nat.mod_lt _ (by omega)
    simp only [atIdx, modCap]
    rw [if_neg (by omega)]
    simp only [Option.map_some, Option.bind_some, Buf.at_]
    rw [if_neg (by omega)]; rfl
  · rw [deref_slot hi (by omega), hs', List.getElem?_append_left (by omega), List.getLast?_eq_getElem?]

/-- **C48** (middle).  Inserting before the `k`-th element of a queue that has room, provided that neither the elements
from `k` on nor the place they move to wraps around the end of the array: the range appears before the `k`-th element
and the returned pointer is its start. -/
theorem C48_insert_range_middle_partial (d : Fdeq α) (h : d.Inv) (xs : List α) (h0 : xs ≠ []) (k : Nat) (hk0 : 0 < k)
    (hk : k < d.size) (hroom : d.size + xs.length < d.capacity) (ans : AllocAns α)
    (hsrc : (d.front + k) % d.capacity + (d.size - k) < d.capacity)
    (hdst : (d.front + k + xs.length) % d.capacity + (d.size - k) ≤ d.capacity) :
    ∃ d' s, d.insertRange (d.at_ k) xs ans = some (d', s) ∧ d'.Inv ∧ d'.seq = d.seq.take k ++ xs ++ d.seq.drop k ∧
      d'.deref s = xs.head? := by
  have hroom' : d.buf.sz + xs.length < d.buf.cap := hroom
  have hk' : k < d.buf.sz := hk
  have hpos : 0 < xs.length := List.length_pos_iff.2 h0
  have hf : d.front < d.buf.cap := by have := h.front; omega
  have hl := h.len
  simp only [size, capacity] at hsrc hdst
  have hp := mod_wrap (cap := d.buf.cap) (x := d.front + k) (by omega)
  have hplt : (d.front + k) % d.buf.cap < d.buf.cap := Nat.mod_lt _ (by omega)
  have hpn : ((d.front + k) % d.buf.cap + xs.length) % d.buf.cap = (d.front + k + xs.length) % d.buf.cap := Nat.mod_add_mod _ _ _
  generalize hpe : (d.front + k) % d.buf.cap = p at *
  have hback : (d.front + d.buf.sz) % d.buf.cap = p + (d.buf.sz - k) := by
    rw [show d.front + d.buf.sz = d.front + k + (d.buf.sz - k) by omega, ← Nat.mod_add_mod, hpe, Nat.mod_eq_of_lt hsrc]
  have hmv := mod_wrap (cap := d.buf.cap) (x := p + xs.length) (by omega)
  rw [← hpn] at hdst
  generalize hme : (p + xs.length) % d.buf.cap = m at *
  -- the final state
  have hn1 : min xs.length (d.buf.cap - p) ≤ xs.length := Nat.min_le_left _ _
  let b1 : Buf α := { d.buf with mem := blockMove d.buf.mem m p (d.buf.sz - k) }
  obtain ⟨b', e, hw, g1, g2, g3, g4⟩ := putBack_spec (b := b1) (s := p) (xs := xs) hl hplt (show xs.length ≤ d.buf.cap by omega)
  have hset : (b'.sizeSet (min d.buf.cap (d.buf.sz + xs.length))).1 = { b' with sz := d.buf.sz + xs.length } := by
    simp only [Buf.sizeSet]; rw [if_neg (by simp only [g3]; show ¬ _ > d.buf.cap; omega), Nat.min_eq_right (by omega)]
  have hb3 : b'.cap = d.buf.cap := g3
  have hpb : d.insertRange (d.at_ k) xs ans =
      some ({ buf := { b' with sz := d.buf.sz + xs.length }, front := d.front }, some p) := by
    unfold insertRange
    simp only [Nat.ne_of_gt hpos, if_false]
    have hat : d.at_ k = some p := by
      unfold at_; rw [if_neg (by omega), hpe]; simp only [Buf.at_]; rw [if_neg (by omega)]
    have hne : ¬ d.at_ k = d.begin := by
      rw [hat]; simp only [begin]; rw [if_neg (by omega)]
      simp only [Buf.at_]; rw [if_neg (by omega)]
      simp only [Option.some.injEq]
      rw [← hpe]
      have := mod_ne (cap := d.buf.cap) (a := d.front) (b := d.front + k) (by omega) (by omega)
      rw [Nat.mod_eq_of_lt hf] at this
      exact fun h => this h.symm
    rw [if_neg hne, hat]
    simp only
    unfold pushRange
    have hmr : d.maybeResize xs.length ans = some (d, .ok) := by unfold maybeResize; rw [if_pos hroom']
    have hidx : d.indexOf p = some p := by simp only [indexOf]; rw [if_pos hplt]
    have hbf : d.backFreeSlot = some (p + (d.buf.sz - k)) := by
      simp only [backFreeSlot, modCap]; rw [if_neg (by omega), hback]
    simp only [hmr, Option.bind_eq_bind, Option.bind_some, ne_eq, not_true_eq_false, and_false, if_false]
    rw [if_neg (by omega), if_neg (fun hc => hc.1 hroom')]
    simp only [hidx, hbf, Option.bind_some, hme]
    rw [if_pos (show p + (d.buf.sz - k) > p by omega), show p + (d.buf.sz - k) - p = d.buf.sz - k by omega,
      if_neg (show ¬ m + (d.buf.sz - k) > d.buf.cap by omega), if_neg (show ¬ p + (d.buf.sz - k) < p by omega), Nat.min_self,
      Nat.sub_self]
    have hmove : moveRange d.buf m p (d.buf.sz - k) = some b1 := by
      unfold moveRange; rw [if_pos (by omega)]
    simp only [hmove, Option.bind_some, not_true_eq_false, if_false]
    have e' : ((putRange b1 p (xs.take (min xs.length (d.buf.cap - p)))).bind fun b =>
        if ¬ xs.length - min xs.length (d.buf.cap - p) = 0 then
          putRange b ((p + min xs.length (d.buf.cap - p)) % d.buf.cap) (xs.drop (min xs.length (d.buf.cap - p)))
        else some b) = some b' := e
    rw [← Option.bind_assoc, e']
    simp only [Option.bind_some, hset]
    rw [if_neg (by omega)]
    simp only [Buf.at_, hb3]
    rw [if_neg (by omega)]; rfl
  have hlen : ({ b' with sz := d.buf.sz + xs.length } : Buf α).len = b'.cap := by simp only; rw [g3]; exact g1.trans hl
  have hinv : ({ buf := { b' with sz := d.buf.sz + xs.length }, front := d.front } : Fdeq α).Inv :=
    ⟨hlen, by simp only; omega, Or.inl (by simp only; omega)⟩
  have hseq : ({ buf := { b' with sz := d.buf.sz + xs.length }, front := d.front } : Fdeq α).seq =
      d.seq.take k ++ xs ++ d.seq.drop k := by
    have hbm : ∀ j, b1.mem j = if m ≤ j ∧ j < m + (d.buf.sz - k) then d.buf.mem (p + (j - m)) else d.buf.mem j := by
      intro j; rfl
    apply List.ext_getElem
    · simp; omega
    · intro i h1 h2
      have hi : i < d.buf.sz + xs.length := by simpa using h1
      simp only [seq, ring_getElem, hb3]
      by_cases c1 : i < k
      · -- before the insertion point: not touched
        rw [List.getElem_append_left (by simp; omega), List.getElem_append_left (by simp; omega), List.getElem_take, ring_getElem]
        have hj := mod_wrap (cap := d.buf.cap) (x := d.front + i) (by omega)
        have hjlt : (d.front + i) % d.buf.cap < d.buf.cap := Nat.mod_lt _ (by omega)
        rw [hw.miss _ (by show _ < d.buf.cap; exact hjlt)]
        · rw [hbm, if_neg]
          intro hc
          generalize hx : (d.front + i) % d.buf.cap = x at *
          have : x = (d.front + (k + xs.length + (x - m))) % d.buf.cap := by
            rw [show d.front + (k + xs.length + (x - m)) =
              (d.front + k + xs.length) + (x - m) by omega, ← Nat.mod_add_mod, ← hpn,
              show m + (x - m) = x by omega, Nat.mod_eq_of_lt hjlt]
          rw [← hx] at this
          exact mod_ne (by omega) (by omega) this
        · intro q hq
          show _ ≠ (p + q) % d.buf.cap
          rw [← hpe, Nat.mod_add_mod]
          exact mod_ne (by omega) (by omega)
      · by_cases c2 : i < k + xs.length
        · -- the range
          rw [List.getElem_append_left (by simp; omega), List.getElem_append_right (by simp; omega)]
          have := hw.hit (i - k) (by omega)
          have e1 : (p + (i - k)) % d.buf.cap = (d.front + i) % d.buf.cap := by
            rw [← hpe, Nat.mod_add_mod]; congr 1; omega
          have this' : b'.mem ((p + (i - k)) % d.buf.cap) = xs[i - k] := this
          rw [e1] at this'
          rw [this']
          congr 1
          simp; omega
        · -- behind it: moved
          rw [List.getElem_append_right (by simp; omega), List.getElem_drop, ring_getElem]
          have hjlt : (d.front + i) % d.buf.cap < d.buf.cap := Nat.mod_lt _ (by omega)
          have hji : (d.front + i) % d.buf.cap = m + (i - k - xs.length) := by
            rw [show d.front + i = (d.front + k + xs.length) + (i - k - xs.length) by omega, ← Nat.mod_add_mod, ← hpn,
              Nat.mod_eq_of_lt (by omega)]
          rw [hw.miss _ (by show _ < d.buf.cap; exact hjlt)]
          · rw [hbm, hji, if_pos (by omega), show m + (i - k - xs.length) - m = i - k - xs.length by omega]
            congr 1
            simp only [List.length_append, List.length_take, ring_length]
            rw [show k + (i - (min k d.buf.sz + xs.length)) = k + (i - k - xs.length) by omega,
              show d.front + (k + (i - k - xs.length)) = d.front + k + (i - k - xs.length) by omega, ← Nat.mod_add_mod, hpe,
              Nat.mod_eq_of_lt (by omega)]
          · intro q hq
            show _ ≠ (p + q) % d.buf.cap
            rw [← hpe, Nat.mod_add_mod]
            exact Ne.symm (mod_ne (by omega) (by omega))
  refine ⟨_, _, hpb, hinv, hseq, ?_⟩
  have hd := deref_slot hinv (i := k) (show k < d.buf.sz + xs.length by omega)
  have hpk : (d.front + k) % b'.cap = p := by rw [hb3, hpe]
  simp only [hpk] at hd
  rw [hd, hseq, List.append_assoc, List.getElem?_append_right (by simp; omega), List.getElem?_append_left (by simp; omega)]
  rw [List.head?_eq_getElem?]
  congr 1; simp; omega

/-- Hypotheses of the middle insertion are met: capacity 10, three elements from slot 1, range of two before the second. -/
example : ∃ d : Fdeq Nat, d.Inv ∧ d.size + [7, 8].length < d.capacity ∧ 1 < d.size ∧
    (d.front + 1) % d.capacity + (d.size - 1) < d.capacity ∧ (d.front + 1 + 2) % d.capacity + (d.size - 1) ≤ d.capacity :=
  ⟨{ buf := { mem := fun i => i, len := 10, sz := 3, cap := 10, hasAlloc := true }, front := 1 },
    ⟨rfl, by simp, Or.inl (by simp)⟩, by simp [size, capacity], by simp [size], by simp [size, capacity], by simp [size, capacity]⟩

/-- What is missing from C48, and false of the code (1): elements behind the insertion point fit before the end of the
array but the place they move to wraps; the second `memmove` reads what the first one overwrote, and an element is lost. -/
theorem C48_insert_range_wrap_loses_element :
    ∃ d : Fdeq Nat, d.Inv ∧ d.seq = [0, 1, 2] ∧ d.capacity = 5 ∧
      (d.insertRange (d.at_ 1) [100] none).map (fun r => r.1.seq) = some [0, 100, 1, 1] :=
  ⟨{ buf := { mem := fun i => i - 2, len := 5, sz := 3, cap := 5, hasAlloc := false }, front := 2 },
    ⟨rfl, by simp, Or.inl (by simp)⟩, by rfl, rfl, by rfl⟩

/-- (2): with five slots, four elements and one inserted, a `memmove` reads beyond the end of the array. -/
theorem C48_insert_range_reads_out_of_bounds :
    ∃ d : Fdeq Nat, d.Inv ∧ d.size + 1 ≤ d.capacity ∧ d.capacity = 5 ∧ d.insertRange (d.at_ 1) [100] none = none :=
  ⟨{ buf := { mem := fun i => i, len := 5, sz := 4, cap := 5, hasAlloc := false }, front := 2 },
    ⟨rfl, by simp, Or.inl (by simp)⟩, by simp [size, capacity], rfl, by rfl⟩

/-- (3): when the insertion makes a queue with an allocator grow, the position pointer is used after the array it points
into was freed. -/
theorem C48_insert_range_after_growth_undefined (d : Fdeq α) (h : d.Inv) (ha : d.buf.hasAlloc = true) (xs : List α)
    (h0 : xs ≠ []) (k : Nat) (hk0 : 0 < k) (hk : k < d.size) (hfull : d.capacity ≤ d.size + xs.length) (junk : Nat → α) :
    d.insertRange (d.at_ k) xs (some junk) = none := by
  have hk' : k < d.buf.sz := hk
  have hfull' : d.buf.cap ≤ d.buf.sz + xs.length := hfull
  have hpos : 0 < xs.length := List.length_pos_iff.2 h0
  have hsz := h.sz
  have hf : d.front < d.buf.cap := by have := h.front; omega
  have hplt : (d.front + k) % d.buf.cap < d.buf.cap := Nat.mod_lt _ (by omega)
  unfold insertRange
  simp only [Nat.ne_of_gt hpos, if_false]
  have hat : d.at_ k = some ((d.front + k) % d.buf.cap) := by
    unfold at_; rw [if_neg (by omega)]; simp only [Buf.at_]; rw [if_neg (by omega)]
  have hne : ¬ d.at_ k = d.begin := by
    rw [hat]; simp only [begin]; rw [if_neg (by omega)]
    simp only [Buf.at_]; rw [if_neg (by omega)]
    simp only [Option.some.injEq]
    have := mod_ne (cap := d.buf.cap) (a := d.front) (b := d.front + k) (by omega) (by omega)
    rw [Nat.mod_eq_of_lt hf] at this
    exact fun h => this h.symm
  rw [if_neg hne, hat]
  simp only
  unfold pushRange
  rcases maybeResize_spec h xs.length (some junk) with ⟨h1, _⟩ | ⟨_, h2, _⟩ | ⟨_, _, h3, _⟩ | ⟨h1, _, _, _, d1, e, g⟩
  · omega
  · rw [ha] at h2; simp at h2
  · simp at h3
  · simp only [e, Option.bind_eq_bind, Option.bind_some, ne_eq, not_true_eq_false, and_false, if_false]
    have := g.cap
    rw [if_neg (by rw [this, if_pos (by omega)]; omega), if_pos ⟨h1, ha⟩]

/-! ### C49: emplace -/

/-- **C49**, false of the code: `ccc_fdeq_emplace_back` stores the element (like `push_back`) but evaluates to NULL. -/
theorem C49_emplace_back_returns_null (d d' : Fdeq α) (x : α) (ans : AllocAns α) (s : Slot)
    (e : d.pushBack x ans = some (d', s)) : d.emplaceBack x ans = some (d', none) := by
  simp [emplaceBack, e]

/-- … and so does `ccc_fdeq_emplace_front`. -/
theorem C49_emplace_front_returns_null (d d' : Fdeq α) (x : α) (ans : AllocAns α) (s : Slot)
    (e : d.pushFront x ans = some (d', s)) : d.emplaceFront x ans = some (d', none) := by
  simp [emplaceFront, e]

end CCC.Fdeq
