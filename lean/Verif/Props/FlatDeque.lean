import Verif.Proof.FlatDeque
/-
Property theorems for `src/flat_double_ended_queue.c` (C07–C12, C48, C49, parts of C46 and C47).

Vocabulary: `seq d` — the stored elements, front first; `Inv` — the state between calls; `lastN c l` — the last `c`
elements of `l`.
-/
namespace CCC.Fdeq
variable {α : Type}

/-- the last `c` elements of a list -/
def lastN (c : Nat) (l : List α) : List α := l.drop (l.length - c)

/-- A fresh queue over user memory (`ccc_fdeq_init` with size 0). -/
def init (mem : Nat → α) (cap : Nat) (hasAlloc : Bool) : Fdeq α := { buf := Buf.init mem cap hasAlloc, front := 0 }

theorem init_inv (mem : Nat → α) (cap : Nat) (hasAlloc : Bool) : (init mem cap hasAlloc).Inv :=
  ⟨rfl, Nat.zero_le _, by
    show 0 < cap ∨ (cap = 0 ∧ 0 = 0); omega⟩

theorem init_seq (mem : Nat → α) (cap : Nat) (hasAlloc : Bool) : (init mem cap hasAlloc).seq = [] := rfl

/-! ### helper lemmas -/

theorem ring_append_one {f : Nat → α} {cap p n : Nat} (x : α) (hn : n < cap) :
    ring (upd f ((p + n) % cap) x) cap p (n + 1) = ring f cap p n ++ [x] := by
  have hw : CircWrite f (upd f ((p + n) % cap) x) cap ((p + n) % cap) [x] := by
    constructor
    · intro i hi
      have hi' : i = 0 := by simpa using hi
      subst hi'
      rw [Nat.add_zero, Nat.mod_mod, upd_same]; rfl
    · intro j _ hne
      refine upd_ne _ _ ?_
      have := hne 0 (by simp)
      rwa [Nat.add_zero, Nat.mod_mod] at this
  have := ring_write_back (ex := 0) (by omega) hw (by simp; omega) (by simp)
  simp only [List.length_singleton, Nat.sub_zero, List.drop_zero, Nat.add_zero] at this
  rw [← this]
  apply ring_congr; intro i hi; rw [Nat.mod_add_mod]

/-- what a write into the slot behind the last element does when there is room -/
theorem append_room {d : Fdeq α} (h : d.Inv) (hr : d.buf.sz < d.buf.cap) (x : α) :
    ∃ k d', k < d.buf.cap ∧ d.backFreeSlot = some k ∧ d.buf.at_ k = some k ∧
      ({ d with buf := (d.buf.sizePlus 1).1 } : Fdeq α).fill (some k) x = some (d', some k) ∧ d'.Inv ∧
      d'.seq = d.seq ++ [x] ∧ d'.buf.mem k = x ∧ d'.buf.cap = d.buf.cap ∧ d'.buf.hasAlloc = d.buf.hasAlloc := by
  have hl := h.len
  have hf := h.front
  have hk : (d.front + d.buf.sz) % d.buf.cap < d.buf.cap := Nat.mod_lt _ (by omega)
  have hsp : (d.buf.sizePlus 1).1 = { d.buf with sz := d.buf.sz + 1 } := by
    simp only [Buf.sizePlus]; rw [if_neg (by omega)]
  have hc0 : d.buf.cap ≠ 0 := by omega
  have hk' : (d.front + d.buf.sz) % d.buf.cap < d.buf.len := by omega
  refine ⟨(d.front + d.buf.sz) % d.buf.cap,
    { d with buf := { d.buf with sz := d.buf.sz + 1, mem := upd d.buf.mem ((d.front + d.buf.sz) % d.buf.cap) x } },
    hk, ?_, ?_, ?_, ⟨hl, by simp only; omega, hf⟩, ?_, upd_same _ _ _, rfl, rfl⟩
  · simp [backFreeSlot, modCap, hc0]
  · simp only [Buf.at_]; rw [if_neg (by omega)]
  · simp [fill, hsp, Buf.store, hk']
  · exact ring_append_one x hr

/-- what a write into the slot before the first element does -/
theorem prepend_room {d : Fdeq α} (h : d.Inv) (hc : 0 < d.buf.cap) (x : α) (m : Nat) (hm : m ≤ d.buf.sz)
    (hm' : m + 1 ≤ d.buf.cap) :
    frontFreeSlot d.front d.buf.cap < d.buf.cap ∧
    ring (upd d.buf.mem (frontFreeSlot d.front d.buf.cap) x) d.buf.cap (frontFreeSlot d.front d.buf.cap) (m + 1)
      = x :: d.seq.take m := by
  have hf := h.front
  have hff : frontFreeSlot d.front d.buf.cap = if d.front = 0 then d.buf.cap - 1 else d.front - 1 := by
    unfold frontFreeSlot capPred
    by_cases h0 : d.front = 0
    · simp [h0]; omega
    · simp [h0]
  have hlt : frontFreeSlot d.front d.buf.cap < d.buf.cap := by rw [hff]; split <;> omega
  refine ⟨hlt, ?_⟩
  have hw : CircWrite d.buf.mem (upd d.buf.mem (frontFreeSlot d.front d.buf.cap) x) d.buf.cap
      (frontFreeSlot d.front d.buf.cap) [x] := by
    constructor
    · intro i hi
      have hi' : i = 0 := by simpa using hi
      subst hi'
      rw [Nat.add_zero, Nat.mod_eq_of_lt hlt, upd_same]; rfl
    · intro j _ hne
      refine upd_ne _ _ ?_
      have := hne 0 (by simp)
      rwa [Nat.add_zero, Nat.mod_eq_of_lt hlt] at this
  have hs : (frontFreeSlot d.front d.buf.cap + [x].length) % d.buf.cap = d.front % d.buf.cap := by
    rw [hff]
    by_cases h0 : d.front = 0
    · rw [if_pos h0, h0]; simp only [List.length_singleton]
      rw [show d.buf.cap - 1 + 1 = d.buf.cap by omega]; simp
    · rw [if_neg h0]; simp only [List.length_singleton]
      rw [show d.front - 1 + 1 = d.front by omega]
  have := ring_write_front (m := m) hc hw hs hm (by simp only [List.length_singleton]; omega)
  simp only [List.length_singleton, List.singleton_append] at this
  rw [Nat.add_comm m 1, this]; rfl

theorem increment_eq {d : Fdeq α} {i : Nat} (hi : i < d.buf.cap) : d.increment i = (i + 1) % d.buf.cap := by
  unfold increment capPred
  rw [if_neg (show ¬ d.buf.cap = 0 by omega)]
  rw [mod_wrap (by omega)]
  split <;> split <;> omega

theorem Grown.cap_le {d d' : Fdeq α} {n : Nat} (g : Grown d d' n) : d.buf.cap ≤ d'.buf.cap := by
  have h2 := g.cap
  rw [h2]; split <;> omega

theorem Grown.room {d d' : Fdeq α} {n : Nat} (g : Grown d d' n) (h : d.Inv) :
    d'.buf.sz < d'.buf.cap := by
  have h1 := g.sz; have h2 := g.cap; have h3 := h.sz
  rw [h1, h2]; split <;> omega

/-! ### C07, C08: single pushes and pops -/

/-- **C07.**  With an allocator, `push_back` appends; if memory is needed and refused it returns NULL and nothing changes. -/
theorem C07_push_back (d : Fdeq α) (h : d.Inv) (ha : d.buf.hasAlloc = true) (x : α) (ans : AllocAns α) :
    (¬ (d.size = d.capacity ∧ ans = none) ∧ ∃ d' k, d.pushBack x ans = some (d', some k) ∧ d'.Inv ∧ d'.seq = d.seq ++ [x] ∧
        k < d'.buf.len ∧ d'.buf.mem k = x ∧ d'.buf.hasAlloc = true ∧ d.capacity ≤ d'.capacity) ∨
    ((d.size = d.capacity ∧ ans = none) ∧ d.pushBack x ans = some (d, none)) := by
  have hsz := h.sz
  unfold pushBack allocBack
  rcases maybeResize_spec h 0 ans with ⟨h1, e⟩ | ⟨_, h2, _⟩ | ⟨h1, _, h3, e⟩ | ⟨h1, _, junk, h3, d1, e, g⟩
  · left
    refine ⟨fun hc => by have : d.buf.sz = d.buf.cap := hc.1; omega, ?_⟩
    obtain ⟨k, d', hk, hb, hat, hfill, hi, hs, hm, hc, ha'⟩ := append_room h (by omega) x
    refine ⟨d', k, ?_, hi, hs, by rw [hi.len, hc]; exact hk, hm, by rw [ha', ha], Nat.le_of_eq hc.symm⟩
    simp [e, hb, hat, hfill]
  · rw [ha] at h2; simp at h2
  · right
    refine ⟨⟨show d.buf.sz = d.buf.cap by omega, h3⟩, ?_⟩
    simp [e, ha, fill]
  · left
    refine ⟨by rw [h3]; simp, ?_⟩
    have ha1 : d1.buf.hasAlloc = true := by rw [g.alloc, ha]
    obtain ⟨k, d', hk, hb, hat, hfill, hi, hs, hm, hc, ha'⟩ := append_room g.inv (g.room h) x
    refine ⟨d', k, ?_, hi, by rw [hs, g.seq], by rw [hi.len, hc]; exact hk, hm, by rw [ha', ha1], by show d.buf.cap ≤ d'.buf.cap; rw [hc]; exact g.cap_le⟩
    simp [e, hb, hat, hfill]

/-- **C07.**  With an allocator, `push_front` prepends; if memory is needed and refused nothing changes. -/
theorem C07_push_front (d : Fdeq α) (h : d.Inv) (ha : d.buf.hasAlloc = true) (x : α) (ans : AllocAns α) :
    (¬ (d.size = d.capacity ∧ ans = none) ∧ ∃ d' k, d.pushFront x ans = some (d', some k) ∧ d'.Inv ∧ d'.seq = x :: d.seq ∧
        k < d'.buf.len ∧ d'.buf.mem k = x ∧ d'.buf.hasAlloc = true ∧ d.capacity ≤ d'.capacity) ∨
    ((d.size = d.capacity ∧ ans = none) ∧ d.pushFront x ans = some (d, none)) := by
  have hsz := h.sz
  have main : ∀ d1 : Fdeq α, d1.Inv → d1.buf.sz < d1.buf.cap → d1.buf.hasAlloc = true →
      ∃ d' k, ({ buf := (d1.buf.sizePlus 1).1, front := frontFreeSlot d1.front d1.buf.cap } : Fdeq α).fill
          (d1.buf.at_ (frontFreeSlot d1.front d1.buf.cap)) x = some (d', some k) ∧ d'.Inv ∧ d'.seq = x :: d1.seq ∧
        k < d'.buf.len ∧ d'.buf.mem k = x ∧ d'.buf.hasAlloc = true ∧ d1.buf.cap ≤ d'.buf.cap := by
    intro d1 h1 hr ha1
    obtain ⟨hlt, hring⟩ := prepend_room h1 (by omega) x d1.buf.sz (Nat.le_refl _) (by omega)
    have hl1 := h1.len
    have hsp : (d1.buf.sizePlus 1).1 = { d1.buf with sz := d1.buf.sz + 1 } := by
      simp only [Buf.sizePlus]; rw [if_neg (by omega)]
    have hat : d1.buf.at_ (frontFreeSlot d1.front d1.buf.cap) = some (frontFreeSlot d1.front d1.buf.cap) := by
      simp only [Buf.at_]; rw [if_neg (by omega)]
    have hlt' : frontFreeSlot d1.front d1.buf.cap < d1.buf.len := by omega
    refine ⟨{ buf := { d1.buf with sz := d1.buf.sz + 1, mem := upd d1.buf.mem (frontFreeSlot d1.front d1.buf.cap) x },
              front := frontFreeSlot d1.front d1.buf.cap }, frontFreeSlot d1.front d1.buf.cap, ?_,
      ⟨hl1, by simp only; omega, Or.inl hlt⟩, ?_, hlt', upd_same _ _ _, ha1, Nat.le_refl _⟩
    · rw [hat]; simp [fill, hsp, Buf.store, hlt']
    · unfold seq; rw [hring]
      simp only [List.cons.injEq, true_and]
      rw [List.take_of_length_le (by simp)]; rfl
  unfold pushFront allocFront
  rcases maybeResize_spec h 0 ans with ⟨h1, e⟩ | ⟨_, h2, _⟩ | ⟨h1, _, h3, e⟩ | ⟨h1, _, junk, h3, d1, e, g⟩
  · left
    refine ⟨fun hc => by have : d.buf.sz = d.buf.cap := hc.1; omega, ?_⟩
    obtain ⟨d', k, e2, r⟩ := main d h (by omega) ha
    refine ⟨d', k, ?_, r⟩
    simp [e, e2]
  · rw [ha] at h2; simp at h2
  · right
    refine ⟨⟨show d.buf.sz = d.buf.cap by omega, h3⟩, ?_⟩
    simp [e, ha, fill]
  · left
    refine ⟨by rw [h3]; simp, ?_⟩
    have ha1 : d1.buf.hasAlloc = true := by rw [g.alloc, ha]
    obtain ⟨d', k, e2, r⟩ := main d1 g.inv (g.room h) ha1
    obtain ⟨r1, r2, r3, r4, r5, r6⟩ := r
    refine ⟨d', k, ?_, r1, by rw [r2, g.seq], r3, r4, r5, Nat.le_trans g.cap_le r6⟩
    simp [e, e2]

/-- **C08.**  On a ring of capacity `c > 0`, `push_back` always succeeds and leaves the last `c` elements of
`sequence ++ [x]`. -/
theorem C08_push_back (d : Fdeq α) (h : d.Inv) (ha : d.buf.hasAlloc = false) (hc : 0 < d.capacity) (x : α) (ans : AllocAns α) :
    ∃ d' k, d.pushBack x ans = some (d', some k) ∧ d'.Inv ∧ d'.seq = lastN d.capacity (d.seq ++ [x]) ∧
      k < d'.buf.len ∧ d'.buf.mem k = x ∧ d'.buf.hasAlloc = false ∧ d'.capacity = d.capacity := by
  have hsz := h.sz
  have hl := h.len
  have hc' : 0 < d.buf.cap := hc
  have hf : d.front < d.buf.cap := by have := h.front; omega
  unfold pushBack allocBack
  rcases maybeResize_spec h 0 ans with ⟨h1, e⟩ | ⟨h1, h2, e⟩ | ⟨_, h2, _⟩ | ⟨_, h2, _⟩
  · obtain ⟨k, d', hk, hb, hat, hfill, hi, hs, hm, hcap, ha'⟩ := append_room h (by omega) x
    refine ⟨d', k, ?_, hi, ?_, by rw [hi.len, hcap]; exact hk, hm, by rw [ha', ha], hcap⟩
    · simp [e, hb, hat, hfill]
    · rw [hs, lastN]
      simp only [List.length_append, seq_length, List.length_singleton, capacity]
      rw [show d.buf.sz + 1 - d.buf.cap = 0 by omega]; rfl
  · have hfull : d.buf.sz = d.buf.cap := by omega
    have hk : (d.front + d.buf.sz) % d.buf.cap = d.front := by
      rw [hfull, Nat.add_mod_right, Nat.mod_eq_of_lt hf]
    have hb : d.backFreeSlot = some d.front := by
      simp [backFreeSlot, modCap, show d.buf.cap ≠ 0 by omega, hk]
    have hat : d.buf.at_ d.front = some d.front := by simp only [Buf.at_]; rw [if_neg (by omega)]
    have hlt : d.front < d.buf.len := by omega
    refine ⟨{ buf := { d.buf with mem := upd d.buf.mem d.front x }, front := d.increment d.front }, d.front, ?_, ?_, ?_,
      hlt, upd_same _ _ _, ha, rfl⟩
    · simp [e, ha, hb, hat, fill, Buf.store, hlt]
    · refine ⟨hl, hsz, Or.inl ?_⟩
      simp only; rw [increment_eq hf]; exact Nat.mod_lt _ hc'
    · have hw : CircWrite d.buf.mem (upd d.buf.mem d.front x) d.buf.cap ((d.front + d.buf.sz) % d.buf.cap) [x] := by
        rw [hk]
        constructor
        · intro i hi
          have hi' : i = 0 := by simpa using hi
          subst hi'
          rw [Nat.add_zero, Nat.mod_eq_of_lt hf, upd_same]; rfl
        · intro j _ hne
          refine upd_ne _ _ ?_
          have := hne 0 (by simp)
          rwa [Nat.add_zero, Nat.mod_eq_of_lt hf] at this
      have := ring_write_back (ex := 1) hc' hw (by simp; omega) (by simp)
      simp only [List.length_singleton, Nat.add_sub_cancel] at this
      simp only [seq, lastN, capacity]
      rw [increment_eq hf, this]
      simp only [List.length_append, ring_length, List.length_singleton]
      rw [show d.buf.sz + 1 - d.buf.cap = 1 by omega]
  · rw [ha] at h2; simp at h2
  · rw [ha] at h2; simp at h2

/-- **C08.**  On a ring of capacity `c > 0`, `push_front` always succeeds and leaves the first `c` elements of
`[x] ++ sequence`. -/
theorem C08_push_front (d : Fdeq α) (h : d.Inv) (ha : d.buf.hasAlloc = false) (hc : 0 < d.capacity) (x : α) (ans : AllocAns α) :
    ∃ d' k, d.pushFront x ans = some (d', some k) ∧ d'.Inv ∧ d'.seq = (x :: d.seq).take d.capacity ∧
      k < d'.buf.len ∧ d'.buf.mem k = x ∧ d'.buf.hasAlloc = false ∧ d'.capacity = d.capacity := by
  have hsz := h.sz
  have hl := h.len
  have hc' : 0 < d.buf.cap := hc
  unfold pushFront allocFront
  rcases maybeResize_spec h 0 ans with ⟨h1, e⟩ | ⟨h1, h2, e⟩ | ⟨_, h2, _⟩ | ⟨_, h2, _⟩
  · obtain ⟨hlt, hring⟩ := prepend_room h hc' x d.buf.sz (Nat.le_refl _) (by omega)
    have hsp : (d.buf.sizePlus 1).1 = { d.buf with sz := d.buf.sz + 1 } := by
      simp only [Buf.sizePlus]; rw [if_neg (by omega)]
    have hat : d.buf.at_ (frontFreeSlot d.front d.buf.cap) = some (frontFreeSlot d.front d.buf.cap) := by
      simp only [Buf.at_]; rw [if_neg (by omega)]
    have hlt' : frontFreeSlot d.front d.buf.cap < d.buf.len := by omega
    refine ⟨{ buf := { d.buf with sz := d.buf.sz + 1, mem := upd d.buf.mem (frontFreeSlot d.front d.buf.cap) x },
              front := frontFreeSlot d.front d.buf.cap }, frontFreeSlot d.front d.buf.cap, ?_,
      ⟨hl, by simp only; omega, Or.inl hlt⟩, ?_, hlt', upd_same _ _ _, ha, rfl⟩
    · simp [e, hat, fill, hsp, Buf.store, hlt']
    · unfold seq; simp only
      rw [hring, List.take_of_length_le (l := d.seq) (by simp), List.take_of_length_le]
      · rfl
      · simp [capacity]; omega
  · have hfull : d.buf.sz = d.buf.cap := by omega
    obtain ⟨hlt, hring⟩ := prepend_room h hc' x (d.buf.sz - 1) (by omega) (by omega)
    have hat : d.buf.at_ (frontFreeSlot d.front d.buf.cap) = some (frontFreeSlot d.front d.buf.cap) := by
      simp only [Buf.at_]; rw [if_neg (by omega)]
    have hlt' : frontFreeSlot d.front d.buf.cap < d.buf.len := by omega
    refine ⟨{ buf := { d.buf with mem := upd d.buf.mem (frontFreeSlot d.front d.buf.cap) x },
              front := frontFreeSlot d.front d.buf.cap }, frontFreeSlot d.front d.buf.cap, ?_,
      ⟨hl, hsz, Or.inl hlt⟩, ?_, hlt', upd_same _ _ _, ha, rfl⟩
    · simp [e, ha, hat, fill, Buf.store, hlt']
    · rw [show d.buf.sz - 1 + 1 = d.buf.sz by omega] at hring
      simp only [seq]
      rw [hring]
      simp only [capacity]
      obtain ⟨m, hm⟩ : ∃ m, d.buf.sz = m + 1 := ⟨d.buf.sz - 1, by omega⟩
      have : ∀ l : List α, (x :: l).take d.buf.cap = x :: l.take (d.buf.sz - 1) := by
        intro l; rw [← hfull, hm]; rfl
      exact (this _).symm
  · rw [ha] at h2; simp at h2
  · rw [ha] at h2; simp at h2

/-- What C08 excludes: on a ring of capacity zero `push_back` computes a remainder by zero. -/
theorem C08_zero_capacity_undefined (mem : Nat → α) (x : α) (ans : AllocAns α) : (init mem 0 false).pushBack x ans = none := by
  simp [pushBack, allocBack, maybeResize, init, Buf.init, backFreeSlot, modCap]

/-- **C07, C08.**  `pop_front` drops the first element; on an empty queue it is an input error without effect. -/
theorem C07_pop_front (d : Fdeq α) (h : d.Inv) :
    d.popFront.1.Inv ∧ d.popFront.1.seq = d.seq.drop 1 ∧ d.popFront.2 = (if d.seq = [] then .inputErr else .ok) ∧
      d.popFront.1.buf.hasAlloc = d.buf.hasAlloc ∧ d.popFront.1.capacity = d.capacity := by
  have hl := h.len
  have hsz := h.sz
  have hf := h.front
  have hnil : d.seq = [] ↔ d.buf.sz = 0 := by rw [← List.length_eq_zero_iff, seq_length]
  unfold popFront
  by_cases h0 : d.buf.sz = 0
  · rw [if_pos (by simp [Buf.isEmpty, h0])]
    exact ⟨h, by rw [hnil.2 h0]; rfl, by rw [if_pos (hnil.2 h0)], by trivial, by trivial⟩
  · rw [if_neg (by simp [Buf.isEmpty, h0]), if_neg (by rw [hnil]; exact h0)]
    have hf' : d.front < d.buf.cap := by omega
    have hsm : d.buf.sizeMinus 1 = ({ d.buf with sz := d.buf.sz - 1 }, .ok) := by
      simp only [Buf.sizeMinus]; rw [if_neg (by omega)]
    simp only [hsm]
    refine ⟨⟨hl, by simp only; omega, Or.inl ?_⟩, ?_, by trivial, by trivial, rfl⟩
    · simp only; rw [increment_eq hf']; exact Nat.mod_lt _ (by omega)
    · apply List.ext_getElem
      · simp
      · intro i h1 h2
        simp only [seq, ring_getElem, List.getElem_drop]
        rw [increment_eq hf', Nat.mod_add_mod]; congr 2; omega

/-- **C07, C08.**  `pop_back` drops the last element; on an empty queue it is an input error without effect. -/
theorem C07_pop_back (d : Fdeq α) (h : d.Inv) :
    d.popBack.1.Inv ∧ d.popBack.1.seq = d.seq.dropLast ∧ d.popBack.2 = (if d.seq = [] then .inputErr else .ok) ∧
      d.popBack.1.buf.hasAlloc = d.buf.hasAlloc ∧ d.popBack.1.capacity = d.capacity := by
  have hl := h.len
  have hsz := h.sz
  have hf := h.front
  have hnil : d.seq = [] ↔ d.buf.sz = 0 := by rw [← List.length_eq_zero_iff, seq_length]
  unfold popBack
  by_cases h0 : d.buf.sz = 0
  · have hsm : d.buf.sizeMinus 1 = ({ d.buf with sz := 0 }, .inputErr) := by simp [Buf.sizeMinus, h0]
    have hd : ({ d with buf := { d.buf with sz := 0 } } : Fdeq α) = d := by
      obtain ⟨⟨mem, len, sz, cap, a⟩, fr⟩ := d; simp at h0; subst h0; rfl
    simp only [hsm, hd]
    exact ⟨h, by rw [hnil.2 h0]; rfl, by rw [if_pos (hnil.2 h0)], by trivial, by trivial⟩
  · rw [if_neg (by rw [hnil]; exact h0)]
    have hsm : d.buf.sizeMinus 1 = ({ d.buf with sz := d.buf.sz - 1 }, .ok) := by
      simp only [Buf.sizeMinus]; rw [if_neg (by omega)]
    simp only [hsm]
    refine ⟨⟨hl, by simp only; omega, hf⟩, ?_, by trivial, by trivial, rfl⟩
    apply List.ext_getElem
    · simp
    · intro i h1 h2
      simp [seq]

/-! ### C09 and the range part of C07 -/

/-- the result of writing a range behind the last element of an array with spare slots -/
theorem backRange_core {d : Fdeq α} (h : d.Inv) (xs : List α) (hn : xs.length < d.buf.cap) :
    ∃ d', (do
      let back ← d.backFreeSlot
      let b ← putRange d.buf back (xs.take (min xs.length (d.buf.cap - back)))
      let b ← (if xs.length - min xs.length (d.buf.cap - back) ≠ 0 then
        putRange b ((back + min xs.length (d.buf.cap - back)) % d.buf.cap) (xs.drop (min xs.length (d.buf.cap - back)))
        else some b : Option (Buf α))
      pure (({ buf := (b.sizeSet (min d.buf.cap (d.buf.sz + xs.length))).1,
               front := if d.buf.sz + xs.length > d.buf.cap
                  then (d.front + (d.buf.sz + xs.length - d.buf.cap)) % d.buf.cap else d.front } : Fdeq α), Res.ok)) = some (d', .ok) ∧
      d'.Inv ∧ d'.seq = lastN d.buf.cap (d.seq ++ xs) ∧ d'.buf.hasAlloc = d.buf.hasAlloc ∧ d'.buf.cap = d.buf.cap := by
  have hl := h.len
  have hsz := h.sz
  have hf : d.front < d.buf.cap := by have := h.front; omega
  have hc : 0 < d.buf.cap := by omega
  have hb : d.backFreeSlot = some ((d.front + d.buf.sz) % d.buf.cap) := by
    simp [backFreeSlot, modCap, show d.buf.cap ≠ 0 by omega]
  have hback : (d.front + d.buf.sz) % d.buf.cap < d.buf.cap := Nat.mod_lt _ hc
  obtain ⟨b', e, hw, h1, h2, h3, h4⟩ := putBack_spec (b := d.buf) (xs := xs) hl hback (Nat.le_of_lt hn)
  have hset : (b'.sizeSet (min d.buf.cap (d.buf.sz + xs.length))).1 = { b' with sz := min d.buf.cap (d.buf.sz + xs.length) } := by
    simp only [Buf.sizeSet]; rw [if_neg (by omega)]
  refine ⟨{ buf := { b' with sz := min d.buf.cap (d.buf.sz + xs.length) },
            front := if d.buf.sz + xs.length > d.buf.cap
                then (d.front + (d.buf.sz + xs.length - d.buf.cap)) % d.buf.cap else d.front }, ?_, ?_, ?_, h4, h3⟩
  · rw [hb]
    simp only [Option.bind_eq_bind, Option.bind_some]
    rw [← Option.bind_assoc, e]
    simp only [Option.bind_some, hset]; rfl
  · refine ⟨by simp only; omega, by simp only; omega, Or.inl ?_⟩
    simp only; rw [h3]; split
    · exact Nat.mod_lt _ hc
    · exact hf
  · have := ring_write_back (ex := d.buf.sz + xs.length - d.buf.cap) hc hw (by omega) (by omega)
    simp only [seq, lastN, h3, List.length_append, ring_length]
    rw [← this]
    rw [show min d.buf.cap (d.buf.sz + xs.length) = d.buf.sz + xs.length - (d.buf.sz + xs.length - d.buf.cap) by omega]
    apply ring_congr
    intro i hi
    split
    · rfl
    · rw [show d.buf.sz + xs.length - d.buf.cap = 0 by omega, Nat.add_zero, Nat.mod_add_mod]

/-- the branch `n >= cap`: the array is overwritten by the end of the range -/
theorem bigRange_core {d : Fdeq α} (h : d.Inv) (xs : List α) (hn : d.buf.cap ≤ xs.length) :
    ∃ d', (do
      let b ← putRange d.buf 0 (xs.drop (xs.length - d.buf.cap))
      pure (({ buf := (b.sizeSet d.buf.cap).1, front := 0 } : Fdeq α), Res.ok)) = some (d', .ok) ∧
      d'.Inv ∧ d'.seq = lastN d.buf.cap xs ∧ d'.buf.hasAlloc = d.buf.hasAlloc ∧ d'.buf.cap = d.buf.cap := by
  have hl := h.len
  have hput : putRange d.buf 0 (xs.drop (xs.length - d.buf.cap)) =
      some { d.buf with mem := writeList d.buf.mem 0 (xs.drop (xs.length - d.buf.cap)) } := by
    simp only [putRange, List.length_drop]; rw [if_pos (by omega)]
  have hset : ∀ b : Buf α, b.cap = d.buf.cap → (b.sizeSet d.buf.cap).1 = { b with sz := d.buf.cap } := by
    intro b hb; simp only [Buf.sizeSet]; rw [if_neg (by omega)]
  refine ⟨{ buf := { d.buf with mem := writeList d.buf.mem 0 (xs.drop (xs.length - d.buf.cap)), sz := d.buf.cap }, front := 0 },
    ?_, ⟨hl, by simp, by show 0 < d.buf.cap ∨ (d.buf.cap = 0 ∧ 0 = 0); omega⟩, ?_, rfl, rfl⟩
  · rw [hput]; simp only [Option.bind_eq_bind, Option.bind_some]
    have := hset { d.buf with mem := writeList d.buf.mem 0 (xs.drop (xs.length - d.buf.cap)) } rfl
    simp only at this
    rw [this]; rfl
  · apply List.ext_getElem
    · simp [lastN]; omega
    · intro i h1 h2
      simp only [seq_length] at h1
      simp only [seq, ring_getElem, lastN, Nat.zero_add]
      rw [Nat.mod_eq_of_lt h1, writeList_hit _ (Nat.zero_le _) (by simp; omega)]
      simp

/-- **C09.**  On a ring, `push_back_range` leaves the last `c` elements of `sequence ++ range`. -/
theorem C09_push_back_range (d : Fdeq α) (h : d.Inv) (ha : d.buf.hasAlloc = false) (xs : List α) (ans : AllocAns α) :
    ∃ d', d.pushBackRange xs ans = some (d', .ok) ∧ d'.Inv ∧ d'.seq = lastN d.capacity (d.seq ++ xs) ∧
      d'.buf.hasAlloc = false ∧ d'.capacity = d.capacity := by
  have hsz := h.sz
  have main : ∀ r, d.maybeResize xs.length ans = some (d, r) →
      ∃ d', d.pushBackRange xs ans = some (d', .ok) ∧ d'.Inv ∧ d'.seq = lastN d.capacity (d.seq ++ xs) ∧
      d'.buf.hasAlloc = false ∧ d'.capacity = d.capacity := by
    intro r e
    unfold pushBackRange
    simp only [e, Option.bind_eq_bind, Option.bind_some, ha, Bool.false_eq_true, false_and, if_false]
    by_cases hn : xs.length ≥ d.buf.cap
    · rw [if_pos hn]
      obtain ⟨d', e', hi, hs, h1, h2⟩ := bigRange_core h xs hn
      refine ⟨d', e', hi, ?_, by rw [h1, ha], h2⟩
      rw [hs]; simp only [lastN, capacity, List.length_append, seq_length, List.drop_append]
      rw [List.drop_of_length_le (l := d.seq) (by rw [seq_length]; omega), List.nil_append]; congr 1; omega
    · rw [if_neg hn]
      obtain ⟨d', e', hi, hs, h1, h2⟩ := backRange_core h xs (by omega)
      exact ⟨d', e', hi, hs, by rw [h1, ha], h2⟩
  rcases maybeResize_spec h xs.length ans with ⟨_, e⟩ | ⟨_, _, e⟩ | ⟨_, h2, _⟩ | ⟨_, h2, _⟩
  · exact main _ e
  · exact main _ e
  · rw [ha] at h2; simp at h2
  · rw [ha] at h2; simp at h2

/-- the result of writing a range before the first element -/
theorem frontRange_core {d : Fdeq α} (h : d.Inv) (xs : List α) (hn : xs.length < d.buf.cap) (h0 : xs ≠ []) :
    let space := frontFreeSlot d.front d.buf.cap + 1
    let i := if xs.length > space then 0 else space - xs.length
    let chunk := min xs.length space
    let rem := xs.length - chunk
    ∃ d', (do
      let b ← putRange d.buf i (xs.drop (xs.length - chunk))
      let b ← (if rem ≠ 0 then putRange b (d.buf.cap - rem) (xs.take rem) else some b : Option (Buf α))
      pure (({ buf := (b.sizeSet (min d.buf.cap (d.buf.sz + xs.length))).1,
               front := if rem ≠ 0 then d.buf.cap - rem else i } : Fdeq α), Res.ok)) = some (d', .ok) ∧
      d'.Inv ∧ d'.seq = (xs ++ d.seq).take d.buf.cap ∧ d'.buf.hasAlloc = d.buf.hasAlloc ∧ d'.buf.cap = d.buf.cap := by
  have hl := h.len
  have hsz := h.sz
  have hf : d.front < d.buf.cap := by have := h.front; omega
  have hc : 0 < d.buf.cap := by omega
  have hpos : 0 < xs.length := List.length_pos_iff.2 h0
  intro space i chunk rem
  obtain ⟨b', e, hw, hnf, hmod, h1, h2, h3, h4⟩ := putFront_spec (b := d.buf) (xs := xs) hl hf hn hpos
  have hset : (b'.sizeSet (min d.buf.cap (d.buf.sz + xs.length))).1 = { b' with sz := min d.buf.cap (d.buf.sz + xs.length) } := by
    simp only [Buf.sizeSet]; rw [if_neg (by omega)]
  refine ⟨{ buf := { b' with sz := min d.buf.cap (d.buf.sz + xs.length) }
            front := if rem ≠ 0 then d.buf.cap - rem else i }, ?_, ?_, ?_, h4, h3⟩
  · have e' : ((putRange d.buf i (xs.drop (xs.length - chunk))).bind fun b1 =>
        if rem ≠ 0 then putRange b1 (d.buf.cap - rem) (xs.take rem) else some b1) = some b' := e
    simp only [Option.bind_eq_bind]
    rw [← Option.bind_assoc, e']
    simp only [Option.bind_some, hset]; rfl
  · refine ⟨by simp only; omega, by simp only; omega, Or.inl ?_⟩
    simp only; rw [h3]; exact hnf
  · have := ring_write_front (f := d.buf.mem) (p := d.front) (sz := d.buf.sz)
      (m := min d.buf.cap (d.buf.sz + xs.length) - xs.length) hc hw
      (by rw [hmod, Nat.mod_eq_of_lt hf]) (by omega) (by omega)
    simp only [seq, h3]
    rw [show min d.buf.cap (d.buf.sz + xs.length) = xs.length + (min d.buf.cap (d.buf.sz + xs.length) - xs.length) by omega]
    refine this.trans ?_
    rw [List.take_append, List.take_of_length_le (l := xs) (by omega)]
    congr 1
    apply List.ext_getElem
    · simp; omega
    · intro i h1 h2; simp

/-- **C09.**  On a ring, `push_front_range` of a non-empty range shorter than the capacity leaves the first `c`
elements of `range ++ sequence`; a longer range leaves exactly its last `c` elements. -/
theorem C09_push_front_range_partial (d : Fdeq α) (h : d.Inv) (ha : d.buf.hasAlloc = false) (xs : List α) (h0 : xs ≠ [])
    (ans : AllocAns α) :
    ∃ d', d.pushFrontRange xs ans = some (d', .ok) ∧ d'.Inv ∧
      d'.seq = (if xs.length < d.capacity then (xs ++ d.seq).take d.capacity else lastN d.capacity xs) ∧
      d'.buf.hasAlloc = false ∧ d'.capacity = d.capacity := by
  have main : ∀ r, d.maybeResize xs.length ans = some (d, r) →
      ∃ d', d.pushFrontRange xs ans = some (d', .ok) ∧ d'.Inv ∧
      d'.seq = (if xs.length < d.capacity then (xs ++ d.seq).take d.capacity else lastN d.capacity xs) ∧
      d'.buf.hasAlloc = false ∧ d'.capacity = d.capacity := by
    intro r e
    unfold pushFrontRange
    simp only [e, Option.bind_eq_bind, Option.bind_some, ha, Bool.false_eq_true, false_and, if_false]
    by_cases hn : xs.length ≥ d.buf.cap
    · rw [if_pos hn]
      obtain ⟨d', e', hi, hs, h1, h2⟩ := bigRange_core h xs hn
      refine ⟨d', e', hi, ?_, by rw [h1, ha], h2⟩
      rw [if_neg (by simp only [capacity]; omega)]; exact hs
    · rw [if_neg hn]
      obtain ⟨d', e', hi, hs, h1, h2⟩ := frontRange_core h xs (by omega) h0
      refine ⟨d', e', hi, ?_, by rw [h1, ha], h2⟩
      rw [if_pos (by simp only [capacity]; omega)]; exact hs
  rcases maybeResize_spec h xs.length ans with ⟨_, e⟩ | ⟨_, _, e⟩ | ⟨_, h2, _⟩ | ⟨_, h2, _⟩
  · exact main _ e
  · exact main _ e
  · rw [ha] at h2; simp at h2
  · rw [ha] at h2; simp at h2

/-- What is missing from `C09_push_front_range_partial`: pushing an empty range on a queue whose front is slot 0 moves the
front index to the capacity, after which `ccc_fdeq_front` of a non-empty queue is NULL. -/
theorem C09_empty_front_range_breaks_front :
    ∃ d d' : Fdeq Nat, d.Inv ∧ d.seq = [7] ∧ d.pushFrontRange [] none = some (d', .ok) ∧ d'.size = 1 ∧
      d'.frontElem = none ∧ ¬ d'.Inv := by
  refine ⟨{ buf := { mem := fun _ => 7, len := 4, sz := 1, cap := 4, hasAlloc := false }, front := 0 },
    { buf := { mem := fun _ => 7, len := 4, sz := 1, cap := 4, hasAlloc := false }, front := 4 }, ?_, ?_, ?_, rfl, rfl, ?_⟩
  · exact ⟨rfl, by simp, Or.inl (by simp)⟩
  · simp [seq, ring]
  · have : writeList (fun _ : Nat => 7) 4 [] = fun _ => 7 := by funext i; simp [writeList]
    simp [pushFrontRange, maybeResize, frontFreeSlot, capPred, putRange, Buf.sizeSet, this]
  · intro h; have := h.front; simp at this

/-- **C07.**  With an allocator, `push_back_range` appends the range, except for more than eight elements on a queue
that never allocated; if memory is needed and refused it reports a memory error and nothing changes. -/
theorem C07_push_back_range_partial (d : Fdeq α) (h : d.Inv) (ha : d.buf.hasAlloc = true) (xs : List α) (ans : AllocAns α)
    (hbig : d.capacity = 0 → xs.length ≤ 8) :
    (¬ (d.size + xs.length ≥ d.capacity ∧ ans = none) ∧ ∃ d', d.pushBackRange xs ans = some (d', .ok) ∧ d'.Inv ∧
      d'.seq = d.seq ++ xs ∧ d'.buf.hasAlloc = true ∧ d.capacity ≤ d'.capacity) ∨
    ((d.size + xs.length ≥ d.capacity ∧ ans = none) ∧ d.pushBackRange xs ans = some (d, .memErr)) := by
  have hsz := h.sz
  have hlast : ∀ d1 : Fdeq α, d1.buf.sz + xs.length ≤ d1.buf.cap → lastN d1.buf.cap (d1.seq ++ xs) = d1.seq ++ xs := by
    intro d1 hle
    simp only [lastN, List.length_append, seq_length]
    rw [show d1.buf.sz + xs.length - d1.buf.cap = 0 by omega]; rfl
  have main : ∀ d1 : Fdeq α, d1.Inv → d1.buf.hasAlloc = true → d1.buf.sz + xs.length ≤ d1.buf.cap →
      d.maybeResize xs.length ans = some (d1, .ok) → d.buf.cap ≤ d1.buf.cap →
      ∃ d', d.pushBackRange xs ans = some (d', .ok) ∧ d'.Inv ∧ d'.seq = d1.seq ++ xs ∧ d'.buf.hasAlloc = true ∧ d.capacity ≤ d'.capacity := by
    intro d1 hi1 ha1 hle e hcl
    unfold pushBackRange
    simp only [e, Option.bind_eq_bind, Option.bind_some, ne_eq, not_true_eq_false, and_false, if_false]
    by_cases hn : xs.length ≥ d1.buf.cap
    · rw [if_pos hn]
      obtain ⟨d', e', hi, hs, h1, h2⟩ := bigRange_core hi1 xs hn
      refine ⟨d', e', hi, ?_, by rw [h1, ha1], by show d.buf.cap ≤ d'.buf.cap; omega⟩
      have hz : d1.seq = [] := by rw [← List.length_eq_zero_iff, seq_length]; omega
      rw [hs, hz, lastN, show xs.length - d1.buf.cap = 0 by omega]; rfl
    · rw [if_neg hn]
      obtain ⟨d', e', hi, hs, h1, h2⟩ := backRange_core hi1 xs (by omega)
      exact ⟨d', e', hi, by rw [hs, hlast d1 hle], by rw [h1, ha1], by show d.buf.cap ≤ d'.buf.cap; omega⟩
  rcases maybeResize_spec h xs.length ans with ⟨h1, e⟩ | ⟨_, h2, _⟩ | ⟨h1, _, h3, e⟩ | ⟨h1, _, junk, h3, d1, e, g⟩
  · left
    refine ⟨fun hc => by have : d.buf.sz + xs.length ≥ d.buf.cap := hc.1; omega, main d h ha (by omega) e (Nat.le_refl _)⟩
  · rw [ha] at h2; simp at h2
  · right
    refine ⟨⟨show d.buf.sz + xs.length ≥ d.buf.cap by omega, h3⟩, ?_⟩
    simp [pushBackRange, e, ha]
  · left
    refine ⟨by rw [h3]; simp, ?_⟩
    rw [← g.seq]
    refine main d1 g.inv (by rw [g.alloc, ha]) ?_ e g.cap_le
    rw [g.sz, g.cap]
    by_cases hc0 : d.buf.cap = 0
    · have := hbig hc0; simp [hc0]; omega
    · simp [hc0]; omega

/-- **C07.**  With an allocator, `push_front_range` prepends the range, under the same condition (and the range is not
empty, see C09). -/
theorem C07_push_front_range_partial (d : Fdeq α) (h : d.Inv) (ha : d.buf.hasAlloc = true) (xs : List α) (h0 : xs ≠ [])
    (ans : AllocAns α) (hbig : d.capacity = 0 → xs.length ≤ 8) :
    (¬ (d.size + xs.length ≥ d.capacity ∧ ans = none) ∧ ∃ d', d.pushFrontRange xs ans = some (d', .ok) ∧ d'.Inv ∧
      d'.seq = xs ++ d.seq ∧ d'.buf.hasAlloc = true ∧ d.capacity ≤ d'.capacity) ∨
    ((d.size + xs.length ≥ d.capacity ∧ ans = none) ∧ d.pushFrontRange xs ans = some (d, .memErr)) := by
  have hsz := h.sz
  have main : ∀ d1 : Fdeq α, d1.Inv → d1.buf.hasAlloc = true → d1.buf.sz + xs.length ≤ d1.buf.cap →
      d.maybeResize xs.length ans = some (d1, .ok) → d.buf.cap ≤ d1.buf.cap →
      ∃ d', d.pushFrontRange xs ans = some (d', .ok) ∧ d'.Inv ∧ d'.seq = xs ++ d1.seq ∧ d'.buf.hasAlloc = true ∧ d.capacity ≤ d'.capacity := by
    intro d1 hi1 ha1 hle e hcl
    unfold pushFrontRange
    simp only [e, Option.bind_eq_bind, Option.bind_some, ne_eq, not_true_eq_false, and_false, if_false]
    by_cases hn : xs.length ≥ d1.buf.cap
    · rw [if_pos hn]
      obtain ⟨d', e', hi, hs, h1, h2⟩ := bigRange_core hi1 xs hn
      refine ⟨d', e', hi, ?_, by rw [h1, ha1], by show d.buf.cap ≤ d'.buf.cap; omega⟩
      have hz : d1.seq = [] := by rw [← List.length_eq_zero_iff, seq_length]; omega
      rw [hs, hz, lastN, show xs.length - d1.buf.cap = 0 by omega]; simp
    · rw [if_neg hn]
      obtain ⟨d', e', hi, hs, h1, h2⟩ := frontRange_core hi1 xs (by omega) h0
      refine ⟨d', e', hi, ?_, by rw [h1, ha1], by show d.buf.cap ≤ d'.buf.cap; omega⟩
      rw [hs, List.take_of_length_le (by simp; omega)]
  rcases maybeResize_spec h xs.length ans with ⟨h1, e⟩ | ⟨_, h2, _⟩ | ⟨h1, _, h3, e⟩ | ⟨h1, _, junk, h3, d1, e, g⟩
  · left
    refine ⟨fun hc => by have : d.buf.sz + xs.length ≥ d.buf.cap := hc.1; omega, main d h ha (by omega) e (Nat.le_refl _)⟩
  · rw [ha] at h2; simp at h2
  · right
    refine ⟨⟨show d.buf.sz + xs.length ≥ d.buf.cap by omega, h3⟩, ?_⟩
    simp [pushFrontRange, e, ha]
  · left
    refine ⟨by rw [h3]; simp, ?_⟩
    rw [← g.seq]
    refine main d1 g.inv (by rw [g.alloc, ha]) ?_ e g.cap_le
    rw [g.sz, g.cap]
    by_cases hc0 : d.buf.cap = 0
    · have := hbig hc0; simp [hc0]; omega
    · simp [hc0]; omega

/-- What is missing from the range part of C07: pushing nine elements on a fresh queue with an allocator reports success
and stores eight. -/
theorem C07_first_range_truncated :
    ∃ d', (init (fun _ => 0) 0 true : Fdeq Nat).pushBackRange [1, 2, 3, 4, 5, 6, 7, 8, 9] (some fun _ => 0) = some (d', .ok) ∧
      d'.seq = [2, 3, 4, 5, 6, 7, 8, 9] := by
  have hg : Fdeq.Inv (α := Nat) { buf := { mem := fun _ => 0, len := 8, sz := 0, cap := 8, hasAlloc := true }, front := 0 } :=
    ⟨rfl, by simp, Or.inl (by simp)⟩
  obtain ⟨d', e, hi, hs, _⟩ := bigRange_core hg [1, 2, 3, 4, 5, 6, 7, 8, 9] (by simp)
  refine ⟨d', ?_, by rw [hs]; rfl⟩
  rw [← e]
  simp [pushBackRange, maybeResize, init, Buf.init]

/-! ### Histories -/

/-- Calls of the queue interface. -/
inductive Op (α : Type) where
  | pushBack (x : α) (ans : AllocAns α)
  | pushFront (x : α) (ans : AllocAns α)
  | pushBackRange (xs : List α) (ans : AllocAns α)
  | pushFrontRange (xs : List α) (ans : AllocAns α)
  | popBack
  | popFront
  | clear

/-- What the program sees: the value behind the returned pointer (`none`: NULL) or the result code. -/
inductive Out (α : Type) where
  | ptr (v : Option α)
  | res (r : Res)

/-- the value behind a returned pointer -/
def deref (d : Fdeq α) (s : Slot) : Option α := s.bind d.buf.load

/-- One call. -/
def step (d : Fdeq α) : Op α → Option (Fdeq α × Out α)
  | .pushBack x a => (d.pushBack x a).map fun r => (r.1, .ptr (r.1.deref r.2))
  | .pushFront x a => (d.pushFront x a).map fun r => (r.1, .ptr (r.1.deref r.2))
  | .pushBackRange xs a => (d.pushBackRange xs a).map fun r => (r.1, .res r.2)
  | .pushFrontRange xs a => (d.pushFrontRange xs a).map fun r => (r.1, .res r.2)
  | .popBack => some (d.popBack.1, .res d.popBack.2)
  | .popFront => some (d.popFront.1, .res d.popFront.2)
  | .clear => (d.clear false).map fun r => (r.1, .res r.2.1)

/-- A history. -/
def run (d : Fdeq α) : List (Op α) → Option (Fdeq α × List (Out α))
  | [] => some (d, [])
  | op :: ops => do
    let (d, o) ← d.step op
    let (d, os) ← run d ops
    pure (d, o :: os)

/-- Specification of the ring of capacity `c`. -/
def ringSpec (c : Nat) (l : List α) : Op α → List α × Out α
  | .pushBack x _ => (lastN c (l ++ [x]), .ptr (some x))
  | .pushFront x _ => ((x :: l).take c, .ptr (some x))
  | .pushBackRange xs _ => (lastN c (l ++ xs), .res .ok)
  | .pushFrontRange xs _ => (if xs.length < c then (xs ++ l).take c else lastN c xs, .res .ok)
  | .popBack => (l.dropLast, .res (if l = [] then .inputErr else .ok))
  | .popFront => (l.drop 1, .res (if l = [] then .inputErr else .ok))
  | .clear => ([], .res .ok)

/-- Specification of a ring history. -/
def ringSpecRun (c : Nat) (l : List α) : List (Op α) → List α × List (Out α)
  | [] => (l, [])
  | op :: ops => let r := ringSpecRun c (ringSpec c l op).1 ops; (r.1, (ringSpec c l op).2 :: r.2)

/-- the excluded call, see `C09_empty_front_range_breaks_front` -/
def NoEmptyFrontRange : Op α → Prop
  | .pushFrontRange xs _ => xs ≠ []
  | _ => True

theorem deref_some {d : Fdeq α} {k : Nat} (hk : k < d.buf.len) : d.deref (some k) = some (d.buf.mem k) := by
  simp [deref, Buf.load, hk]

theorem clear_spec (d : Fdeq α) (h : d.Inv) :
    ∃ d', d.clear false = some (d', .ok, []) ∧ d'.Inv ∧ d'.seq = [] ∧ d'.buf.hasAlloc = d.buf.hasAlloc ∧
      d'.capacity = d.capacity := by
  refine ⟨{ buf := { d.buf with sz := 0 }, front := 0 }, by simp [clear, Buf.sizeSet], ⟨h.len, Nat.zero_le _, ?_⟩, rfl, rfl, rfl⟩
  have := h.front; show 0 < d.buf.cap ∨ (d.buf.cap = 0 ∧ 0 = 0); omega

/-- **C08, C09.**  Every history of a ring of capacity `c > 0` (without empty front ranges) runs without undefined
behaviour and gives exactly the results and the final sequence of the specification `ringSpec`. -/
theorem C08_ring_history_partial (ops : List (Op α)) : ∀ (d : Fdeq α), d.Inv → d.buf.hasAlloc = false → 0 < d.capacity →
    (∀ op ∈ ops, NoEmptyFrontRange op) →
    ∃ d' os, d.run ops = some (d', os) ∧ d'.Inv ∧ (d'.seq, os) = ringSpecRun d.capacity d.seq ops := by
  induction ops with
  | nil => intro d h _ _ _; exact ⟨d, [], rfl, h, rfl⟩
  | cons op ops ih =>
    intro d h ha hc hops
    have key : ∃ d1 o, d.step op = some (d1, o) ∧ d1.Inv ∧ d1.buf.hasAlloc = false ∧ d1.capacity = d.capacity ∧
        (d1.seq, o) = ringSpec d.capacity d.seq op := by
      cases op with
      | pushBack x a =>
        obtain ⟨d', k, e, hi, hs, hk, hm, h1, h2⟩ := C08_push_back d h ha hc x a
        exact ⟨d', .ptr (some x), by simp [step, e, deref_some hk, hm], hi, h1, h2, by rw [hs]; rfl⟩
      | pushFront x a =>
        obtain ⟨d', k, e, hi, hs, hk, hm, h1, h2⟩ := C08_push_front d h ha hc x a
        exact ⟨d', .ptr (some x), by simp [step, e, deref_some hk, hm], hi, h1, h2, by rw [hs]; rfl⟩
      | pushBackRange xs a =>
        obtain ⟨d', e, hi, hs, h1, h2⟩ := C09_push_back_range d h ha xs a
        exact ⟨d', .res .ok, by simp [step, e], hi, h1, h2, by rw [hs]; rfl⟩
      | pushFrontRange xs a =>
        obtain ⟨d', e, hi, hs, h1, h2⟩ := C09_push_front_range_partial d h ha xs (hops (.pushFrontRange xs a) (by simp)) a
        exact ⟨d', .res .ok, by simp [step, e], hi, h1, h2, by rw [hs]; rfl⟩
      | popBack =>
        obtain ⟨hi, hs, hr, h1, h2⟩ := C07_pop_back d h
        exact ⟨_, _, rfl, hi, by rw [h1, ha], h2, by rw [hs, hr]; rfl⟩
      | popFront =>
        obtain ⟨hi, hs, hr, h1, h2⟩ := C07_pop_front d h
        exact ⟨_, _, rfl, hi, by rw [h1, ha], h2, by rw [hs, hr]; rfl⟩
      | clear =>
        obtain ⟨d', e, hi, hs, h1, h2⟩ := clear_spec d h
        exact ⟨d', .res .ok, by simp [step, e], hi, by rw [h1, ha], h2, by rw [hs]; rfl⟩
    obtain ⟨d1, o, e, hi, h1, h2, hs⟩ := key
    obtain ⟨d2, os, e2, hi2, hs2⟩ := ih d1 hi h1 (by rw [h2]; exact hc) (fun op hop => hops op (List.mem_cons_of_mem _ hop))
    refine ⟨d2, o :: os, by simp [run, e, e2], hi2, ?_⟩
    have ha1 : (ringSpec d.capacity d.seq op).1 = d1.seq := by rw [← hs]
    have ha2 : (ringSpec d.capacity d.seq op).2 = o := by rw [← hs]
    simp only [ringSpecRun, ha1, ha2]
    rw [h2] at hs2
    rw [← hs2]

/-- Hypotheses of the history theorem are met: a ring of three slots. -/
example : (init (fun _ => 0) 3 false : Fdeq Nat).Inv ∧ 0 < (init (fun _ => 0) 3 false : Fdeq Nat).capacity ∧
    (∀ op ∈ [Op.pushBack 1 none, .pushFrontRange [5, 6] none, .popBack], NoEmptyFrontRange op) := by
  refine ⟨init_inv _ _ _, by simp [init, Buf.init, capacity], ?_⟩
  intro op hop
  simp at hop
  rcases hop with rfl | rfl | rfl <;> simp [NoEmptyFrontRange]

/-- Specification with an allocator: calls act on an unbounded sequence; a call that needs memory may fail, and then
the sequence is unchanged (only when the allocator refused). -/
def seqSpec (l : List α) : Op α → Out α → List α → Prop
  | .pushBack x a, o, l' => (o = .ptr (some x) ∧ l' = l ++ [x]) ∨ (a = none ∧ o = .ptr none ∧ l' = l)
  | .pushFront x a, o, l' => (o = .ptr (some x) ∧ l' = x :: l) ∨ (a = none ∧ o = .ptr none ∧ l' = l)
  | .pushBackRange xs a, o, l' => (o = .res .ok ∧ l' = l ++ xs) ∨ (a = none ∧ o = .res .memErr ∧ l' = l)
  | .pushFrontRange xs a, o, l' => (o = .res .ok ∧ l' = xs ++ l) ∨ (a = none ∧ o = .res .memErr ∧ l' = l)
  | .popBack, o, l' => o = .res (if l = [] then .inputErr else .ok) ∧ l' = l.dropLast
  | .popFront, o, l' => o = .res (if l = [] then .inputErr else .ok) ∧ l' = l.drop 1
  | .clear, o, l' => o = .res .ok ∧ l' = []

/-- Specification of a history with an allocator. -/
def seqSpecRun : List (Op α) → List α → List (Out α) → List α → Prop
  | [], l, os, l' => os = [] ∧ l' = l
  | op :: ops, l, os, l' => ∃ o os' m, os = o :: os' ∧ seqSpec l op o m ∧ seqSpecRun ops m os' l'

/-- the excluded calls: empty front ranges, and ranges longer than eight if the queue starts without memory -/
def RangeOk (cap : Nat) : Op α → Prop
  | .pushFrontRange xs _ => xs ≠ [] ∧ (cap = 0 → xs.length ≤ 8)
  | .pushBackRange xs _ => cap = 0 → xs.length ≤ 8
  | _ => True

/-- **C07.**  Every history of a queue with an allocator acts as the corresponding history on a sequence, for every
allocator outcome.  (`RangeOk` bounds ranges at eight for a queue that starts without memory;
see `C07_first_range_truncated`.) -/
theorem C07_history_partial (ops : List (Op α)) : ∀ (d : Fdeq α), d.Inv → d.buf.hasAlloc = true →
    (∀ op ∈ ops, RangeOk d.capacity op) →
    ∃ d' os, d.run ops = some (d', os) ∧ d'.Inv ∧ seqSpecRun ops d.seq os d'.seq := by
  induction ops with
  | nil => intro d h _ _; exact ⟨d, [], rfl, h, rfl, rfl⟩
  | cons op ops ih =>
    intro d h ha hops
    have hop := hops op (by simp)
    have key : ∃ d1 o, d.step op = some (d1, o) ∧ d1.Inv ∧ d1.buf.hasAlloc = true ∧ d.capacity ≤ d1.capacity ∧ seqSpec d.seq op o d1.seq := by
      cases op with
      | pushBack x a =>
        rcases C07_push_back d h ha x a with ⟨_, d', k, e, hi, hs, hk, hm, h1, hcl⟩ | ⟨hr, e⟩
        · exact ⟨d', .ptr (some x), by simp [step, e, deref_some hk, hm], hi, h1, hcl, Or.inl ⟨rfl, hs⟩⟩
        · exact ⟨d, .ptr none, by simp [step, e, deref], h, ha, Nat.le_refl _, Or.inr ⟨hr.2, rfl, rfl⟩⟩
      | pushFront x a =>
        rcases C07_push_front d h ha x a with ⟨_, d', k, e, hi, hs, hk, hm, h1, hcl⟩ | ⟨hr, e⟩
        · exact ⟨d', .ptr (some x), by simp [step, e, deref_some hk, hm], hi, h1, hcl, Or.inl ⟨rfl, hs⟩⟩
        · exact ⟨d, .ptr none, by simp [step, e, deref], h, ha, Nat.le_refl _, Or.inr ⟨hr.2, rfl, rfl⟩⟩
      | pushBackRange xs a =>
        rcases C07_push_back_range_partial d h ha xs a hop with ⟨_, d', e, hi, hs, h1, hcl⟩ | ⟨hr, e⟩
        · exact ⟨d', .res .ok, by simp [step, e], hi, h1, hcl, Or.inl ⟨rfl, hs⟩⟩
        · exact ⟨d, .res .memErr, by simp [step, e], h, ha, Nat.le_refl _, Or.inr ⟨hr.2, rfl, rfl⟩⟩
      | pushFrontRange xs a =>
        rcases C07_push_front_range_partial d h ha xs hop.1 a hop.2 with ⟨_, d', e, hi, hs, h1, hcl⟩ | ⟨hr, e⟩
        · exact ⟨d', .res .ok, by simp [step, e], hi, h1, hcl, Or.inl ⟨rfl, hs⟩⟩
        · exact ⟨d, .res .memErr, by simp [step, e], h, ha, Nat.le_refl _, Or.inr ⟨hr.2, rfl, rfl⟩⟩
      | popBack =>
        obtain ⟨hi, hs, hr, h1, h2⟩ := C07_pop_back d h
        exact ⟨_, _, rfl, hi, by rw [h1, ha], Nat.le_of_eq h2.symm, by rw [hr], hs⟩
      | popFront =>
        obtain ⟨hi, hs, hr, h1, h2⟩ := C07_pop_front d h
        exact ⟨_, _, rfl, hi, by rw [h1, ha], Nat.le_of_eq h2.symm, by rw [hr], hs⟩
      | clear =>
        obtain ⟨d', e, hi, hs, h1, h2⟩ := clear_spec d h
        exact ⟨d', .res .ok, by simp [step, e], hi, by rw [h1, ha], Nat.le_of_eq h2.symm, rfl, hs⟩
    obtain ⟨d1, o, e, hi, h1, hcl, hs⟩ := key
    obtain ⟨d2, os, e2, hi2, hs2⟩ := ih d1 hi h1 (fun op hop => by
      have := hops op (List.mem_cons_of_mem _ hop)
      cases op <;> first | trivial | exact fun h0 => this (by omega) | exact ⟨this.1, fun h0 => this.2 (by omega)⟩)
    exact ⟨d2, o :: os, by simp [run, e, e2], hi2, o, os, d1.seq, rfl, hs, hs2⟩

/-- Hypotheses of the history theorem are met by a queue without memory and an allocator that refuses once. -/
example : (init (fun _ => 0) 0 true : Fdeq Nat).Inv ∧
    (∀ op ∈ [Op.pushBack 1 none, .pushFrontRange [5, 6] (some fun _ => 3), .popBack], RangeOk 0 op) := by
  refine ⟨init_inv _ _ _, ?_⟩
  intro op hop
  simp at hop
  rcases hop with rfl | rfl | rfl <;> simp [RangeOk]

end CCC.Fdeq
