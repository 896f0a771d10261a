import Verif.Model.BufferWord
import Verif.Proof.Window
/-
Property theorems for `src/buffer.c` (C01–C06).  The only vocabulary used by the statements:

* `Buf.seq b` — the stored sequence, slots `0 … sz-1` (specification);
* `Buf.Good b` — the allocation has `cap` slots and `sz ≤ cap`.
-/
namespace CCC.Buf
variable {α : Type}

/-- Specification: the sequence stored in a buffer. -/
def seq (b : Buf α) : List α := window b.mem 0 b.sz

/-- The state promised by the documentation: capacity describes the allocation, size within capacity. -/
def Good (b : Buf α) : Prop := b.len = b.cap ∧ b.sz ≤ b.cap

/-- The calls for which the library keeps its promises in state `b`:
reallocation not below the size; no positional insert before the end into a full buffer;
positional erase only among the last two elements unless `memcpy` tolerates overlap. -/
def Safe (b : Buf α) : Op α → Prop
  | .alloc c _ => b.sz ≤ c
  | .insert i _ _ => i < b.sz → b.sz < b.cap
  | .erase lax i => lax = true ∨ b.sz ≤ i + 2
  | _ => True

/-- Every call of the history is `Safe` in the state in which it is issued. -/
def SafeHist (b : Buf α) : List (Op α) → Prop
  | [] => True
  | op :: ops => b.Safe op ∧ ∀ b' o, b.step op = some (b', o) → SafeHist b' ops

/-! ### helper lemmas -/

theorem alloc_good {b : Buf α} (h : b.Good) {c : Nat} {f} (hc : b.sz ≤ c) : (b.alloc c f).1.Good := by
  unfold alloc Good at *
  rcases f with _ | _ | junk <;> simp <;> try omega
  all_goals split <;> simp <;> omega

/-- Capacity after a successful push: doubled when full, 8 when there was none. -/
def grown (b : Buf α) : Nat := if b.sz < b.cap then b.cap else if b.cap = 0 then 8 else b.cap * 2

theorem allocBack_cases {b : Buf α} (h : b.Good) (ans : AllocAns α) :
    (b.allocBack ans = (b, none) ∧ b.sz = b.cap ∧ (b.hasAlloc = false ∨ ans = none)) ∨
    ∃ b', b.allocBack ans = (b', some b.sz) ∧ b'.Good ∧ b'.sz = b.sz + 1 ∧ b'.hasAlloc = b.hasAlloc ∧
      b'.cap = grown b ∧ (b.sz < b.cap ∨ b.hasAlloc = true ∧ ans ≠ none) ∧
      (∀ i, i < b.sz → b'.mem i = b.mem i) := by
  obtain ⟨mem, len, sz, cap, ha⟩ := b
  simp only [Good] at h
  obtain ⟨rfl, hle⟩ := h
  by_cases hf : sz = len
  · subst hf
    by_cases h0 : sz = 0
    · subst h0
      cases ha <;> cases ans <;> simp [allocBack, fn, alloc, startCapacity, Good, grown]
    · have h2 : sz * 2 ≠ 0 := by omega
      cases ha <;> cases ans <;> simp [allocBack, fn, alloc, Good, h0, h2, grown]
      refine ⟨by omega, fun i h1 h2 => by omega⟩
  · right
    exact ⟨⟨mem, len, sz + 1, len, ha⟩, by simp [allocBack, hf], by simp [Good]; omega, rfl, rfl,
      by simp [grown]; omega, by simp only; omega, fun _ _ => rfl⟩

/-- Effect of `push_back`. -/
theorem pushBack_spec {b : Buf α} (h : b.Good) (x : α) (ans : AllocAns α) :
    (b.pushBack x ans = some (b, none) ∧ b.sz = b.cap ∧ (b.hasAlloc = false ∨ ans = none)) ∨
    ∃ b', b.pushBack x ans = some (b', some b.sz) ∧ b'.Good ∧ b'.seq = b.seq ++ [x] ∧
      b'.hasAlloc = b.hasAlloc ∧ b'.cap = grown b ∧ (b.sz < b.cap ∨ b.hasAlloc = true ∧ ans ≠ none) := by
  unfold pushBack
  rcases allocBack_cases h ans with ⟨e, hc⟩ | ⟨b', e, hg, hsz, ha, hcap, hok, hm⟩
  · left; simp [e, hc]
  · right
    have hlt : b.sz < b'.len := by unfold Good at hg; omega
    refine ⟨{ b' with mem := upd b'.mem b.sz x }, by simp [e, store, hlt], ?_, ?_, ha, hcap, hok⟩
    · simpa [Good] using hg
    · simp only [seq, hsz, window_succ]
      congr 1
      · apply window_congr
        intro i hi; simp [upd, Nat.ne_of_lt hi, hm i hi]
      · simp

theorem step_good {b : Buf α} (h : b.Good) {op : Op α} (hs : b.Safe op) :
    ∃ b' o, b.step op = some (b', o) ∧ b'.Good ∧ ∀ k, o = .slot (some k) → k < b'.cap := by
  cases op with
  | alloc c f => exact ⟨_, _, rfl, alloc_good h hs, by simp⟩
  | pushBack x ans =>
    rcases pushBack_spec h x ans with ⟨e, _⟩ | ⟨b', e, hg, hq, _⟩
    · exact ⟨b, .slot none, by simp [step, e], h, by simp⟩
    · refine ⟨b', .slot (some b.sz), by simp [step, e], hg, ?_⟩
      intro k hk
      have := congrArg List.length hq
      simp [seq] at this hk
      unfold Good at hg; omega
  | allocBack ans =>
    rcases allocBack_cases h ans with ⟨e, _⟩ | ⟨b', e, hg, hsz, _⟩
    · exact ⟨b, .slot none, by simp [step, e], h, by simp⟩
    · refine ⟨b', .slot (some b.sz), by simp [step, e], hg, ?_⟩
      intro k hk; simp at hk; unfold Good at hg; omega
  | popBack =>
    refine ⟨_, _, rfl, ?_, by simp⟩
    unfold popBack popBackN Good at *; split <;> simp <;> omega
  | popBackN n =>
    refine ⟨_, _, rfl, ?_, by simp⟩
    unfold popBackN Good at *; split <;> simp <;> omega
  | swap i j =>
    unfold Good at h
    by_cases hc : i ≥ b.cap ∨ j ≥ b.cap ∨ j = i
    · exact ⟨b, _, by simp only [step, swap, hc, if_true]; rfl, h, by simp⟩
    · have hi : i < b.len := by omega
      have hj : j < b.len := by omega
      refine ⟨{ b with mem := upd (upd b.mem i (b.mem j)) j (b.mem i) }, .res .ok, ?_, ?_, by simp⟩
      · simp only [step, swap, hc, if_false]; simp [load, store, hi, hj]
      · simpa [Good] using h
  | copy d s =>
    unfold Good at h
    by_cases hc : d ≥ b.cap ∨ s ≥ b.cap
    · exact ⟨b, _, by simp only [step, copy, hc, if_true]; rfl, h, by simp⟩
    · by_cases hds : d = s
      · subst hds
        refine ⟨b, .slot (some d), by simp only [step, copy, hc, if_false]; simp, h, ?_⟩
        intro k hk; simp at hk; omega
      · have hi : d < b.len := by omega
        have hj : s < b.len := by omega
        refine ⟨{ b with mem := upd b.mem d (b.mem s) }, .slot (some d), ?_, ?_, ?_⟩
        · simp only [step, copy, hc, if_false]; simp [load, store, hi, hj, hds]
        · simpa [Good] using h
        · intro k hk; simp at hk ⊢; omega
  | write i x =>
    by_cases h0 : b.len = 0
    · exact ⟨b, .res .inputErr, by simp [step, write, h0], h, by simp⟩
    · by_cases hc : i ≥ b.cap
      · exact ⟨b, .res .inputErr, by simp [step, write, h0, at_, hc], h, by simp⟩
      · have : i < b.len := by unfold Good at h; omega
        refine ⟨{ b with mem := upd b.mem i x }, .res .ok, by simp [step, write, h0, at_, hc, store, this], ?_,
          by simp⟩
        simpa [Good] using h
  | erase lax i =>
    unfold Good at h
    by_cases h1 : b.sz = 0 ∨ i ≥ b.sz
    · exact ⟨b, .res .inputErr, by simp only [step, erase, h1, if_true]; rfl, h, by simp⟩
    by_cases h2 : b.sz = 1
    · exact ⟨{ b with sz := 0 }, .res .ok, by rw [step, erase, if_neg h1, if_pos h2]; rfl,
        by simp [Good]; omega, by simp⟩
    by_cases h3 : i = b.sz - 1
    · refine ⟨{ b with sz := b.sz - 1 }, .res .ok, ?_, by simp [Good]; omega, by simp⟩
      rw [step, erase, if_neg h1, if_neg h2, if_pos h3]; rfl
    · refine ⟨{ b with mem := blockMove b.mem i (i + 1) (b.sz - (i + 1)), sz := b.sz - 1 }, .res .ok, ?_,
        by simp [Good]; omega, by simp⟩
      rw [step, erase, if_neg h1, if_neg h2, if_neg h3]
      have a1 : ¬ (i + 1 + (b.sz - (i + 1)) > b.len) := by omega
      have a2 : ¬ (2 ≤ b.sz - (i + 1) ∧ lax = false) := by
        rcases hs with hs | hs
        · simp [hs]
        · omega
      simp only [a1, a2, if_false]; rfl
  | insert i x ans =>
    by_cases h1 : b.len = 0 ∨ i > b.sz
    · exact ⟨b, .slot none, by simp only [step, insert, h1, if_true]; rfl, h, by simp⟩
    by_cases h2 : i = b.sz
    · have e : b.step (.insert i x ans) = b.step (.pushBack x ans) := by
        simp only [step]; rw [insert, if_neg h1, if_pos h2]
      rw [e]
      rcases pushBack_spec h x ans with ⟨e, _⟩ | ⟨b', e, hg, hq, _⟩
      · exact ⟨b, .slot none, by simp [step, e], h, by simp⟩
      · refine ⟨b', .slot (some b.sz), by simp [step, e], hg, ?_⟩
        intro k hk
        have := congrArg List.length hq
        simp [seq] at this hk
        unfold Good at hg; omega
    · have hs' : i < b.sz → b.sz < b.cap := hs
      unfold Good at h
      have a1 : ¬ (b.sz + 1 > b.len) := by omega
      refine ⟨{ b with mem := blockMove b.mem (i + 1) i (b.sz - i), sz := b.sz + 1 }, .slot (some i), ?_,
        by simp [Good]; omega, ?_⟩
      · simp only [step, insert, h1, h2, a1, if_false]; rfl
      · intro k hk; simp at hk ⊢; omega
  | sizePlus n =>
    refine ⟨_, _, rfl, ?_, by simp⟩
    unfold sizePlus Good at *; split <;> simp <;> omega
  | sizeMinus n =>
    refine ⟨_, _, rfl, ?_, by simp⟩
    unfold sizeMinus Good at *; split <;> simp <;> omega
  | sizeSet n =>
    refine ⟨_, _, rfl, ?_, by simp⟩
    unfold sizeSet Good at *; split <;> simp <;> omega
  | emplace i x =>
    by_cases hc : i ≥ b.cap
    · exact ⟨b, .slot none, by simp [step, emplace, at_, hc], h, by simp⟩
    · have : i < b.len := by unfold Good at h; omega
      refine ⟨{ b with mem := upd b.mem i x }, .slot (some i), by simp [step, emplace, at_, hc, store, this], ?_, ?_⟩
      · simpa [Good] using h
      · intro k hk; simp at hk; simp; omega
  | emplaceBack x ans =>
    rcases pushBack_spec h x ans with ⟨e, _⟩ | ⟨b', e, hg, hq, _⟩
    · exact ⟨b, .slot none, by simp [step, show b.emplaceBack x ans = _ from e], h, by simp⟩
    · refine ⟨b', .slot (some b.sz), by simp [step, show b.emplaceBack x ans = _ from e], hg, ?_⟩
      intro k hk
      have := congrArg List.length hq
      simp [seq] at this hk
      unfold Good at hg; omega

/-! ### C01 -/

/-- **C01 (partial).**  Every history of safe calls runs without undefined behaviour and ends in a state whose
capacity describes the allocation.  Missing: the calls excluded by `Safe`, for which the claim is false of the code
(`C01_insert_full_undefined`, `C01_shrink_then_push_undefined`, `C01_erase_overlap_undefined`). -/
theorem C01_no_out_of_bounds_partial (b : Buf α) (h : b.Good) (ops : List (Op α)) (hs : b.SafeHist ops) :
    ∃ b', b.run ops = some b' ∧ b'.Good := by
  induction ops generalizing b with
  | nil => exact ⟨b, rfl, h⟩
  | cons op ops ih =>
    obtain ⟨b', o, e, hg, _⟩ := step_good h hs.1
    obtain ⟨b'', e', hg'⟩ := ih b' hg (hs.2 b' o e)
    exact ⟨b'', by simp [run, e, e'], hg'⟩

/-- **C01 (partial).**  Any slot handed out by a safe call lies below the capacity. -/
theorem C01_returned_slot_in_bounds_partial (b : Buf α) (h : b.Good) (op : Op α) (hs : b.Safe op) :
    ∃ b' o, b.step op = some (b', o) ∧ ∀ k, o = .slot (some k) → k < b'.cap ∧ k < b'.len := by
  obtain ⟨b', o, e, hg, hk⟩ := step_good h hs
  exact ⟨b', o, e, fun k hk' => ⟨hk k hk', by have := hk k hk'; unfold Good at hg; omega⟩⟩

/-- the hypotheses are met by a non-trivial history: pushes with growth, an insert, an erase, a shrink to fit -/
example : let b := Buf.init (fun _ => 0) 2 true
    b.Good ∧ b.SafeHist [.pushBack 5 none, .pushBack 6 none, .pushBack 7 (some fun _ => 0), .insert 1 9 none,
      .erase true 0, .alloc 3 (some (some fun _ => 0))] := by
  simp [Good, SafeHist, Safe, init, step, pushBack, allocBack, store, alloc, fn, insert, erase]

/-- **C01 (negation).**  Inserting before the end of a full buffer writes past the allocation. -/
theorem C01_insert_full_undefined (b : Buf α) (h : b.Good) (hf : b.sz = b.cap) (i : Nat) (hi : i < b.sz) (x : α)
    (ans : AllocAns α) : b.insert i x ans = none := by
  unfold Good at h
  unfold insert
  rw [if_neg (by omega), if_neg (by omega), if_pos (by omega)]

example : ∃ b : Buf Nat, b.Good ∧ b.sz = b.cap ∧ 0 < b.sz :=
  ⟨Buf.init (fun i => i) 3 true 3, by simp [Good, init]⟩

/-- **C01 (negation).**  Shrinking below the size and then pushing writes past the allocation. -/
theorem C01_shrink_then_push_undefined (b : Buf α) (c : Nat) (hc : 0 < c) (hs : c < b.sz)
    (junk : Nat → α) (x : α) (ans : AllocAns α) :
    b.run [.alloc c (some (some junk)), .pushBack x ans] = none := by
  have h1 : c ≠ 0 := by omega
  have h2 : b.sz ≠ c := by omega
  have h3 : ¬ (b.sz < c) := by omega
  simp [run, step, alloc, h1, pushBack, allocBack, h2, store, h3]

/-- **C01 (negation).**  Erasing anywhere but the last two positions is an overlapping `memcpy`. -/
theorem C01_erase_overlap_undefined (b : Buf α) (i : Nat) (hi : i + 2 < b.sz) : b.erase false i = none := by
  unfold erase
  rw [if_neg (by omega), if_neg (by omega), if_neg (by omega)]
  simp only
  split
  · rfl
  · rw [if_pos ⟨by omega, trivial⟩]

/-- **C01 (negation), as a refutation of the unrestricted claim.** -/
theorem C01_unrestricted_false :
    ¬ ∀ (b : Buf Nat), b.Good → ∀ ops, b.run ops ≠ none := by
  intro h
  refine h (Buf.init (fun i => i) 1 true 1) (by simp [Good, init]) [.insert 0 9 none] ?_
  have := C01_insert_full_undefined (Buf.init (fun i => i) 1 true 1) (by simp [Good, init]) rfl 0 (by simp [init])
    9 none
  simp [run, step, this]

/-! ### C02 -/

/-- Specification state of a stack: the stored list and the capacity. -/
structure Stack (α : Type) where
  items : List α
  cap : Nat

/-- Specification of the stack interface on plain lists.  A push appends; if the list fills the capacity it needs
memory (8 slots, or twice the capacity) and fails without effect when allocation is banned or refused. -/
def stackSpec (mayAlloc : Bool) (s : Stack α) : Op α → Stack α × Out
  | .pushBack x ans =>
    if s.items.length < s.cap then (⟨s.items ++ [x], s.cap⟩, .slot (some s.items.length))
    else if mayAlloc = true ∧ ans ≠ none then
      (⟨s.items ++ [x], if s.cap = 0 then 8 else s.cap * 2⟩, .slot (some s.items.length))
    else (s, .slot none)
  | .emplaceBack x ans =>
    if s.items.length < s.cap then (⟨s.items ++ [x], s.cap⟩, .slot (some s.items.length))
    else if mayAlloc = true ∧ ans ≠ none then
      (⟨s.items ++ [x], if s.cap = 0 then 8 else s.cap * 2⟩, .slot (some s.items.length))
    else (s, .slot none)
  | .popBack => if s.items = [] then (s, .res .inputErr) else (⟨s.items.dropLast, s.cap⟩, .res .ok)
  | .popBackN n =>
    if s.items.length < n then (s, .res .inputErr) else (⟨s.items.take (s.items.length - n), s.cap⟩, .res .ok)
  | _ => (s, .res .ok)

/-- Calls of the stack interface. -/
def IsStackOp : Op α → Prop
  | .pushBack .. => True | .emplaceBack .. => True | .popBack => True | .popBackN _ => True | _ => False

/-- The specification state of a buffer. -/
def stack (b : Buf α) : Stack α := ⟨b.seq, b.cap⟩

/-- **C02.**  Each stack call acts on the stored sequence exactly as on a list. -/
theorem C02_stack_step (b : Buf α) (h : b.Good) (op : Op α) (hop : IsStackOp op) :
    ∃ b', b.step op = some (b', (stackSpec b.hasAlloc b.stack op).2) ∧ b'.Good ∧ b'.hasAlloc = b.hasAlloc ∧
      b'.stack = (stackSpec b.hasAlloc b.stack op).1 := by
  have hlen : b.seq.length = b.sz := by simp [seq]
  have hg2 := h
  unfold Good at hg2
  cases op <;> simp only [IsStackOp] at hop
  case pushBack x ans =>
    rcases pushBack_spec h x ans with ⟨e, hf, hr⟩ | ⟨b', e, hg, hq, ha, hcap, hok⟩
    · have h1 : ¬ (b.stack.items.length < b.stack.cap) := by simp only [stack]; omega
      have h2 : ¬ (b.hasAlloc = true ∧ ans ≠ none) := by rcases hr with hr | hr <;> simp [hr]
      have hs : stackSpec b.hasAlloc b.stack (.pushBack x ans) = (b.stack, .slot none) := by
        rw [stackSpec, if_neg h1, if_neg h2]
      exact ⟨b, by simp [step, e, hs], h, rfl, by rw [hs]⟩
    · have hs : stackSpec b.hasAlloc b.stack (.pushBack x ans) = (⟨b.seq ++ [x], grown b⟩, .slot (some b.sz)) := by
        rw [stackSpec]
        by_cases h1 : b.stack.items.length < b.stack.cap
        · rw [if_pos h1, grown, if_pos (by simp only [stack] at h1; omega)]; simp [stack, hlen]
        · have h3 : ¬ b.sz < b.cap := by simp only [stack] at h1; omega
          rw [if_neg h1, if_pos (hok.resolve_left h3), grown, if_neg h3]; simp [stack, hlen]; rfl
      exact ⟨b', by simp [step, e, hs], hg, ha, by rw [hs, stack, hq, hcap]⟩
  case emplaceBack x ans =>
    rcases pushBack_spec h x ans with ⟨e, hf, hr⟩ | ⟨b', e, hg, hq, ha, hcap, hok⟩
    · have h1 : ¬ (b.stack.items.length < b.stack.cap) := by simp only [stack]; omega
      have h2 : ¬ (b.hasAlloc = true ∧ ans ≠ none) := by rcases hr with hr | hr <;> simp [hr]
      have hs : stackSpec b.hasAlloc b.stack (.emplaceBack x ans) = (b.stack, .slot none) := by
        rw [stackSpec, if_neg h1, if_neg h2]
      exact ⟨b, by simp [step, show b.emplaceBack x ans = _ from e, hs], h, rfl, by rw [hs]⟩
    · have hs : stackSpec b.hasAlloc b.stack (.emplaceBack x ans) = (⟨b.seq ++ [x], grown b⟩, .slot (some b.sz)) := by
        rw [stackSpec]
        by_cases h1 : b.stack.items.length < b.stack.cap
        · rw [if_pos h1, grown, if_pos (by simp only [stack] at h1; omega)]; simp [stack, hlen]
        · have h3 : ¬ b.sz < b.cap := by simp only [stack] at h1; omega
          rw [if_neg h1, if_pos (hok.resolve_left h3), grown, if_neg h3]; simp [stack, hlen]; rfl
      exact ⟨b', by simp [step, show b.emplaceBack x ans = _ from e, hs], hg, ha, by rw [hs, stack, hq, hcap]⟩
  case popBack =>
    by_cases h0 : b.sz = 0
    · have : b.seq = [] := by simp [seq, h0, window_zero]
      exact ⟨b, by simp [step, popBack, popBackN, h0, stackSpec, stack, this], h, rfl,
        by simp [stackSpec, stack, this]⟩
    · have hne : b.seq ≠ [] := by intro hn; rw [hn] at hlen; simp at hlen; omega
      refine ⟨{ b with sz := b.sz - 1 }, by simp [step, popBack, popBackN, h0, stackSpec, stack, hne], ?_, rfl, ?_⟩
      · unfold Good; simp; omega
      · have e : ({ b with sz := b.sz - 1 } : Buf α).seq = b.seq.dropLast := by simp [seq, window_dropLast]
        simp [stackSpec, stack, hne, e]
  case popBackN n =>
    by_cases h0 : n > b.sz
    · exact ⟨b, by simp [step, popBackN, h0, stackSpec, stack, hlen], h, rfl,
        by simp [stackSpec, stack, hlen, h0]⟩
    · refine ⟨{ b with sz := b.sz - n }, by simp [step, popBackN, h0, stackSpec, stack, hlen], ?_, rfl, ?_⟩
      · unfold Good; simp; omega
      · have e : ({ b with sz := b.sz - n } : Buf α).seq = b.seq.take (b.seq.length - n) := by
          simp [seq, window_take]
        simp [stackSpec, stack, e, hlen, h0]

/-- Run a history and collect the outputs. -/
def runOuts (b : Buf α) : List (Op α) → Option (Buf α × List Out)
  | [] => some (b, [])
  | op :: ops => do
    let (b', o) ← b.step op
    let (b'', os) ← runOuts b' ops
    pure (b'', o :: os)

/-- The specification of a whole history. -/
def stackSpecRun (mayAlloc : Bool) (s : Stack α) : List (Op α) → Stack α × List Out
  | [] => (s, [])
  | op :: ops =>
    let r := stackSpec mayAlloc s op
    let r' := stackSpecRun mayAlloc r.1 ops
    (r'.1, r.2 :: r'.2)

/-- **C02.**  Every history of stack calls from a fresh buffer returns exactly the outputs of the list
specification and ends with the specified list. -/
theorem C02_stack_history (mem : Nat → α) (cap : Nat) (hasAlloc : Bool) (ops : List (Op α))
    (hops : ∀ op ∈ ops, IsStackOp op) :
    ∃ b', (Buf.init mem cap hasAlloc).runOuts ops = some (b', (stackSpecRun hasAlloc ⟨[], cap⟩ ops).2) ∧
      b'.stack = (stackSpecRun hasAlloc ⟨[], cap⟩ ops).1 := by
  have key : ∀ (ops : List (Op α)), (∀ op ∈ ops, IsStackOp op) → ∀ b : Buf α, b.Good → b.hasAlloc = hasAlloc →
      ∃ b', b.runOuts ops = some (b', (stackSpecRun hasAlloc b.stack ops).2) ∧
        b'.stack = (stackSpecRun hasAlloc b.stack ops).1 := by
    intro ops
    induction ops with
    | nil => intro _ b _ _; exact ⟨b, rfl, rfl⟩
    | cons op ops ih =>
      intro hops b h ha
      obtain ⟨b', e, hg, ha', st⟩ := C02_stack_step b h op (hops op (by simp))
      rw [ha] at e st ha'
      obtain ⟨b'', e', r⟩ := ih (fun o ho => hops o (by simp [ho])) b' hg ha'
      refine ⟨b'', ?_, ?_⟩
      · simp [runOuts, e, e', stackSpecRun, st]
      · simp [r, stackSpecRun, st]
  exact key ops hops (Buf.init mem cap hasAlloc) (by simp [Good, init]) rfl

example : ∀ op ∈ [Op.pushBack 5 (some fun _ => 1), .popBack, .pushBack 6 none, .popBackN 4], IsStackOp op := by
  simp [IsStackOp]

/-- **C02.**  `at(i)` designates the `i`-th element of the sequence and `back` the last. -/
theorem C02_access (b : Buf α) (h : b.Good) :
    (∀ i (hi : i < b.seq.length), ∃ k, b.at_ i = some k ∧ b.load k = some b.seq[i]) ∧
    (∀ hne : b.seq ≠ [], ∃ k, b.back = some k ∧ b.load k = some (b.seq.getLast hne)) ∧
    (b.seq = [] → b.back = none) := by
  unfold Good at h
  have hl : b.seq.length = b.sz := by simp [seq]
  refine ⟨?_, ?_, ?_⟩
  · intro i hi
    refine ⟨i, by simp [at_]; omega, ?_⟩
    have : i < b.len := by omega
    simp [load, this, seq]
  · intro hne
    have hp : 0 < b.sz := by rw [← hl]; exact List.length_pos_iff.mpr hne
    refine ⟨b.sz - 1, ?_, ?_⟩
    · rw [back, if_neg (by omega), at_, if_neg (by omega)]
    · have : b.sz - 1 < b.len := by omega
      rw [List.getLast_eq_getElem]
      simp [load, this, seq]
  · intro he
    rw [he] at hl; simp at hl; simp [back, ← hl]

example : ∃ b : Buf Nat, b.Good ∧ b.seq = [7, 8, 9] :=
  ⟨Buf.init (fun i => i + 7) 5 false 3, by simp [Good, init], by decide⟩

/-! ### C03 -/

/-- **C03 (negation).**  The size can exceed the capacity: reallocation does not clamp it. -/
theorem C03_size_exceeds_capacity :
    ¬ ∀ (b b' : Buf Nat) (ops : List (Op Nat)), b.Good → b.run ops = some b' → b'.sz ≤ b'.cap := by
  intro h
  have := h (Buf.init (fun i => i) 3 true 3) _ [.alloc 1 (some (some fun _ => 0))] (by simp [Good, init]) rfl
  simp [alloc, init] at this

/-- **C03 (partial).**  Size stays within capacity over every history of safe calls.  Missing: shrinking
reallocations, for which it is false (`C03_size_exceeds_capacity`). -/
theorem C03_size_le_capacity_partial (b : Buf α) (h : b.Good) (ops : List (Op α)) (hs : b.SafeHist ops) :
    ∃ b', b.run ops = some b' ∧ b'.sz ≤ b'.cap := by
  obtain ⟨b', e, hg⟩ := C01_no_out_of_bounds_partial b h ops hs
  exact ⟨b', e, hg.2⟩

/-! ### C04 (machine words) -/

open BufWord

/-- Specification: clamp to `[0, cap]`, with the error reported exactly when clamping happened. -/
def clampSpec (z : Int) (cap : Nat) : Int × Res :=
  if z < 0 then (0, .inputErr) else if z > cap then (cap, .inputErr) else (z, .ok)

/-- **C04.**  `size_minus` saturates at zero, for all 64-bit arguments. -/
theorem C04_size_minus (sz cap n : Nat) (h1 : sz ≤ cap) (h2 : cap < W) (h3 : n < W) :
    (((sizeMinusW sz n).1 : Int), (sizeMinusW sz n).2) = clampSpec ((sz : Int) - n) cap := by
  unfold sizeMinusW clampSpec W at *
  by_cases h : n > sz
  · rw [if_pos h, if_pos (by omega)]; rfl
  · rw [if_neg h, if_neg (by omega), if_neg (by omega)]
    congr 1; simp only; omega

/-- **C04.**  `size_set` saturates at the capacity. -/
theorem C04_size_set (cap n : Nat) :
    (((sizeSetW cap n).1 : Int), (sizeSetW cap n).2) = clampSpec (n : Int) cap := by
  unfold sizeSetW clampSpec
  by_cases h : n > cap
  · rw [if_pos h, if_neg (by omega), if_pos (by omega)]
  · rw [if_neg h, if_neg (by omega), if_neg (by omega)]

/-- **C04 (partial).**  `size_plus` saturates as long as `size + n` fits in `size_t`.  Missing: arguments whose sum
wraps, for which it is false (`C04_size_plus_wraps`). -/
theorem C04_size_plus_partial (sz cap n : Nat) (h : sz + n < W) :
    (((sizePlusW sz cap n).1 : Int), (sizePlusW sz cap n).2) = clampSpec ((sz : Int) + n) cap := by
  unfold sizePlusW clampSpec
  rw [Nat.mod_eq_of_lt h]
  simp only
  by_cases h : sz + n > cap
  · rw [if_pos h, if_neg (by omega), if_pos (by omega)]
  · rw [if_neg h, if_neg (by omega), if_neg (by omega)]; congr 1

/-- **C04 (negation).**  For every non-empty buffer some argument makes `size_plus` report success while the size
goes *down*. -/
theorem C04_size_plus_wraps (sz cap : Nat) (h0 : 0 < sz) (h1 : sz ≤ cap) (h2 : cap < W) :
    ∃ n, n < W ∧ sizePlusW sz cap n = (sz - 1, .ok) := by
  refine ⟨W - 1, by unfold W; omega, ?_⟩
  unfold sizePlusW W at *
  have : (sz + (2 ^ 64 - 1)) % 2 ^ 64 = sz - 1 := by omega
  simp only [this]
  rw [if_neg (by omega)]

example : sizePlusW 3 8 (2 ^ 64 - 2) = (1, .ok) := by decide

/-- **C04.**  The word model agrees with the unbounded model used elsewhere whenever the sum fits. -/
theorem C04_word_agrees (b : Buf α) (n : Nat) (h : b.sz + n < W) :
    sizePlusW b.sz b.cap n = ((b.sizePlus n).1.sz, (b.sizePlus n).2) := by
  unfold sizePlusW Buf.sizePlus
  rw [Nat.mod_eq_of_lt h]; simp only; split <;> rfl

/-- **C04.**  Doubling growth never requests too few bytes, when the current block is one an allocator can deliver
(at most `PTRDIFF_MAX` bytes) and eight elements fit in `size_t`. -/
theorem C04_growth_covers (elemSz cap : Nat) (h0 : 0 < elemSz) (h : elemSz * cap < 2 ^ 63)
    (h8 : elemSz * 8 < W) : (growRequest elemSz cap).Covers elemSz := by
  unfold growRequest Grow.Covers allocRequest Buf.startCapacity W at *
  have h1 : cap ≤ elemSz * cap := Nat.le_mul_of_pos_left _ h0
  have h2 : elemSz * (cap * 2) = elemSz * cap * 2 := by rw [Nat.mul_assoc]
  split
  · simp only
    rw [Nat.mod_eq_of_lt (a := cap * 2) (by omega), h2, Nat.mod_eq_of_lt (by omega)]
    omega
  · simp only; rw [Nat.mod_eq_of_lt (by omega)]; omega

example : (0 < 16 ∧ 16 * 1000 < 2 ^ 63 ∧ 16 * 8 < W) := by unfold W; omega

/-- **C04 (negation).**  An explicit `ccc_buf_alloc` of a huge capacity is granted by a one-element block. -/
theorem C04_explicit_alloc_overflows : ¬ (allocRequest 8 (2 ^ 61 + 1)).Covers 8 := by decide

/-! ### C05 -/

/-- **C05 (partial).**  Erase removes exactly the `i`-th element and keeps the order, if `memcpy` tolerates the
overlap or the element is one of the last two.  Missing: the standard `memcpy` elsewhere
(`C01_erase_overlap_undefined`). -/
theorem C05_erase_partial (b : Buf α) (h : b.Good) (lax : Bool) (i : Nat) (hi : i < b.seq.length)
    (hl : lax = true ∨ b.sz ≤ i + 2) :
    ∃ b', b.erase lax i = some (b', .ok) ∧ b'.Good ∧ b'.seq = b.seq.eraseIdx i := by
  have hlen : b.seq.length = b.sz := by simp [seq]
  unfold Good at h
  unfold erase
  rw [if_neg (by omega)]
  by_cases h1 : b.sz = 1
  · rw [if_pos h1]
    refine ⟨_, rfl, by simp [Good]; omega, ?_⟩
    have : i = 0 := by omega
    subst this
    apply List.ext_getElem <;> simp [seq, h1]
  rw [if_neg h1]
  by_cases h2 : i = b.sz - 1
  · rw [if_pos h2]
    refine ⟨_, rfl, by simp [Good]; omega, ?_⟩
    apply List.ext_getElem
    · simp [List.length_eraseIdx, seq]; omega
    · intro j hj1 hj2
      simp [seq] at hj1
      rw [List.getElem_eraseIdx_of_lt _ (by omega)]
      simp [seq]
  rw [if_neg h2]
  simp only
  rw [if_neg (by omega), if_neg (by rcases hl with hl | hl <;> simp [hl]; omega)]
  refine ⟨_, rfl, by simp [Good]; omega, ?_⟩
  apply List.ext_getElem
  · simp [List.length_eraseIdx, seq]; omega
  · intro j hj1 hj2
    simp [seq] at hj1
    rw [List.getElem_eraseIdx]
    split
    · simp [seq, blockMove]; omega
    · simp only [seq, blockMove, window_getElem]
      rw [if_pos (by omega)]; congr 1; omega

example : ∃ b : Buf Nat, b.Good ∧ 1 < b.seq.length ∧ b.seq = [7, 8, 9] :=
  ⟨Buf.init (fun i => i + 7) 5 false 3, by simp [Good, init], by decide, by decide⟩

/-- What `ccc_buf_insert` is documented to do. -/
def InsertContract (b : Buf α) (i : Nat) (x : α) (ans : AllocAns α) : Prop :=
  ∃ b', b.insert i x ans = some (b', some i) ∧ b'.seq = b.seq.insertIdx i x

/-- **C05 (negation).**  Insert before the end never stores the datum: it duplicates the element at `i`. -/
theorem C05_insert_duplicates (b : Buf α) (h : b.Good) (i : Nat) (hi : i < b.sz) (hc : b.sz < b.cap) (x : α)
    (ans : AllocAns α) :
    ∃ b', b.insert i x ans = some (b', some i) ∧ b'.seq = b.seq.take (i + 1) ++ b.seq.drop i := by
  unfold Good at h
  unfold insert
  rw [if_neg (by omega), if_neg (by omega), if_neg (by omega)]
  refine ⟨_, rfl, ?_⟩
  apply List.ext_getElem
  · simp [seq]; omega
  · intro j hj1 hj2
    simp [seq] at hj1
    rw [List.getElem_append]
    split
    · rename_i hj
      simp [seq] at hj
      simp [seq, blockMove]; omega
    · rename_i hj
      simp [seq] at hj
      simp [seq, blockMove]
      have : min (i + 1) b.sz = i + 1 := by omega
      rw [this, if_pos (by omega)]

theorem C05_insert_contract_false :
    ¬ ∀ (b : Buf Nat) (i x : Nat) (ans : AllocAns Nat), b.Good → i ≤ b.sz → b.sz < b.cap →
      InsertContract b i x ans := by
  intro h
  obtain ⟨b', e, hs⟩ := h (Buf.init (fun i => i) 4 true 2) 0 9 none (by simp [Good, init]) (by simp [init])
    (by simp [init])
  obtain ⟨b'', e2, hs2⟩ := C05_insert_duplicates (Buf.init (fun i => i) 4 true 2) (by simp [Good, init]) 0
    (by simp [init]) (by simp [init]) 9 none
  rw [e] at e2
  simp only [Option.some.injEq, Prod.mk.injEq, and_true] at e2
  subst e2
  rw [hs] at hs2
  revert hs2; decide

/-- **C05 (partial).**  Insert at the end position obeys the contract.  Missing: earlier positions. -/
theorem C05_insert_at_end_partial (b : Buf α) (h : b.Good) (hc : b.sz < b.cap) (x : α) (ans : AllocAns α) :
    InsertContract b b.sz x ans := by
  have hl : b.seq.length = b.sz := by simp [seq]
  unfold InsertContract insert
  have : ¬ (b.len = 0 ∨ b.sz > b.sz) := by unfold Good at h; omega
  rw [if_neg this, if_pos rfl]
  rcases pushBack_spec h x ans with ⟨_, e, _⟩ | ⟨b', e, _, hq, _⟩
  · omega
  · refine ⟨b', e, ?_⟩
    rw [hq]
    conv => rhs; rw [← hl]
    exact (List.insertIdx_length_self).symm

/-! ### C06 -/

/-- The loop `for (it = from; it != stop; it = next(it)) visit(*it)`: the visited values, `none` on an access
outside the allocation or a NULL iterator. -/
def forEach (b : Buf α) (next : Int → Option Int) (stop it : Int) : Option (List α) :=
  if it = stop then some []
  else if it < 0 then none
  else do
    let x ← b.load it.toNat
    let it' ← next it
    let rest ← forEach b next stop it'
    pure (x :: rest)
partial_fixpoint

/-- **C06.**  The forward loop visits exactly the stored sequence. -/
theorem C06_forward (b : Buf α) (h : b.Good) (h0 : 0 < b.len) :
    ∃ bg en, b.begin = some bg ∧ b.end_ = some en ∧ b.forEach b.next en bg = some b.seq := by
  have hb : b.len ≠ 0 := by omega
  unfold Good at h
  refine ⟨0, b.sz, by simp [begin, hb], by simp [end_, hb], ?_⟩
  have key : ∀ n k, k + n = b.sz → b.forEach b.next b.sz (k : Int) = some (window b.mem k n) := by
    intro n
    induction n with
    | zero => intro k hk; rw [forEach, if_pos (by omega)]; rfl
    | succ n ih =>
      intro k hk
      rw [forEach, if_neg (by omega), if_neg (by omega)]
      have hk2 : k < b.len := by omega
      have hn : b.next (k : Int) = some ((k + 1 : Nat) : Int) := by
        simp only [next, hb, if_false]; rw [if_neg (by omega)]; rfl
      rw [hn, window_cons]
      have e := ih (k + 1) (by omega)
      simp only [Int.natCast_add, Int.cast_ofNat_Int] at e
      simp [load, hk2, e]
  have := key b.sz 0 (by omega)
  simpa [seq] using this

example : ∃ b : Buf Nat, b.Good ∧ 0 < b.len ∧ b.seq = [7, 8, 9] :=
  ⟨Buf.init (fun i => i + 7) 5 false 3, by simp [Good, init], by simp [init], by decide⟩

/-- **C06 (negation).**  The reverse loop starts one past the last element: on a full buffer it reads outside the
allocation. -/
theorem C06_reverse_undefined_when_full (b : Buf α) (h : b.Good) (h0 : 0 < b.len) (hf : b.sz = b.cap) :
    ∃ bg en, b.rbegin = some bg ∧ b.rend = some en ∧ b.forEach b.rnext en bg = none := by
  have hb : b.len ≠ 0 := by omega
  unfold Good at h
  refine ⟨b.sz, -1, by simp [rbegin, hb], by simp [rend, hb], ?_⟩
  rw [forEach, if_neg (by omega), if_neg (by omega)]
  have : ¬ b.sz < b.len := by omega
  simp [load, this]

/-- **C06 (negation).**  Otherwise it visits one extra, unstored slot first. -/
theorem C06_reverse_visits_extra (b : Buf α) (h : b.Good) (hf : b.sz < b.cap) :
    ∃ bg en, b.rbegin = some bg ∧ b.rend = some en ∧
      b.forEach b.rnext en bg = some (b.mem b.sz :: b.seq.reverse) := by
  unfold Good at h
  have hb : b.len ≠ 0 := by omega
  refine ⟨b.sz, -1, by simp [rbegin, hb], by simp [rend, hb], ?_⟩
  have key : ∀ k, k < b.len →
      b.forEach b.rnext (-1) (k : Int) = some (window b.mem 0 (k+1)).reverse := by
    intro k
    induction k with
    | zero =>
      intro hk
      rw [forEach, if_neg (by omega), if_neg (by omega)]
      have hn : b.rnext ((0 : Nat) : Int) = some (-1) := by
        simp [rnext, hb]
      rw [hn]
      simp [load, hk]
      rw [forEach, if_pos rfl]; simp [window]
    | succ k ih =>
      intro hk
      rw [forEach, if_neg (by omega), if_neg (by omega)]
      have hn : b.rnext ((k + 1 : Nat) : Int) = some (k : Int) := by
        simp only [rnext, hb, if_false]; rw [if_neg (by omega)]; congr 1; omega
      rw [hn]
      simp only [load, Int.toNat_natCast, hk, if_true]
      simp [ih (by omega)]
      rw [window_succ b.mem 0 (k+1)]; simp
  rw [key b.sz (by omega), window_succ]; simp [seq]

/-- **C06 (negation), as a refutation of the documented claim.** -/
theorem C06_reverse_false :
    ¬ ∀ (b : Buf Nat), b.Good → 0 < b.len → ∃ bg en, b.rbegin = some bg ∧ b.rend = some en ∧
      b.forEach b.rnext en bg = some b.seq.reverse := by
  intro h
  obtain ⟨bg, en, h1, h2, h3⟩ := h (Buf.init (fun i => i) 3 false 2) (by simp [Good, init]) (by simp [init])
  obtain ⟨bg', en', h1', h2', h3'⟩ := C06_reverse_visits_extra (Buf.init (fun i => i) 3 false 2)
    (by simp [Good, init]) (by simp [init])
  rw [h1] at h1'; rw [h2] at h2'; cases h1'; cases h2'
  rw [h3] at h3'; revert h3'; decide

/-- **C06.**  The forward loop up to `capacity_end` visits every slot of the allocation, in order. -/
theorem C06_capacity (b : Buf α) (h : b.Good) (h0 : 0 < b.len) :
    ∃ bg en, b.begin = some bg ∧ b.capacityEnd = some en ∧ b.forEach b.next en bg = some (window b.mem 0 b.cap) := by
  have hb : b.len ≠ 0 := by omega
  unfold Good at h
  refine ⟨0, b.cap, by simp [begin, hb], by simp [capacityEnd, hb], ?_⟩
  have key : ∀ n k, k + n = b.cap → b.forEach b.next b.cap (k : Int) = some (window b.mem k n) := by
    intro n
    induction n with
    | zero => intro k hk; rw [forEach, if_pos (by omega)]; rfl
    | succ n ih =>
      intro k hk
      rw [forEach, if_neg (by omega), if_neg (by omega)]
      have hk2 : k < b.len := by omega
      have hn : b.next (k : Int) = some ((k + 1 : Nat) : Int) := by
        simp only [next, hb, if_false]; rw [if_neg (by omega)]; rfl
      rw [hn, window_cons]
      have e := ih (k + 1) (by omega)
      simp only [Int.natCast_add, Int.cast_ofNat_Int] at e
      simp [load, hk2, e]
  have := key b.cap 0 (by omega)
  simpa using this

/-- **C06.**  A buffer without memory has no iterators. -/
theorem C06_unallocated (b : Buf α) (h0 : b.len = 0) (it : Int) :
    b.begin = none ∧ b.end_ = none ∧ b.rbegin = none ∧ b.rend = none ∧ b.capacityEnd = none ∧ b.next it = none ∧
      b.rnext it = none ∧ b.idx it = -1 := by
  simp [begin, end_, rbegin, rend, capacityEnd, next, rnext, idx, h0]

/-- **C61.**  `i` inverts `at`: the index of the pointer `at i` answers is `i`, for every index; a pointer outside the
allocation has the index -1. -/
theorem C61_index (b : Buf α) (h : b.Good) :
    (∀ i : Nat, i < b.cap → b.at_ i = some i ∧ b.idx (i : Int) = i) ∧
      (∀ it : Int, it < 0 ∨ (b.cap : Int) ≤ it → b.idx it = -1) ∧
      (∀ i : Nat, b.cap ≤ i → b.at_ i = none) := by
  unfold Good at h
  refine ⟨fun i hi => ⟨?_, ?_⟩, fun it hit => ?_, fun i hi => ?_⟩
  · rw [at_, if_neg (by omega)]
  · rw [idx, if_neg (by omega)]
  · rw [idx, if_pos (by omega)]
  · rw [at_, if_pos hi]

end CCC.Buf
