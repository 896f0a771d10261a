import Verif.Proof.ListLedger
import Verif.Proof.ListLedgerSpec
import Verif.Proof.LedgerSpec
import Verif.Props.SinglyLinkedList
import Verif.Props.DoublyLinkedList
/-
The calls of the user's allocation function by the linked lists (C75).

`stepL` is `step` with the calls of the allocation function written down (`Verif/Model/SinglyLinkedListLedger.lean`,
`Verif/Model/DoublyLinkedListLedger.lean`).  `calls` says which calls an operation has to make, `handed` which blocks become
the user's, `settle` and `book` are the allocator's book (`Verif/Spec/Ledger.lean`, `Verif/Spec/ListLedger.lean`).
-/
namespace CCC
open PtrMap (settle_append)

namespace Sll
open Seq SllSpec

variable {α : Type} {c : Cfg} {s : Sll α} {st : St α}

/-- **C75** (singly linked list).  After every history an allowed call makes the calls of the allocation function it must
make, in that order and whatever was called before (`h`), and apart from them it is the call itself. -/
theorem C75_sll_calls (h : Reach c s st) (op : Op α) (hok : okOp c.lists c.alloc st op) :
    ∃ s', (∀ es, stepL c s op es = some ((s', (specStep c.alloc st op).2), es ++ calls c.alloc st op)) ∧
      step c s op = some (s', (specStep c.alloc st op).2) ∧ Reach c s' (specStep c.alloc st op).1 := by
  obtain ⟨s', h1, h2⟩ := C20_sll_step_partial h op hok
  exact ⟨s', fun es => h.sim.step_log op hok _ h1 es, h1, h2⟩

theorem ledger_run (ops : List (Op α)) {s : Sll α} {st : St α} (h : Reach c s st) (hok : okRun c.lists c.alloc st ops) :
    ∃ s', (∀ es, runL c s ops es = some ((s', (specRun c.alloc st ops).2), es ++ callsRun c.alloc st ops)) ∧
      Reach c s' (specRun c.alloc st ops).1 := by
  induction ops generalizing s st with
  | nil => exact ⟨s, fun es => by rw [callsRun, List.append_nil]; rfl, h⟩
  | cons op ops ih =>
    obtain ⟨s1, a1, _, a2⟩ := C75_sll_calls h op hok.1
    obtain ⟨s2, b1, b2⟩ := ih a2 hok.2
    refine ⟨s2, fun es => ?_, b2⟩
    simp only [runL, Led.bind_run, a1, Option.bind_some, b1, callsRun, List.append_assoc]
    rfl

/-- The calls of a history, none of which splices between a list that allocates and one that does not. -/
def FairRun (c : Cfg) (ops : List (Op α)) : Prop := ∀ op ∈ ops, Fair c.alloc op

theorem book_run (ops : List (Op α)) {s : Sll α} {st : St α} {held : List Nat} (h : Reach c s st) (hok : okRun c.lists c.alloc st ops)
    (hf : FairRun c ops) (ho : Owned c.lists c.alloc st.seq held) :
    ∃ held', book c.alloc held st ops = some held' ∧ Owned c.lists c.alloc (specRun c.alloc st ops).1.seq held' := by
  induction ops generalizing s st held with
  | nil => exact ⟨held, rfl, ho⟩
  | cons op ops ih =>
    obtain ⟨s1, _, a2⟩ := C20_sll_step_partial h op hok.1
    obtain ⟨h1, b1, b2⟩ := step_kept ho h.sim.shape h.sim.own op hok.1 (hf op List.mem_cons_self)
    obtain ⟨h2, d1, d2⟩ := ih a2 hok.2 (fun o ho => hf o (List.mem_cons_of_mem _ ho)) b2
    exact ⟨h2, by simp only [book, b1, Option.bind_eq_bind, Option.bind_some, d1], d2⟩

theorem owned_empty : Owned c.lists c.alloc (St.empty : St α).seq [] := ⟨List.nodup_nil, fun a => by simp [St.empty]⟩

/-- **C75** (singly linked list).  Every history: the calls of the allocation function are those of the specification; no
block is given back that the lists do not answer for, so none twice and none the user has extracted; and at the end the blocks
the lists answer for are the elements of the allocating lists, one each. -/
theorem C75_sll_balance (ops : List (Op α)) (hok : okRun c.lists c.alloc St.empty ops) (hf : FairRun c ops) :
    ∃ s held, runL c (init c) ops [] = some ((s, (specRun c.alloc St.empty ops).2), callsRun c.alloc St.empty ops) ∧
      book c.alloc [] St.empty ops = some held ∧ held.Nodup ∧
      ∀ a, a ∈ held ↔ ∃ l ∈ c.lists, c.alloc l = true ∧ a ∈ (specRun c.alloc St.empty ops).1.seq l := by
  obtain ⟨s, a1, _⟩ := ledger_run ops .init hok
  obtain ⟨held, b1, b2⟩ := book_run ops .init hok hf owned_empty
  exact ⟨s, held, by have := a1 []; simpa using this, b1, b2⟩

theorem book_no_extract (ops : List (Op α)) : ∀ {st : St α} {held : List Nat}, (∀ op ∈ ops, ∀ st : St α, handed c.alloc st op = []) →
    book c.alloc held st ops = settle held (callsRun c.alloc st ops) := by
  induction ops with
  | nil => intros; rfl
  | cons op ops ih =>
    intro st held hx
    simp only [book, callsRun, settleWith, hx op List.mem_cons_self st, Option.bind_eq_bind, settle_append, without_nil']
    cases settle held (calls c.alloc st op) with
    | none => rfl
    | some h' => exact ih (fun o ho => hx o (List.mem_cons_of_mem _ ho))

/-- **C75** (singly linked list).  Without extraction the allocator's own book is in order, and a history that leaves the
allocating lists empty leaves no block out. -/
theorem C75_sll_settled (ops : List (Op α)) (hok : okRun c.lists c.alloc St.empty ops) (hf : FairRun c ops)
    (hx : ∀ op ∈ ops, match op with | .extract _ _ | .extractRange _ _ _ => False | _ => True) :
    ∃ s outs es held, runL c (init c) ops [] = some ((s, outs), es) ∧ settle [] es = some held ∧ held.Nodup ∧
      (∀ a, a ∈ held ↔ ∃ l ∈ c.lists, c.alloc l = true ∧ a ∈ (specRun c.alloc St.empty ops).1.seq l) ∧
      ((∀ l ∈ c.lists, c.alloc l = true → (specRun c.alloc St.empty ops).1.seq l = []) → held = []) := by
  obtain ⟨s, held, h1, h2, h3, h4⟩ := C75_sll_balance ops hok hf
  rw [book_no_extract ops (fun op ho st => by have := hx op ho; cases op <;> first | rfl | exact absurd this id)] at h2
  refine ⟨s, _, _, held, h1, h2, h3, h4, fun he => List.eq_nil_iff_forall_not_mem.2 fun a ha => ?_⟩
  obtain ⟨l, hl, ha', hm⟩ := (h4 a).1 ha
  rw [he l hl ha'] at hm
  cases hm

/-- **C75** (singly linked list).  Lists without an allocation function call none. -/
theorem C75_sll_fixed (h : Reach c s st) (op : Op α) (hok : okOp c.lists c.alloc st op) (ha : ∀ l, c.alloc l = false) :
    ∃ s', ∀ es, stepL c s op es = some ((s', (specStep c.alloc st op).2), es) := by
  obtain ⟨s', h1, _⟩ := C75_sll_calls h op hok
  refine ⟨s', fun es => ?_⟩
  have : calls c.alloc st op = [] := by cases op <;> simp [calls, ha]
  rw [h1, this, List.append_nil]

/-- A history on the lists 100, without an allocation function, and 200, with one: two structs of the user; three pushes onto
200, the second of which is refused; one push onto 100; an element extracted and dropped by the user; a pop; two pushes
and a range erased; a push of what was extracted before; a clear. -/
def ledgerOps : List (Op Nat) :=
  [.make 1 10 none, .make 2 20 none, .pushFront 200 1 (some 50), .pushFront 200 2 none, .pushFront 200 2 (some 51),
   .pushFront 100 1 none, .extract 200 51, .drop 51, .popFront 200, .pushFront 200 2 (some 51), .pushFront 200 2 (some 50),
   .pushFront 200 1 (some 52), .eraseRange 200 50 51, .pushFront 200 2 (some 50)]

theorem ledgerOps_ok : okRun cfg.lists cfg.alloc St.empty ledgerOps := by
  simp [ledgerOps, okRun, okOp, specStep, cfg, Loose, InRange, through, upto, onward, without, upd, St.empty, St.set, St.release, St.drop]

theorem ledgerOps_fair : FairRun cfg ledgerOps := by
  intro op h
  simp only [ledgerOps, List.mem_cons, List.not_mem_nil, or_false] at h
  rcases h with rfl | rfl | rfl | rfl | rfl | rfl | rfl | rfl | rfl | rfl | rfl | rfl | rfl | rfl <;> trivial

/-- The calls of the allocation function of the history, and the blocks that are out at its end. -/
example : ∃ s outs held, runL cfg (init cfg) ledgerOps [] = some ((s, outs),
      [.got 50, .refused, .got 51, .freed 50, .got 51, .got 50, .got 52, .freed 50, .freed 51, .got 50]) ∧
    book cfg.alloc [] St.empty ledgerOps = some held ∧ (∀ a, a ∈ held ↔ a = 50 ∨ a = 52) := by
  obtain ⟨s, held, h1, h2, _, h4⟩ := C75_sll_balance ledgerOps ledgerOps_ok ledgerOps_fair
  refine ⟨s, _, held, h1, h2, fun a => ?_⟩
  rw [h4]
  have e : (specRun cfg.alloc St.empty ledgerOps).1.seq 200 = [50, 52] := rfl
  constructor
  · rintro ⟨l, hl, ha, hm⟩
    simp only [cfg, List.mem_cons, List.not_mem_nil, or_false] at hl
    rcases hl with rfl | rfl
    · cases ha
    · rw [e] at hm; simpa using hm
  · rintro h
    exact ⟨200, by simp [cfg], rfl, by rw [e]; simpa using h⟩

/-- The history up to the extraction, and a clear: nothing is out. -/
example : ∃ s outs es, runL cfg (init cfg) (ledgerOps.take 6 ++ [.clear 200 true]) [] = some ((s, outs), es) ∧ settle [] es = some [] := by
  have hok : okRun cfg.lists cfg.alloc St.empty (ledgerOps.take 6 ++ [.clear 200 true]) := by
    simp [ledgerOps, okRun, okOp, specStep, cfg, Loose, upd, St.empty, St.set]
  obtain ⟨s, outs, es, held, h1, h2, _, _, h5⟩ := C75_sll_settled _ hok
    (by intro op h; simp [ledgerOps] at h; rcases h with rfl | rfl | rfl | rfl | rfl | rfl | rfl <;> trivial)
    (by intro op h; simp [ledgerOps] at h; rcases h with rfl | rfl | rfl | rfl | rfl | rfl | rfl <;> trivial)
  have := h5 (by
    intro l hl ha
    simp only [cfg, List.mem_cons, List.not_mem_nil, or_false] at hl
    rcases hl with rfl | rfl
    · cases ha
    · rfl)
  exact ⟨s, outs, es, h1, by rw [h2, this]⟩

/-- **C75** (singly linked list), what the condition on splicing is for.  `ccc_sll_splice` is documented for any two lists, but
an element of the user's spliced into an allocating list and popped there is given to the allocation function, which never
granted it. -/
theorem C75_sll_violated_splice : ∃ ops : List (Op Nat), okRun cfg.lists cfg.alloc St.empty ops ∧
    ∃ s outs es, runL cfg (init cfg) ops [] = some ((s, outs), es) ∧ settle [] es = none ∧ es = [.freed 1] := by
  refine ⟨[.make 1 10 none, .pushFront 100 1 none, .splice 200 200 100 1, .popFront 200], ?_, ?_⟩
  · simp [okRun, okOp, specStep, cfg, Loose, upd, St.empty, St.set, SllSpec.St.move, without, putAt]
  · obtain ⟨s, h1, _⟩ := ledger_run [.make 1 10 none, .pushFront 100 1 none, .splice 200 200 100 1, .popFront 200] (.init (c := cfg) (α := Nat))
      (by simp [okRun, okOp, specStep, cfg, Loose, upd, St.empty, St.set, SllSpec.St.move, without, putAt])
    exact ⟨s, _, _, h1 [], rfl, rfl⟩

end Sll

namespace Dll
open Seq DllSpec

variable {α : Type} {c : Cfg} {s : Dll α} {st : St α} {z : Nat → Bool}

/-- **C75** (doubly linked list), for safe calls.  After every history an allowed call makes the calls of the allocation
function it must make, in that order and whatever was called before, and apart from them it is the call itself. -/
theorem C75_dll_calls (h : Reach c s st z) (op : Op α) (hok : okOp c.lists c.alloc st op) (hsafe : safeOp st z op) :
    ∃ s', (∀ es, stepL c s op es = some ((s', (specStep c.alloc st op).2), es ++ calls c.alloc st op)) ∧
      step c s op = some (s', (specStep c.alloc st op).2) ∧ Reach c s' (specStep c.alloc st op).1 (stale c.alloc st z op) := by
  obtain ⟨s', h1, h2⟩ := C21_dll_step_partial h op hok hsafe
  exact ⟨s', fun es => h.sim.step_log op hok hsafe _ h1 es, h1, h2⟩

theorem ledger_run (ops : List (Op α)) {s : Dll α} {st : St α} {z : Nat → Bool} (h : Reach c s st z) (hok : okRun c.lists c.alloc st z ops) :
    ∃ s', (∀ es, runL c s ops es = some ((s', (specRun c.alloc st ops).2), es ++ callsRun c.alloc st ops)) ∧
      Reach c s' (specRun c.alloc st ops).1 (staleRun c.alloc st z ops) := by
  induction ops generalizing s st z with
  | nil => exact ⟨s, fun es => by rw [callsRun, List.append_nil]; rfl, h⟩
  | cons op ops ih =>
    obtain ⟨s1, a1, _, a2⟩ := C75_dll_calls h op hok.1 hok.2.1
    obtain ⟨s2, b1, b2⟩ := ih a2 hok.2.2
    refine ⟨s2, fun es => ?_, b2⟩
    simp only [runL, Led.bind_run, a1, Option.bind_some, b1, callsRun, List.append_assoc]
    rfl

/-- The calls of a history, none of which splices between a list that allocates and one that does not. -/
def FairRun (c : Cfg) (ops : List (Op α)) : Prop := ∀ op ∈ ops, Fair c.alloc op

theorem book_run (ops : List (Op α)) {s : Dll α} {st : St α} {z : Nat → Bool} {held : List Nat} (h : Reach c s st z)
    (hok : okRun c.lists c.alloc st z ops) (hf : FairRun c ops) (ho : Owned c.lists c.alloc st.seq held) :
    ∃ held', book c.alloc held st ops = some held' ∧ Owned c.lists c.alloc (specRun c.alloc st ops).1.seq held' := by
  induction ops generalizing s st z held with
  | nil => exact ⟨held, rfl, ho⟩
  | cons op ops ih =>
    obtain ⟨s1, _, a2⟩ := C21_dll_step_partial h op hok.1 hok.2.1
    obtain ⟨h1, b1, b2⟩ := step_kept ho h.sim.shape h.sim.own op hok.1 (hf op List.mem_cons_self)
    obtain ⟨h2, d1, d2⟩ := ih a2 hok.2.2 (fun o ho => hf o (List.mem_cons_of_mem _ ho)) b2
    exact ⟨h2, by simp only [book, b1, Option.bind_eq_bind, Option.bind_some, d1], d2⟩

theorem owned_empty : Owned c.lists c.alloc (St.empty : St α).seq [] := ⟨List.nodup_nil, fun a => by simp [St.empty]⟩

/-- **C75** (doubly linked list), for histories of safe calls.  The calls of the allocation function are those of the
specification; no block is given back that the lists do not answer for, so none twice and none the user has extracted; and
at the end the blocks the lists answer for are the elements of the allocating lists, one each. -/
theorem C75_dll_balance_partial (ops : List (Op α)) (hok : okRun c.lists c.alloc St.empty (fun _ => false) ops) (hf : FairRun c ops) :
    ∃ s held, runL c (init c) ops [] = some ((s, (specRun c.alloc St.empty ops).2), callsRun c.alloc St.empty ops) ∧
      book c.alloc [] St.empty ops = some held ∧ held.Nodup ∧
      ∀ a, a ∈ held ↔ ∃ l ∈ c.lists, c.alloc l = true ∧ a ∈ (specRun c.alloc St.empty ops).1.seq l := by
  obtain ⟨s, a1, _⟩ := ledger_run ops .init hok
  obtain ⟨held, b1, b2⟩ := book_run ops .init hok hf owned_empty
  exact ⟨s, held, by have := a1 []; simpa using this, b1, b2⟩

theorem book_no_extract (ops : List (Op α)) : ∀ {st : St α} {held : List Nat}, (∀ op ∈ ops, ∀ st : St α, handed c.alloc st op = []) →
    book c.alloc held st ops = settle held (callsRun c.alloc st ops) := by
  induction ops with
  | nil => intros; rfl
  | cons op ops ih =>
    intro st held hx
    simp only [book, callsRun, settleWith, hx op List.mem_cons_self st, Option.bind_eq_bind, settle_append, without_nil']
    cases settle held (calls c.alloc st op) with
    | none => rfl
    | some h' => exact ih (fun o ho => hx o (List.mem_cons_of_mem _ ho))

/-- **C75** (doubly linked list), for histories of safe calls.  Without extraction the allocator's own book is in order, and a
history that leaves the allocating lists empty leaves no block out. -/
theorem C75_dll_settled_partial (ops : List (Op α)) (hok : okRun c.lists c.alloc St.empty (fun _ => false) ops) (hf : FairRun c ops)
    (hx : ∀ op ∈ ops, match op with | .extract _ _ | .extractRange _ _ _ => False | _ => True) :
    ∃ s outs es held, runL c (init c) ops [] = some ((s, outs), es) ∧ settle [] es = some held ∧ held.Nodup ∧
      (∀ a, a ∈ held ↔ ∃ l ∈ c.lists, c.alloc l = true ∧ a ∈ (specRun c.alloc St.empty ops).1.seq l) ∧
      ((∀ l ∈ c.lists, c.alloc l = true → (specRun c.alloc St.empty ops).1.seq l = []) → held = []) := by
  obtain ⟨s, held, h1, h2, h3, h4⟩ := C75_dll_balance_partial ops hok hf
  rw [book_no_extract ops (fun op ho st => by have := hx op ho; cases op <;> first | rfl | exact absurd this id)] at h2
  refine ⟨s, _, _, held, h1, h2, h3, h4, fun he => List.eq_nil_iff_forall_not_mem.2 fun a ha => ?_⟩
  obtain ⟨l, hl, ha', hm⟩ := (h4 a).1 ha
  rw [he l hl ha'] at hm
  cases hm

/-- **C75** (doubly linked list).  Lists without an allocation function call none. -/
theorem C75_dll_fixed (h : Reach c s st z) (op : Op α) (hok : okOp c.lists c.alloc st op) (hsafe : safeOp st z op) (ha : ∀ l, c.alloc l = false) :
    ∃ s', ∀ es, stepL c s op es = some ((s', (specStep c.alloc st op).2), es) := by
  obtain ⟨s', h1, _⟩ := C75_dll_calls h op hok hsafe
  refine ⟨s', fun es => ?_⟩
  have : calls c.alloc st op = [] := by cases op <;> simp [calls, ha]
  rw [h1, this, List.append_nil]

/-- A history on the lists 100, without an allocation function, and 200, with one: one struct of the user; pushes, an
insertion and emplacements, one of which is refused; an element extracted and dropped by the user; pops at both ends; a range
erased. -/
def ledgerOps : List (Op Nat) :=
  [.make 1 10 none none, .pushBack 200 1 (some 50), .emplaceBack 200 20 none none none, .emplaceBack 200 30 none none (some 51),
   .insert 200 51 1 (some 52), .pushBack 100 1 none, .extract 200 52, .drop 52, .popBack 200, .popFront 200, .pushFront 200 1 (some 51),
   .emplaceFront 200 7 none none (some 50), .pushFront 200 1 (some 52), .eraseRange 200 52 51, .pushBack 200 1 (some 50)]

theorem ledgerOps_ok : okRun cfg.lists cfg.alloc St.empty (fun _ => false) ledgerOps := by
  simp [ledgerOps, okRun, okOp, safeOp, Good, stale, specStep, cfg, Loose, Fresh, IsPos, IsRange, between, upto, onward, without, upd, St.empty,
    St.set, St.release, St.drop, DllSpec.St.insert, DllSpec.St.emplace, putBefore]

theorem ledgerOps_fair : FairRun cfg ledgerOps := by
  intro op h
  simp only [ledgerOps, List.mem_cons, List.not_mem_nil, or_false] at h
  rcases h with rfl | rfl | rfl | rfl | rfl | rfl | rfl | rfl | rfl | rfl | rfl | rfl | rfl | rfl | rfl <;> trivial

/-- The calls of the allocation function of the history, and the blocks that are out at its end. -/
example : ∃ s outs held, runL cfg (init cfg) ledgerOps [] = some ((s, outs),
      [.got 50, .refused, .got 51, .got 52, .freed 51, .freed 50, .got 51, .got 50, .got 52, .freed 52, .freed 50, .got 50]) ∧
    book cfg.alloc [] St.empty ledgerOps = some held ∧ (∀ a, a ∈ held ↔ a = 51 ∨ a = 50) := by
  obtain ⟨s, held, h1, h2, _, h4⟩ := C75_dll_balance_partial ledgerOps ledgerOps_ok ledgerOps_fair
  refine ⟨s, _, held, h1, h2, fun a => ?_⟩
  rw [h4]
  have e : (specRun cfg.alloc St.empty ledgerOps).1.seq 200 = [51, 50] := rfl
  constructor
  · rintro ⟨l, hl, ha, hm⟩
    simp only [cfg, List.mem_cons, List.not_mem_nil, or_false] at hl
    rcases hl with rfl | rfl
    · cases ha
    · rw [e] at hm; simpa using hm
  · rintro h
    exact ⟨200, by simp [cfg], rfl, by rw [e]; simpa using h⟩

/-- The history up to the extraction, and a clear: nothing is out. -/
example : ∃ s outs es, runL cfg (init cfg) (ledgerOps.take 6 ++ [.clear 200 true]) [] = some ((s, outs), es) ∧ settle [] es = some [] := by
  have hok : okRun cfg.lists cfg.alloc St.empty (fun _ => false) (ledgerOps.take 6 ++ [.clear 200 true]) := by
    simp [ledgerOps, okRun, okOp, safeOp, Good, stale, specStep, cfg, Loose, Fresh, IsPos, upto, onward, upd, St.empty,
      St.set, DllSpec.St.insert, DllSpec.St.emplace, putBefore]
  obtain ⟨s, outs, es, held, h1, h2, _, _, h5⟩ := C75_dll_settled_partial _ hok
    (by intro op h; simp [ledgerOps] at h; rcases h with rfl | rfl | rfl | rfl | rfl | rfl | rfl <;> trivial)
    (by intro op h; simp [ledgerOps] at h; rcases h with rfl | rfl | rfl | rfl | rfl | rfl | rfl <;> trivial)
  have := h5 (by
    intro l hl ha
    simp only [cfg, List.mem_cons, List.not_mem_nil, or_false] at hl
    rcases hl with rfl | rfl
    · cases ha
    · rfl)
  exact ⟨s, outs, es, h1, by rw [h2, this]⟩

/-- **C75** (doubly linked list), what the condition on splicing is for.  `ccc_dll_splice` is documented for any two lists, but
an element of the user's spliced into an allocating list and popped there is given to the allocation function, which never
granted it. -/
theorem C75_dll_violated_splice : ∃ ops : List (Op Nat), okRun cfg.lists cfg.alloc St.empty (fun _ => false) ops ∧
    ∃ s outs es, runL cfg (init cfg) ops [] = some ((s, outs), es) ∧ settle [] es = none ∧ es = [.freed 1] := by
  have hok : okRun cfg.lists cfg.alloc St.empty (fun _ => false)
      [.make 1 10 none none, .pushFront 100 1 none, .splice 200 200 100 1, .popFront 200] := by
    simp [okRun, okOp, safeOp, Good, stale, specStep, cfg, Loose, IsPos, upd, St.empty, St.set, DllSpec.St.insert, DllSpec.St.move, without,
      putBefore]
  obtain ⟨s, h1, _⟩ := ledger_run _ (.init (c := cfg) (α := Nat)) hok
  exact ⟨_, hok, s, _, _, h1 [], rfl, rfl⟩

end Dll
end CCC
