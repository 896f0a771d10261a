import Verif.Proof.ListCost
import Verif.Props.SinglyLinkedList
import Verif.Props.DoublyLinkedList
/-
**C74**: the calls of the linked lists take the time the documentation says.

`stepN c s op` (`Verif/Model/SinglyLinkedListCost.lean`, `Verif/Model/DoublyLinkedListCost.lean`) is a call with every read
and write of a link counted; `Costs x n r` says that it returns `r` after `n` of them.  `extent` (`Verif/Spec/ListCost.lean`)
is the `N` of a call that is documented as `O(N)`, and 0 for one documented as `O(1)`.
-/
namespace CCC

/-- Whenever the counted program returns, it has counted at least `b`. -/
def AtLeast {α : Type} (x : Count α) (b : Nat) : Prop := ∀ n r, x n = some r → n + b ≤ r.2

namespace AtLeast
variable {α β : Type}

theorem pure (a : α) : AtLeast (pure a : Count α) 0 := by
  intro n r h; cases h; exact Nat.le_refl _
theorem lift (y : Option α) : AtLeast (liftM y : Count α) 0 := by
  intro n r h
  rw [Count.lift_run] at h
  cases y with
  | none => cases h
  | some a => cases h; exact Nat.le_refl _
theorem acc (y : Option α) : AtLeast (acc y) 1 := by
  intro n r h
  rw [Count.acc_run] at h
  cases y with
  | none => cases h
  | some a => cases h; exact Nat.le_refl _
theorem bind {x : Count α} {f : α → Count β} {a b : Nat} (h : AtLeast x a) (hf : ∀ r, AtLeast (f r) b) : AtLeast (x >>= f) (a + b) := by
  intro n r hr
  rw [Count.bind_run] at hr
  cases hx : x n with
  | none => rw [hx] at hr; cases hr
  | some q =>
    rw [hx, Option.bind_some] at hr
    have h1 := h n q hx
    have h2 := hf q.1 q.2 r hr
    omega
theorem costs {x : Count α} {m : Nat} {r : α} (h : Costs x m r) : AtLeast x m := by
  intro n q hq
  rw [h n] at hq
  cases hq
  exact Nat.le_refl _
theorem le {x : Count α} {a b : Nat} (h : AtLeast x a) (hb : b ≤ a) : AtLeast x b := by
  intro n r hr
  have := h n r hr
  omega

end AtLeast

namespace Sll
open Seq SllSpec

variable {α : Type} {c : Cfg} {s : Sll α} {st : St α}

theorem extent_eq (h : Sim c s st) (op : Op α) (hok : okOp c.lists c.alloc st op) :
    extent s.sz op = extent (fun l => (st.seq l).length) op := by
  cases op <;> first
    | rfl
    | exact h.sz _ hok
    | exact h.sz _ hok.1
    | exact h.sz _ hok.2.1

/-- **C74** (singly linked list).  After every history an allowed call returns what the specification says after at most
`8 · (N + 1)` reads and writes of links: at most 8 if it is documented as `O(1)`. -/
theorem C74_sll_step (h : Reach c s st) (op : Op α) (hok : okOp c.lists c.alloc st op) :
    ∃ s' n, Costs (stepN c s op) n (s', (specStep c.alloc st op).2) ∧ Reach c s' (specStep c.alloc st op).1 ∧
      n ≤ 8 * (extent (fun l => (st.seq l).length) op + 1) := by
  obtain ⟨s', h1, h2⟩ := C20_sll_step_partial h op hok
  obtain ⟨n, h3, h4⟩ := h.sim.step_bd op hok _ h1
  rw [extent_eq h.sim op hok] at h3
  exact ⟨s', n, h4, h2, h3⟩

theorem cost_run (ops : List (Op α)) {s : Sll α} {st : St α} (h : Reach c s st) (hok : okRun c.lists c.alloc st ops) :
    ∃ s' n, Costs (runN c s ops) n (s', (specRun c.alloc st ops).2) ∧ n ≤ 8 * extents c.alloc st ops := by
  induction ops generalizing s st with
  | nil => exact ⟨s, 0, .pure _, Nat.zero_le _⟩
  | cons op ops ih =>
    obtain ⟨s1, n1, a1, a2, a3⟩ := C74_sll_step h op hok.1
    obtain ⟨s2, n2, b1, b2⟩ := ih a2 hok.2
    refine ⟨s2, n1 + (n2 + 0), a1.bind (b1.bind (.pure _)), ?_⟩
    simp only [extents]
    omega

/-- **C74** (singly linked list).  Whole histories: a history of `k` calls that are documented as `O(1)` takes at most `8 · k`
reads and writes of links, and every other call adds at most 8 for each element of the list it works on. -/
theorem C74_sll_history (ops : List (Op α)) (hok : okRun c.lists c.alloc St.empty ops) :
    ∃ s' n, Costs (runN c (init c) ops) n (s', (specRun c.alloc St.empty ops).2) ∧ n ≤ 8 * extents c.alloc St.empty ops :=
  cost_run ops .init hok

/-- **C74** (singly linked list).  A call that is documented as `O(1)`, in any memory whatsoever: if it returns, it has read
and written at most 6 links. -/
theorem C74_sll_constant (s : Sll α) (l e : Nat) (ans : Slot) :
    Bd (pushFrontN c s l e ans) (pushFront c s l e ans) 6 ∧ Bd (popFrontN c s l) (popFront c s l) 4 ∧
      Bd (frontN c s l) (front c s l) 1 ∧ Bd (beginN' c s l) (begin' c s l) 1 ∧ Bd (nextN c s l e) (next c s l e) 1 ∧
      Bd (beginElemN s l) (beginElem s l) 1 := by
  refine ⟨pushFront_bd s l e ans, popFront_bd s l, ?_, ?_, ?_, ?_⟩
  · unfold frontN front; bds
  · unfold beginN' begin'; bds
  · unfold nextN next; bds
  · unfold beginElemN beginElem; bds

/-- **C74** (singly linked list).  The `O(N)` of the documentation is no exaggeration: to extract or to erase the last of `N`
elements takes at least `N` reads. -/
theorem C74_sll_linear (h : Reach c s st) {l e : Nat} {A : List Nat} (hl : l ∈ c.lists) (hs : st.seq l = A ++ [e]) :
    AtLeast (extractN c s l e) (st.seq l).length ∧ AtLeast (eraseN c s l e) (st.seq l).length := by
  have h := h.sim
  have hr := h.ring l hl
  rw [hs] at hr
  have nd := h.shape.nd l hl
  rw [hs] at nd
  have hA : e ∉ A := fun hx => (List.nodup_append.1 nd).2.2 e hx e (by simp) rfl
  have hc := before_cost (seg_append.1 hr).1 hA
  have he : e ∈ st.seq l := by rw [hs]; simp
  have h0 := h.sz_ne hl he
  have hlen : (st.seq l).length = 0 + (A.length + 1 + 0) := by rw [hs]; simp
  rw [hlen]
  constructor
  · unfold extractN
    rw [if_neg h0]
    refine ((AtLeast.acc _).le (by omega)).bind (fun ret => (AtLeast.costs hc).bind (fun i => ?_))
    refine AtLeast.bind (a := 0) (b := 0) ((AtLeast.acc _).le (by omega)) (fun _ => AtLeast.bind (a := 0) (b := 0) ((AtLeast.acc _).le (by omega)) (fun _ =>
      AtLeast.bind (a := 0) (b := 0) ((AtLeast.acc _).le (by omega)) (fun _ => ?_)))
    dsimp only
    split
    · exact .pure _
    · exact AtLeast.bind (a := 0) (b := 0) (.lift _) (fun _ => .pure _)
  · unfold eraseN
    rw [if_neg h0]
    refine ((AtLeast.acc _).le (by omega)).bind (fun ret => (AtLeast.costs hc).bind (fun i => ?_))
    refine AtLeast.bind (a := 0) (b := 0) ((AtLeast.acc _).le (by omega)) (fun _ => AtLeast.bind (a := 0) (b := 0) ((AtLeast.acc _).le (by omega)) (fun _ =>
      AtLeast.bind (a := 0) (b := 0) ((AtLeast.acc _).le (by omega)) (fun _ => ?_)))
    dsimp only
    split
    · exact .pure _
    · exact AtLeast.bind (a := 0) (b := 0) (.lift _) (fun _ => .pure _)

end Sll

namespace Dll
open Seq DllSpec

variable {α : Type} {c : Cfg} {s : Dll α} {st : St α} {z : Nat → Bool}

/-- **C74** (doubly linked list).  In any memory whatsoever, with whatever stale links: if a call returns, it has read and
written at most `14 · (N + 1)` links, where `N` is what `ccc_dll_size` says: at most 14 if it is documented as `O(1)`. -/
theorem C74_dll_any (s : Dll α) (op : Op α) {r : Dll α × Out} (hr : step c s op = some r) :
    ∃ n, Costs (stepN c s op) n r ∧ n ≤ 14 * (extent (size s) op + 1) := by
  obtain ⟨n, h1, h2⟩ := step_bd s op r hr
  exact ⟨n, h2, h1⟩

theorem extent_eq (h : Reach c s st z) (op : Op α) (hok : okOp c.lists c.alloc st op) :
    extent (size s) op = extent (fun l => (st.seq l).length) op := by
  have h' := fun l hl => (C21_dll_iterate h (l := l) hl).2.1
  cases op <;> first
    | rfl
    | exact h' _ hok
    | exact h' _ hok.1
    | exact h' _ hok.2.1

/-- **C74** (doubly linked list).  After every history that C21 covers, an allowed call returns what the specification says
after at most `14 · (N + 1)` reads and writes of links. -/
theorem C74_dll_step (h : Reach c s st z) (op : Op α) (hok : okOp c.lists c.alloc st op) (hsafe : safeOp st z op) :
    ∃ s' n, Costs (stepN c s op) n (s', (specStep c.alloc st op).2) ∧
      Reach c s' (specStep c.alloc st op).1 (stale c.alloc st z op) ∧ n ≤ 14 * (extent (fun l => (st.seq l).length) op + 1) := by
  obtain ⟨s', h1, h2⟩ := C21_dll_step_partial h op hok hsafe
  obtain ⟨n, h3, h4⟩ := C74_dll_any s op h1
  rw [extent_eq h op hok] at h4
  exact ⟨s', n, h3, h2, h4⟩

theorem cost_run (ops : List (Op α)) {s : Dll α} {st : St α} {z : Nat → Bool} (h : Reach c s st z) (hok : okRun c.lists c.alloc st z ops) :
    ∃ s' n, Costs (runN c s ops) n (s', (specRun c.alloc st ops).2) ∧ n ≤ 14 * extents c.alloc st ops := by
  induction ops generalizing s st z with
  | nil => exact ⟨s, 0, .pure _, Nat.zero_le _⟩
  | cons op ops ih =>
    obtain ⟨s1, n1, a1, a2, a3⟩ := C74_dll_step h op hok.1 hok.2.1
    obtain ⟨s2, n2, b1, b2⟩ := ih a2 hok.2.2
    refine ⟨s2, n1 + (n2 + 0), a1.bind (b1.bind (.pure _)), ?_⟩
    simp only [extents]
    omega

/-- **C74** (doubly linked list).  Whole histories. -/
theorem C74_dll_history (ops : List (Op α)) (hok : okRun c.lists c.alloc St.empty (fun _ => false) ops) :
    ∃ s' n, Costs (runN c (init c) ops) n (s', (specRun c.alloc St.empty ops).2) ∧ n ≤ 14 * extents c.alloc St.empty ops :=
  cost_run ops .init hok

end Dll

/-! ### Concrete cases -/

/-- Four elements are pushed and the last one is extracted: after an allowed history, at least 4 and at most 40 reads and
writes. -/
example : ∃ (s : Sll.Sll Nat) (st : Seq.St Nat), Sll.Reach Sll.cfg s st ∧ st.seq 100 = [0, 1, 2] ++ [3] ∧ 100 ∈ Sll.cfg.lists ∧
    SllSpec.okOp Sll.cfg.lists Sll.cfg.alloc st (.extract 100 3) ∧ SllSpec.extent (fun l => (st.seq l).length) (.extract 100 3 : SllSpec.Op Nat) = 4 := by
  obtain ⟨s, hs⟩ := Sll.fill_reach 4 (by omega)
  exact ⟨s, _, hs, rfl, by decide, ⟨by decide, by decide⟩, rfl⟩

/-- The history of ten calls of C21, with moved ranges and stale links, reads and writes at most 14 · (10 + 6) links. -/
example : ∃ (s s' : Dll.Dll Nat) (st : Seq.St Nat) (n : Nat), Dll.Reach Dll.cfg s st (fun _ => false) ∧
    Costs (Dll.runN Dll.cfg s Dll.demo) n (s', (DllSpec.specRun Dll.cfg.alloc st Dll.demo).2) ∧ n ≤ 14 * (10 + 6) := by
  obtain ⟨s, _, hs⟩ := Dll.fill_reach 4 (by omega)
  obtain ⟨s', n, h1, h2⟩ := Dll.cost_run Dll.demo hs Dll.demo_ok
  exact ⟨s, s', _, n, hs, h1, h2⟩

end CCC
