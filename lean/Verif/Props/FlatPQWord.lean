import Verif.Model.FlatPQWord
import Verif.Props.FlatDequeWord
import Verif.Props.FlatPQCost
/-
C80 for the flat priority queue: with `size_t` arithmetic the program does what the model of `Model/FlatPQ.lean` does.
-/
namespace CCC.Fpq
open CCC CCC.Word
variable {α : Type}

theorem swap_szW {q q' : Fpq α} {t : Slot} {i j : Nat} (h : q.swap t i j = some q') : q'.buf.sz = q.buf.sz ∧ q'.buf.cap = q.buf.cap := by
  unfold swap at h
  cases t with
  | none => cases h
  | some t =>
    simp only at h
    split at h
    · cases h
    · have st : ∀ (b b' : Buf α) k x, b.store k x = some b' → b'.sz = b.sz ∧ b'.cap = b.cap := by
        intro b b' k x e
        unfold Buf.store at e
        split at e
        · cases e; exact ⟨rfl, rfl⟩
        · cases e
      obtain ⟨x, _, h⟩ := Option.bind_eq_some_iff.mp h
      obtain ⟨b1, e1, h⟩ := Option.bind_eq_some_iff.mp h
      obtain ⟨y, _, h⟩ := Option.bind_eq_some_iff.mp h
      obtain ⟨b2, e2, h⟩ := Option.bind_eq_some_iff.mp h
      obtain ⟨z, _, h⟩ := Option.bind_eq_some_iff.mp h
      obtain ⟨b3, e3, h⟩ := Option.bind_eq_some_iff.mp h
      cases h
      have := st _ _ _ _ e1; have := st _ _ _ _ e2; have := st _ _ _ _ e3
      simp only; omega

theorem bubbleUpW_eq (t : Slot) (i : Nat) : ∀ (q : Fpq α), i < 2 ^ 64 → q.bubbleUpW t i = q.bubbleUp t i := by
  induction i using Nat.strongRecOn with
  | ind i ih =>
    intro q hi
    rw [bubbleUpW, bubbleUp]
    split
    · rfl
    · dsimp only
      rw [sub_eq (by omega) hi]
      refine bind_congr' fun x _ => bind_congr' fun y _ => ?_
      split
      · refine bind_congr' fun q' _ => ?_
        exact ih _ (by omega) q' (by omega)
      · rfl

theorem pickChildW_eq (q : Fpq α) {l : Nat} (h : l + 1 < 2 ^ 64) : q.pickChildW l = q.pickChild l := by
  unfold pickChildW pickChild
  rw [add_eq h]

theorem pickChild_geW {q : Fpq α} {l k : Nat} (h : q.pickChild l = some k) : l ≤ k ∧ (l < q.buf.sz → k < q.buf.sz) := by
  unfold pickChild at h
  split at h
  · obtain ⟨r, _, h⟩ := Option.bind_eq_some_iff.mp h
    obtain ⟨l', _, h⟩ := Option.bind_eq_some_iff.mp h
    cases h
    split <;> omega
  · cases h; omega

theorem bubbleDownW_eq (t : Slot) (n : Nat) : ∀ (q : Fpq α) (i : Nat), q.buf.sz ≤ i + n → q.buf.sz ≤ 2 ^ 62 + 1 → i ≤ 2 ^ 62 + 1 →
    q.bubbleDownW t i = q.bubbleDown t i := by
  induction n with
  | zero =>
    intro q i h hs hi
    rw [bubbleDownW, bubbleDown, mul_eq (by omega), add_eq (by omega), if_neg (by omega), if_neg (by omega)]
  | succ n ih =>
    intro q i h hs hi
    rw [bubbleDownW, bubbleDown, mul_eq (by omega), add_eq (by omega)]
    split
    · rw [pickChildW_eq _ (by omega)]
      refine bind_congr' fun k ek => bind_congr' fun x _ => bind_congr' fun y _ => ?_
      have hk := pickChild_geW ek
      split
      · refine bind_congr' fun q' eq' => ?_
        have hq := swap_szW eq'
        exact ih q' k (by omega) (by omega) (by omega)
      · rfl
    · rfl

theorem bubbleDown_szW (t : Slot) (n : Nat) : ∀ (q : Fpq α) (i : Nat), q.buf.sz ≤ i + n → ∀ r, q.bubbleDown t i = some r →
    r.1.buf.sz = q.buf.sz ∧ r.1.buf.cap = q.buf.cap := by
  induction n with
  | zero =>
    intro q i h r e
    rw [bubbleDown, if_neg (by omega)] at e
    cases e; exact ⟨rfl, rfl⟩
  | succ n ih =>
    intro q i h r e
    rw [bubbleDown] at e
    split at e
    · obtain ⟨k, ek, e⟩ := Option.bind_eq_some_iff.mp e
      obtain ⟨x, _, e⟩ := Option.bind_eq_some_iff.mp e
      obtain ⟨y, _, e⟩ := Option.bind_eq_some_iff.mp e
      have hk := pickChild_geW ek
      split at e
      · obtain ⟨q', eq', e⟩ := Option.bind_eq_some_iff.mp e
        have hq := swap_szW eq'
        have := ih q' k (by omega) r e
        omega
      · cases e; exact ⟨rfl, rfl⟩
    · cases e; exact ⟨rfl, rfl⟩

theorem heapifyLoopW_eq (t : Slot) (i : Nat) : ∀ (q : Fpq α), q.buf.sz ≤ 2 ^ 62 + 1 → i ≤ 2 ^ 62 + 1 →
    q.heapifyLoopW t i = q.heapifyLoop t i := by
  induction i with
  | zero => intro q _ _; rw [heapifyLoopW]; rfl
  | succ i ih =>
    intro q hs hi
    rw [heapifyLoopW, if_neg (by omega), sub_eq (by omega) (by omega)]
    show _ = (do let (q, _) ← q.bubbleDown t i; heapifyLoop q t i)
    rw [show i + 1 - 1 = i from rfl, bubbleDownW_eq t q.buf.sz q i (by omega) hs (by omega)]
    refine bind_congr' fun r er => ?_
    have := bubbleDown_szW t q.buf.sz q i (by omega) r er
    exact ih r.1 (by omega) (by omega)

theorem allocBackW_eq (b : Buf α) (hs : b.sz ≤ 2 ^ 62) (hc : b.cap ≤ 2 ^ 63 - 1) (ans : AllocAns α) :
    b.allocBackW ans = b.allocBack ans := by
  unfold Buf.allocBackW Buf.allocBack
  rw [mul_eq (by omega), add_eq (a := b.sz) (by omega)]
  have key : ∀ c f, (b.alloc c f).1.sz +ʷ 1 = (b.alloc c f).1.sz + 1 := by
    intro c f
    have : (b.alloc c f).1.sz = b.sz := by
      unfold Buf.alloc
      cases f with
      | none => rfl
      | some a =>
        simp only
        split
        · rfl
        · cases a <;> rfl
    rw [this, add_eq (by omega)]
  split
  · split <;> simp only [key]
  · rfl

theorem popBackW_eq (b : Buf α) (hs : b.sz < 2 ^ 64) : b.popBackW = b.popBack := by
  unfold Buf.popBackW Buf.popBack Buf.popBackN
  split
  · rfl
  · rw [sub_eq (by omega) hs]

theorem pushRoomW_eq (q : Fpq α) (x : α) (ans : AllocAns α) (hs : q.buf.sz ≤ 2 ^ 62) (hc : q.buf.cap ≤ 2 ^ 63 - 1) :
    q.pushRoomW x ans = q.pushRoom x ans := by
  unfold pushRoomW pushRoom
  rw [allocBackW_eq _ hs hc]
  have hsz : (q.buf.allocBack ans).1.sz < 2 ^ 64 := by
    have key : ∀ c f, (q.buf.alloc c f).1.sz = q.buf.sz := by
      intro c f
      unfold Buf.alloc
      cases f with
      | none => rfl
      | some a =>
        simp only
        split
        · rfl
        · cases a <;> rfl
    unfold Buf.allocBack
    split
    · have : (if q.buf.cap ≠ 0 then q.buf.alloc (q.buf.cap * 2) (q.buf.fn ans)
          else q.buf.alloc Buf.startCapacity (q.buf.fn ans)).1.sz = q.buf.sz := by split <;> exact key _ _
      generalize (if q.buf.cap ≠ 0 then q.buf.alloc (q.buf.cap * 2) (q.buf.fn ans)
          else q.buf.alloc Buf.startCapacity (q.buf.fn ans)) = r at *
      dsimp only
      split
      · simp only; omega
      · simp only; omega
    · simp only; omega
  generalize q.buf.allocBack ans = r at *
  obtain ⟨b, s⟩ := r
  cases s with
  | none => rfl
  | some k =>
    simp only at hsz ⊢
    refine bind_congr' fun b' eb => ?_
    have hb : b'.sz = b.sz := by
      unfold Buf.store at eb
      split at eb
      · cases eb; rfl
      · cases eb
    split
    · rw [sub_eq (by omega) (by omega), bubbleUpW_eq _ _ _ (by omega)]
    · rfl

theorem pushW_eq (q : Fpq α) (x : α) (ans ans' : AllocAns α) (hs : q.buf.sz ≤ q.buf.cap) (hc : q.buf.cap ≤ 2 ^ 61) :
    q.pushW x ans ans' = q.push x ans ans' := by
  unfold pushW push
  rw [add_eq (by omega), mul_eq (by omega)]
  split
  · simp only
    split
    · rfl
    · apply pushRoomW_eq
      · show (q.buf.alloc _ _).1.sz ≤ _
        have : (q.buf.alloc (q.buf.cap * 2) (q.buf.fn ans)).1.sz = q.buf.sz := by
          unfold Buf.alloc
          cases q.buf.fn ans with
          | none => rfl
          | some a =>
            simp only
            split
            · rfl
            · cases a <;> rfl
        omega
      · show (q.buf.alloc _ _).1.cap ≤ _
        have : (q.buf.alloc (q.buf.cap * 2) (q.buf.fn ans)).1.cap ≤ q.buf.cap * 2 := by
          unfold Buf.alloc
          cases q.buf.fn ans with
          | none => simp only; omega
          | some a =>
            simp only
            split
            · simp only; omega
            · cases a
              · simp only; omega
              · simp only; omega
        omega
  · exact pushRoomW_eq _ _ _ (by omega) (by omega)

theorem popW_eq (q : Fpq α) (hs : q.buf.sz ≤ 2 ^ 62) : q.popW = q.pop := by
  unfold popW pop
  split
  · rfl
  split
  · rw [popBackW_eq _ (by omega)]
  · dsimp only
    rw [sub_eq (by omega) (by omega)]
    refine bind_congr' fun q' e => ?_
    have hq := swap_szW e
    rw [popBackW_eq _ (by omega)]
    have hp : q'.buf.popBack.1.sz ≤ 2 ^ 62 := by
      unfold Buf.popBack Buf.popBackN; split <;> (simp only; omega)
    rw [bubbleDownW_eq _ q'.buf.popBack.1.sz _ 0 (by simp only; omega) (by simp only; omega) (by omega)]

theorem eraseW_eq (q : Fpq α) (e : Nat) (hs : q.buf.sz ≤ 2 ^ 62) : q.eraseW e = q.erase e := by
  unfold eraseW erase
  split
  · rfl
  split
  · rw [popBackW_eq _ (by omega)]
  split
  · rfl
  dsimp only
  rw [sub_eq (by omega) (by omega)]
  split
  · rw [popBackW_eq _ (by omega)]
  · refine bind_congr' fun q' eq' => ?_
    have hq := swap_szW eq'
    rw [sub_eq (by omega) (by omega), popBackW_eq _ (by omega)]
    have hp : q'.buf.popBack.1.sz ≤ 2 ^ 62 := by
      unfold Buf.popBack Buf.popBackN; split <;> (simp only; omega)
    refine bind_congr' fun x _ => bind_congr' fun y _ => ?_
    rw [bubbleUpW_eq _ _ _ (by omega),
      bubbleDownW_eq _ q'.buf.popBack.1.sz _ e (by simp only; omega) (by simp only; omega) (by omega)]

theorem updateFixupW_eq (q : Fpq α) (i : Nat) (hs : q.buf.sz ≤ 2 ^ 62) : q.updateFixupW i = q.updateFixup i := by
  unfold updateFixupW updateFixup
  dsimp only
  split
  · rfl
  split
  · exact bubbleDownW_eq _ q.buf.sz _ 0 (by omega) (by omega) (by omega)
  · rw [sub_eq (by omega) (by omega)]
    refine bind_congr' fun x _ => bind_congr' fun y _ => ?_
    rw [bubbleUpW_eq _ _ _ (by omega), bubbleDownW_eq _ q.buf.sz _ i (by omega) (by omega) (by omega)]

theorem updateW_eq (q : Fpq α) (e : Nat) (f : α → α) (hs : q.buf.sz ≤ 2 ^ 62) : q.updateW e f = q.update e f := by
  unfold updateW update
  split
  · rfl
  · refine bind_congr' fun x _ => bind_congr' fun b eb => ?_
    have hb : b.sz = q.buf.sz := by
      unfold Buf.store at eb
      split at eb
      · cases eb; rfl
      · cases eb
    dsimp only
    rw [updateFixupW_eq _ _ (by simp only; omega)]

theorem sizeSet_leW (b : Buf α) (n : Nat) : (b.sizeSet n).1.sz ≤ n := by
  unfold Buf.sizeSet; split
  · simp only; omega
  · simp only; omega

theorem heapifyW_eq (q : Fpq α) (xs : List α) (ans : AllocAns α) (hn : xs.length ≤ 2 ^ 62) :
    q.heapifyW xs ans = q.heapify xs ans := by
  unfold heapifyW heapify
  dsimp only
  rw [add_eq (a := xs.length) (by omega), add_eq (a := xs.length / 2) (by omega)]
  have key : ∀ b : Buf α, ({ q with buf := { (b.sizeSet xs.length).1 with
      mem := fun j => match xs[j]? with | some x => x | none => (b.sizeSet xs.length).1.mem j } } : Fpq α).heapifyLoopW
        (({ (b.sizeSet xs.length).1 with
          mem := fun j => match xs[j]? with | some x => x | none => (b.sizeSet xs.length).1.mem j } : Buf α).at_ xs.length)
        (xs.length / 2 + 1) =
      ({ q with buf := { (b.sizeSet xs.length).1 with
      mem := fun j => match xs[j]? with | some x => x | none => (b.sizeSet xs.length).1.mem j } } : Fpq α).heapifyLoop
        (({ (b.sizeSet xs.length).1 with
          mem := fun j => match xs[j]? with | some x => x | none => (b.sizeSet xs.length).1.mem j } : Buf α).at_ xs.length)
        (xs.length / 2 + 1) := by
    intro b
    have := sizeSet_leW b xs.length
    exact heapifyLoopW_eq _ _ _ (by simp only; omega) (by omega)
  split
  · split
    · rfl
    · split
      · rfl
      · exact congrArg _ (key _)
  · split
    · rfl
    · exact congrArg _ (key _)

theorem inPlaceHeapifyW_eq (q : Fpq α) (n : Nat) (hn : n ≤ 2 ^ 62) : q.inPlaceHeapifyW n = q.inPlaceHeapify n := by
  unfold inPlaceHeapifyW inPlaceHeapify
  rw [add_eq (a := n) (by omega), add_eq (a := n / 2) (by omega)]
  split
  · rfl
  · have := sizeSet_leW q.buf n
    exact heapifyLoopW_eq _ _ _ (by simp only; omega) (by omega)

theorem validateLoopW_eq (n : Nat) : ∀ (q : Fpq α) (i : Nat), 2 ≤ q.buf.sz → q.buf.sz ≤ i + n → q.buf.sz ≤ 2 ^ 62 → i ≤ 2 ^ 62 →
    q.validateLoopW i = q.validateLoop i := by
  induction n with
  | zero =>
    intro q i h2 h hs hi
    rw [validateLoopW, validateLoop]
    rw [sub_eq (by omega) (by omega), if_neg (by omega), if_neg (by omega)]
  | succ n ih =>
    intro q i h2 h hs hi
    rw [validateLoopW, validateLoop]
    rw [sub_eq (by omega) (by omega), mul_eq (by omega), add_eq (a := i * 2) (b := 1) (by omega),
      add_eq (a := i * 2) (b := 2) (by omega), add_eq (a := i) (by omega)]
    split
    · rw [ih q (i + 1) h2 (by omega) hs (by omega)]
    · rfl

theorem validateW_eq (q : Fpq α) (hs : q.buf.sz ≤ 2 ^ 62) : q.validateW = q.validate := by
  unfold validateW validate
  split
  · rfl
  · exact validateLoopW_eq q.buf.sz q 0 (by omega) (by omega) hs (by omega)

/-- **C80.**  With `size_t` arithmetic every call on a flat priority queue of at most 2^61 slots, and every range of at most
2^61 elements, has the result and the effect that unbounded arithmetic gives. -/
theorem C80_fpq_words (q : Fpq α) (h : q.Inv) (hc : q.buf.cap ≤ 2 ^ 61) (xs : List α) (hn : xs.length ≤ 2 ^ 61) (x : α)
    (ans ans' : AllocAns α) :
    q.pushW x ans ans' = q.push x ans ans' ∧ q.popW = q.pop ∧ (∀ e, q.eraseW e = q.erase e) ∧
    (∀ e f, q.updateW e f = q.update e f) ∧ q.heapifyW xs ans = q.heapify xs ans ∧
    (∀ n, n ≤ 2 ^ 61 → q.inPlaceHeapifyW n = q.inPlaceHeapify n) ∧ q.validateW = q.validate := by
  have hr := h.room
  exact ⟨pushW_eq q x ans ans' (by omega) hc, popW_eq q (by omega), fun e => eraseW_eq q e (by omega),
    fun e f => updateW_eq q e f (by omega), heapifyW_eq q xs ans (by omega), fun n hn => inPlaceHeapifyW_eq q n (by omega),
    validateW_eq q (by omega)⟩

/-- One call, with `size_t` arithmetic. -/
def stepW (q : Fpq α) : Op α → Option (Fpq α × Out α)
  | .push x a a' => (q.pushW x a a').map fun r => (r.1, .ptr (r.1.deref r.2))
  | .front => some (q, .ptr (q.deref q.front))
  | .pop => q.popW.map fun r => (r.1, .res r.2)
  | .erase e => (q.eraseW e).map fun r => (r.1, .handle (q.load e) (.res r.2))
  | .update e f => (q.updateW e f).map fun r => (r.1, .handle (q.load e) (.ptr (r.1.deref r.2)))
  | .heapify xs a => (q.heapifyW xs a).map fun r => (r.1, .res r.2)
  | .clear => some (q.clear.1, .res q.clear.2.1)

/-- A history, with `size_t` arithmetic. -/
def runW (q : Fpq α) : List (Op α) → Option (Fpq α × List (Out α))
  | [] => some (q, [])
  | op :: ops => do
    let (q, o) ← q.stepW op
    let (q, os) ← runW q ops
    pure (q, o :: os)

/-- the number of elements passed in one call -/
def rangeLength : Op α → Nat
  | .heapify xs _ => xs.length
  | _ => 1

/-- **C80.**  Every history of a flat priority queue that never has more than 2^61 slots runs with 64-bit numbers as
specified for priority queues (`SpecRun` of C13). -/
theorem C80_fpq_history (ops : List (Op α)) (q : Fpq α) (h : q.Inv) (hok : q.HistOk ops)
    (hlen : ∀ op ∈ ops, rangeLength op ≤ 2 ^ 61)
    (hcap : ∀ ops1 ops2 q1 os, ops = ops1 ++ ops2 → q.run ops1 = some (q1, os) → q1.buf.cap ≤ 2 ^ 61) :
    q.runW ops = q.run ops ∧ ∃ q' os, q.runW ops = some (q', os) ∧ SpecRun q.beats ops q.contents os q'.contents := by
  have key : ∀ (ops : List (Op α)) (q : Fpq α), q.Inv → q.HistOk ops → (∀ op ∈ ops, rangeLength op ≤ 2 ^ 61) →
      (∀ ops1 ops2 q1 os, ops = ops1 ++ ops2 → q.run ops1 = some (q1, os) → q1.buf.cap ≤ 2 ^ 61) → q.runW ops = q.run ops := by
    intro ops
    induction ops with
    | nil => intro q _ _ _ _; rfl
    | cons op ops ih =>
      intro q h hok hlen hcap
      have hc := hcap [] (op :: ops) q [] rfl rfl
      have hr := h.room
      have he : q.stepW op = q.step op := by
        have ho := hlen op (by simp)
        cases op with
        | push x a a' => simp only [stepW, step, pushW_eq q x a a' (by omega) hc]
        | front => rfl
        | pop => simp only [stepW, step, popW_eq q (by omega)]
        | erase e => simp only [stepW, step, eraseW_eq q e (by omega)]
        | update e f => simp only [stepW, step, updateW_eq q e f (by omega)]
        | heapify xs a => simp only [stepW, step, heapifyW_eq q xs a (by simp only [rangeLength] at ho; omega)]
        | clear => rfl
      simp only [runW, run]
      rw [he]
      refine bind_congr' fun r e => ?_
      obtain ⟨q1, o⟩ := r
      obtain ⟨q', o', e', hi, _⟩ := C14_step q h op hok.1
      rw [e] at e'; cases e'
      simp only
      rw [ih q1 hi (hok.2 _ _ e) (fun op hop => hlen op (by simp [hop])) ?_]
      intro ops1 ops2 q2 os eo er
      exact hcap (op :: ops1) ops2 q2 (o :: os) (by rw [eo]; rfl) (by simp [run, e, er])
  have e := key ops q h hok hlen hcap
  refine ⟨e, ?_⟩
  rw [e]
  obtain ⟨q', os, e', _, hs⟩ := C13_history ops q h hok
  exact ⟨q', os, e', hs⟩

/-- The hypotheses are met: eight slots of user memory. -/
example : exQ.Inv ∧ exQ.HistOk [.push 5 none none, .pop] ∧
    (∀ op ∈ [Op.push 5 none none, .pop], rangeLength op ≤ 2 ^ 61) ∧
    ∀ ops1 ops2 q1 os, [.push 5 none none, .pop] = ops1 ++ ops2 → exQ.run ops1 = some (q1, os) → q1.buf.cap ≤ 2 ^ 61 := by
  have hp : ∀ r, exQ.push 5 none none = some r → r.1.buf.cap = 8 := by
    intro r e
    rcases push_cap e (Or.inl rfl) with h | ⟨h, _⟩
    · exact h
    · exact absurd h (by decide)
  refine ⟨init_inv _ _ _ natCmp_lawful (Or.inl rfl), ⟨trivial, fun q' o _ => ⟨trivial, fun _ _ _ => trivial⟩⟩, by simp [rangeLength], ?_⟩
  intro ops1 ops2 q1 os eo er
  match ops1, eo with
  | [], _ => cases er; decide
  | [_], eo =>
    simp only [List.cons_append, List.nil_append, List.cons.injEq] at eo
    obtain ⟨rfl, _⟩ := eo
    simp only [run, step] at er
    obtain ⟨r, e1, er⟩ := Option.bind_eq_some_iff.mp er
    obtain ⟨r1, e2, rfl⟩ := Option.map_eq_some_iff.mp e1
    cases er
    rw [hp _ e2]; decide
  | [_, _], eo =>
    simp only [List.cons_append, List.nil_append, List.cons.injEq] at eo
    obtain ⟨rfl, rfl, _⟩ := eo
    simp only [run, step] at er
    obtain ⟨r, e1, er⟩ := Option.bind_eq_some_iff.mp er
    obtain ⟨r1, e2, rfl⟩ := Option.map_eq_some_iff.mp e1
    obtain ⟨⟨q2, os2⟩, e3, er⟩ := Option.bind_eq_some_iff.mp er
    obtain ⟨r2, e4, e5⟩ := Option.bind_eq_some_iff.mp e3
    obtain ⟨r3, e6, rfl⟩ := Option.map_eq_some_iff.mp e4
    cases e5
    cases er
    rw [pop_cap e6, hp _ e2]; decide
  | _ :: _ :: _ :: _, eo => simp at eo

end CCC.Fpq
