import Verif.Proof.FlatHashLedger
import Verif.Props.FlatDeque
import Verif.Props.FlatPQ
import Verif.Props.FlatRealtimeMap
import Verif.Props.FlatOrderedMap
import Verif.Props.FlatHashMap
/-
C76: the memory of the flat containers.  `Verif/Spec/FlatLedger.lean` says what the allocation function sees (`Ev`), what its
books look like (`account`) and what a container answers for (`own`).
-/
namespace CCC
namespace Flat

/-- The books at the start: a container that starts with room for `cap` elements has one block, called 0, of this size; one
that starts without memory has none. -/
def start (cap : Nat) : Mem := if cap = 0 then ⟨none, 0, []⟩ else ⟨some 0, 1, []⟩

/-- The blocks that are out at the start. -/
def given (cap : Nat) : List (Nat × Nat) := if cap = 0 then [] else [(0, cap)]

variable {S C : Type}

/-- A history of calls. -/
def run (g : S → C → Option S) (s : S) : List C → Option S
  | [] => some s
  | c :: cs => do
    let s ← g s c
    run g s cs

/-- A history of calls, with the calls of the allocation function. -/
def runM (f : S → C → Fl S) (s : S) : List C → Fl S
  | [] => pure s
  | c :: cs => do
    let s ← f s c
    runM f s cs

theorem start_own (c : Nat) : Own (start c) c := by
  unfold start; split <;> simp_all [Own]

theorem own_start (c : Nat) : own (start c).mem c = given c := by
  unfold start given; split <;> simp_all [own]

/-- Each call keeps the books; `may` says whether it can call an allocation function. -/
def Calls (f : S → C → Fl S) (g : S → C → Option S) (cap : S → Nat) (may : S → C → Bool) : Prop :=
  ∀ s c, Keeps (f s c) (g s c) (cap s, may s c) (fun r => (cap r, may s c))

theorem run_keeps {f : S → C → Fl S} {g : S → C → Option S} {cap : S → Nat} {may : S → C → Bool} (hk : Calls f g cap may)
    (cs : List C) : ∀ (s s' : S) (m : Mem), run g s cs = some s' → Own m (cap s) → ∃ m' es, runM f s cs m = some (s', m') ∧
      m'.log = m.log ++ es ∧ account (own m.mem (cap s)) es = some (own m'.mem (cap s')) ∧ Own m' (cap s') := by
  induction cs with
  | nil => intro s s' m h ho; cases h; exact ⟨m, [], rfl, by simp, rfl, ho⟩
  | cons c cs ih =>
    intro s s' m h ho
    simp only [run, Option.bind_eq_bind, Option.bind_eq_some_iff] at h
    obtain ⟨s1, h1, h⟩ := h
    obtain ⟨m1, es, e1, l1, a1, o1, _⟩ := (hk s c s1 h1).2 m ho
    obtain ⟨m2, es', e2, l2, a2, o2⟩ := ih s1 s' m1 h o1
    refine ⟨m2, es ++ es', ?_, by rw [l2, l1, List.append_assoc], ?_, o2⟩
    · show (f s c m >>= fun p => runM f p.1 cs p.2) = _
      rw [e1]; exact e2
    · rw [account_append, a1]; exact a2

theorem run_quiet {f : S → C → Fl S} {g : S → C → Option S} {cap : S → Nat} {may : S → C → Bool} (hk : Calls f g cap may)
    {al : S → Bool} (hal : ∀ s c s', g s c = some s' → al s' = al s) {gives : C → Prop}
    (hq : ∀ s c, al s = false → ¬ gives c → may s c = false) (cs : List C) :
    ∀ (s s' : S) (m : Mem), run g s cs = some s' → Own m (cap s) → al s = false → (∀ c ∈ cs, ¬ gives c) →
      runM f s cs m = some (s', m) := by
  induction cs with
  | nil => intro s s' m h ho _ _; cases h; rfl
  | cons c cs ih =>
    intro s s' m h ho ha hc
    simp only [run, Option.bind_eq_bind, Option.bind_eq_some_iff] at h
    obtain ⟨s1, h1, h⟩ := h
    obtain ⟨m1, es, e1, l1, a1, o1, z1⟩ := (hk s c s1 h1).2 m ho
    have := z1 (hq s c ha (hc c (by simp)))
    subst this
    have := ih s1 s' m1 h o1 ((hal s c s1 h1).trans ha) (fun c' hc' => hc c' (by simp [hc']))
    show (f s c m1 >>= fun p => runM f p.1 cs p.2) = _
    rw [e1]; exact this

theorem run_al {g : S → C → Option S} {al : S → Bool} (hal : ∀ s c s', g s c = some s' → al s' = al s) (cs : List C) :
    ∀ (s s' : S), run g s cs = some s' → al s' = al s := by
  induction cs with
  | nil => intro s s' h; cases h; rfl
  | cons c cs ih =>
    intro s s' h
    simp only [run, Option.bind_eq_bind, Option.bind_eq_some_iff] at h
    obtain ⟨s1, h1, h⟩ := h
    exact (ih s1 s' h).trans (hal s c s1 h1)

theorem run_snoc {g : S → C → Option S} (cs : List C) (c : C) : ∀ (s s' : S), run g s (cs ++ [c]) = some s' →
    ∃ s1, run g s cs = some s1 ∧ g s1 c = some s' := by
  induction cs with
  | nil => intro s s' h; simpa [run] using h
  | cons c' cs ih =>
    intro s s' h
    simp only [List.cons_append, run, Option.bind_eq_bind, Option.bind_eq_some_iff] at h ⊢
    obtain ⟨s1, h1, h⟩ := h
    obtain ⟨s2, h2, h3⟩ := ih s1 s' h
    exact ⟨s2, ⟨s1, h1, h2⟩, h3⟩

theorem run_then {g : S → C → Option S} (cs : List C) (c : C) : ∀ (s s1 s' : S), run g s cs = some s1 → g s1 c = some s' →
    run g s (cs ++ [c]) = some s' := by
  induction cs with
  | nil => intro s s1 s' h h'; cases h; simpa [run] using h'
  | cons c' cs ih =>
    intro s s1 s' h h'
    simp only [List.cons_append, run, Option.bind_eq_bind, Option.bind_eq_some_iff] at h ⊢
    obtain ⟨s2, h1, h⟩ := h
    exact ⟨s2, h1, ih s2 s1 s' h h'⟩

/-- The statement about histories. -/
theorem history {f : S → C → Fl S} {g : S → C → Option S} {cap : S → Nat} {may : S → C → Bool} (hk : Calls f g cap may)
    (s s' : S) (cs : List C) (h : run g s cs = some s') :
    ∃ m, runM f s cs (start (cap s)) = some (s', m) ∧ account (given (cap s)) m.log = some (own m.mem (cap s')) ∧
      (m.mem = none ↔ cap s' = 0) := by
  obtain ⟨m, es, e, l, a, o⟩ := run_keeps hk cs s s' (start (cap s)) h (start_own _)
  refine ⟨m, e, ?_, o.1⟩
  have hl : (start (cap s)).log = [] := by unfold start; split <;> rfl
  rw [hl] at l
  rw [l, List.nil_append, ← own_start]; exact a

/-- The statement about histories after which the capacity is 0. -/
theorem settled {f : S → C → Fl S} {g : S → C → Option S} {cap : S → Nat} {may : S → C → Bool} (hk : Calls f g cap may)
    (s s' : S) (cs : List C) (h : run g s cs = some s') (h0 : cap s' = 0) :
    ∃ m, runM f s cs (start (cap s)) = some (s', m) ∧ account (given (cap s)) m.log = some [] ∧ m.mem = none := by
  obtain ⟨m, e, a, o⟩ := history hk s s' cs h
  have hm := o.2 h0
  refine ⟨m, e, ?_, hm⟩
  rw [a, hm]; rfl

end Flat
open Flat

/-! ### The buffer -/
namespace Buf
variable {α : Type}

/-- One call. -/
def call (b : Buf α) (op : Op α) : Option (Buf α) := do
  let (b, _) ← b.step op
  some b
/-- One call, with the calls of the allocation function. -/
def callM (b : Buf α) (op : Op α) : Fl (Buf α) := do
  let (b, _) ← b.stepM op
  pure b

theorem calls : Calls (callM (α := α)) call (·.cap) mayCall := by
  intro b op
  exact (step_keeps b op).bind fun r _ => Keeps.pure rfl

/-- The call passes an allocation function (`ccc_buf_alloc` takes one as an argument). -/
def Gives : Op α → Prop
  | .alloc _ f => f.isSome
  | _ => False

theorem call_al (b : Buf α) (op : Op α) (b' : Buf α) (h : call b op = some b') : b'.hasAlloc = b.hasAlloc := by
  simp only [call, Option.bind_eq_bind, Option.bind_eq_some_iff] at h
  obtain ⟨⟨b1, o⟩, h, h'⟩ := h
  cases h'
  cases op with
  | alloc c f => cases h; exact alloc_hasAlloc b c f
  | pushBack x ans =>
    obtain ⟨r, h1, h2⟩ := Option.map_eq_some_iff.1 h
    cases h2
    exact ((pushBack_keeps b x ans) r h1).1
  | allocBack ans => cases h; exact ((allocBack_keeps b ans) _ rfl).1
  | insert i x ans =>
    obtain ⟨r, h1, h2⟩ := Option.map_eq_some_iff.1 h
    cases h2
    exact ((insert_keeps b i x ans) r h1).1
  | emplaceBack x ans =>
    obtain ⟨r, h1, h2⟩ := Option.map_eq_some_iff.1 h
    cases h2
    exact ((pushBack_keeps b x ans) r h1).1
  | _ => exact congrArg Prod.snd (step_shape (by trivial) h)

/-- **C76, the buffer.**  Along every history the allocation function is handed only NULL or the buffer's own block, and at the
end of it the buffer answers for exactly one block, of exactly `capacity` elements, or for none if the capacity is 0. -/
theorem C76_buf_history (b b' : Buf α) (ops : List (Op α)) (h : Flat.run call b ops = some b') :
    ∃ m, runM callM b ops (start b.cap) = some (b', m) ∧ account (given b.cap) m.log = some (own m.mem b'.cap) ∧
      (m.mem = none ↔ b'.cap = 0) := history calls b b' ops h

/-- **C76, the buffer.**  `ccc_buf_alloc` with capacity 0 leaves no block out. -/
theorem C76_buf_settled (b b' : Buf α) (ops : List (Op α)) (ans : AllocAns α)
    (h : Flat.run call b (ops ++ [.alloc 0 (some ans)]) = some b') :
    ∃ m, runM callM b (ops ++ [.alloc 0 (some ans)]) (start b.cap) = some (b', m) ∧
      account (given b.cap) m.log = some [] ∧ m.mem = none := by
  refine settled calls b b' _ h ?_
  obtain ⟨b1, _, h2⟩ := run_snoc _ _ _ _ h
  cases ans <;> (cases h2; rfl)

/-- **C76, the buffer.**  Without an allocation function there are no calls of it and the memory stays where it is. -/
theorem C76_buf_fixed (b b' : Buf α) (ops : List (Op α)) (h : Flat.run call b ops = some b') (ha : b.hasAlloc = false)
    (hg : ∀ op ∈ ops, ¬ Gives op) : runM callM b ops (start b.cap) = some (b', start b.cap) := by
  refine run_quiet calls (al := (·.hasAlloc)) call_al (gives := Gives) ?_ ops b b' _ h (start_own _) ha hg
  intro s c hs hc
  cases c with
  | alloc c f => cases f <;> simp_all [mayCall, Gives]
  | _ => simpa [mayCall] using hs

/-- A buffer that starts without memory: a refused request, a granted one, a doubling, and the memory given back. -/
def ledgerOps : List (Op Nat) :=
  [.pushBack 3 none, .alloc 2 (some (some fun _ => 7)), .pushBack 4 none, .pushBack 5 none, .pushBack 6 (some fun _ => 9),
   .insert 3 8 none, .popBack]

example : ((runM callM (Buf.init (fun _ => 0) 0 true) ledgerOps (start 0)).map fun r => (r.2.log, r.2.mem, r.1.cap)) =
    some ([.refused none 8, .got none 0 2, .got (some 0) 1 4], some 1, 4) := by decide
example : ((Flat.run call (Buf.init (fun _ => 0) 0 true) ledgerOps).map fun b => (b.sz, b.cap)) = some (3, 4) := by decide
example : ((Flat.run call (Buf.init (fun _ => 0) 0 true) (ledgerOps ++ [.alloc 0 (some none)])).map (·.cap)) = some 0 := by
  decide
example : ((Flat.run call (Buf.init (fun _ => 0) 4 false) ([.pushBack 1 none, .pushBack 2 none])).map (·.sz)) = some 2 := by
  decide

end Buf

/-! ### The double-ended queue -/
namespace Fdeq
variable {α : Type}

/-- The calls of the interface that change the queue. -/
inductive Call (α : Type) where
  | op (o : Op α)
  | emplaceBack (x : α) (ans : AllocAns α)
  | emplaceFront (x : α) (ans : AllocAns α)
  | insertRange (pos : Slot) (xs : List α) (ans : AllocAns α)
  | clear (destructor : Bool)
  | clearAndFree (destructor : Bool)
  /-- copy from `src`, whose memory is `srcMem`; `fn` is the allocation function passed -/
  | copyFrom (src : Fdeq α) (srcMem : Slot) (fn : Option (AllocAns α))

/-- One call. -/
def call (d : Fdeq α) : Call α → Option (Fdeq α)
  | .op o => (d.step o).map Prod.fst
  | .emplaceBack x ans => (d.emplaceBack x ans).map Prod.fst
  | .emplaceFront x ans => (d.emplaceFront x ans).map Prod.fst
  | .insertRange pos xs ans => (d.insertRange pos xs ans).map Prod.fst
  | .clear b => (d.clear b).map Prod.fst
  | .clearAndFree b => (d.clearAndFree b).map Prod.fst
  | .copyFrom src _ fn => (d.copy src fn).map Prod.fst

/-- One call, with the calls of the allocation function. -/
def callM (d : Fdeq α) : Call α → Fl (Fdeq α)
  | .op (.pushBack x ans) => do pure (← d.pushBackM x ans).1
  | .op (.pushFront x ans) => do pure (← d.pushFrontM x ans).1
  | .op (.pushBackRange xs ans) => do pure (← d.pushBackRangeM xs ans).1
  | .op (.pushFrontRange xs ans) => do pure (← d.pushFrontRangeM xs ans).1
  | .op o => liftM ((d.step o).map Prod.fst)
  | .emplaceBack x ans => do pure (← d.emplaceBackM x ans).1
  | .emplaceFront x ans => do pure (← d.emplaceFrontM x ans).1
  | .insertRange pos xs ans => do pure (← d.insertRangeM pos xs ans).1
  | .clear b => liftM ((d.clear b).map Prod.fst)
  | .clearAndFree b => do pure (← d.clearAndFreeM b).1
  | .copyFrom src p fn => do pure (← d.copyM src p fn).1

/-- Whether the call can call an allocation function. -/
def may (d : Fdeq α) : Call α → Bool
  | .copyFrom _ _ fn => fn.isSome
  | _ => d.buf.hasAlloc

theorem popFront_shape (d : Fdeq α) : d.popFront.1.shape = d.shape := by
  unfold popFront
  split
  · rfl
  · exact Buf.sizeMinus_shape _ _

theorem clear_same (d : Fdeq α) (b : Bool) : Same (d.clear b) d.shape (fun r => r.1.shape) := by
  unfold clear
  refine Same.ite (fun _ => ?_) fun _ => ?_
  · exact Same.some (Buf.sizeSet_shape _ _)
  · exact Same.skip fun _ => Same.skip fun _ => Same.some rfl

theorem calls_shape (d : Fdeq α) (c : Call α) (hc : ∀ src p fn, c ≠ .copyFrom src p fn) :
    Keeps (d.callM c) (d.call c) d.shape shape := by
  cases c with
  | copyFrom src p fn => exact absurd rfl (hc src p fn)
  | op o =>
    cases o with
    | pushBack x ans =>
      have := (pushBack_keeps d x ans).map (f := fun r : Fdeq α × Slot => r.1) (w := shape) fun _ => rfl
      simp only [call, step, Option.map_map]; exact this
    | pushFront x ans =>
      have := (pushFront_keeps d x ans).map (f := fun r : Fdeq α × Slot => r.1) (w := shape) fun _ => rfl
      simp only [call, step, Option.map_map]; exact this
    | pushBackRange xs ans =>
      have := (pushBackRange_keeps d xs ans).map (f := fun r : Fdeq α × Res => r.1) (w := shape) fun _ => rfl
      simp only [call, step, Option.map_map]; exact this
    | pushFrontRange xs ans =>
      have := (pushFrontRange_keeps d xs ans).map (f := fun r : Fdeq α × Res => r.1) (w := shape) fun _ => rfl
      simp only [call, step, Option.map_map]; exact this
    | popBack => exact Keeps.lift (Same.map (u := fun r => r.1.shape) (Same.some (Buf.sizeMinus_shape _ _)) fun _ => rfl)
    | popFront => exact Keeps.lift (Same.map (u := fun r => r.1.shape) (Same.some (popFront_shape d)) fun _ => rfl)
    | clear =>
      refine Keeps.lift (Same.map (u := fun r => r.1.shape) ?_ fun _ => rfl)
      intro r hr
      simp only [step] at hr
      obtain ⟨q, h1, rfl⟩ := Option.map_eq_some_iff.1 hr
      exact clear_same d false q h1
  | emplaceBack x ans =>
    have := ((pushBack_keeps d x ans).map (f := fun r : Fdeq α × Slot => (r.1, (none : Slot))) (w := fun r => shape r.1)
      fun _ => rfl).map (f := fun r : Fdeq α × Slot => r.1) (w := shape) fun _ => rfl
    exact this
  | emplaceFront x ans =>
    have := ((pushFront_keeps d x ans).map (f := fun r : Fdeq α × Slot => (r.1, (none : Slot))) (w := fun r => shape r.1)
      fun _ => rfl).map (f := fun r : Fdeq α × Slot => r.1) (w := shape) fun _ => rfl
    exact this
  | insertRange pos xs ans =>
    exact (insertRange_keeps d pos xs ans).map (f := fun r : Fdeq α × Slot => r.1) (w := shape) fun _ => rfl
  | clear b => exact Keeps.lift (Same.map (clear_same d b) fun _ => rfl)
  | clearAndFree b =>
    exact (clearAndFree_keeps d b).map (f := fun r : Fdeq α × Res × List Slot => r.1) (w := shape) fun _ => rfl

theorem copy_al (dst src : Fdeq α) (fn : Option (AllocAns α)) :
    Same (dst.copy src fn) (0, dst.buf.hasAlloc) (fun r => (0, r.1.buf.hasAlloc)) := by
  unfold copy
  refine Same.ite (fun _ => Same.some rfl) fun _ => ?_
  dsimp only
  refine Same.ite (fun _ => Same.some rfl) fun _ => Same.ite (fun _ => ?_) fun _ => ?_
  · refine Same.bind (t := (0, dst.buf.hasAlloc)) (u := fun _ => (0, dst.buf.hasAlloc)) (fun _ _ => rfl) fun g _ => ?_
    first | exact Same.some rfl | exact Same.ite (fun _ => Same.none) fun _ => Same.some rfl
  · have h : (if dst.buf.cap < src.buf.cap then Buf.alloc { dst.buf with sz := src.buf.sz } src.buf.cap fn
        else ({ dst.buf with sz := src.buf.sz }, Res.ok)).1.hasAlloc = dst.buf.hasAlloc := by
      split
      · exact Buf.alloc_hasAlloc _ _ _
      · rfl
    refine Same.ite (fun _ => Same.some ?_) fun _ => Same.ite (fun _ => Same.none) fun _ => Same.some ?_
    · exact congrArg (fun x => ((0 : Nat), x)) h
    · exact congrArg (fun x => ((0 : Nat), x)) h

theorem copy_hasAlloc (dst src d : Fdeq α) (fn : Option (AllocAns α)) (r : Res) (h : dst.copy src fn = some (d, r)) :
    d.buf.hasAlloc = dst.buf.hasAlloc := congrArg Prod.snd (copy_al dst src fn (d, r) h)

theorem calls : Calls (callM (α := α)) call (·.buf.cap) may := by
  intro d c
  by_cases hc : ∃ src p fn, c = .copyFrom src p fn
  · obtain ⟨src, p, fn, rfl⟩ := hc
    exact (copy_keeps d src p fn).map (f := fun r : Fdeq α × Res => r.1) (w := fun r : Fdeq α => (r.buf.cap, fn.isSome))
      fun _ => rfl
  · have hc : ∀ src p fn, c ≠ .copyFrom src p fn := fun src p fn e => hc ⟨src, p, fn, e⟩
    have hm : may d c = d.buf.hasAlloc := by
      cases c with
      | copyFrom src p fn => exact absurd rfl (hc src p fn)
      | _ => rfl
    have k := calls_shape d c hc
    rw [hm]
    refine k.view rfl fun r hr => ?_
    have := (k r hr).1
    simp only [shape, Buf.shape] at this ⊢
    rw [this]

theorem call_al (d : Fdeq α) (c : Call α) (d' : Fdeq α) (h : d.call c = some d') : d'.buf.hasAlloc = d.buf.hasAlloc := by
  by_cases hc : ∃ src p fn, c = .copyFrom src p fn
  · obtain ⟨src, p, fn, rfl⟩ := hc
    obtain ⟨⟨d1, r⟩, h1, rfl⟩ := Option.map_eq_some_iff.1 h
    exact copy_hasAlloc d src d1 fn r h1
  · exact (calls_shape d c (fun src p fn e => hc ⟨src, p, fn, e⟩) d' h).1

/-- The call passes an allocation function. -/
def Gives : Call α → Prop
  | .copyFrom _ _ fn => fn.isSome
  | _ => False

/-- **C76, the double-ended queue.**  Along every history the allocation function is handed only NULL or the queue's own block,
and at the end of it the queue answers for exactly one block, of exactly `capacity` elements, or for none if the capacity is 0:
no block is leaked when the queue grows, and none is shared after a copy. -/
theorem C76_fdeq_history (d d' : Fdeq α) (cs : List (Call α)) (h : Flat.run call d cs = some d') :
    ∃ m, runM callM d cs (start d.buf.cap) = some (d', m) ∧ account (given d.buf.cap) m.log = some (own m.mem d'.buf.cap) ∧
      (m.mem = none ↔ d'.buf.cap = 0) := history calls d d' cs h

/-- **C76, the double-ended queue.**  `clear_and_free` leaves no block out. -/
theorem C76_fdeq_settled (d d' : Fdeq α) (cs : List (Call α)) (b : Bool) (ha : d.buf.hasAlloc = true)
    (h : Flat.run call d (cs ++ [.clearAndFree b]) = some d') :
    ∃ m, runM callM d (cs ++ [.clearAndFree b]) (start d.buf.cap) = some (d', m) ∧
      account (given d.buf.cap) m.log = some [] ∧ m.mem = none := by
  refine settled calls d d' _ h ?_
  obtain ⟨d1, h1, h2⟩ := run_snoc _ _ _ _ h
  have ha1 : d1.buf.hasAlloc = true := (run_al (al := fun d : Fdeq α => d.buf.hasAlloc) call_al _ _ _ h1).trans ha
  obtain ⟨⟨d2, r, l⟩, h3, rfl⟩ := Option.map_eq_some_iff.1 h2
  unfold clearAndFree at h3
  split at h3
  · simp [Buf.alloc, Buf.fn, ha1] at h3
    rw [← h3.1]
  · simp only [Option.bind_eq_bind, Option.bind_eq_some_iff] at h3
    obtain ⟨x, _, y, _, h3⟩ := h3
    simp [Buf.alloc, Buf.fn, ha1] at h3
    rw [← h3.1]

/-- **C76, the double-ended queue.**  Without an allocation function there are no calls of it and the memory stays where it is. -/
theorem C76_fdeq_fixed (d d' : Fdeq α) (cs : List (Call α)) (h : Flat.run call d cs = some d') (ha : d.buf.hasAlloc = false)
    (hg : ∀ c ∈ cs, ¬ Gives c) : runM callM d cs (start d.buf.cap) = some (d', start d.buf.cap) := by
  refine run_quiet calls (al := fun d : Fdeq α => d.buf.hasAlloc) call_al (gives := Gives) ?_ cs d d' _ h (start_own _) ha hg
  intro s c hs hc
  cases c with
  | copyFrom src p fn => cases fn <;> simp_all [may, Gives]
  | _ => simpa [may] using hs

/-- A queue without memory: a refused request, a granted one, and room for another element. -/
example : ((runM callM (⟨⟨fun _ => 0, 0, 0, 0, true⟩, 0⟩ : Fdeq Nat)
      [.op (.pushBack 1 none), .op (.pushBack 1 (some fun _ => 7)), .op (.pushFront 2 none)] (start 0)).map
      fun r => (r.2.log, r.2.mem, r.1.buf.cap)) =
    some ([.refused none 8, .got none 0 8, .freed none], some 0, 8) := by decide
/-- A full queue, rotated, grows: new memory is requested before the old block is given back. -/
example : ((runM callM (⟨⟨fun i => i, 8, 8, 8, true⟩, 5⟩ : Fdeq Nat) [.emplaceFront 9 (some fun _ => 8)] (start 8)).map
      fun r => (r.2.log, r.2.mem, r.1.buf.cap)) =
    some ([.got none 1 16, .freed (some 0)], some 1, 16) := by decide
/-- A copy of a larger queue, whose memory is not touched. -/
example : ((runM callM (⟨⟨fun i => i, 8, 8, 8, true⟩, 5⟩ : Fdeq Nat)
      [.copyFrom ⟨⟨fun _ => 3, 20, 1, 20, true⟩, 0⟩ (some 55) (some (some fun _ => 4)), .clearAndFree false] (start 8)).map
      fun r => (r.2.log, r.2.mem, r.1.buf.cap)) =
    some ([.got (some 0) 1 20, .freed (some 1)], none, 0) := by decide
example : ((Flat.run call (⟨⟨fun _ => 0, 4, 0, 4, false⟩, 0⟩ : Fdeq Nat)
    [.op (.pushBack 1 none), .op (.pushFront 2 none)]).map fun d => d.buf.sz) = some 2 := by decide

end Fdeq

/-! ### The flat priority queue -/
namespace Fpq
variable {α : Type}

/-- The calls of the interface that change the queue. -/
inductive Call (α : Type) where
  | op (o : Op α)
  | emplace (x : α) (ans ans' : AllocAns α)
  | clearAndFree
  /-- copy from `src`, whose memory is `srcMem`; `fn` is the allocation function passed -/
  | copyFrom (src : Fpq α) (srcMem : Slot) (fn : Option (AllocAns α))

/-- One call. -/
def call (q : Fpq α) : Call α → Option (Fpq α)
  | .op o => (q.step o).map Prod.fst
  | .emplace x ans ans' => (q.emplace x ans ans').map Prod.fst
  | .clearAndFree => some q.clearAndFree.1
  | .copyFrom src _ fn => (q.copy src fn).map Prod.fst

/-- One call, with the calls of the allocation function. -/
def callM (q : Fpq α) : Call α → Fl (Fpq α)
  | .op (.push x ans ans') => do pure (← q.pushM x ans ans').1
  | .op (.heapify xs ans) => do pure (← q.heapifyM xs ans).1
  | .op o => liftM ((q.step o).map Prod.fst)
  | .emplace x ans ans' => do pure (← q.emplaceM x ans ans').1
  | .clearAndFree => do pure (← q.clearAndFreeM).1
  | .copyFrom src p fn => do pure (← q.copyM src p fn).1

/-- Whether the call can call an allocation function. -/
def may (q : Fpq α) : Call α → Bool
  | .copyFrom _ _ fn => fn.isSome
  | _ => q.buf.hasAlloc

theorem pop_same (q : Fpq α) : Flat.Same q.pop q.shape (fun r => r.1.shape) := by
  unfold pop
  refine Flat.Same.ite (fun _ => Flat.Same.some rfl) fun _ => Flat.Same.ite (fun _ => Flat.Same.some (Buf.popBack_shape _)) fun _ => ?_
  refine Flat.Same.bind (swap_same q _ _ _) fun q1 h1 => ?_
  refine Flat.Same.bind (bubbleDown_same _ _ _) ?_
  rintro ⟨q2, i⟩ h2
  exact Flat.Same.some (h2.trans ((Buf.popBack_shape _).trans h1))

theorem updateFixup_same (q : Fpq α) (i : Nat) : Flat.Same (q.updateFixup i) q.shape (fun r => r.1.shape) := by
  unfold updateFixup
  refine Flat.Same.ite (fun _ => Flat.Same.none) fun _ => Flat.Same.ite (fun _ => bubbleDown_same _ _ _) fun _ => ?_
  refine Flat.Same.skip fun a => Flat.Same.skip fun b => ?_
  exact Flat.Same.ite (fun _ => bubbleUp_same _ _ _) fun _ => Flat.Same.ite (fun _ => bubbleDown_same _ _ _) fun _ => Flat.Same.some rfl

theorem erase_same (q : Fpq α) (e : Nat) : Flat.Same (q.erase e) q.shape (fun r => r.1.shape) := by
  unfold erase
  refine Flat.Same.ite (fun _ => Flat.Same.some rfl) fun _ => Flat.Same.ite (fun _ => Flat.Same.some (Buf.popBack_shape _)) fun _ => ?_
  refine Flat.Same.ite (fun _ => Flat.Same.none) fun _ => Flat.Same.ite (fun _ => Flat.Same.some (Buf.popBack_shape _)) fun _ => ?_
  refine Flat.Same.bind (swap_same q _ _ _) fun q1 h1 => Flat.Same.skip fun x => Flat.Same.skip fun y => ?_
  have h2 : (({ q1 with buf := q1.buf.popBack.1 } : Fpq α)).shape = q.shape := (Buf.popBack_shape _).trans h1
  refine Flat.Same.ite (fun _ => ?_) fun _ => Flat.Same.ite (fun _ => ?_) fun _ => Flat.Same.some h2
  · exact Flat.Same.bind (bubbleUp_same _ _ _) (by rintro ⟨q2, i⟩ h3; exact Flat.Same.some (h3.trans h2))
  · exact Flat.Same.bind (bubbleDown_same _ _ _) (by rintro ⟨q2, i⟩ h3; exact Flat.Same.some (h3.trans h2))

theorem update_same (q : Fpq α) (e : Nat) (f : α → α) : Flat.Same (q.update e f) q.shape (fun r => r.1.shape) := by
  unfold update
  refine Flat.Same.ite (fun _ => Flat.Same.some rfl) fun _ => Flat.Same.skip fun x => ?_
  refine Flat.Same.bind (t := q.shape) (u := Buf.shape) (fun b hb => Buf.store_shape hb) fun b hb => ?_
  refine Flat.Same.bind (updateFixup_same _ _) ?_
  rintro ⟨q2, i⟩ h3
  exact Flat.Same.some (h3.trans hb)

theorem calls_shape (q : Fpq α) (c : Call α) (hc : ∀ src p fn, c ≠ .copyFrom src p fn) :
    Keeps (q.callM c) (q.call c) q.shape shape := by
  cases c with
  | copyFrom src p fn => exact absurd rfl (hc src p fn)
  | op o =>
    cases o with
    | push x ans ans' =>
      have := (push_keeps q x ans ans').map (f := fun r : Fpq α × Slot => r.1) (w := shape) fun _ => rfl
      simp only [call, step, Option.map_map]; exact this
    | heapify xs ans =>
      have := (heapify_keeps q xs ans).map (f := fun r : Fpq α × Res => r.1) (w := shape) fun _ => rfl
      simp only [call, step, Option.map_map]; exact this
    | front => exact Keeps.pure rfl
    | pop => exact Keeps.lift (Flat.Same.map (u := fun r => r.1.shape) ((pop_same q).map fun _ => rfl) fun _ => rfl)
    | erase e => exact Keeps.lift (Flat.Same.map (u := fun r => r.1.shape) ((erase_same q e).map fun _ => rfl) fun _ => rfl)
    | update e f => exact Keeps.lift (Flat.Same.map (u := fun r => r.1.shape) ((update_same q e f).map fun _ => rfl) fun _ => rfl)
    | clear => exact Keeps.lift (Flat.Same.map (u := fun r => r.1.shape) (Flat.Same.some (Buf.sizeSet_shape _ _)) fun _ => rfl)
  | emplace x ans ans' =>
    exact (emplace_keeps q x ans ans').map (f := fun r : Fpq α × Slot => r.1) (w := shape) fun _ => rfl
  | clearAndFree =>
    exact (clearAndFree_keeps q).map (f := fun r : Fpq α × Res => r.1) (w := shape) fun _ => rfl

theorem copy_al (dst src : Fpq α) (fn : Option (AllocAns α)) :
    Flat.Same (dst.copy src fn) (0, dst.buf.hasAlloc) (fun r => (0, r.1.buf.hasAlloc)) := by
  unfold copy
  refine Flat.Same.ite (fun _ => Flat.Same.some rfl) fun _ => ?_
  dsimp only
  have h : (if dst.buf.cap < src.buf.cap then Buf.alloc { dst.buf with sz := src.buf.sz } src.buf.cap fn
      else ({ dst.buf with sz := src.buf.sz }, Res.ok)).1.hasAlloc = dst.buf.hasAlloc := by
    split
    · exact Buf.alloc_hasAlloc _ _ _
    · rfl
  refine Flat.Same.ite (fun _ => Flat.Same.some ?_) fun _ => Flat.Same.ite (fun _ => Flat.Same.none) fun _ => Flat.Same.some ?_
  · exact congrArg (fun x => ((0 : Nat), x)) h
  · exact congrArg (fun x => ((0 : Nat), x)) h

theorem copy_hasAlloc (dst src d : Fpq α) (fn : Option (AllocAns α)) (r : Res) (h : dst.copy src fn = some (d, r)) :
    d.buf.hasAlloc = dst.buf.hasAlloc := congrArg Prod.snd (copy_al dst src fn (d, r) h)

theorem calls : Calls (callM (α := α)) call (·.buf.cap) may := by
  intro d c
  by_cases hc : ∃ src p fn, c = .copyFrom src p fn
  · obtain ⟨src, p, fn, rfl⟩ := hc
    exact (copy_keeps d src p fn).map (f := fun r : Fpq α × Res => r.1) (w := fun r : Fpq α => (r.buf.cap, fn.isSome))
      fun _ => rfl
  · have hc : ∀ src p fn, c ≠ .copyFrom src p fn := fun src p fn e => hc ⟨src, p, fn, e⟩
    have hm : may d c = d.buf.hasAlloc := by
      cases c with
      | copyFrom src p fn => exact absurd rfl (hc src p fn)
      | _ => rfl
    have k := calls_shape d c hc
    rw [hm]
    refine k.view rfl fun r hr => ?_
    have := (k r hr).1
    simp only [shape, Buf.shape] at this ⊢
    rw [this]

theorem call_al (d : Fpq α) (c : Call α) (d' : Fpq α) (h : d.call c = some d') : d'.buf.hasAlloc = d.buf.hasAlloc := by
  by_cases hc : ∃ src p fn, c = .copyFrom src p fn
  · obtain ⟨src, p, fn, rfl⟩ := hc
    obtain ⟨⟨d1, r⟩, h1, rfl⟩ := Option.map_eq_some_iff.1 h
    exact copy_hasAlloc d src d1 fn r h1
  · exact (calls_shape d c (fun src p fn e => hc ⟨src, p, fn, e⟩) d' h).1

/-- The call passes an allocation function. -/
def Gives : Call α → Prop
  | .copyFrom _ _ fn => fn.isSome
  | _ => False

/-- **C76, the flat priority queue.**  Along every history the allocation function is handed only NULL or the queue's own block,
and at the end of it the queue answers for exactly one block, of exactly `capacity` elements, or for none if the capacity is 0. -/
theorem C76_fpq_history (d d' : Fpq α) (cs : List (Call α)) (h : Flat.run call d cs = some d') :
    ∃ m, runM callM d cs (start d.buf.cap) = some (d', m) ∧ account (given d.buf.cap) m.log = some (own m.mem d'.buf.cap) ∧
      (m.mem = none ↔ d'.buf.cap = 0) := history calls d d' cs h

/-- **C76, the flat priority queue.**  `clear_and_free` leaves no block out. -/
theorem C76_fpq_settled (d d' : Fpq α) (cs : List (Call α)) (ha : d.buf.hasAlloc = true)
    (h : Flat.run call d (cs ++ [.clearAndFree]) = some d') :
    ∃ m, runM callM d (cs ++ [.clearAndFree]) (start d.buf.cap) = some (d', m) ∧
      account (given d.buf.cap) m.log = some [] ∧ m.mem = none := by
  refine settled calls d d' _ h ?_
  obtain ⟨d1, h1, h2⟩ := run_snoc _ _ _ _ h
  have ha1 : d1.buf.hasAlloc = true := (run_al (al := fun d : Fpq α => d.buf.hasAlloc) call_al _ _ _ h1).trans ha
  cases h2
  simp [clearAndFree, Buf.alloc, Buf.fn, ha1]

/-- **C76, the flat priority queue.**  Without an allocation function there are no calls of it and the memory stays where it is. -/
theorem C76_fpq_fixed (d d' : Fpq α) (cs : List (Call α)) (h : Flat.run call d cs = some d') (ha : d.buf.hasAlloc = false)
    (hg : ∀ c ∈ cs, ¬ Gives c) : runM callM d cs (start d.buf.cap) = some (d', start d.buf.cap) := by
  refine run_quiet calls (al := fun d : Fpq α => d.buf.hasAlloc) call_al (gives := Gives) ?_ cs d d' _ h (start_own _) ha hg
  intro s c hs hc
  cases c with
  | copyFrom src p fn => cases fn <;> simp_all [may, Gives]
  | _ => simpa [may] using hs

/-- A comparison for the examples. -/
def ledgerCmp (a b : Nat) : Cmp := if a < b then .les else if b < a then .grt else .eql

/-- A queue without memory.  The first request of the first `push` has size 0. -/
example : ((runM callM (⟨⟨fun i => i, 0, 0, 0, true⟩, ledgerCmp, .les⟩ : Fpq Nat)
      [.op (.push 3 none (some fun _ => 7)), .op .pop, .emplace 5 none none, .clearAndFree] (start 0)).map
      fun r => (r.2.log, r.2.mem, r.1.buf.cap)) =
    some ([.freed none, .got none 0 8, .freed (some 0)], none, 0) := by decide
/-- A copy of a larger queue, whose memory is not touched. -/
example : ((runM callM (⟨⟨fun i => i, 2, 1, 2, true⟩, ledgerCmp, .les⟩ : Fpq Nat)
      [.copyFrom ⟨⟨fun _ => 3, 20, 1, 20, true⟩, ledgerCmp, .les⟩ (some 55) (some (some fun _ => 4)), .clearAndFree]
      (start 2)).map fun r => (r.2.log, r.2.mem, r.1.buf.cap)) =
    some ([.got (some 0) 1 20, .freed (some 1)], none, 0) := by decide
example : ((Flat.run call (⟨⟨fun i => i, 4, 0, 4, false⟩, ledgerCmp, .les⟩ : Fpq Nat)
    [.op (.push 3 none none), .op .clear, .op (.push 4 none none)]).map fun q => q.buf.sz) = some 1 := by decide

end Fpq

/-! ### The flat realtime ordered map -/
namespace Frm
variable {α κ : Type} (cmp : κ → κ → Cmp) (key : α → κ)

/-- The calls of the interface that change the map. -/
inductive Call (α κ : Type) where
  | op (o : FlatMap.Op α κ (Junk α))
  | clearAndFree (destructor : Bool)
  /-- copy from `src`, whose memory is `srcMem`; `fn` is the allocation function passed -/
  | copyFrom (src : Frm α) (srcMem : Slot) (fn : Option (Option (Junk α)))

/-- One call. -/
def call (s : Frm α) : Call α κ → Option (Frm α)
  | .op o => (step cmp key s o).map Prod.fst
  | .clearAndFree b => (clearAndFree s b).map Prod.fst
  | .copyFrom src _ fn => some (copy s src fn).1

/-- One call, with the calls of the allocation function. -/
def callM (s : Frm α) : Call α κ → Fl (Frm α)
  | .op o => do pure (← stepM cmp key s o).1
  | .clearAndFree b => do pure (← clearAndFreeM s b).1
  | .copyFrom src p fn => do pure (← copyM s src p fn).1

/-- Whether the call can call an allocation function. -/
def may (s : Frm α) : Call α κ → Bool
  | .copyFrom _ _ fn => fn.isSome
  | _ => s.hasAlloc

theorem calls_shape (s : Frm α) (c : Call α κ) (hc : ∀ src p fn, c ≠ .copyFrom src p fn) :
    Keeps (callM cmp key s c) (call cmp key s c) (shape s) shape := by
  cases c with
  | copyFrom src p fn => exact absurd rfl (hc src p fn)
  | op o => exact (step_keeps cmp key s o).map (f := fun r : Frm α × FlatMap.Out α => r.1) (w := shape) fun _ => rfl
  | clearAndFree b =>
    exact (clearAndFree_keeps s b).map (f := fun r : Frm α × List (Nat × α) × Res => r.1) (w := shape) fun _ => rfl

theorem calls : Calls (callM cmp key) (call cmp key) (·.cap) may := by
  intro s c
  by_cases hc : ∃ src p fn, c = .copyFrom src p fn
  · obtain ⟨src, p, fn, rfl⟩ := hc
    exact (copy_keeps s src p fn).map (f := fun r : Frm α × Res => r.1) (w := fun r : Frm α => (r.cap, fn.isSome))
      fun _ => rfl
  · have hc : ∀ src p fn, c ≠ .copyFrom src p fn := fun src p fn e => hc ⟨src, p, fn, e⟩
    have hm : may s c = s.hasAlloc := by
      cases c with
      | copyFrom src p fn => exact absurd rfl (hc src p fn)
      | _ => rfl
    have k := calls_shape cmp key s c hc
    rw [hm]
    refine k.view rfl fun r hr => ?_
    have := (k r hr).1
    simp only [shape] at this ⊢
    rw [this]

theorem call_al (s : Frm α) (c : Call α κ) (s' : Frm α) (h : call cmp key s c = some s') : s'.hasAlloc = s.hasAlloc := by
  by_cases hc : ∃ src p fn, c = .copyFrom src p fn
  · obtain ⟨src, p, fn, rfl⟩ := hc
    cases h
    exact copy_hasAlloc s src fn
  · exact (calls_shape cmp key s c (fun src p fn e => hc ⟨src, p, fn, e⟩) s' h).1

/-- The call passes an allocation function. -/
def Gives : Call α κ → Prop
  | .copyFrom _ _ fn => fn.isSome
  | _ => False

/-- **C76, the flat realtime ordered map.**  Along every history the allocation function is handed only NULL or the map's own block, and at
the end of it the map answers for exactly one block, of exactly `capacity` elements, or for none if the capacity is 0. -/
theorem C76_frm_history (s s' : Frm α) (cs : List (Call α κ)) (h : Flat.run (call cmp key) s cs = some s') :
    ∃ m, Flat.runM (callM cmp key) s cs (start s.cap) = some (s', m) ∧ account (given s.cap) m.log = some (own m.mem s'.cap) ∧
      (m.mem = none ↔ s'.cap = 0) := history (calls cmp key) s s' cs h

/-- **C76, the flat realtime ordered map.**  `clear_and_free` leaves no block out. -/
theorem C76_frm_settled (s s' : Frm α) (cs : List (Call α κ)) (b : Bool) (ha : s.hasAlloc = true)
    (h : Flat.run (call cmp key) s (cs ++ [.clearAndFree b]) = some s') :
    ∃ m, Flat.runM (callM cmp key) s (cs ++ [.clearAndFree b]) (start s.cap) = some (s', m) ∧
      account (given s.cap) m.log = some [] ∧ m.mem = none := by
  refine settled (calls cmp key) s s' _ h ?_
  obtain ⟨s1, h1, h2⟩ := run_snoc _ _ _ _ h
  have ha1 : s1.hasAlloc = true := (run_al (al := fun s : Frm α => s.hasAlloc) (call_al cmp key) _ _ _ h1).trans ha
  obtain ⟨⟨s2, d, r⟩, h3, rfl⟩ := Option.map_eq_some_iff.1 h2
  simp only [clearAndFree, Option.bind_eq_bind, Option.bind_eq_some_iff] at h3
  obtain ⟨x, _, h3⟩ := h3
  simp [ha1] at h3
  rw [← h3.1]

/-- **C76, the flat realtime ordered map.**  Without an allocation function there are no calls of it and the memory stays where it is. -/
theorem C76_frm_fixed (s s' : Frm α) (cs : List (Call α κ)) (h : Flat.run (call cmp key) s cs = some s')
    (ha : s.hasAlloc = false) (hg : ∀ c ∈ cs, ¬ Gives c) :
    Flat.runM (callM cmp key) s cs (start s.cap) = some (s', start s.cap) := by
  refine run_quiet (calls cmp key) (al := fun s : Frm α => s.hasAlloc) (call_al cmp key) (gives := Gives) ?_ cs s s' _ h
    (start_own _) ha hg
  intro s c hs hc
  cases c with
  | copyFrom src p fn => cases fn <;> simp_all [may, Gives]
  | _ => simpa [may] using hs

theorem run_ops {s s' : Frm α} {outs : List (FlatMap.Out α)} (ops : List (FlatMap.Op α κ (Junk α)))
    (h : run cmp key s ops = some (s', outs)) : Flat.run (call cmp key) s (ops.map .op) = some s' := by
  induction ops generalizing s outs with
  | nil => cases h; rfl
  | cons o os ih =>
    simp only [run, Option.bind_eq_bind, Option.bind_eq_some_iff] at h
    obtain ⟨⟨s1, r⟩, h1, ⟨s2, rs⟩, h2, h3⟩ := h
    cases h3
    simp only [List.map_cons, Flat.run, call, h1, Option.map_some, Option.bind_eq_bind, Option.bind_some]
    exact ih h2

example : ∃ s, Flat.run (call natCmp Prod.fst) (init Frm.sampleJunk 0 true) (sampleOps.map .op) = some s := by
  obtain ⟨s, h⟩ := C32_frm_history_partial natCmp_lawful sampleJunk 0 true sampleOps sampleOps_ok
  exact ⟨s, run_ops natCmp Prod.fst sampleOps h⟩

/-- The map of the example starts without memory and grows once. -/
example : ∃ s m, Flat.runM (callM natCmp Prod.fst) (init Frm.sampleJunk 0 true) (sampleOps.map .op ++ [.clearAndFree false])
    (start 0) = some (s, m) ∧ account [] m.log = some [] ∧ m.mem = none := by
  obtain ⟨s, h⟩ := C32_frm_history_partial natCmp_lawful sampleJunk 0 true sampleOps sampleOps_ok
  have h1 := run_ops natCmp Prod.fst sampleOps h
  have ha : s.hasAlloc = true := run_al (al := fun s => s.hasAlloc) (call_al natCmp Prod.fst) _ _ _ h1
  have h2 := run_then _ (.clearAndFree false) _ _ _ h1 (by simp only [call, clearAndFree, ha]; rfl)
  exact ⟨_, C76_frm_settled natCmp Prod.fst _ _ _ false rfl h2⟩

end Frm

/-! ### The flat ordered map -/
namespace Fom
open CCC.Frm (Frm Junk shape)
variable {α κ : Type} (cmp : κ → κ → Cmp) (key : α → κ)

/-- The calls of the interface that change the map. -/
inductive Call (α κ : Type) where
  | op (o : FlatMap.Op α κ (Junk α))
  | clearAndFree (destructor : Bool)
  /-- copy from `src`, whose memory is `srcMem`; `fn` is the allocation function passed -/
  | copyFrom (src : Fom α) (srcMem : Slot) (fn : Option (Option (Junk α)))

/-- One call. -/
def call (s : Fom α) : Call α κ → Option (Fom α)
  | .op o => (step cmp key s o).map Prod.fst
  | .clearAndFree b => (clearAndFree s b).map Prod.fst
  | .copyFrom src _ fn => some (Frm.copy s src fn).1

/-- One call, with the calls of the allocation function. -/
def callM (s : Fom α) : Call α κ → Fl (Fom α)
  | .op o => do pure (← stepM cmp key s o).1
  | .clearAndFree b => do pure (← clearAndFreeM s b).1
  | .copyFrom src p fn => do pure (← Frm.copyM s src p fn).1

/-- Whether the call can call an allocation function. -/
def may (s : Fom α) : Call α κ → Bool
  | .copyFrom _ _ fn => fn.isSome
  | _ => s.hasAlloc

theorem calls_shape (s : Fom α) (c : Call α κ) (hc : ∀ src p fn, c ≠ .copyFrom src p fn) :
    Keeps (callM cmp key s c) (call cmp key s c) (shape s) shape := by
  cases c with
  | copyFrom src p fn => exact absurd rfl (hc src p fn)
  | op o => exact (step_keeps cmp key s o).map (f := fun r : Fom α × FlatMap.Out α => r.1) (w := shape) fun _ => rfl
  | clearAndFree b =>
    exact (clearAndFree_keeps s b).map (f := fun r : Fom α × List (Nat × α) × Res => r.1) (w := shape) fun _ => rfl

theorem calls : Calls (callM cmp key) (call cmp key) (·.cap) may := by
  intro s c
  by_cases hc : ∃ src p fn, c = .copyFrom src p fn
  · obtain ⟨src, p, fn, rfl⟩ := hc
    exact (Frm.copy_keeps s src p fn).map (f := fun r : Fom α × Res => r.1) (w := fun r : Fom α => (r.cap, fn.isSome))
      fun _ => rfl
  · have hc : ∀ src p fn, c ≠ .copyFrom src p fn := fun src p fn e => hc ⟨src, p, fn, e⟩
    have hm : may s c = s.hasAlloc := by
      cases c with
      | copyFrom src p fn => exact absurd rfl (hc src p fn)
      | _ => rfl
    have k := calls_shape cmp key s c hc
    rw [hm]
    refine k.view rfl fun r hr => ?_
    have := (k r hr).1
    simp only [shape] at this ⊢
    rw [this]

theorem call_al (s : Fom α) (c : Call α κ) (s' : Fom α) (h : call cmp key s c = some s') : s'.hasAlloc = s.hasAlloc := by
  by_cases hc : ∃ src p fn, c = .copyFrom src p fn
  · obtain ⟨src, p, fn, rfl⟩ := hc
    cases h
    exact Frm.copy_hasAlloc s src fn
  · exact (calls_shape cmp key s c (fun src p fn e => hc ⟨src, p, fn, e⟩) s' h).1

/-- The call passes an allocation function. -/
def Gives : Call α κ → Prop
  | .copyFrom _ _ fn => fn.isSome
  | _ => False

/-- **C76, the flat ordered map.**  Along every history the allocation function is handed only NULL or the map's own block, and at
the end of it the map answers for exactly one block, of exactly `capacity` elements, or for none if the capacity is 0. -/
theorem C76_fom_history (s s' : Fom α) (cs : List (Call α κ)) (h : Flat.run (call cmp key) s cs = some s') :
    ∃ m, Flat.runM (callM cmp key) s cs (start s.cap) = some (s', m) ∧ account (given s.cap) m.log = some (own m.mem s'.cap) ∧
      (m.mem = none ↔ s'.cap = 0) := history (calls cmp key) s s' cs h

/-- **C76, the flat ordered map.**  `clear_and_free` leaves no block out. -/
theorem C76_fom_settled (s s' : Fom α) (cs : List (Call α κ)) (b : Bool) (ha : s.hasAlloc = true)
    (h : Flat.run (call cmp key) s (cs ++ [.clearAndFree b]) = some s') :
    ∃ m, Flat.runM (callM cmp key) s (cs ++ [.clearAndFree b]) (start s.cap) = some (s', m) ∧
      account (given s.cap) m.log = some [] ∧ m.mem = none := by
  refine settled (calls cmp key) s s' _ h ?_
  obtain ⟨s1, h1, h2⟩ := run_snoc _ _ _ _ h
  have ha1 : s1.hasAlloc = true := (run_al (al := fun s : Fom α => s.hasAlloc) (call_al cmp key) _ _ _ h1).trans ha
  obtain ⟨⟨s2, d, r⟩, h3, rfl⟩ := Option.map_eq_some_iff.1 h2
  simp only [clearAndFree, Option.bind_eq_bind, Option.bind_eq_some_iff] at h3
  obtain ⟨x, _, h3⟩ := h3
  simp [ha1] at h3
  rw [← h3.1]

/-- **C76, the flat ordered map.**  Without an allocation function there are no calls of it and the memory stays where it is. -/
theorem C76_fom_fixed (s s' : Fom α) (cs : List (Call α κ)) (h : Flat.run (call cmp key) s cs = some s')
    (ha : s.hasAlloc = false) (hg : ∀ c ∈ cs, ¬ Gives c) :
    Flat.runM (callM cmp key) s cs (start s.cap) = some (s', start s.cap) := by
  refine run_quiet (calls cmp key) (al := fun s : Fom α => s.hasAlloc) (call_al cmp key) (gives := Gives) ?_ cs s s' _ h
    (start_own _) ha hg
  intro s c hs hc
  cases c with
  | copyFrom src p fn => cases fn <;> simp_all [may, Gives]
  | _ => simpa [may] using hs

theorem run_ops {s s' : Fom α} {outs : List (FlatMap.Out α)} (ops : List (FlatMap.Op α κ (Junk α)))
    (h : run cmp key s ops = some (s', outs)) : Flat.run (call cmp key) s (ops.map .op) = some s' := by
  induction ops generalizing s outs with
  | nil => cases h; rfl
  | cons o os ih =>
    simp only [run, Option.bind_eq_bind, Option.bind_eq_some_iff] at h
    obtain ⟨⟨s1, r⟩, h1, ⟨s2, rs⟩, h2, h3⟩ := h
    cases h3
    simp only [List.map_cons, Flat.run, call, h1, Option.map_some, Option.bind_eq_bind, Option.bind_some]
    exact ih h2

example : ∃ s, Flat.run (call natCmp Prod.fst) (init Frm.sampleJunk 0 true) (sampleOps.map .op) = some s := by
  obtain ⟨s, h⟩ := C28_fom_history_partial natCmp_lawful Frm.sampleJunk 0 true sampleOps sampleOps_ok
  exact ⟨s, run_ops natCmp Prod.fst sampleOps h⟩

/-- The map of the example starts without memory and grows once. -/
example : ∃ s m, Flat.runM (callM natCmp Prod.fst) (init Frm.sampleJunk 0 true) (sampleOps.map .op ++ [.clearAndFree false])
    (start 0) = some (s, m) ∧ account [] m.log = some [] ∧ m.mem = none := by
  obtain ⟨s, h⟩ := C28_fom_history_partial natCmp_lawful Frm.sampleJunk 0 true sampleOps sampleOps_ok
  have h1 := run_ops natCmp Prod.fst sampleOps h
  have ha : s.hasAlloc = true := run_al (al := fun s => s.hasAlloc) (call_al natCmp Prod.fst) _ _ _ h1
  have h2 := run_then _ (.clearAndFree false) _ _ _ h1 (by simp only [call, clearAndFree, ha]; rfl)
  exact ⟨_, C76_fom_settled natCmp Prod.fst _ _ _ false rfl h2⟩

end Fom

/-! ### The hash map -/
namespace Fhm
open HashMap
variable {α κ : Type} (g : Cfg κ α)

/-- The calls of the interface that change the map. -/
inductive Call (α κ : Type) where
  | op (o : HashMap.Op α κ)
  | clearAndFree (destructor : Bool)
  /-- copy from `src`, whose memory is `srcMem`; `fn` is the allocation function passed -/
  | copyFrom (src : Fhm α) (srcMem : Slot) (fn : Option Bool)

/-- One call. -/
def call (s : Fhm α) : Call α κ → Option (Fhm α)
  | .op o => (step g s o).map Prod.fst
  | .clearAndFree b => (clearAndFree s b).map Prod.fst
  | .copyFrom src _ fn => some (copy s src fn).1

/-- One call, with the calls of the allocation function. -/
def callM (s : Fhm α) : Call α κ → Fl (Fhm α)
  | .op o => do pure (← stepM g s o).1
  | .clearAndFree b => do pure (← clearAndFreeM s b).1
  | .copyFrom src p fn => do pure (← copyM s src p fn).1

/-- Whether the call can call an allocation function. -/
def may (s : Fhm α) : Call α κ → Bool
  | .copyFrom _ _ fn => fn.isSome
  | _ => s.hasAlloc

theorem calls_shape (s : Fhm α) (c : Call α κ) (hc : ∀ src p fn, c ≠ .copyFrom src p fn) :
    Keeps (callM g s c) (call g s c) (shape s) shape := by
  cases c with
  | copyFrom src p fn => exact absurd rfl (hc src p fn)
  | op o => exact (step_keeps g s o).map (f := fun r : Fhm α × HashMap.Out α => r.1) (w := shape) fun _ => rfl
  | clearAndFree b =>
    exact (clearAndFree_keeps s b).map (f := fun r : Fhm α × List (Nat × α) × Res => r.1) (w := shape) fun _ => rfl

theorem calls : Calls (callM g) (call g) (·.cap) may := by
  intro s c
  by_cases hc : ∃ src p fn, c = .copyFrom src p fn
  · obtain ⟨src, p, fn, rfl⟩ := hc
    exact (copy_keeps s src p fn).map (f := fun r : Fhm α × Res => r.1) (w := fun r : Fhm α => (r.cap, fn.isSome))
      fun _ => rfl
  · have hc : ∀ src p fn, c ≠ .copyFrom src p fn := fun src p fn e => hc ⟨src, p, fn, e⟩
    have hm : may s c = s.hasAlloc := by
      cases c with
      | copyFrom src p fn => exact absurd rfl (hc src p fn)
      | _ => rfl
    have k := calls_shape g s c hc
    rw [hm]
    refine k.view rfl fun r hr => ?_
    have := (k r hr).1
    simp only [shape] at this ⊢
    rw [this]

theorem call_al (s : Fhm α) (c : Call α κ) (s' : Fhm α) (h : call g s c = some s') : s'.hasAlloc = s.hasAlloc := by
  by_cases hc : ∃ src p fn, c = .copyFrom src p fn
  · obtain ⟨src, p, fn, rfl⟩ := hc
    cases h
    exact copy_hasAlloc s src fn
  · exact (calls_shape g s c (fun src p fn e => hc ⟨src, p, fn, e⟩) s' h).1

/-- The call passes an allocation function. -/
def Gives : Call α κ → Prop
  | .copyFrom _ _ fn => fn.isSome
  | _ => False

/-- **C76, the hash map.**  Along every history the allocation function is handed only NULL or the map's own block, and at
the end of it the map answers for exactly one block, of exactly `capacity` elements, or for none if the capacity is 0. -/
theorem C76_fhm_history (s s' : Fhm α) (cs : List (Call α κ)) (h : Flat.run (call g) s cs = some s') :
    ∃ m, Flat.runM (callM g) s cs (start s.cap) = some (s', m) ∧ account (given s.cap) m.log = some (own m.mem s'.cap) ∧
      (m.mem = none ↔ s'.cap = 0) := history (calls g) s s' cs h

/-- **C76, the hash map.**  `clear_and_free` leaves no block out. -/
theorem C76_fhm_settled (s s' : Fhm α) (cs : List (Call α κ)) (b : Bool) (ha : s.hasAlloc = true)
    (h : Flat.run (call g) s (cs ++ [.clearAndFree b]) = some s') :
    ∃ m, Flat.runM (callM g) s (cs ++ [.clearAndFree b]) (start s.cap) = some (s', m) ∧
      account (given s.cap) m.log = some [] ∧ m.mem = none := by
  refine settled (calls g) s s' _ h ?_
  obtain ⟨s1, h1, h2⟩ := run_snoc _ _ _ _ h
  have ha1 : s1.hasAlloc = true := (run_al (al := fun s : Fhm α => s.hasAlloc) (call_al g) _ _ _ h1).trans ha
  obtain ⟨⟨s2, d, r⟩, h3, rfl⟩ := Option.map_eq_some_iff.1 h2
  simp only [clearAndFree, Option.bind_eq_bind, Option.bind_eq_some_iff] at h3
  obtain ⟨⟨s3, x⟩, h4, h3⟩ := h3
  have h5 : s3.hasAlloc = true := by
    revert h4
    split
    · intro h4; cases h4; exact ha1
    · intro h4
      obtain ⟨y, _, h4⟩ := Option.bind_eq_some_iff.1 h4
      cases h4; exact ha1
  simp [h5] at h3
  rw [← h3.1]

/-- **C76, the hash map.**  Without an allocation function there are no calls of it and the memory stays where it is. -/
theorem C76_fhm_fixed (s s' : Fhm α) (cs : List (Call α κ)) (h : Flat.run (call g) s cs = some s')
    (ha : s.hasAlloc = false) (hg : ∀ c ∈ cs, ¬ Gives c) :
    Flat.runM (callM g) s cs (start s.cap) = some (s', start s.cap) := by
  refine run_quiet (calls g) (al := fun s : Fhm α => s.hasAlloc) (call_al g) (gives := Gives) ?_ cs s s' _ h
    (start_own _) ha hg
  intro s c hs hc
  cases c with
  | copyFrom src p fn => cases fn <;> simp_all [may, Gives]
  | _ => simpa [may] using hs

theorem run_ops {s s' : Fhm α} {outs : List (HashMap.Out α)} (ops : List (HashMap.Op α κ))
    (h : run g s ops = some (s', outs)) : Flat.run (call g) s (ops.map .op) = some s' := by
  induction ops generalizing s outs with
  | nil => cases h; rfl
  | cons o os ih =>
    simp only [run, Option.bind_eq_bind, Option.bind_eq_some_iff] at h
    obtain ⟨⟨s1, r⟩, h1, ⟨s2, rs⟩, h2, h3⟩ := h
    cases h3
    simp only [List.map_cons, Flat.run, call, h1, Option.map_some, Option.bind_eq_bind, Option.bind_some]
    exact ih h2

/-- The map of the example starts without memory and grows twice. -/
example : ∃ s m, Flat.runM (callM natCfg) (init sampleMem 0 true) (growOps.map .op ++ [.clearAndFree false])
    (start 0) = some (s, m) ∧ account [] m.log = some [] ∧ m.mem = none := by
  obtain ⟨s, h⟩ := C37_fhm_history_partial natCfg_lawful sampleMem 0 true true growOps (.inl rfl) (by simp) growOps_ok
  have h1 := run_ops natCfg growOps h
  have ha : s.hasAlloc = true := run_al (al := fun s => s.hasAlloc) (call_al natCfg) _ _ _ h1
  have h2 := run_then _ (.clearAndFree false) _ _ _ h1 (by simp only [call, clearAndFree, ha]; rfl)
  exact ⟨_, C76_fhm_settled natCfg _ _ _ false rfl h2⟩

example : ∃ s, Flat.run (call badCfg) (init sampleMem 6 false) (sampleOps.map .op) = some s := by
  obtain ⟨s, h⟩ := C37_fhm_history_partial badCfg_lawful sampleMem 6 false true sampleOps (.inr (by omega)) (by simp)
    sampleOps_ok
  exact ⟨s, run_ops badCfg sampleOps h⟩

end Fhm
end CCC
