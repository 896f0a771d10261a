import Verif.Spec.PriorityQueue
/-
The specification of the pairing heap priority queue (`Verif/Spec/PriorityQueue.lean`) without its order: any element of
the queue may be at the front, and validation may answer anything.
-/
namespace CCC.PrioQ
open CCC

variable {α : Type} (o : Cmp)

/-- What happens: a call, made with the comparison function of that moment, or the program overwriting an element that is
in the queue. -/
inductive Ev (α : Type) where
  | call (cmp : α → α → Cmp) (op : Op α)
  | poke (e : Nat) (x : α)

/-- There is an element at the front unless the queue is empty. -/
def SomeFront (st : St α) : Prop :=
  match st.front with
  | none => st.q = []
  | some f => f ∈ st.q

/-- What is demanded of the caller: that of `okOp` without anything about the order, and that of `safeOp`. -/
def okEv (st : St α) : Ev α → Prop
  | .call _ (.make e _ _ _ _ _) => e ∉ st.q
  | .call _ (.drop e) => e ∉ st.q
  | .call _ (.push e) => e ∉ st.q ∧ st.val e ≠ none
  | .call _ (.extract e) => e ∈ st.q
  | .call _ (.erase e) => e ∈ st.q
  | .call _ (.update e _) => e ∈ st.q
  | .call _ (.increase e _) => e ∈ st.q ∧ (o = .grt → st.front = some e → st.stale = false)
  | .call _ (.decrease e _) => e ∈ st.q ∧ (o = .les → st.front = some e → st.stale = false)
  | .call _ .validate => st.stale = false
  | .call _ _ => True
  | .poke e _ => e ∈ st.q

/-- What an event does and answers, if `f` is at the front afterwards and validation answers `b`. -/
def specEv (st : St α) (f : Slot) (b : Bool) : Ev α → St α × Option Out
  | .call _ .validate => ({ st with front := f }, some (.flag b))
  | .call _ op => ((specStep o st f op).1, some (specStep o st f op).2)
  | .poke e x => ({ st with val := fun a => if a = e then some x else st.val a, front := f }, none)

/-- Which events may change the front. -/
def keepsEv : Ev α → Prop
  | .call _ op => keepsFront op
  | .poke _ _ => True

/-- The answers of a history are possible ones. -/
inductive SpecEvs : St α → List (Ev α) → List (Option Out) → St α → Prop
  | nil (st : St α) : SpecEvs st [] [] st
  | cons (st : St α) (f : Slot) (b : Bool) (ev : Ev α) (evs : List (Ev α)) (outs : List (Option Out)) (st' : St α) :
      (keepsEv ev → f = st.front) → SomeFront (specEv o st f b ev).1 → SpecEvs (specEv o st f b ev).1 evs outs st' →
      SpecEvs st (ev :: evs) ((specEv o st f b ev).2 :: outs) st'

/-- The caller does what they may do, whatever is at the front. -/
def okEvs : St α → List (Ev α) → Prop
  | _, [] => True
  | st, ev :: evs => okEv o st ev ∧
      ∀ f b, (keepsEv ev → f = st.front) → SomeFront (specEv o st f b ev).1 → okEvs (specEv o st f b ev).1 evs

end CCC.PrioQ
