import Verif.Spec.Order
/-
Specification of the pairing heap priority queue with user owned elements: a set of the user's structs, of which one that
no other beats is at the front.

Which one of several equally good elements is at the front is not specified, hence the specification of a call takes the
new front as an argument, and `SpecRun` asks that it is a possible one.
-/
namespace CCC.PrioQ
open CCC

/-- A call of the interface, or something the user does with a struct that is not in the queue. -/
inductive Op (α : Type) where
  /-- the user makes a struct at an address; the four links hold garbage -/
  | make (e : Nat) (x : α) (l n p r : Slot)
  /-- the user gives the memory of a struct away -/
  | drop (e : Nat)
  | push (e : Nat)
  | pop
  | extract (e : Nat)
  | erase (e : Nat)
  | update (e : Nat) (f : α → α)
  | increase (e : Nat) (f : α → α)
  | decrease (e : Nat) (f : α → α)
  | clear (destroy : Bool)
  | front | size | isEmpty | validate | order

/-- The answer of a call.  A pointer to a struct is its address. -/
inductive Out where
  | unit
  | ptr (p : Slot)
  | res (r : Res)
  | flag (b : Bool)
  | num (n : Nat)
  | ord (o : Cmp)
  /-- the elements the destructor was called with -/
  | gone (es : List Nat)
deriving DecidableEq

structure St (α : Type) where
  /-- the user's structs -/
  val : Nat → Option α
  /-- those in the queue -/
  q : List Nat
  /-- the one at the front -/
  front : Slot
  /-- whether an update, increase or decrease brought the front element to the front -/
  stale : Bool

variable {α : Type} (cmp : α → α → Cmp) (o : Cmp)

/-- An empty queue. -/
def St.empty : St α := ⟨fun _ => none, [], none, false⟩

/-- The front is an element of the queue that no other element beats; there is one unless the queue is empty. -/
def IsFront (st : St α) : Prop :=
  match st.front with
  | none => st.q = []
  | some f => f ∈ st.q ∧ ∀ e ∈ st.q, ∀ v w, st.val f = some v → st.val e = some w → ¬ Beats cmp o w v

/-- What the documentation asks of the caller: elements given to the queue are not in it already, other arguments are;
`increase` does not decrease and `decrease` does not increase. -/
def okOp (st : St α) : Op α → Prop
  | .make e _ _ _ _ _ => e ∉ st.q
  | .drop e => e ∉ st.q
  | .push e => e ∉ st.q ∧ st.val e ≠ none
  | .extract e => e ∈ st.q
  | .erase e => e ∈ st.q
  | .update e _ => e ∈ st.q
  | .increase e f => e ∈ st.q ∧ ∀ v, st.val e = some v → cmp (f v) v ≠ .les
  | .decrease e f => e ∈ st.q ∧ ∀ v, st.val e = some v → cmp (f v) v ≠ .grt
  | _ => True

/-- What must be avoided because the code gets it wrong: an element that an update brought to the front must not be moved
towards the front again with `increase` (in a queue with the greatest element at the front) or `decrease` (with the least
element at the front), nor may the queue be validated then. -/
def safeOp (st : St α) : Op α → Prop
  | .increase e _ => o = .grt → st.front = some e → st.stale = false
  | .decrease e _ => o = .les → st.front = some e → st.stale = false
  | .validate => st.stale = false
  | _ => True

/-- Removing one element. -/
def St.without (st : St α) (e : Nat) (f : Slot) : St α :=
  { st with q := st.q.erase e, front := f, stale := st.stale && st.front != some e }

/-- Changing the value of one element. -/
def St.change (st : St α) (e : Nat) (g : α → α) (f : Slot) : St α :=
  { st with
    val := fun a => if a = e then (st.val a).map g else st.val a
    front := f
    stale := st.front != some e && (st.stale || f == some e) }

/-- What a call does and answers, if `f` is at the front afterwards. -/
def specStep (st : St α) (f : Slot) : Op α → St α × Out
  | .make e x _ _ _ _ => ({ st with val := fun a => if a = e then some x else st.val a, front := f }, .unit)
  | .drop e => ({ st with val := fun a => if a = e then none else st.val a, front := f }, .unit)
  | .push e => ({ st with q := e :: st.q, front := f, stale := st.stale && f != some e }, .ptr (some e))
  | .pop => match st.front with
    | none => ({ st with front := f }, .res .inputErr)
    | some e => (st.without e f, .res .ok)
  | .extract e => (st.without e f, .ptr (some e))
  | .erase e => (st.without e f, .res .ok)
  | .update e g => (st.change e g f, .flag true)
  | .increase e g => (st.change e g f, .flag true)
  | .decrease e g => (st.change e g f, .flag true)
  | .clear _ => ({ st with q := [], front := f, stale := false }, .res .ok)
  | .front => ({ st with front := f }, .ptr st.front)
  | .size => ({ st with front := f }, .num st.q.length)
  | .isEmpty => ({ st with front := f }, .flag (st.q.length == 0))
  | .validate => ({ st with front := f }, .flag true)
  | .order => ({ st with front := f }, .ord o)

/-- Which calls may change the front. -/
def keepsFront : Op α → Prop
  | .make .. | .drop _ | .front | .size | .isEmpty | .validate | .order => True
  | _ => False

/-- The answers of a history are possible ones. -/
inductive SpecRun : St α → List (Op α) → List Out → St α → Prop
  | nil (st : St α) : SpecRun st [] [] st
  | cons (st : St α) (f : Slot) (op : Op α) (ops : List (Op α)) (outs : List Out) (st' : St α) :
      (keepsFront op → f = st.front) →
      IsFront cmp o (specStep o st f op).1 → SpecRun (specStep o st f op).1 ops outs st' →
      SpecRun st (op :: ops) ((specStep o st f op).2 :: outs) st'

/-- `okOp` and `safeOp` for a history whose fronts are not known in advance: whatever they are. -/
def safeRun : St α → List (Op α) → Prop
  | _, [] => True
  | st, op :: ops => okOp cmp st op ∧ safeOp o st op ∧
      ∀ f, (keepsFront op → f = st.front) → IsFront cmp o (specStep o st f op).1 → safeRun (specStep o st f op).1 ops

end CCC.PrioQ
