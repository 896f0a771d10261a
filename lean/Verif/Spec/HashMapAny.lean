import Verif.Spec.HashMap
/-
The specification of the flat hash map (`Verif/Spec/HashMap.lean`) with the question of which element a key finds left
open, for hash functions and key equalities that obey no rule.
-/
namespace CCC.HashMap
open CCC

variable {α κ : Type}

/-- The key a call searches for. -/
def keyOf (key : α → κ) : Op α κ → Option κ
  | .insert x _ => some (key x)
  | .tryInsert x _ => some (key x)
  | .insertOrAssign x _ => some (key x)
  | .remove x => some (key x)
  | .orInsert k _ _ _ => some k
  | .insertEntry k _ _ => some k
  | .removeEntry k _ => some k
  | .andModify k _ _ => some k
  | .occupied k _ => some k
  | .insertError k _ => some k
  | .orInsertW k _ _ => some k
  | .insertEntryW k _ _ => some k
  | .tryInsertW k _ _ => some k
  | .insertOrAssignW k _ _ => some k
  | .contains k _ => some k
  | .get k _ => some k
  | _ => none

/-- What a call finds: nothing, or an element, here with all the others.  It is a stored element, and the key equality
called it equal to the key searched for. -/
def pickOk (eq : κ → κ → Bool) (key : α → κ) (l : List α) (op : Op α κ) (f : Option (α × List α)) : Prop :=
  ∀ v r, f = some (v, r) → (v :: r).Perm l ∧ ∃ k, keyOf key op = some k ∧ eq k (key v) = true

/-- One call, given what it finds: new contents and what is observed. -/
def specAny (f : Option (α × List α)) (al : Bool) (s : St α) : Op α κ → St α × Out α
  | .insert x ans =>
    let m := room al ans.isSome s
    match f, m.2 with
    | some (v, r), _ => ({ m.1 with l := x :: r }, .insEnt Stat.occupied (some v) v)
    | none, true => ({ m.1 with l := x :: s.l }, .insEnt Stat.vacant none x)
    | none, false => (m.1, .insEnt Stat.insertError none x)
  | .tryInsert x ans | .tryInsertW _ x ans =>
    let m := room al ans.isSome s
    match f, m.2 with
    | some (v, _), _ => (m.1, .ent Stat.occupied (some v))
    | none, true => ({ m.1 with l := x :: s.l }, .ent Stat.vacant (some x))
    | none, false => (m.1, .ent Stat.insertError none)
  | .insertOrAssign x ans | .insertOrAssignW _ x ans =>
    let m := room al ans.isSome s
    match f, m.2 with
    | some (_, r), _ => ({ m.1 with l := x :: r }, .ent Stat.occupied (some x))
    | none, true => ({ m.1 with l := x :: s.l }, .ent Stat.vacant (some x))
    | none, false => (m.1, .ent Stat.insertError none)
  | .remove x =>
    match f with
    | some (v, r) => ({ s with l := r }, .insEnt Stat.occupied (some v) v)
    | none => (s, .insEnt Stat.vacant none x)
  | .orInsert _ x g ans =>
    let m := room al ans.isSome s
    match f, m.2 with
    | some (v, r), _ => ({ m.1 with l := g v :: r }, .ptr (some v))
    | none, true => ({ m.1 with l := g x :: s.l }, .ptr (some x))
    | none, false => (m.1, .ptr none)
  | .orInsertW _ x ans =>
    let m := room al ans.isSome s
    match f, m.2 with
    | some (v, _), _ => (m.1, .ptr (some v))
    | none, true => ({ m.1 with l := x :: s.l }, .ptr (some x))
    | none, false => (m.1, .ptr none)
  | .insertEntry _ x ans | .insertEntryW _ x ans =>
    let m := room al ans.isSome s
    match f, m.2 with
    | some (_, r), _ => ({ m.1 with l := x :: r }, .ptr (some x))
    | none, true => ({ m.1 with l := x :: s.l }, .ptr (some x))
    | none, false => (m.1, .ptr none)
  | .removeEntry _ ans =>
    let m := room al ans.isSome s
    match f with
    | some (_, r) => ({ m.1 with l := r }, .ent Stat.occupied none)
    | none => (m.1, .ent Stat.vacant none)
  | .andModify _ g ans =>
    let m := room al ans.isSome s
    match f with
    | some (v, r) => ({ m.1 with l := g v :: r }, .ptr (some (g v)))
    | none => (m.1, .ptr none)
  | .occupied _ ans | .contains _ ans => ((room al ans.isSome s).1, .flag f.isSome)
  | .insertError _ ans => ((room al ans.isSome s).1, .flag (!(room al ans.isSome s).2))
  | .get _ g =>
    match f with
    | some (v, r) => ({ s with l := g v :: r }, .ptr (some v))
    | none => (s, .ptr none)
  | .size => (s, .num s.l.length)
  | .isEmpty => (s, .flag s.l.isEmpty)
  | .capacity => (s, .num s.cap)
  | .validate => (s, .flag true)
  | .clear => ({ s with l := [], stale := true }, .result .ok)

/-- What must be avoided because the code gets it wrong, as in `safeOp`.  Nothing is demanded of keys. -/
def okAny (eq : κ → κ → Bool) (key : α → κ) (al : Bool) (s : St α) : Op α κ → Prop
  | .get _ _ | .remove _ | .validate => s.cap = 0 ∨ s.stale = false
  | .removeEntry k ans | .andModify k _ ans | .orInsertW k _ ans | .insertEntryW k _ ans | .tryInsertW k _ ans
  | .insertOrAssignW k _ ans => (∀ v ∈ s.l, eq k (key v) = false) ∨ (room al ans.isSome s).2 = true
  | _ => True

/-- A call, made with the hash function and the key equality of that moment. -/
structure Ev (α κ : Type) where
  hash : κ → UInt64
  eq : κ → κ → Bool
  op : Op α κ

/-- The answers of a history are possible ones. -/
inductive SpecEvs (key : α → κ) (al : Bool) : St α → List (Ev α κ) → List (Out α) → St α → Prop
  | nil (st : St α) : SpecEvs key al st [] [] st
  | cons (st : St α) (ev : Ev α κ) (f : Option (α × List α)) (evs : List (Ev α κ)) (outs : List (Out α)) (st' : St α) :
      pickOk ev.eq key st.l ev.op f → SpecEvs key al (specAny f al st ev.op).1 evs outs st' →
      SpecEvs key al st (ev :: evs) ((specAny f al st ev.op).2 :: outs) st'

/-- The caller does what they may do, whatever their calls find. -/
def okEvs (key : α → κ) (al : Bool) : St α → List (Ev α κ) → Prop
  | _, [] => True
  | st, ev :: evs => okAny ev.eq key al st ev.op ∧
      ∀ f, pickOk ev.eq key st.l ev.op f → okEvs key al (specAny f al st ev.op).1 evs

end CCC.HashMap
