import Verif.Spec.FlatMap
import Verif.Spec.PtrMapAny
/-
The specification of the flat ordered maps (`Verif/Spec/FlatMap.lean`) with every question of order left open, as
`Verif/Spec/PtrMapAny.lean` does it for the pointer based maps.
-/
namespace CCC.FlatMap
open CCC PtrMap

variable {α κ J : Type}

/-- The key a call searches for. -/
def keyOf (key : α → κ) : Op α κ J → Option κ
  | .insert x _ => some (key x)
  | .tryInsert x _ => some (key x)
  | .insertOrAssign x _ => some (key x)
  | .remove x => some (key x)
  | .orInsert k _ _ => some k
  | .insertEntry k _ _ => some k
  | .removeEntry k => some k
  | .andModify k _ => some k
  | .occupied k => some k
  | .orInsertW k _ _ => some k
  | .insertEntryW k _ _ => some k
  | .tryInsertW k _ _ => some k
  | .insertOrAssignW k _ _ => some k
  | .contains k => some k
  | .get k => some k
  | _ => none

/-- An element is found only if it is stored and the comparison function called it equal to the key; the ends of a
range are stored elements or the end. -/
def choiceOk (cmp : κ → κ → Cmp) (key : α → κ) (l : List (Nat × α)) (op : Op α κ J) (c : Choice α) : Prop :=
  (∀ e, c.found = some e → e ∈ l ∧ ∃ k, keyOf key op = some k ∧ cmp k (key e.2) = .eql) ∧
  (∀ e, c.lo = some e → e ∈ l) ∧ (∀ e, c.hi = some e → e ∈ l)

/-- Add an element at a position; it goes to the slot after the last one. -/
def addAny (i : Nat) (al ok : Bool) (s : St α) (x : α) : St α × Option Nat :=
  match room al ok s with
  | (s', false) => (s', none)
  | (s', true) => ({ s' with l := putAt i (s.l.length + 1, x) s.l }, some (s.l.length + 1))

/-- Remove the element in slot `r`: the element in the last slot takes over slot `r`. -/
def dropAny (r : Nat) (l : List (Nat × α)) : List (Nat × α) :=
  (dropAt r l).map (fun e => if e.1 = l.length then (r, e.2) else e)

/-- One call, given the choices: new contents and what is observed. -/
def specAny (c : Choice α) (al : Bool) (s : St α) : Op α κ J → St α × Out α
  | .insert x ans =>
    match c.found with
    | some (a, v) => ({ s with l := write a x s.l }, .insEnt Stat.occupied (.elem a x) v)
    | none =>
      match addAny c.pos al ans.isSome s x with
      | (s', some _) => (s', .insEnt Stat.vacant .null x)
      | (s', none) => (s', .insEnt Stat.insertError .null x)
  | .tryInsert x ans | .tryInsertW _ x ans =>
    match c.found with
    | some (a, v) => (s, .ent Stat.occupied (.elem a v))
    | none =>
      match addAny c.pos al ans.isSome s x with
      | (s', some n) => (s', .ent Stat.vacant (.elem n x))
      | (s', none) => (s', .ent Stat.insertError .null)
  | .insertOrAssign x ans | .insertOrAssignW _ x ans =>
    match c.found with
    | some (a, _) => ({ s with l := write a x s.l }, .ent Stat.occupied (.elem a x))
    | none =>
      match addAny c.pos al ans.isSome s x with
      | (s', some n) => (s', .ent Stat.vacant (.elem n x))
      | (s', none) => (s', .ent Stat.insertError .null)
  | .remove x =>
    match c.found with
    | some (a, v) => ({ s with l := dropAny a s.l }, .remEnt Stat.occupied true v)
    | none => (s, .remEnt Stat.vacant false x)
  | .orInsert _ x ans | .orInsertW _ x ans =>
    match c.found with
    | some (a, v) => (s, .ptr (.elem a v))
    | none => let r := addAny c.pos al ans.isSome s x; (r.1, .ptr (added x r.2))
  | .insertEntry _ x ans | .insertEntryW _ x ans =>
    match c.found with
    | some (a, _) => ({ s with l := write a x s.l }, .ptr (.elem a x))
    | none => let r := addAny c.pos al ans.isSome s x; (r.1, .ptr (added x r.2))
  | .removeEntry _ =>
    match c.found with
    | some (a, v) => ({ s with l := dropAny a s.l }, .ent Stat.occupied (.elem s.l.length v))
    | none => (s, .ent Stat.vacant .null)
  | .andModify _ f =>
    match c.found with
    | some (a, v) => ({ s with l := write a (f v) s.l }, .ptr (.elem a (f v)))
    | none => (s, .ptr .null)
  | .occupied _ | .contains _ => (s, .flag c.found.isSome)
  | .get _ => (s, .ptr (look .null c.found))
  | .begin => (s, .ptr (look s.fin s.l.head?))
  | .rbegin => (s, .ptr (look s.fin s.l.getLast?))
  | .next a => (s, .ptr (look s.fin (s.l.dropWhile (fun e => e.1 != a)).tail.head?))
  | .rnext a => (s, .ptr (look s.fin (s.l.reverse.dropWhile (fun e => e.1 != a)).tail.head?))
  | .end_ => (s, .ptr s.fin)
  | .equalRange _ _ | .equalRrange _ _ =>
    if s.l.isEmpty then (s, .range .null .null) else (s, .range (look .fin c.lo) (look .fin c.hi))
  | .size => (s, .num s.l.length)
  | .isEmpty => (s, .flag s.l.isEmpty)
  | .capacity => (s, .num s.cap)
  | .validate => (s, .flag c.valid)
  | .clear => ({ s with l := [] }, .result (if s.cap = 0 then .inputErr else .ok))

/-- What is demanded of the caller: that of `okOp` without anything about keys. -/
def okAny (s : St α) : Op α κ J → Prop
  | .next a => ∃ e ∈ s.l, e.1 = a
  | .rnext a => ∃ e ∈ s.l, e.1 = a
  | .clear => s.started = true ∨ s.cap = 0
  | _ => True

/-- What the flat splay tree map still does without rules for the comparison function.  Not: the calls that take single
elements out; `contains` on an empty map; an insertion through an entry with another key than the entry's; clearing a map
nothing was inserted into. -/
def calm (key : α → κ) (s : St α) : Op α κ J → Prop
  | .remove _ | .removeEntry _ => False
  | .clear => s.started = true
  | .contains _ => s.l ≠ []
  | .orInsert k x _ | .insertEntry k x _ | .orInsertW k x _ | .insertEntryW k x _ | .tryInsertW k x _
  | .insertOrAssignW k x _ => key x = k
  | _ => True

/-- What happens to the map: a call, made with the comparison function of that moment, or the program overwriting the
stored element in slot `a`, key and all. -/
inductive Ev (α κ J : Type) where
  | call (cmp : κ → κ → Cmp) (op : Op α κ J)
  | poke (a : Nat) (x : α)

/-- The event is one the caller may cause: the comparison function answers less, equal or greater; the call is a legal
one; the overwritten element is stored. -/
def okEv (s : St α) : Ev α κ J → Prop
  | .call cmp op => (∀ a b, cmp a b ≠ .err) ∧ okAny s op
  | .poke a _ => ∃ e ∈ s.l, e.1 = a

/-- One event: the new contents and what is observed, `none` when the program only wrote. -/
def SpecEv (key : α → κ) (al : Bool) (s : St α) : Ev α κ J → Option (Out α) → St α → Prop
  | .call cmp op, o, s' => ∃ c : Choice α, choiceOk cmp key s.l op c ∧ (specAny c al s op).1 = s' ∧
      o = some (specAny c al s op).2
  | .poke a x, o, s' => s' = { s with l := write a x s.l } ∧ o = none

end CCC.FlatMap
