import Verif.Spec.PtrMap
/-
What a map whose comparison function obeys no rule still owes its user: the specification of `Verif/Spec/PtrMap.lean`
with every question of order left open.  A search may answer any stored element the comparison function called equal,
or none; a new element may be put anywhere; the ends of a range may be any elements; validation may fail.  Which
elements are stored, what is written into them, what is answered about them, how many there are and that iteration
visits each of them once stays as specified there.
-/
namespace CCC.PtrMap
open CCC

/-- The answers that the order of the elements would decide. -/
structure Choice (α : Type) where
  /-- the element a search finds -/
  found : Option (Nat × α)
  /-- how many elements come before a new one -/
  pos : Nat
  /-- the ends of a range -/
  lo : Option (Nat × α)
  hi : Option (Nat × α)
  /-- what validation answers -/
  valid : Bool

variable {α κ : Type}

/-- Put an element at a position. -/
def putAt (i : Nat) (e : Nat × α) (l : List (Nat × α)) : List (Nat × α) := l.take i ++ e :: l.drop i
/-- Overwrite the data of the element at an address. -/
def setAt (a : Nat) (x : α) (l : List (Nat × α)) : List (Nat × α) := l.map (fun e => if e.1 = a then (a, x) else e)
/-- Take out the element at an address. -/
def dropAt (a : Nat) (l : List (Nat × α)) : List (Nat × α) := l.filter (fun e => e.1 != a)

/-- The key a call searches for. -/
def keyOf (key : α → κ) : Op α κ → Option κ
  | .insert _ x _ _ _ => some (key x)
  | .tryInsert _ x _ => some (key x)
  | .insertOrAssign _ x _ => some (key x)
  | .remove _ x => some (key x)
  | .orInsert k _ _ _ => some k
  | .insertEntry k _ _ _ => some k
  | .removeEntry k => some k
  | .andModify k _ => some k
  | .occupied k => some k
  | .orInsertW k _ _ => some k
  | .insertEntryW k _ _ => some k
  | .tryInsertW k _ _ => some k
  | .insertOrAssignW k _ _ => some k
  | .contains k => some k
  | .get k => some k
  | _ => none

/-- An element is found only if it is stored and the comparison function called it equal to the key; the ends of a
range are stored elements or the end. -/
def Choice.Ok (cmp : κ → κ → Cmp) (key : α → κ) (l : List (Nat × α)) (op : Op α κ) (c : Choice α) : Prop :=
  (∀ e, c.found = some e → e ∈ l ∧ ∃ k, keyOf key op = some k ∧ cmp k (key e.2) = .eql) ∧
  (∀ e, c.lo = some e → e ∈ l) ∧ (∀ e, c.hi = some e → e ∈ l)

/-- One call, given the choices: new contents and what is observed. -/
def specAny (c : Choice α) (al : Bool) (l : List (Nat × α)) : Op α κ → List (Nat × α) × Out α
  | .insert h x tmp y ans =>
    match c.found, addAt al (some h) ans with
    | some (a, v), _ => (setAt a x l, .insEnt Stat.occupied (some (tmp, v)) v)
    | none, some n => (putAt c.pos (n, x) l, .insEnt Stat.vacant none y)
    | none, none => (l, .insEnt Stat.insertError none y)
  | .tryInsert h x ans =>
    match c.found, addAt al (some h) ans with
    | some (a, v), _ => (l, .ent Stat.occupied (some (a, v)))
    | none, some n => (putAt c.pos (n, x) l, .ent Stat.vacant (some (n, x)))
    | none, none => (l, .ent Stat.insertError none)
  | .insertOrAssign h x ans =>
    match c.found, addAt al (some h) ans with
    | some (a, _), _ => (setAt a x l, .ent Stat.occupied (some (a, x)))
    | none, some n => (putAt c.pos (n, x) l, .ent Stat.vacant (some (n, x)))
    | none, none => (l, .ent Stat.insertError none)
  | .remove h _ =>
    match c.found with
    | some (a, v) => (dropAt a l, .ent Stat.occupied (some (if al then h else a, v)))
    | none => (l, .ent Stat.vacant none)
  | .orInsert _ h x ans =>
    match c.found, addAt al (some h) ans with
    | some (a, v), _ => (l, .ptr (some (a, v)))
    | none, some n => (putAt c.pos (n, x) l, .ptr (some (n, x)))
    | none, none => (l, .ptr none)
  | .insertEntry _ h x ans =>
    match c.found, addAt al (some h) ans with
    | some (a, _), _ => (setAt a x l, .ptr (some (a, x)))
    | none, some n => (putAt c.pos (n, x) l, .ptr (some (n, x)))
    | none, none => (l, .ptr none)
  | .removeEntry _ =>
    match c.found with
    | some (a, v) => (dropAt a l, .ent Stat.occupied (if al then none else some (a, v)))
    | none => (l, .ent Stat.vacant none)
  | .andModify _ f =>
    match c.found with
    | some (a, v) => (setAt a (f v) l, .ptr (some (a, f v)))
    | none => (l, .ptr none)
  | .occupied _ => (l, .flag c.found.isSome)
  | .orInsertW _ x ans =>
    match c.found, addAt al none ans with
    | some (a, v), _ => (l, .ptr (some (a, v)))
    | none, some n => (putAt c.pos (n, x) l, .ptr (some (n, x)))
    | none, none => (l, .ptr none)
  | .insertEntryW _ x ans =>
    match c.found, addAt al none ans with
    | some (a, _), _ => (setAt a x l, .ptr (some (a, x)))
    | none, some n => (putAt c.pos (n, x) l, .ptr (some (n, x)))
    | none, none => (l, .ptr none)
  | .tryInsertW _ x ans =>
    match c.found, addAt al none ans with
    | some (a, v), _ => (l, .ptr (some (a, v)))
    | none, some n => (putAt c.pos (n, x) l, .ptr (some (n, x)))
    | none, none => (l, .ptr none)
  | .insertOrAssignW _ x ans =>
    match c.found, addAt al none ans with
    | some (a, _), _ => (setAt a x l, .ptr (some (a, x)))
    | none, some n => (putAt c.pos (n, x) l, .ptr (some (n, x)))
    | none, none => (l, .ptr none)
  | .contains _ => (l, .flag c.found.isSome)
  | .get _ => (l, .ptr c.found)
  | .begin => (l, .ptr l.head?)
  | .rbegin => (l, .ptr l.getLast?)
  | .next a => (l, .ptr (l.dropWhile (fun e => e.1 != a)).tail.head?)
  | .rnext a => (l, .ptr (l.reverse.dropWhile (fun e => e.1 != a)).tail.head?)
  | .equalRange _ _ => (l, .range c.lo c.hi)
  | .equalRrange _ _ => (l, .range c.lo c.hi)
  | .size => (l, .num l.length)
  | .isEmpty => (l, .flag l.isEmpty)
  | .validate => (l, .flag c.valid)
  | .clear => ([], .result .ok)

/-- What is demanded of the caller: that of `okOp` without anything about keys. -/
def okAny (al : Bool) (l : List (Nat × α)) : Op α κ → Prop
  | .insert h _ tmp _ ans => fresh l h ∧ fresh l tmp ∧ h ≠ tmp ∧ goodAns l ans h ∧ ans ≠ some tmp
  | .tryInsert h _ ans => fresh l h ∧ goodAns l ans h
  | .insertOrAssign h _ ans => fresh l h ∧ goodAns l ans h
  | .remove h x => fresh l h ∨ (al = false ∧ (h, x) ∈ l)
  | .orInsert _ h _ ans => fresh l h ∧ goodAns l ans h
  | .insertEntry _ h _ ans => fresh l h ∧ goodAns l ans h
  | .orInsertW _ _ ans => goodAns l ans 0
  | .insertEntryW _ _ ans => goodAns l ans 0
  | .tryInsertW _ _ ans => goodAns l ans 0
  | .insertOrAssignW _ _ ans => goodAns l ans 0
  | .next a => ∃ e ∈ l, e.1 = a
  | .rnext a => ∃ e ∈ l, e.1 = a
  | _ => True

/-- What the splay tree maps still do without rules for the comparison function.  Not: the calls that take elements out; `contains` on an empty map; an
insertion through an entry with another key than the entry's. -/
def calm (key : α → κ) (l : List (Nat × α)) : Op α κ → Prop
  | .remove _ _ | .removeEntry _ | .clear => False
  | .contains _ => l ≠ []
  | .orInsert k _ x _ | .insertEntry k _ x _ | .orInsertW k x _ | .insertEntryW k x _ | .tryInsertW k x _
  | .insertOrAssignW k x _ => key x = k
  | _ => True

/-- What happens to the map: a call, made with the comparison function of that moment, or the program overwriting the
stored element at address `a`, key and all. -/
inductive Ev (α κ : Type) where
  | call (cmp : κ → κ → Cmp) (op : Op α κ)
  | poke (a : Nat) (x : α)

/-- The event is one the caller may cause: the comparison function answers less, equal or greater; the call is a legal
one; the overwritten element is stored. -/
def okEv (al : Bool) (l : List (Nat × α)) : Ev α κ → Prop
  | .call cmp op => (∀ a b, cmp a b ≠ .err) ∧ okAny al l op
  | .poke a _ => ∃ e ∈ l, e.1 = a

/-- One event: the new contents and what is observed, `none` when the program only wrote. -/
def SpecEv (key : α → κ) (al : Bool) (l : List (Nat × α)) : Ev α κ → Option (Out α) → List (Nat × α) → Prop
  | .call cmp op, o, l' => ∃ c : Choice α, c.Ok cmp key l op ∧ (specAny c al l op).1 = l' ∧ o = some (specAny c al l op).2
  | .poke a x, o, l' => l' = setAt a x l ∧ o = none

end CCC.PtrMap
