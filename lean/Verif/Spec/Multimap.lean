import Verif.Spec.PtrMap
/-
Specification of the ordered multimap (`ordered_multimap.h`): what every call does and answers, as a function of the list
of stored elements in the order of their insertion, oldest first.  A stored element is a pair of the address of the user's
struct and the user's data in it.

The specification follows the code where the documentation disagrees with it: `begin`/`next` and `equal_range` go from the
greatest key to the least (the documentation says the opposite), and `insert_entry` of an occupied entry adds a duplicate
(the documentation says that it overwrites the oldest element).
-/
namespace CCC.MultiSpec
open CCC MapSpec PtrMap

/-- The calls of the interface.  `h` is the address of a user struct and `x` the data the user has put there before the
call; `ans` is the answer of the user's allocation function if it is called.  `f` is a user callback.  An operation on an
entry is the call of `entry` with the key followed by the call on the entry. -/
inductive Op (α κ : Type) where
  | insert (h : Nat) (x : α) (ans : Slot)
  | tryInsert (h : Nat) (x : α) (ans : Slot)
  | insertOrAssign (h : Nat) (x : α) (ans : Slot)
  | remove (h : Nat) (x : α)
  | orInsert (k : κ) (h : Nat) (x : α) (ans : Slot)
  | insertEntry (k : κ) (h : Nat) (x : α) (ans : Slot)
  | removeEntry (k : κ)
  | andModify (k : κ) (f : α → α)
  | occupied (k : κ)
  | orInsertW (k : κ) (x : α) (ans : Slot)
  | insertEntryW (k : κ) (x : α) (ans : Slot)
  | tryInsertW (k : κ) (x : α) (ans : Slot)
  | insertOrAssignW (k : κ) (x : α) (ans : Slot)
  | contains (k : κ)
  | get (k : κ)
  | max
  | min
  | popMax
  | popMin
  | extract (a : Nat)
  /-- also `increase` and `decrease` -/
  | update (a : Nat) (f : α → α)
  | begin
  | rbegin
  | next (a : Nat)
  | rnext (a : Nat)
  | equalRange (b e : κ)
  | equalRrange (b e : κ)
  | size
  | isEmpty
  | validate
  | clear
  /-- the user gives the memory of a struct away that is not in the multimap -/
  | drop (a : Nat)

/-- What is stored, oldest first, and which structs have left the multimap without being freed; `later` are those of them
that were extracted while two older elements had the same key. -/
structure St (α : Type) where
  elems : List (Nat × α)
  out : List Nat
  later : List Nat

variable {α κ : Type} (cmp : κ → κ → Cmp) (key : α → κ)

/-- Put `x` behind everything that need not come after it. -/
def putBehind {E : Type} (ahead : E → E → Bool) (x : E) : List E → List E
  | [] => [x]
  | y :: ys => if ahead y x then y :: putBehind ahead x ys else x :: y :: ys

/-- Stable sorting by insertion: `ahead x y` says that `x` may stay in front of `y`. -/
def arrange {E : Type} (ahead : E → E → Bool) (l : List E) : List E := l.foldl (fun m x => putBehind ahead x m) []

/-- The elements from the greatest key to the least, equal keys oldest first. -/
def descending (l : List (Nat × α)) : List (Nat × α) := arrange (fun a b => cmp (key a.2) (key b.2) != .les) l
/-- The elements from the least key to the greatest, equal keys oldest first. -/
def ascending (l : List (Nat × α)) : List (Nat × α) := arrange (fun a b => cmp (key a.2) (key b.2) != .grt) l

/-- The oldest element with the key. -/
def oldest (k : κ) (l : List (Nat × α)) : Option (Nat × α) := l.find? (fun e => cmp k (key e.2) == .eql)

/-- All but the element at an address. -/
def without (a : Nat) (l : List (Nat × α)) : List (Nat × α) := l.filter (fun e => e.1 != a)

/-- Overwrite the data of the element at an address. -/
def write (a : Nat) (x : α) (l : List (Nat × α)) : List (Nat × α) := l.map (fun e => if e.1 = a then (a, x) else e)

/-- The element behind the one at an address. -/
def behind (a : Nat) (l : List (Nat × α)) : Option (Nat × α) := (l.dropWhile (fun e => e.1 != a)).tail.head?

/-- How many elements with the key of `x` are stored. -/
def equals (x : α) (l : List (Nat × α)) : List (Nat × α) := l.filter (fun e => cmp (key x) (key e.2) == .eql)

/-- At least two older elements have the same key. -/
def isLater (a : Nat) (l : List (Nat × α)) : Bool :=
  match l.find? (fun e => e.1 == a) with
  | none => false
  | some e => !(((equals cmp key e.2 l).take 2).any (fun d => d.1 == a))

/-- A struct that is not out any more. -/
def St.forget (st : St α) (a : Nat) : St α :=
  { st with out := st.out.filter (· != a), later := st.later.filter (· != a) }

/-- A new youngest element. -/
def St.add (st : St α) (a : Nat) (x : α) : St α := { St.forget st a with elems := st.elems ++ [(a, x)] }

/-- The element at an address leaves; `gone` says that its memory is given away. -/
def St.take (st : St α) (gone lt : Bool) (a : Nat) : St α :=
  if gone then { st with elems := without a st.elems }
  else { elems := without a st.elems, out := a :: st.out, later := if lt then a :: st.later else st.later }

/-- One call: new contents and what is observed.  `al`: there is an allocation function. -/
def specStep (al : Bool) (st : St α) : Op α κ → St α × Out α
  | .insert h x ans =>
    match addAt al (some h) ans with
    | none => (st, .ent Stat.insertError none)
    | some n => (st.add n x, .ent (if (oldest cmp key (key x) st.elems).isSome then Stat.occupied else Stat.vacant)
        (some (n, x)))
  | .tryInsert h x ans =>
    match oldest cmp key (key x) st.elems, addAt al (some h) ans with
    | some e, _ => (st, .ent Stat.occupied (some e))
    | none, some n => (st.add n x, .ent Stat.vacant (some (n, x)))
    | none, none => (st, .ent Stat.insertError none)
  | .insertOrAssign h x ans =>
    match oldest cmp key (key x) st.elems, addAt al (some h) ans with
    | some (a, _), _ => ({ St.forget st h with elems := write a x st.elems }, .ent Stat.occupied (some (a, x)))
    | none, some n => (st.add n x, .ent Stat.vacant (some (n, x)))
    | none, none => (st, .ent Stat.insertError none)
  | .remove h x =>
    match oldest cmp key (key x) st.elems with
    | some (a, v) =>
      if al then (St.forget (st.take true false a) h, .ent Stat.occupied (some (h, v)))
      else (st.take false false a, .ent Stat.occupied (some (a, v)))
    | none => (st, .ent Stat.vacant none)
  | .orInsert k h x ans =>
    match oldest cmp key k st.elems, addAt al (some h) ans with
    | some e, _ => (st, .ptr (some e))
    | none, some n => (st.add n x, .ptr (some (n, x)))
    | none, none => (st, .ptr none)
  | .insertEntry _ h x ans =>
    match addAt al (some h) ans with
    | some n => (st.add n x, .ptr (some (n, x)))
    | none => (st, .ptr none)
  | .removeEntry k =>
    match oldest cmp key k st.elems with
    | some (a, v) => (st.take al false a, .ent Stat.occupied (if al then none else some (a, v)))
    | none => (st, .ent Stat.vacant none)
  | .andModify k f =>
    match oldest cmp key k st.elems with
    | some (a, v) => ({ st with elems := write a (f v) st.elems }, .ptr (some (a, f v)))
    | none => (st, .ptr none)
  | .occupied k => (st, .flag (oldest cmp key k st.elems).isSome)
  | .orInsertW k x ans =>
    match oldest cmp key k st.elems, addAt al none ans with
    | some e, _ => (st, .ptr (some e))
    | none, some n => (st.add n x, .ptr (some (n, x)))
    | none, none => (st, .ptr none)
  | .insertEntryW _ x ans =>
    match addAt al none ans with
    | some n => (st.add n x, .ptr (some (n, x)))
    | none => (st, .ptr none)
  | .tryInsertW k x ans =>
    match oldest cmp key k st.elems, addAt al none ans with
    | some e, _ => (st, .ptr (some e))
    | none, some n => (st.add n x, .ptr (some (n, x)))
    | none, none => (st, .ptr none)
  | .insertOrAssignW k x ans =>
    match oldest cmp key k st.elems, addAt al none ans with
    | some (a, _), _ => ({ st with elems := write a x st.elems }, .ptr (some (a, x)))
    | none, some n => (st.add n x, .ptr (some (n, x)))
    | none, none => (st, .ptr none)
  | .contains k => (st, .flag (oldest cmp key k st.elems).isSome)
  | .get k => (st, .ptr (oldest cmp key k st.elems))
  | .max | .begin => (st, .ptr (descending cmp key st.elems).head?)
  | .min | .rbegin => (st, .ptr (ascending cmp key st.elems).head?)
  | .popMax =>
    match (descending cmp key st.elems).head? with
    | none => (st, .result .inputErr)
    | some (a, _) => (st.take al false a, .result .ok)
  | .popMin =>
    match (ascending cmp key st.elems).head? with
    | none => (st, .result .inputErr)
    | some (a, _) => (st.take al false a, .result .ok)
  | .extract a =>
    match st.elems.find? (fun e => e.1 == a) with
    | none => (st, .ptr none)
    | some e => (st.take false (isLater cmp key a st.elems) a, .ptr (some e))
  | .update a f =>
    match st.elems.find? (fun e => e.1 == a) with
    | none => (st, .flag false)
    | some e => ({ st with elems := without a st.elems ++ [(a, f e.2)] }, .flag true)
  | .next a => (st, .ptr (behind a (descending cmp key st.elems)))
  | .rnext a => (st, .ptr (behind a (ascending cmp key st.elems)))
  | .equalRange b e =>
    (st, .range ((descending cmp key st.elems).find? (fun x => cmp b (key x.2) != .les))
      ((descending cmp key st.elems).find? (fun x => cmp e (key x.2) == .grt)))
  | .equalRrange b e =>
    (st, .range ((ascending cmp key st.elems).find? (fun x => cmp b (key x.2) != .grt))
      ((ascending cmp key st.elems).find? (fun x => cmp e (key x.2) == .les)))
  | .size => (st, .num st.elems.length)
  | .isEmpty => (st, .flag st.elems.isEmpty)
  | .validate => (st, .flag true)
  | .clear =>
    ({ st with elems := [], out := if al then st.out else st.elems.map Prod.fst ++ st.out },
      .result .ok)
  | .drop a => (St.forget st a, .flag true)

/-- Memory the allocation function may answer: nobody uses it. -/
def goodAns (st : St α) (ans : Slot) (h : Nat) : Prop := ∀ n, ans = some n → fresh st.elems n ∧ n ∉ st.out ∧ n ≠ h

/-- What the documentation demands of the caller. -/
def okOp (al : Bool) (st : St α) : Op α κ → Prop
  | .insert h _ ans | .tryInsert h _ ans | .insertOrAssign h _ ans => fresh st.elems h ∧ goodAns st ans h
  | .remove h x => fresh st.elems h ∨ (al = false ∧ (h, x) ∈ st.elems)
  | .orInsert k h x ans | .insertEntry k h x ans => fresh st.elems h ∧ goodAns st ans h ∧ cmp k (key x) = .eql
  | .andModify k f => ∀ e ∈ st.elems, cmp k (key e.2) = .eql → cmp (key (f e.2)) (key e.2) = .eql
  | .orInsertW k x ans | .insertEntryW k x ans | .tryInsertW k x ans | .insertOrAssignW k x ans =>
      goodAns st ans 0 ∧ cmp k (key x) = .eql
  | .extract a | .update a _ => (∃ e ∈ st.elems, e.1 = a) ∨ a ∈ st.out
  | .next a | .rnext a => ∃ e ∈ st.elems, e.1 = a
  | .drop a => a ∈ st.out
  | _ => True

/-- The calls that do what is specified.  With an allocation function, inserting calls other than `insert` and the macros
link the user's own struct instead of a copy; `pop_min` frees a wrong address if the intrusive element is not at the
beginning of the struct (`off`); an element that was extracted from behind two equal ones is not recognised as being
out; `contains`, `max` and `min` have no test for an empty multimap. -/
def safeOp (al : Bool) (off : Nat) (st : St α) : Op α κ → Prop
  | .tryInsert _ x _ | .insertOrAssign _ x _ => al = true → (oldest cmp key (key x) st.elems).isSome = true
  | .orInsert k _ _ _ => al = true → (oldest cmp key k st.elems).isSome = true
  | .insertEntry _ _ _ _ => al = false
  | .popMin => al = true → off = 0 ∨ st.elems = []
  | .extract a | .update a _ => a ∉ st.later ∨ st.elems = []
  | .contains _ | .max | .min => st.elems ≠ []
  | _ => True

/-- A history. -/
def specRun (al : Bool) (st : St α) : List (Op α κ) → St α × List (Out α)
  | [] => (st, [])
  | o :: os =>
    let (st, r) := specStep cmp key al st o
    let (st, rs) := specRun al st os
    (st, r :: rs)

/-- Every call of a history is allowed, and safe. -/
def okRun (al : Bool) (off : Nat) (st : St α) : List (Op α κ) → Prop
  | [] => True
  | o :: os => okOp cmp key al st o ∧ safeOp cmp key al off st o ∧ okRun al off (specStep cmp key al st o).1 os

end CCC.MultiSpec
