import Verif.Spec.Map
import Verif.Model.Types
/-
Specification of the flat ordered maps (`flat_ordered_map.h`, `flat_realtime_ordered_map.h`): what every call must
answer, as a function of the list of stored elements in key order.  A stored element is a pair of the number of the
buffer slot it lives in and the user's data.  Slot 0 is the library's own slot.  Nothing here refers to trees.
-/
namespace CCC.FlatMap
open CCC MapSpec

/-- The calls of the interface.  `x` is the data in the user's struct handed to the call, `ans` the answer of the user's
allocation function if it is called: `none` is a refusal, `some j` is success with arbitrary fresh memory `j`.  `f` is a
user callback.  An operation on an entry is the call of `entry` with the key followed by the call on the entry. -/
inductive Op (α κ J : Type) where
  | insert (x : α) (ans : Option J)
  | tryInsert (x : α) (ans : Option J)
  | insertOrAssign (x : α) (ans : Option J)
  | remove (x : α)
  | orInsert (k : κ) (x : α) (ans : Option J)
  | insertEntry (k : κ) (x : α) (ans : Option J)
  | removeEntry (k : κ)
  | andModify (k : κ) (f : α → α)
  | occupied (k : κ)
  | orInsertW (k : κ) (x : α) (ans : Option J)
  | insertEntryW (k : κ) (x : α) (ans : Option J)
  | tryInsertW (k : κ) (x : α) (ans : Option J)
  | insertOrAssignW (k : κ) (x : α) (ans : Option J)
  | contains (k : κ)
  | get (k : κ)
  | begin
  | rbegin
  | next (a : Nat)
  | rnext (a : Nat)
  | end_
  | equalRange (b e : κ)
  | equalRrange (b e : κ)
  | size
  | isEmpty
  | capacity
  | validate
  | clear

/-- What the user sees of a returned pointer: NULL, the end position, or a slot with its data. -/
inductive View (α : Type) where
  | null
  | fin
  | elem (slot : Nat) (v : α)

/-- What the user observes. -/
inductive Out (α : Type) where
  /-- a returned entry: its status and what it unwraps to -/
  | ent (stats : Nat) (v : View α)
  /-- the same, and the contents of the user's struct after the call -/
  | insEnt (stats : Nat) (v : View α) (handle : α)
  /-- an entry that unwraps to the user's own struct (`true`) or to NULL, and the contents of that struct -/
  | remEnt (stats : Nat) (toHandle : Bool) (handle : α)
  | ptr (v : View α)
  | flag (b : Bool)
  | num (n : Nat)
  | range (b e : View α)
  | result (r : Res)

/-- Contents (in key order), capacity of the buffer, and whether the library has taken slot 0 yet. -/
structure St (α : Type) where
  l : List (Nat × α)
  cap : Nat
  started : Bool

variable {α κ J : Type} (cmp : κ → κ → Cmp) (key : α → κ)

/-- Capacity after one more slot is asked for while `n` of `c` slots are in use: room, growth (a buffer with allocation
function `al` whose request is granted, `ok`), or `none`. -/
def grow (al ok : Bool) (c n : Nat) : Option Nat :=
  if n < c then some c else if al && ok then some (if c = 0 then 8 else c * 2) else none

/-- Ask for a slot for a new element; the first request also takes slot 0. -/
def room (al ok : Bool) (s : St α) : St α × Bool :=
  if s.started then
    match grow al ok s.cap (s.l.length + 1) with
    | none => (s, false)
    | some c => ({ s with cap := c }, true)
  else
    match grow al ok s.cap 0 with
    | none => (s, false)
    | some c =>
      match grow al ok c 1 with
      | none => ({ s with cap := c, started := true }, false)
      | some c => ({ s with cap := c, started := true }, true)

/-- Add an element with a key that is not stored: it goes to the slot after the last one. -/
def add (al ok : Bool) (s : St α) (x : α) : St α × Option Nat :=
  match room al ok s with
  | (s', false) => (s', none)
  | (s', true) => ({ s' with l := place cmp (ekey key) (s.l.length + 1, x) s.l }, some (s.l.length + 1))

/-- Remove the element with key `k` from slot `r`: the element in the last slot takes over slot `r`. -/
def drop (k : κ) (r : Nat) (l : List (Nat × α)) : List (Nat × α) :=
  (erase cmp (ekey key) k l).map (fun e => if e.1 = l.length then (r, e.2) else e)

/-- Overwrite the element in slot `a`. -/
def write (a : Nat) (x : α) (l : List (Nat × α)) : List (Nat × α) := l.map (fun e => if e.1 = a then (a, x) else e)

def St.fin (s : St α) : View α := if s.started then .fin else .null

/-- An element, or else the given position. -/
def look (d : View α) : Option (Nat × α) → View α
  | some (a, v) => .elem a v
  | none => d

/-- The outcome of `or_insert` and friends for an absent key. -/
def added (x : α) : Option Nat → View α
  | some n => .elem n x
  | none => .null

/-- One call: new contents and what is observed. -/
def specStep (al : Bool) (s : St α) : Op α κ J → St α × Out α
  | .insert x ans =>
    match lookup cmp (ekey key) (key x) s.l with
    | some (a, v) => ({ s with l := write a x s.l }, .insEnt Stat.occupied (.elem a x) v)
    | none =>
      match add cmp key al ans.isSome s x with
      | (s', some _) => (s', .insEnt Stat.vacant .null x)
      | (s', none) => (s', .insEnt Stat.insertError .null x)
  | .tryInsert x ans =>
    match lookup cmp (ekey key) (key x) s.l with
    | some (a, v) => (s, .ent Stat.occupied (.elem a v))
    | none =>
      match add cmp key al ans.isSome s x with
      | (s', some n) => (s', .ent Stat.vacant (.elem n x))
      | (s', none) => (s', .ent Stat.insertError .null)
  | .insertOrAssign x ans =>
    match lookup cmp (ekey key) (key x) s.l with
    | some (a, _) => ({ s with l := write a x s.l }, .ent Stat.occupied (.elem a x))
    | none =>
      match add cmp key al ans.isSome s x with
      | (s', some n) => (s', .ent Stat.vacant (.elem n x))
      | (s', none) => (s', .ent Stat.insertError .null)
  | .remove x =>
    match lookup cmp (ekey key) (key x) s.l with
    | some (a, v) => ({ s with l := drop cmp key (key x) a s.l }, .remEnt Stat.occupied true v)
    | none => (s, .remEnt Stat.vacant false x)
  | .orInsert k x ans | .orInsertW k x ans =>
    match lookup cmp (ekey key) k s.l with
    | some (a, v) => (s, .ptr (.elem a v))
    | none => let r := add cmp key al ans.isSome s x; (r.1, .ptr (added x r.2))
  | .insertEntry k x ans | .insertEntryW k x ans =>
    match lookup cmp (ekey key) k s.l with
    | some (a, _) => ({ s with l := write a x s.l }, .ptr (.elem a x))
    | none => let r := add cmp key al ans.isSome s x; (r.1, .ptr (added x r.2))
  | .removeEntry k =>
    match lookup cmp (ekey key) k s.l with
    | some (a, v) => ({ s with l := drop cmp key k a s.l }, .ent Stat.occupied (.elem s.l.length v))
    | none => (s, .ent Stat.vacant .null)
  | .andModify k f =>
    match lookup cmp (ekey key) k s.l with
    | some (a, v) => ({ s with l := write a (f v) s.l }, .ptr (.elem a (f v)))
    | none => (s, .ptr .null)
  | .occupied k | .contains k => (s, .flag (lookup cmp (ekey key) k s.l).isSome)
  | .tryInsertW k x ans =>
    match lookup cmp (ekey key) k s.l with
    | some (a, v) => (s, .ent Stat.occupied (.elem a v))
    | none =>
      match add cmp key al ans.isSome s x with
      | (s', some n) => (s', .ent Stat.vacant (.elem n x))
      | (s', none) => (s', .ent Stat.insertError .null)
  | .insertOrAssignW k x ans =>
    match lookup cmp (ekey key) k s.l with
    | some (a, _) => ({ s with l := write a x s.l }, .ent Stat.occupied (.elem a x))
    | none =>
      match add cmp key al ans.isSome s x with
      | (s', some n) => (s', .ent Stat.vacant (.elem n x))
      | (s', none) => (s', .ent Stat.insertError .null)
  | .get k => (s, .ptr (look .null (lookup cmp (ekey key) k s.l)))
  | .begin => (s, .ptr (look s.fin s.l.head?))
  | .rbegin => (s, .ptr (look s.fin s.l.getLast?))
  | .next a => (s, .ptr (look s.fin (s.l.dropWhile (fun e => e.1 != a)).tail.head?))
  | .rnext a => (s, .ptr (look s.fin (s.l.reverse.dropWhile (fun e => e.1 != a)).tail.head?))
  | .end_ => (s, .ptr s.fin)
  | .equalRange b e =>
    if s.l.isEmpty then (s, .range .null .null)
    else (s, .range (look .fin (firstNotLess cmp (ekey key) b s.l)) (look .fin (firstGreater cmp (ekey key) e s.l)))
  | .equalRrange b e =>
    if s.l.isEmpty then (s, .range .null .null)
    else (s, .range (look .fin (lastNotGreater cmp (ekey key) b s.l)) (look .fin (lastLess cmp (ekey key) e s.l)))
  | .size => (s, .num s.l.length)
  | .isEmpty => (s, .flag s.l.isEmpty)
  | .capacity => (s, .num s.cap)
  | .validate => (s, .flag true)
  | .clear => ({ s with l := [] }, .result (if s.cap = 0 then .inputErr else .ok))

/-- What the documentation demands of the caller, and that `clear` is not the first call on a map with memory. -/
def okOp (s : St α) : Op α κ J → Prop
  | .orInsert k x _ | .insertEntry k x _ | .orInsertW k x _ | .insertEntryW k x _ | .tryInsertW k x _
  | .insertOrAssignW k x _ => cmp k (key x) = .eql
  | .andModify k f => ∀ e ∈ s.l, cmp k (key e.2) = .eql → cmp (key (f e.2)) (key e.2) = .eql
  | .next a => ∃ e ∈ s.l, e.1 = a
  | .rnext a => ∃ e ∈ s.l, e.1 = a
  | .clear => s.started = true ∨ s.cap = 0
  | _ => True

/-- A history. -/
def specRun (al : Bool) : St α → List (Op α κ J) → St α × List (Out α)
  | s, [] => (s, [])
  | s, o :: os =>
    let (s', r) := specStep cmp key al s o
    let (s'', rs) := specRun al s' os
    (s'', r :: rs)

def okRun (al : Bool) : St α → List (Op α κ J) → Prop
  | _, [] => True
  | s, o :: os => okOp cmp key s o ∧ okRun al (specStep cmp key al s o).1 os

/-! ### The flat ordered map on a splay tree

It differs in two calls: `remove` does not write to the user's struct but hands out the slot behind the last element,
and `clear` is allowed at any time, always reports success and takes slot 0 if there is memory. -/

def specStepS (al : Bool) (s : St α) : Op α κ J → St α × Out α
  | .remove x =>
    match lookup cmp (ekey key) (key x) s.l with
    | some (a, v) => ({ s with l := drop cmp key (key x) a s.l }, .ent Stat.occupied (.elem s.l.length v))
    | none => (s, .ent Stat.vacant .null)
  | .clear => ({ s with l := [], started := decide (s.cap ≠ 0) }, .result .ok)
  | o => specStep cmp key al s o

def okOpS (s : St α) : Op α κ J → Prop
  | .clear => True
  | o => okOp cmp key s o

def specRunS (al : Bool) : St α → List (Op α κ J) → St α × List (Out α)
  | s, [] => (s, [])
  | s, o :: os =>
    let (s', r) := specStepS cmp key al s o
    let (s'', rs) := specRunS al s' os
    (s'', r :: rs)

def okRunS (al : Bool) : St α → List (Op α κ J) → Prop
  | _, [] => True
  | s, o :: os => okOpS cmp key s o ∧ okRunS al (specStepS cmp key al s o).1 os

end CCC.FlatMap
