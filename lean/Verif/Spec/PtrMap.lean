import Verif.Spec.Map
import Verif.Model.Types
/-
Specification of the pointer based ordered maps (`ordered_map.h`, `realtime_ordered_map.h`): what every call
must answer, as a function of the list of stored elements in key order.  A stored element is a pair of the address of
the user's struct and the user's data in it.
-/
namespace CCC.PtrMap
open CCC MapSpec

/-- The calls of the interface.  `h`, `tmp` are addresses of user structs, `x`, `y` the data the user has put
there before the call, `ans` the answer of the user's allocation function if it is called: the address of fresh memory,
or `none` for a refusal.  `f` is a user callback.  An operation on an entry is the call of `entry` with the key
followed by the call on the entry, as the documentation asks for. -/
inductive Op (α κ : Type) where
  | insert (h : Nat) (x : α) (tmp : Nat) (y : α) (ans : Option Nat)
  | tryInsert (h : Nat) (x : α) (ans : Option Nat)
  | insertOrAssign (h : Nat) (x : α) (ans : Option Nat)
  | remove (h : Nat) (x : α)
  | orInsert (k : κ) (h : Nat) (x : α) (ans : Option Nat)
  | insertEntry (k : κ) (h : Nat) (x : α) (ans : Option Nat)
  | removeEntry (k : κ)
  | andModify (k : κ) (f : α → α)
  | occupied (k : κ)
  | orInsertW (k : κ) (x : α) (ans : Option Nat)
  | insertEntryW (k : κ) (x : α) (ans : Option Nat)
  | tryInsertW (k : κ) (x : α) (ans : Option Nat)
  | insertOrAssignW (k : κ) (x : α) (ans : Option Nat)
  | contains (k : κ)
  | get (k : κ)
  | begin
  | rbegin
  | next (a : Nat)
  | rnext (a : Nat)
  | equalRange (b e : κ)
  | equalRrange (b e : κ)
  | size
  | isEmpty
  | validate
  | clear

/-- A struct the user can see through a returned pointer: its address and contents; `none` for NULL. -/
abbrev View (α : Type) := Option (Nat × α)

/-- What the user observes. -/
inductive Out (α : Type) where
  /-- a returned entry: its status and what it unwraps to -/
  | ent (stats : Nat) (v : View α)
  /-- the same, and the contents of the struct around `tmp` after the call -/
  | insEnt (stats : Nat) (v : View α) (tmp : α)
  | ptr (v : View α)
  | flag (b : Bool)
  | num (n : Nat)
  | range (b e : View α)
  | result (r : Res)

variable {α κ : Type} (cmp : κ → κ → Cmp) (key : α → κ)

/-- Add an element the map does not have.  `al` says whether the map has an allocation function; if so the element
lives in the allocator's memory, else in the user's struct `h`. -/
def addAt (al : Bool) (h : Option Nat) (ans : Option Nat) : Option Nat := if al then ans else h

/-- One call: new contents and what is observed. -/
def specStep (al : Bool) (l : List (Nat × α)) : Op α κ → List (Nat × α) × Out α
  | .insert h x tmp y ans =>
    match lookup cmp (ekey key) (key x) l, addAt al (some h) ans with
    | some (a, v), _ => (assign cmp (ekey key) (a, x) l, .insEnt Stat.occupied (some (tmp, v)) v)
    | none, some n => (place cmp (ekey key) (n, x) l, .insEnt Stat.vacant none y)
    | none, none => (l, .insEnt Stat.insertError none y)
  | .tryInsert h x ans =>
    match lookup cmp (ekey key) (key x) l, addAt al (some h) ans with
    | some (a, v), _ => (l, .ent Stat.occupied (some (a, v)))
    | none, some n => (place cmp (ekey key) (n, x) l, .ent Stat.vacant (some (n, x)))
    | none, none => (l, .ent Stat.insertError none)
  | .insertOrAssign h x ans =>
    match lookup cmp (ekey key) (key x) l, addAt al (some h) ans with
    | some (a, _), _ => (assign cmp (ekey key) (a, x) l, .ent Stat.occupied (some (a, x)))
    | none, some n => (place cmp (ekey key) (n, x) l, .ent Stat.vacant (some (n, x)))
    | none, none => (l, .ent Stat.insertError none)
  | .remove h x =>
    match lookup cmp (ekey key) (key x) l with
    | some (a, v) => (erase cmp (ekey key) (key x) l, .ent Stat.occupied (some (if al then h else a, v)))
    | none => (l, .ent Stat.vacant none)
  | .orInsert k h x ans =>
    match lookup cmp (ekey key) k l, addAt al (some h) ans with
    | some (a, v), _ => (l, .ptr (some (a, v)))
    | none, some n => (place cmp (ekey key) (n, x) l, .ptr (some (n, x)))
    | none, none => (l, .ptr none)
  | .insertEntry k h x ans =>
    match lookup cmp (ekey key) k l, addAt al (some h) ans with
    | some (a, _), _ => (assign cmp (ekey key) (a, x) l, .ptr (some (a, x)))
    | none, some n => (place cmp (ekey key) (n, x) l, .ptr (some (n, x)))
    | none, none => (l, .ptr none)
  | .removeEntry k =>
    match lookup cmp (ekey key) k l with
    | some (a, v) => (erase cmp (ekey key) k l, .ent Stat.occupied (if al then none else some (a, v)))
    | none => (l, .ent Stat.vacant none)
  | .andModify k f =>
    match lookup cmp (ekey key) k l with
    | some (a, v) => (l.map (fun e => if e.1 = a then (a, f e.2) else e), .ptr (some (a, f v)))
    | none => (l, .ptr none)
  | .occupied k => (l, .flag (lookup cmp (ekey key) k l).isSome)
  | .orInsertW k x ans =>
    match lookup cmp (ekey key) k l, addAt al none ans with
    | some (a, v), _ => (l, .ptr (some (a, v)))
    | none, some n => (place cmp (ekey key) (n, x) l, .ptr (some (n, x)))
    | none, none => (l, .ptr none)
  | .insertEntryW k x ans =>
    match lookup cmp (ekey key) k l, addAt al none ans with
    | some (a, _), _ => (assign cmp (ekey key) (a, x) l, .ptr (some (a, x)))
    | none, some n => (place cmp (ekey key) (n, x) l, .ptr (some (n, x)))
    | none, none => (l, .ptr none)
  | .tryInsertW k x ans =>
    match lookup cmp (ekey key) k l, addAt al none ans with
    | some (a, v), _ => (l, .ptr (some (a, v)))
    | none, some n => (place cmp (ekey key) (n, x) l, .ptr (some (n, x)))
    | none, none => (l, .ptr none)
  | .insertOrAssignW k x ans =>
    match lookup cmp (ekey key) k l, addAt al none ans with
    | some (a, _), _ => (assign cmp (ekey key) (a, x) l, .ptr (some (a, x)))
    | none, some n => (place cmp (ekey key) (n, x) l, .ptr (some (n, x)))
    | none, none => (l, .ptr none)
  | .contains k => (l, .flag (lookup cmp (ekey key) k l).isSome)
  | .get k => (l, .ptr (lookup cmp (ekey key) k l))
  | .begin => (l, .ptr l.head?)
  | .rbegin => (l, .ptr l.getLast?)
  | .next a => (l, .ptr (l.dropWhile (fun e => e.1 != a)).tail.head?)
  | .rnext a => (l, .ptr (l.reverse.dropWhile (fun e => e.1 != a)).tail.head?)
  | .equalRange b e => (l, .range (firstNotLess cmp (ekey key) b l) (firstGreater cmp (ekey key) e l))
  | .equalRrange b e => (l, .range (lastNotGreater cmp (ekey key) b l) (lastLess cmp (ekey key) e l))
  | .size => (l, .num l.length)
  | .isEmpty => (l, .flag l.isEmpty)
  | .validate => (l, .flag true)
  | .clear => ([], .result .ok)

/-- The address is usable for a new element: not NULL, and not the address of a stored element. -/
def fresh (l : List (Nat × α)) (a : Nat) : Prop := a ≠ 0 ∧ ∀ e ∈ l, e.1 ≠ a

/-- The allocator's memory is nobody else's. -/
def goodAns (l : List (Nat × α)) (ans : Option Nat) (h : Nat) : Prop := ∀ n, ans = some n → fresh l n ∧ n ≠ h

/-- What the documentation demands of the caller. -/
def okOp (al : Bool) (l : List (Nat × α)) : Op α κ → Prop
  | .insert h _ tmp _ ans => fresh l h ∧ fresh l tmp ∧ h ≠ tmp ∧ goodAns l ans h ∧ ans ≠ some tmp
  | .tryInsert h _ ans => fresh l h ∧ goodAns l ans h
  | .insertOrAssign h _ ans => fresh l h ∧ goodAns l ans h
  | .remove h x => fresh l h ∨ (al = false ∧ (h, x) ∈ l)
  | .orInsert k h x ans => fresh l h ∧ goodAns l ans h ∧ cmp k (key x) = .eql
  | .insertEntry k h x ans => fresh l h ∧ goodAns l ans h ∧ cmp k (key x) = .eql
  | .andModify k f => ∀ e ∈ l, cmp k (key e.2) = .eql → cmp (key (f e.2)) (key e.2) = .eql
  | .orInsertW k x ans => goodAns l ans 0 ∧ cmp k (key x) = .eql
  | .insertEntryW k x ans => goodAns l ans 0 ∧ cmp k (key x) = .eql
  | .tryInsertW k x ans => goodAns l ans 0 ∧ cmp k (key x) = .eql
  | .insertOrAssignW k x ans => goodAns l ans 0 ∧ cmp k (key x) = .eql
  | .next a => ∃ e ∈ l, e.1 = a
  | .rnext a => ∃ e ∈ l, e.1 = a
  | _ => True

/-- A history. -/
def specRun (al : Bool) : List (Nat × α) → List (Op α κ) → List (Nat × α) × List (Out α)
  | l, [] => (l, [])
  | l, o :: os =>
    let (l', r) := specStep cmp key al l o
    let (l'', rs) := specRun al l' os
    (l'', r :: rs)

def okRun (al : Bool) : List (Nat × α) → List (Op α κ) → Prop
  | _, [] => True
  | l, o :: os => okOp cmp key al l o ∧ okRun al (specStep cmp key al l o).1 os

end CCC.PtrMap
