import Verif.Model.Buffer
/-
Specification of a buffer as an array: a list of cells, as many as the capacity, of which the first `n` are in use.  `Buf.Op` and
`Buf.Out` only name the calls and what they answer.
-/
namespace CCC.ArrSpec
open Buf (Op Out)
variable {α : Type}

structure Arr (α : Type) where
  cells : List α
  n : Nat

/-- The array with `c` cells: old cells keep their contents, new ones hold what the allocation function left there. -/
def resize (l : List α) (c : Nat) (junk : Nat → α) : List α := (List.range c).map fun i => (l[i]?).getD (junk i)

/-- The array with room for one more element, if there can be one: with no cell free the number of cells is doubled, from 0 it
becomes 8. -/
def room (mayAlloc : Bool) (s : Arr α) (ans : AllocAns α) : Option (List α) :=
  if s.n < s.cells.length then some s.cells
  else if mayAlloc then ans.map (resize s.cells (if s.cells.length = 0 then 8 else s.cells.length * 2))
  else none

/-- Append one element. -/
def push (mayAlloc : Bool) (s : Arr α) (x : α) (ans : AllocAns α) : Arr α × Out :=
  match room mayAlloc s ans with
  | some l => (⟨l.set s.n x, s.n + 1⟩, .slot (some s.n))
  | none => (s, .slot none)

def step (mayAlloc : Bool) (s : Arr α) : Op α → Arr α × Out
  | .alloc _ none => (s, .res .noAlloc)
  | .alloc c (some ans) =>
    if c = 0 then (⟨[], s.n⟩, .res .ok)
    else match ans with
      | none => (s, .res .memErr)
      | some junk => (⟨resize s.cells c junk, s.n⟩, .res .ok)
  | .pushBack x ans | .emplaceBack x ans => push mayAlloc s x ans
  | .allocBack ans =>
    match room mayAlloc s ans with
    | some l => (⟨l, s.n + 1⟩, .slot (some s.n))
    | none => (s, .slot none)
  | .popBack => if s.n = 0 then (s, .res .inputErr) else (⟨s.cells, s.n - 1⟩, .res .ok)
  | .popBackN k => if s.n < k then (s, .res .inputErr) else (⟨s.cells, s.n - k⟩, .res .ok)
  | .swap i j =>
    match s.cells[i]?, s.cells[j]? with
    | some x, some y => if i = j then (s, .res .inputErr) else (⟨(s.cells.set i y).set j x, s.n⟩, .res .ok)
    | _, _ => (s, .res .inputErr)
  | .copy d k =>
    match s.cells[k]? with
    | some x => if d < s.cells.length then (⟨s.cells.set d x, s.n⟩, .slot (some d)) else (s, .slot none)
    | none => (s, .slot none)
  | .write i x => if i < s.cells.length then (⟨s.cells.set i x, s.n⟩, .res .ok) else (s, .res .inputErr)
  | .emplace i x => if i < s.cells.length then (⟨s.cells.set i x, s.n⟩, .slot (some i)) else (s, .slot none)
  | .erase _ i =>
    if i < s.n then (⟨(s.cells.take s.n).eraseIdx i ++ s.cells.drop (s.n - 1), s.n - 1⟩, .res .ok) else (s, .res .inputErr)
  | .insert i x ans =>
    if s.cells.length = 0 ∨ s.n < i then (s, .slot none)
    else if i = s.n then push mayAlloc s x ans
    else match room mayAlloc s ans with
      | some l => (⟨(l.take s.n).insertIdx i x ++ l.drop (s.n + 1), s.n + 1⟩, .slot (some i))
      | none => (s, .slot none)
  | .sizePlus k =>
    if s.cells.length < s.n + k then (⟨s.cells, s.cells.length⟩, .res .inputErr) else (⟨s.cells, s.n + k⟩, .res .ok)
  | .sizeMinus k => if s.n < k then (⟨s.cells, 0⟩, .res .inputErr) else (⟨s.cells, s.n - k⟩, .res .ok)
  | .sizeSet k => if s.cells.length < k then (⟨s.cells, s.cells.length⟩, .res .inputErr) else (⟨s.cells, k⟩, .res .ok)

/-- A history. -/
def run (mayAlloc : Bool) (s : Arr α) : List (Op α) → Arr α × List Out
  | [] => (s, [])
  | op :: ops =>
    let (s, o) := step mayAlloc s op
    let (s, os) := run mayAlloc s ops
    (s, o :: os)

/-- The calls that do what is specified: not an allocation below the size, not an insertion before the end, and erasing before the last
two only if `memcpy` tolerates overlap. -/
def safe (s : Arr α) : Op α → Prop
  | .alloc c _ => s.n ≤ c
  | .insert i _ _ => s.n ≤ i
  | .erase lax i => lax = true ∨ s.n ≤ i + 2
  | _ => True

def safeRun (mayAlloc : Bool) (s : Arr α) : List (Op α) → Prop
  | [] => True
  | op :: ops => safe s op ∧ safeRun mayAlloc (step mayAlloc s op).1 ops

end CCC.ArrSpec
