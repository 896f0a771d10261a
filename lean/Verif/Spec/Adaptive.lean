import Verif.Spec.Order
/-
What a map that adapts to the way it is used is measured against: fixed search trees, and how recently a key was looked up.
-/
namespace CCC.Adapt
open CCC

/-- A search tree that does not change. -/
inductive Fixed (κ : Type) where
  | leaf
  | node (l : Fixed κ) (k : κ) (r : Fixed κ)

variable {κ : Type}

/-- The usual descent.  `some n`: the key is found with `n` comparisons. -/
def Fixed.search (cmp : κ → κ → Cmp) : Fixed κ → κ → Option Nat
  | .leaf, _ => none
  | .node l j r, k =>
    match cmp k j with
    | .eql => some 1
    | .les => (l.search cmp k).map (· + 1)
    | .grt => (r.search cmp k).map (· + 1)
    | .err => none

/-- The comparisons of looking up `k`. -/
def Fixed.cost (cmp : κ → κ → Cmp) (F : Fixed κ) (k : κ) : Nat := (F.search cmp k).getD 0

/-- Two keys are the same. -/
def sameKey (cmp : κ → κ → Cmp) (a b : κ) : Bool := cmp a b == .eql

variable (same : κ → κ → Bool)

/-- The number of different keys in a list. -/
def distinct : List κ → Nat
  | [] => 0
  | k :: ks => (if ks.any (same k) then 0 else 1) + distinct ks

/-- The number of different keys looked up since `k` was looked up last, if it was (`past`, the latest first), else `N`. -/
def gap (N : Nat) (past : List κ) (k : κ) : Nat :=
  if past.any (same k) then distinct same (past.takeWhile (fun j => !same k j)) else N

/-- The gaps of a sequence of lookups. -/
def gaps (N : Nat) (past : List κ) : List κ → List Nat
  | [] => []
  | k :: ks => gap same N past k :: gaps N (k :: past) ks

/-- A key looked up for the first time counts `N`, a repeated one nothing, `1` and `2` in turn one each. -/
example : gaps (fun a b : Nat => a == b) 9 [] [1, 2, 2, 1, 2, 3, 3] = [9, 9, 0, 1, 1, 9, 0] := by decide

end CCC.Adapt
