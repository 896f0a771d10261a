import Verif.Spec.Order
/-
Specification of an ordered map: a list of elements in ascending key order, without two elements of equal key.
`E` is whatever the map stores (for the pointer based maps an element address together with its user data), `key`
projects the key.  Nothing here refers to trees.
-/
namespace CCC.MapSpec
open CCC

variable {E κ : Type} (cmp : κ → κ → Cmp) (key : E → κ)

/-- Key of an element that is an address or slot number together with user data. -/
def ekey {α κ : Type} (key : α → κ) (e : Nat × α) : κ := key e.2

/-- Strictly ascending keys. -/
def Sorted (l : List E) : Prop := l.Pairwise (fun a b => cmp (key a) (key b) = .les)

/-- The element with the given key. -/
def lookup (k : κ) (l : List E) : Option E := l.find? (fun x => cmp k (key x) == .eql)

/-- Put a new element between the elements with smaller keys and those with larger keys. -/
def place (e : E) (l : List E) : List E :=
  l.filter (fun x => cmp (key e) (key x) == .grt) ++ e :: l.filter (fun x => cmp (key e) (key x) == .les)

/-- Overwrite the element of equal key. -/
def assign (e : E) (l : List E) : List E := l.map (fun x => if cmp (key e) (key x) == .eql then e else x)

/-- Drop the element with the given key. -/
def erase (k : κ) (l : List E) : List E := l.filter (fun x => cmp k (key x) != .eql)

/-- First element whose key is not less than `k`. -/
def firstNotLess (k : κ) (l : List E) : Option E := l.find? (fun x => cmp k (key x) != .grt)
/-- First element whose key is greater than `k`. -/
def firstGreater (k : κ) (l : List E) : Option E := l.find? (fun x => cmp k (key x) == .les)
/-- Last element whose key is not greater than `k`. -/
def lastNotGreater (k : κ) (l : List E) : Option E := l.reverse.find? (fun x => cmp k (key x) != .les)
/-- Last element whose key is less than `k`. -/
def lastLess (k : κ) (l : List E) : Option E := l.reverse.find? (fun x => cmp k (key x) == .grt)

end CCC.MapSpec
