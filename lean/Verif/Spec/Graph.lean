import Verif.Spec.Order
/-
Specification of shortest paths in a directed graph with costs.
-/
namespace CCC.Graph

/-- A graph: the number of vertices, and for each the edges leaving it, as pairs of a vertex and a cost. -/
structure G where
  n : Nat
  edges : Nat → List (Nat × Nat)

/-- There is a way from `a` to `b` of cost `d`. -/
inductive Walk (g : G) (a : Nat) : Nat → Nat → Prop
  | nil : Walk g a a 0
  | snoc {u v w d : Nat} : Walk g a u d → (v, w) ∈ g.edges u → Walk g a v (d + w)

/-- `d` is the cost of a cheapest way from `a` to `b`. -/
def IsDist (g : G) (a b d : Nat) : Prop := Walk g a b d ∧ ∀ d', Walk g a b d' → d ≤ d'

/-- `l` lists the edges of a way from `a` to `b` of cost `d`, from its end to its start, each as the pair of the vertex it
leads to and the vertex it comes from. -/
inductive Way (g : G) (a : Nat) : Nat → List (Nat × Nat) → Nat → Prop
  | nil : Way g a a [] 0
  | cons {u v w d : Nat} {l : List (Nat × Nat)} : (v, w) ∈ g.edges u → Way g a u l d → Way g a v ((v, u) :: l) (d + w)

end CCC.Graph
