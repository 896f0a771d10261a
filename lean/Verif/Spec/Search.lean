/-
Specification of the sample program `samples/graph.c`: how the edges of the graph are laid out.  An edge joins a vertex to
the closest vertex it may still be joined to, along a shortest way between them.  Nothing here refers to queues or maps.
-/
namespace CCC.Search

/-- A place of the board: row and column. -/
abbrev Pt := Int × Int

/-- Two places that share a side. -/
def Adj (p q : Pt) : Prop :=
  (p.1 = q.1 ∧ (q.2 = p.2 + 1 ∨ p.2 = q.2 + 1)) ∨ (p.2 = q.2 ∧ (q.1 = p.1 + 1 ∨ p.1 = q.1 + 1))

/-- `Walk free s n p`: one can go from `s` to `p` in `n` steps from neighbour to neighbour, every place entered being
free. -/
inductive Walk (free : Pt → Prop) (s : Pt) : Nat → Pt → Prop where
  | start : Walk free s 0 s
  | step {n : Nat} {p q : Pt} : Walk free s n p → Adj p q → free q → Walk free s (n + 1) q

/-- `q` can be reached from `s` in `n` steps; `q` itself need not be free. -/
def Reach (free : Pt → Prop) (s : Pt) (n : Nat) (q : Pt) : Prop := ∃ m p, n = m + 1 ∧ Walk free s m p ∧ Adj p q

/-- `Route free s q l`: the places of `l` lead from `q` back to `s`: each is a neighbour of the one before it, the last one
is `s` and the others are free. -/
def Route (free : Pt → Prop) (s : Pt) : Pt → List Pt → Prop
  | _, [] => False
  | q, p :: l => Adj p q ∧ ((p = s ∧ l = []) ∨ (free p ∧ Route free s p l))

end CCC.Search
