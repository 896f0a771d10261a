import Verif.Model.SearchPaint
/-
Model of the labels of the edges in `samples/graph.c`: `add_edge_cost_label` with `encode_digits`, `get_direction` and
`count_digits`.
-/
namespace CCC.Search

/-- `enum label_orientation`, samples/graph.c:119-126. -/
inductive Facing where
  | north | south | east | west | diagonal
deriving DecidableEq

/-- `get_direction`, samples/graph.c:577-598. -/
def direction (prev next : Pt) : Facing :=
  let r := next.1 - prev.1
  let c := next.2 - prev.2
  if c ≠ 0 ∧ r = 0 ∧ c > 0 then .east
  else if c ≠ 0 ∧ r = 0 ∧ c < 0 then .west
  else if r ≠ 0 ∧ c = 0 ∧ r > 0 then .south
  else if r ≠ 0 ∧ c = 0 ∧ r < 0 then .north
  else .diagonal

/-- `count_digits`, samples/graph.c:1120-1127. -/
def countDigits (n : Nat) : Nat := if n = 0 then 0 else countDigits (n / 10) + 1

/-- The loops of `encode_digits`, samples/graph.c:556-561 and 568-573: the digits written, in this order; `u` is what is
taken away from the place after each digit. -/
def writeDigits (b : Board) (u : Pt) (p : Pt) (n : Nat) : Option (List (Pt × Nat)) :=
  if h : n = 0 then some []
  else do
    let _ ← b.at_ p
    let l ← writeDigits b u (p.1 - u.1, p.2 - u.2) (n / 10)
    some ((p, n % 10) :: l)
termination_by n
decreasing_by omega

/-- `encode_digits`, samples/graph.c:548-575. -/
def encodeDigits (b : Board) (start : Pt) (cost need : Nat) (o : Facing) : Option (List (Pt × Nat)) :=
  if o = .north ∨ o = .south then
    writeDigits b (1, 0) (if o = .north then start.1 + need - 2 else start.1 - 1, start.2) cost
  else
    writeDigits b (0, 1) (start.1, if o = .west then start.2 + need - 2 else start.2 - 1) cost

/-- The loop of `add_edge_cost_label`, samples/graph.c:507-540; the loop over the directions is that of `paint_edge`.  The
digits written. -/
def labelLoop (b : Board) (id : Pt → Nat × Nat) (edge : Nat × Nat) (dst : Nat) (goal : Pt) (cost : Nat)
    (cur prev : Pt) (found : Nat) (o : Facing) : Option (List (Pt × Nat)) :=
  if cur = goal then some []
  else if found = countDigits cost + 2 then encodeDigits b cur cost (countDigits cost + 2) o
  else do
    match ← turn b id edge dst cur prev dirs with
    | .arrived => some []
    | .go next =>
      labelLoop b id edge dst goal cost next cur
        (if direction prev next = .diagonal then 0 else found + 1) (direction prev next)
    | .stuck => labelLoop b id edge dst goal cost cur prev found o
partial_fixpoint

/-- `add_edge_cost_label`, samples/graph.c:494-541, as `edge_construct` calls it, samples/graph.c:485-488: from the end that
was found to the end the edge was made from. -/
def addLabel (b : Board) (net : Net) (es : List Edge) (e : Edge) : Option (List (Pt × Nat)) :=
  labelLoop b (idAt es) (makeEdge e.dst e.src) e.src (net e.src).pos e.cost (net e.dst).pos (net e.dst).pos 0 .north

end CCC.Search
