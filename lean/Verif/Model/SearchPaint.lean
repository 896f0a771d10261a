import Verif.Model.Search
/-
Model of the walk along an edge in `samples/graph.c`: the edge ids that `edge_construct` leaves in the cells, and
`paint_edge`, which follows them.
-/
namespace CCC.Search

/-- The title of the vertex number `v`, samples/graph.c:195. -/
def title (v : Nat) : Nat := 65 + v

/-- `make_edge` and `sort_vertices`, samples/graph.c:834-838, 852-856: the two bytes of the id. -/
def makeEdge (a b : Nat) : Nat × Nat := if title a < title b then (title a, title b) else (title b, title a)

/-- One byte of the id in the cell `p`: `edge_construct` adds the bits of the id of an edge to each cell of its way,
samples/graph.c:481.  Nothing else writes to these bits. -/
def orAt (g : Edge → Nat) (es : List Edge) (p : Pt) : Nat :=
  es.foldl (fun a e => if p ∈ e.way then a ||| g e else a) 0

/-- The edge id in the cell `p` after the edges `es` were made, samples/graph.c:481. -/
def idAt (es : List Edge) (p : Pt) : Nat × Nat :=
  (orAt (fun e => (makeEdge e.src e.dst).1) es p, orAt (fun e => (makeEdge e.src e.dst).2) es p)

/-- How the loop over the directions ends. -/
inductive Turn where
  | arrived
  | go (p : Pt)
  | stuck

/-- The loop over the directions in `paint_edge`, samples/graph.c:777-797. -/
def turn (b : Board) (id : Pt → Nat × Nat) (edge : Nat × Nat) (dst : Nat) (cur prev : Pt) : List Pt → Option Turn
  | [] => some .stuck
  | d :: ds => do
    let next : Pt := (cur.1 + d.1, cur.2 + d.2)
    let c ← b.at_ next
    if c.vertex = some dst then some .arrived
    else if id next = edge ∧ prev ≠ next then some (.go next)
    else turn b id edge dst cur prev ds

/-- The loop of `paint_edge`, samples/graph.c:773-798: the cells painted, in order. -/
def follow (b : Board) (id : Pt → Nat × Nat) (edge : Nat × Nat) (dst : Nat) (goal : Pt) (cur prev : Pt) :
    Option (List Pt) :=
  if cur = goal then some []
  else do
    match ← turn b id edge dst cur prev dirs with
    | .arrived => some [cur]
    | .go next => do
      let l ← follow b id edge dst goal next cur
      some (cur :: l)
    | .stuck => do
      let l ← follow b id edge dst goal cur prev
      some (cur :: l)
partial_fixpoint

/-- `paint_edge`, samples/graph.c:764-799. -/
def paintEdge (b : Board) (net : Net) (es : List Edge) (src dst : Nat) : Option (List Pt) :=
  follow b (idAt es) (makeEdge src dst) dst (net dst).pos (net src).pos (net src).pos

end CCC.Search
