import Verif.Model.SearchPaint
/-
Model of the shapes of the ways in `samples/graph.c`: `build_path_cell` with `is_valid_edge_cell` and `is_edge_vertex`, as
`edge_construct` calls it.  A pair `(p, q)` stands for the two bits that are set to join neighbours: the one at `p` that points
to `q` and the one at `q` that points to `p`.
-/
namespace CCC.Search


/-- The neighbours `build_path_cell` joins to the cell `p`, samples/graph.c:989-1014, with `is_valid_edge_cell` and
`is_edge_vertex`, samples/graph.c:971-987. -/
def joins (b : Board) (src dst : Nat) (edge : Nat × Nat) (path : Pt → Bool) (id : Pt → Nat × Nat) (p : Pt) : List Pt :=
  [(p.1 - 1, p.2), (p.1 + 1, p.2), (p.1, p.2 - 1), (p.1, p.2 + 1)].filter fun q =>
    decide (0 ≤ q.1 ∧ q.1 < b.rows ∧ 0 ≤ q.2 ∧ q.2 < b.cols) && ((decide ((b.cell q).vertex = some src) || decide ((b.cell q).vertex = some dst)) ||
      (path q && decide (id q = edge)))

/-- The loop of `edge_construct`, samples/graph.c:476-483: each cell of the way gets the id and is joined. -/
def shapeWay (b : Board) (src dst : Nat) (edge : Nat × Nat) (path : Pt → Bool) (id : Pt → Nat × Nat) :
    List Pt → List (Pt × Pt)
  | [] => []
  | p :: l =>
    let id' : Pt → Nat × Nat := fun x => if x = p then ((id x).1 ||| edge.1, (id x).2 ||| edge.2) else id x
    (joins b src dst edge path id' p).map (fun q => (p, q)) ++
      shapeWay b src dst edge (fun x => decide (x = p) || path x) id' l

/-- The shapes of all edges `es`, made one after the other by `edge_construct`, samples/graph.c:468-489, when `fs` have been
made on the board `b`. -/
def shapeAll (b : Board) (fs : List Edge) : List Edge → List (Pt × Pt)
  | [] => []
  | e :: es =>
    shapeWay b e.src e.dst (makeEdge e.src e.dst) (fun x => (b.cell x).path || fs.any (fun f => decide (x ∈ f.way)))
      (idAt fs) e.way ++ shapeAll b (fs ++ [e]) es

end CCC.Search
