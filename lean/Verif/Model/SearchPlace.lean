import Verif.Model.Search
import Verif.Model.Maze
/-
Model of the placement of the vertices in `samples/graph.c`: `build_path_outline`, `random_vertex_placement` and the first
loop of `build_graph`.  The answers of `rand` are those of `Maze.Rand`.  A loop that does not end is `none`, as is an access
outside the board.  `quit` and `exit` are modelled as the answer that there is no place.
-/
namespace CCC.Search

/-- The grid of zeros from `calloc`, samples/graph.c:356, after `build_path_outline`, samples/graph.c:1017-1031; only the
path bit is modelled. -/
def blank (rows cols : Int) : Board :=
  ⟨rows, cols, fun p => ⟨none, decide (p.2 = 0 ∨ p.2 = cols - 1 ∨ p.1 = 0 ∨ p.1 = rows - 1)⟩⟩

/-- The cells `build_path_outline` changes, samples/graph.c:1017-1031, row by row. -/
def outlineCells (rows cols : Int) : List Pt :=
  (List.range rows.toNat).flatMap fun (r : Nat) => (List.range cols.toNat).filterMap fun (c : Nat) =>
    if (c : Int) = 0 ∨ (c : Int) = cols - 1 ∨ (r : Int) = 0 ∨ (r : Int) = rows - 1 then some ((r : Int), (c : Int)) else none

/-- The loop of `build_path_outline`, samples/graph.c:1019-1030, over its cells: each gets its path bit in
`build_path_cell`, samples/graph.c:1013; the shape and the accesses to the neighbours are not modelled. -/
def outlineLoop (b : Board) : List Pt → Option Board
  | [] => some b
  | p :: l => do
    let s ← b.at_ p
    outlineLoop { b with cell := fun x => if x = p then { s with path := true } else b.cell x } l

/-- `build_path_outline`, samples/graph.c:1017-1031, on the grid of zeros from `calloc`, samples/graph.c:356. -/
def buildOutline (rows cols : Int) : Option Board := outlineLoop ⟨rows, cols, fun _ => ⟨none, false⟩⟩ (outlineCells rows cols)

/-- `is_valid_vertex_pos`, samples/graph.c:814-822, over the cells of the list. -/
def validPos (b : Board) : List Pt → Option Bool
  | [] => some true
  | p :: ps => do
    let c ← b.at_ p
    if c.vertex.isSome then some false else validPos b ps

/-- The cells `is_valid_vertex_pos` looks at, samples/graph.c:817-821. -/
def around (p : Pt) : List Pt := [p, (p.1 + 1, p.2), (p.1 - 1, p.2), (p.1, p.2 - 1), (p.1, p.2 + 1)]

/-- `vertex_placement_padding`, samples/graph.c:214. -/
def padding : Int := 3
/-- `row_col_min`, samples/graph.c:213. -/
def rowColMin : Int := 7

/-- How the loop over the columns ends. -/
inductive Place where
  | found (p : Pt)
  | exhausted
  | rowDone

/-- The loop over the columns, samples/graph.c:623-637. -/
def colLoop (b : Board) (rowStart colStart row : Int) (col : Int) : Option Place :=
  if col < b.cols - 2 then do
    let col := if col = 0 then padding else col
    if ← validPos b (around (row, col)) then some (.found (row, col))
    else if (row + 1) % b.rows = rowStart ∧ (col + 1) % b.cols = colStart then some .exhausted
    else colLoop b rowStart colStart row ((col + 1) % (b.cols - 2))
  else some .rowDone
partial_fixpoint

/-- The loop over the rows, samples/graph.c:616-638. -/
def rowLoop (b : Board) (rowStart colStart : Int) (row : Int) : Option (Option Pt) :=
  if row < b.rows - 2 then do
    let row := if row = 0 then padding else row
    match ← colLoop b rowStart colStart row colStart with
    | .found p => some (some p)
    | .exhausted => some none
    | .rowDone => rowLoop b rowStart colStart ((row + 1) % (b.rows - 2))
  else some none
partial_fixpoint

/-- `random_vertex_placement`, samples/graph.c:600-642, at the `k`-th call of `rand`. -/
def placement (rand : Maze.Rand) (k : Nat) (b : Board) : Option (Option Pt) :=
  if b.rows - 2 < rowColMin ∨ b.cols - 2 < rowColMin then some none
  else
    let rowStart : Int := (rand.range k padding.toNat (b.rows - padding).toNat : Nat)
    let colStart : Int := (rand.range (k + 1) padding.toNat (b.cols - padding).toNat : Nat)
    rowLoop b rowStart colStart rowStart

/-- The first loop of `build_graph`, samples/graph.c:382-393, for `k` more vertices from the vertex `v` on; `none` inside is
the exit of the program. -/
def placeAll (rand : Maze.Rand) (b : Board) (net : Net) (v : Nat) : Nat → Option (Option (Board × Net))
  | 0 => some (some (b, net))
  | k + 1 => do
    match ← placement rand (2 * v) b with
    | none => some none
    | some p =>
      placeAll rand { b with cell := fun q => if q = p then ⟨some v, true⟩ else b.cell q }
        (fun w => if w = v then ⟨p, []⟩ else net w) (v + 1) k

end CCC.Search
