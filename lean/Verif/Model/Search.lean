import Verif.Spec.Search
import Verif.Model.FlatHashMap
import Verif.Model.FlatDeque
/-
Model of the breadth first search in `samples/graph.c` that adds one edge to the graph: `found_dst` and the part of
`edge_construct` that computes the edge; and the loop of `build_graph` that adds all edges.

Simplifications.  The board says for each cell which vertex is there, if any, and whether the cell belongs to a path.  A
cell outside the board is not read: `none`.  The drawing of the path and of its label is not modelled: the cells that are
drawn are returned.  The hash function of the cells is arbitrary.  The allocation function always finds memory, with
arbitrary contents.  The calls on the hash map are those of `Fhm.step`.  The two containers are not freed.
-/
namespace CCC.Search
open CCC HashMap

/-- `struct path_backtrack_cell`, samples/graph.c:96-101. -/
structure Back where
  current : Pt
  parent : Pt
deriving DecidableEq

/-- `struct vertex`, samples/graph.c:150-155: the position and the edges, as name and cost. -/
structure Vertex where
  pos : Pt
  edges : List (Nat × Nat)

/-- The vertices of the graph by name. -/
abbrev Net := Nat → Vertex

/-- A cell of the grid: the vertex there, and the path bit. -/
structure Cell where
  vertex : Option Nat
  path : Bool

/-- The grid of `struct graph`, samples/graph.c:157-166. -/
structure Board where
  rows : Int
  cols : Int
  cell : Pt → Cell

/-- `grid_at`, samples/graph.c:846-850; the index is an `int`. -/
def Board.at_ (b : Board) (p : Pt) : Option Cell :=
  if 0 ≤ p.1 ∧ p.1 < b.rows ∧ 0 ≤ p.2 ∧ p.2 < b.cols ∧ p.1 * b.cols + p.2 ≤ 2147483647 then some (b.cell p)
  else none

/-- `MAX_DEGREE`, samples/graph.c:86. -/
def maxDegree : Nat := 4

/-- The condition of samples/graph.c:440-441, with `vertex_degree` (824-832) and `has_edge_with` (864-875). -/
def eligible (net : Net) (src v : Nat) : Bool :=
  src != v && decide ((net v).edges.length < maxDegree) && !(net src).edges.any (fun e => e.1 == v)

/-- `add_edge`, samples/graph.c:877-892. -/
def addEdge (v : Vertex) (e : Nat × Nat) : Vertex :=
  if v.edges.length < maxDegree then { v with edges := v.edges ++ [e] } else v

/-- `dirs`, samples/graph.c:193. -/
def dirs : List Pt := [(-1, 0), (0, 1), (1, 0), (0, -1)]

/-- The hash map of samples/graph.c:415-417: the key is `current`, `eq_parent_cells` (samples/graph.c:1034-1040) compares
row and column. -/
def cfg (wide : Bool) (hash : Pt → UInt64) : Cfg Pt Back := ⟨wide, hash, fun a b => decide (a = b), Back.current⟩

/-- The memory given by the allocation function: its contents, by the capacity that is replaced. -/
structure Heap where
  map : Nat → Nat → Back
  queue : Nat → Nat → Pt

/-- How the loop over the four directions ends. -/
inductive Scan where
  | found (m : Fhm.Fhm Back) (v : Nat)
  | more (m : Fhm.Fhm Back) (q : Fdeq Pt)

/-- The loop over the directions, samples/graph.c:430-456. -/
def scan (c : Cfg Pt Back) (hp : Heap) (b : Board) (net : Net) (src : Nat) (cur : Pt) :
    List Pt → Fhm.Fhm Back → Fdeq Pt → Option Scan
  | [], m, q => some (.more m q)
  | d :: ds, m, q => do
    let next : Pt := (cur.1 + d.1, cur.2 + d.2)
    let push : Back := ⟨next, cur⟩
    let cell ← b.at_ next
    match cell.vertex.filter (eligible net src) with
    | some v =>
      match ← Fhm.step c m (.insertOrAssign push (some (hp.map m.cap))) with
      | (m, .ent st _) => if Stat.has st Stat.insertError then none else some (.found m v)
      | _ => none
    | none =>
      if cell.path then scan c hp b net src cur ds m q
      else
        match ← Fhm.step c m (.tryInsert push (some (hp.map m.cap))) with
        | (m, .ent st _) =>
          if Stat.has st Stat.occupied then scan c hp b net src cur ds m q
          else
            match ← q.pushBack next (some (hp.queue q.capacity)) with
            | (q, some _) => scan c hp b net src cur ds m q
            | (_, none) => none
        | _ => none

/-- The loop of `found_dst`, samples/graph.c:426-457. -/
def search (c : Cfg Pt Back) (hp : Heap) (b : Board) (net : Net) (src : Nat) (m : Fhm.Fhm Back) (q : Fdeq Pt) :
    Option (Option (Fhm.Fhm Back × Nat)) :=
  if q.isEmpty then some none
  else do
    let cur ← q.frontElem.bind q.buf.load
    match ← scan c hp b net src cur dirs m q.popFront.1 with
    | .found m v => some (some (m, v))
    | .more m q => search c hp b net src m q
partial_fixpoint

/-- `get_key_val` on the map and the read of the cell found; NULL fails the assertion. -/
def fetch (c : Cfg Pt Back) (m : Fhm.Fhm Back) (p : Pt) : Option (Fhm.Fhm Back × Back) := do
  match ← Fhm.step c m (.get p id) with
  | (m, .ptr (some x)) => some (m, x)
  | _ => none

/-- The loop of `edge_construct`, samples/graph.c:477-484, from the cell `x`: the cost, an `int`, and the cells drawn. -/
def rebuild (c : Cfg Pt Back) (m : Fhm.Fhm Back) (x : Back) (cost : Nat) (drawn : List Pt) : Option (Nat × List Pt) :=
  if x.parent.1 > 0 then do
    let (m, x) ← fetch c m x.parent
    if cost + 1 > 2147483647 then none else rebuild c m x (cost + 1) (drawn ++ [x.current])
  else some (cost, drawn)
partial_fixpoint

/-- `edge_construct`, samples/graph.c:467-490: the new edges, the cost and the cells drawn. -/
def construct (c : Cfg Pt Back) (m : Fhm.Fhm Back) (net : Net) (src dst : Nat) : Option (Net × Nat × List Pt) := do
  let (m, x) ← fetch c m (net dst).pos
  let (cost, drawn) ← rebuild c m x 0 []
  let net := fun v => if v = src then addEdge (net v) (dst, cost) else net v
  some (fun v => if v = dst then addEdge (net v) (src, cost) else net v, cost, drawn)

/-- `found_dst`, samples/graph.c:412-463: the vertices afterwards, and the vertex found with the cost of the edge and the
cells drawn.  The C function returns whether there is one. -/
def foundDst (c : Cfg Pt Back) (hp : Heap) (junk : Nat → Fhm.Cell Back) (junkQ : Nat → Pt) (b : Board) (net : Net)
    (src : Nat) : Option (Net × Option (Nat × Nat × List Pt)) := do
  let m : Fhm.Fhm Back := Fhm.init junk 0 true
  let q : Fdeq Pt := ⟨Buf.init junkQ 0 true, 0⟩
  let pos := (net src).pos
  match ← Fhm.step c m (.insertOrAssignW pos ⟨pos, (-1, -1)⟩ (some (hp.map m.cap))) with
  | (m, .ent st _) =>
    if Stat.has st Stat.insertError then none
    else do
      let (q, _) ← q.pushBack pos (some (hp.queue q.capacity))
      match ← search c hp b net src m q with
      | none => some (net, none)
      | some (m, dst) =>
        let (net, cost, drawn) ← construct c m net src dst
        some (net, some (dst, cost, drawn))
  | _ => none

/-- The path bit set by `build_path_cell`, samples/graph.c:989-1015, in the cells drawn by `edge_construct`.  The other bits
(directions, edge names, digits of the label) are not modelled. -/
def draw (b : Board) (way : List Pt) : Board :=
  { b with cell := fun p => if p ∈ way then { b.cell p with path := true } else b.cell p }

/-- An edge that was made: from `src` to `dst`, with the cells drawn. -/
structure Edge where
  src : Nat
  dst : Nat
  cost : Nat
  way : List Pt

/-- The loop over one vertex in `build_graph`, samples/graph.c:399-400.  The edges made are collected. -/
def joinAll (c : Cfg Pt Back) (hp : Heap) (junk : Nat → Fhm.Cell Back) (junkQ : Nat → Pt) (b : Board) (net : Net)
    (src : Nat) : Option (Board × Net × List Edge) :=
  if (net src).edges.length < maxDegree then do
    match ← foundDst c hp junk junkQ b net src with
    | (net, some (dst, cost, way)) =>
      let (b, net, es) ← joinAll c hp junk junkQ (draw b way) net src
      some (b, net, ⟨src, dst, cost, way⟩ :: es)
    | (net, none) => some (b, net, [])
  else some (b, net, [])
partial_fixpoint

/-- The second loop of `build_graph`, samples/graph.c:394-401, over the vertices of the list. -/
def buildEdges (c : Cfg Pt Back) (hp : Heap) (junk : Nat → Fhm.Cell Back) (junkQ : Nat → Pt) :
    List Nat → Board → Net → Option (Board × Net × List Edge)
  | [], b, net => some (b, net, [])
  | v :: vs, b, net => do
    let (b, net, es) ← joinAll c hp junk junkQ b net v
    let (b, net, es') ← buildEdges c hp junk junkQ vs b net
    some (b, net, es ++ es')

end CCC.Search
