import Verif.Model.PriorityQueue
import Verif.Spec.Graph
/-
Model of the shortest path search of the graph sample, `samples/graph.c`, as a client of the priority queue.

A vertex name, a character from 'A' on, is modelled by its distance from 'A'; this is also the address of its struct in
the array `map_pq`.  `'\0'`, no vertex, is `none`.  Costs and distances are of type `int`; they are not negative (a cost
is a number of cells, samples/graph.c:475-480), hence natural numbers, and a sum above `INT_MAX` is undefined behaviour,
`none`.  A failed `prog_assert` is `none` as well.  The drawing on the terminal is not modelled, except for the edges
painted last, with `CYN`: these are the path shown to the user.
-/
namespace CCC.Graph
open CCC

/-- `INT_MAX`. -/
def intMax : Nat := 2147483647

/-- `struct dijkstra_vertex`, samples/graph.c:108-114; the field `pq_elem` is part of `Pq.Elem`. -/
structure Vtx where
  dist : Nat
  name : Nat
  from_ : Option Nat

/-- `cmp_pq_costs`, samples/graph.c:1050-1056. -/
def cmpCosts (a b : Vtx) : Cmp := if a.dist > b.dist then .grt else if a.dist < b.dist then .les else .eql

/-- `pq_init(struct dijkstra_vertex, pq_elem, CCC_LES, NULL, cmp_pq_costs, NULL)`, samples/graph.c:706-707. -/
def cfg : Pq.Cfg Vtx := ⟨cmpCosts, .les, false, 0⟩

/-- The first loop of `dijkstra_shortest_path`, samples/graph.c:708-716, for the vertices from `i` on, `k` in number. -/
def fill (src : Nat) (s : Pq.Pq Vtx) (i : Nat) : Nat → Option (Pq.Pq Vtx)
  | 0 => some s
  | k + 1 => do
    let s : Pq.Pq Vtx := { s with mem := upd s.mem i (some ⟨⟨if i = src then 0 else intMax, i, none⟩, none, none, none, none⟩) }
    let (s, p) ← Pq.push cfg s i none
    if p = none then none
    else fill src s (i + 1) k

/-- The loop over the edges of the vertex at `u`, samples/graph.c:737-752. -/
def relax (u : Nat) (s : Pq.Pq Vtx) : List (Nat × Nat) → Option (Pq.Pq Vtx)
  | [] => some s
  | (v, w) :: es => do
    let eu ← s.mem u
    let ev ← s.mem v
    let alt := eu.val.dist + w
    if alt > intMax then none
    else if alt < ev.val.dist then do
      let (s, ok) ← Pq.decrease cfg s v (fun x => { x with dist := alt, from_ := some eu.val.name })
      if ok then relax u s es else none
    else relax u s es

/-- The loop that paints the path, samples/graph.c:728-732, and `return u->dist`, 734: the distance of the vertex at which
the loop stopped. -/
def paint (s : Pq.Pq Vtx) (u : Nat) : Option (Nat × List (Nat × Nat)) := do
  let eu ← s.mem u
  match eu.val.from_ with
  | none => some (eu.val.dist, [])
  | some p => do
    let (r, l) ← paint s p
    some (r, (eu.val.name, p) :: l)
partial_fixpoint

/-- The second loop of `dijkstra_shortest_path`, samples/graph.c:717-754. -/
def search (g : G) (dst : Nat) (s : Pq.Pq Vtx) : Option (Nat × List (Nat × Nat)) :=
  if Pq.isEmpty s then some (intMax, [])
  else do
    let u ← Pq.front s
    let (s, _) ← Pq.pop cfg s
    let eu ← s.mem u
    if eu.val.name = dst ∨ eu.val.dist = intMax then
      if eu.val.dist ≠ intMax then paint s u
      else some (eu.val.dist, [])
    else do
      let s ← relax u s (g.edges eu.val.name)
      search g dst s
partial_fixpoint

/-- `dijkstra_shortest_path`, samples/graph.c:692-755: the answer, and the edges painted last. -/
def dijkstra (g : G) (src dst : Nat) : Option (Nat × List (Nat × Nat)) := do
  let s ← fill src (Pq.init fun _ => none) 0 g.n
  search g dst s

end CCC.Graph
