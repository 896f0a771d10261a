import Verif.Model.PriorityQueue
import Verif.Model.OrderedMap
import Verif.Spec.Maze
/-
Model of the maze sample, `samples/maze.c`, as a client of the priority queue and the ordered map, and of `rand_range`,
`util/random.c`.

Squares and costs are integers.  A product that does not fit into `int` is undefined behaviour, `none`, as are an access
outside of the array of squares and a failed assertion; sums of coordinates stay between -2 and the number of rows or
columns.  The array is there: `calloc` and `malloc` are taken to succeed.  The slot `i` of the arena is the address `i + 1`.
A cell is a struct with a handle for each of the two containers; its data, which never changes once it is in the map, is
held in the models of both.  The drawing on the terminal is not modelled; the answers of `rand` are a parameter.
-/
namespace CCC.Maze
open CCC

/-- `INT_MAX`. -/
def intMax : Int := 2147483647

/-- A square of `struct maze`: the bits of samples/maze.c:127-134. -/
structure Sq where
  path : Bool
  cached : Bool
  north : Bool
  east : Bool
  south : Bool
  west : Bool

/-- `struct maze`, samples/maze.c:60-66. -/
structure Grid where
  rows : Int
  cols : Int
  sq : Int → Sq

/-- The index of `maze_at_r` and `maze_at`, samples/maze.c:548-560: it is computed as an `int` and must be in the array. -/
def idx (g : Grid) (p : Pos) : Option Int :=
  let k := p.1 * g.cols
  let i := k + p.2
  if -intMax - 1 ≤ k ∧ k ≤ intMax ∧ -intMax - 1 ≤ i ∧ i ≤ intMax ∧ 0 ≤ i ∧ i < g.rows * g.cols then some i else none

/-- `maze_at`, samples/maze.c:555-560. -/
def rd (g : Grid) (p : Pos) : Option Sq := do
  let i ← idx g p
  some (g.sq i)

/-- A change through `maze_at_r`, samples/maze.c:548-553. -/
def wr (g : Grid) (p : Pos) (f : Sq → Sq) : Option Grid := do
  let i ← idx g p
  some { g with sq := fun j => if j = i then f (g.sq j) else g.sq j }

/-- `build_wall`, samples/maze.c:470-492. -/
def buildWall (g : Grid) (p : Pos) : Option Grid := do
  let g ← wr g p (fun s => { s with north := s.north || decide (p.1 - 1 ≥ 0), south := s.south || decide (p.1 + 1 < g.rows),
                                    west := s.west || decide (p.2 - 1 ≥ 0), east := s.east || decide (p.2 + 1 < g.cols) })
  wr g p (fun s => { s with path := false })

/-- The inner loop of `fill_maze_with_walls`, samples/maze.c:383-386, with `k` columns to go. -/
def fillRow (g : Grid) (row col : Int) : Nat → Option Grid
  | 0 => some g
  | k + 1 => do
    let g ← buildWall g (row, col)
    fillRow g row (col + 1) k

/-- `fill_maze_with_walls`, samples/maze.c:378-388, with `k` rows to go. -/
def fill (g : Grid) (row : Int) : Nat → Option Grid
  | 0 => some g
  | k + 1 => do
    let g ← fillRow g row 0 g.cols.toNat
    fill g (row + 1) k

/-- One of the four steps of `carve_path_walls_animated`, samples/maze.c:443-466: if the neighbour is in the maze and no path,
one of its wall bits is cleared. -/
def unwall (g : Grid) (there : Bool) (p : Pos) (f : Sq → Sq) : Option Grid :=
  if there then do
    let s ← rd g p
    if !s.path then wr g p f else some g
  else some g

/-- `carve_path_walls_animated`, samples/maze.c:435-468. -/
def carve (g : Grid) (p : Pos) : Option Grid := do
  let g ← wr g p (fun s => { s with path := true })
  let g ← unwall g (decide (p.1 - 1 ≥ 0)) (p.1 - 1, p.2) (fun s => { s with south := false })
  let g ← unwall g (decide (p.1 + 1 < g.rows)) (p.1 + 1, p.2) (fun s => { s with north := false })
  let g ← unwall g (decide (p.2 - 1 ≥ 0)) (p.1, p.2 - 1) (fun s => { s with east := false })
  let g ← unwall g (decide (p.2 + 1 < g.cols)) (p.1, p.2 + 1) (fun s => { s with west := false })
  wr g p (fun s => { s with cached := true })

/-- The wall between two squares, samples/maze.c:409-429. -/
def between (cur next : Pos) : Pos :=
  if next.1 < cur.1 then (cur.1 - 1, cur.2)
  else if next.1 > cur.1 then (cur.1 + 1, cur.2)
  else if next.2 < cur.2 then (cur.1, cur.2 - 1)
  else if next.2 > cur.2 then (cur.1, cur.2 + 1)
  else cur

/-- `join_squares_animated`, samples/maze.c:405-433. -/
def join (g : Grid) (cur next : Pos) : Option Grid := do
  let g ← carve g cur
  let g ← carve g (between cur next)
  carve g next

/-- `can_build_new_square`, samples/maze.c:562-568. -/
def canBuild (g : Grid) (p : Pos) : Option Bool :=
  if p.1 > 0 ∧ p.1 < g.rows - 1 ∧ p.2 > 0 ∧ p.2 < g.cols - 1 then do
    let s ← rd g p
    some (!s.cached)
  else some false

/-- `struct prim_cell`, samples/maze.c:74-80, without the handles. -/
structure Cell where
  cell : Pos
  cost : Int

/-- `cmp_priority_cells`, samples/maze.c:343-349. -/
def cmpCells (a b : Cell) : Cmp := if a.cost > b.cost then .grt else if a.cost < b.cost then .les else .eql

/-- `cmp_priority_pos`, samples/maze.c:351-365. -/
def cmpPos (k a : Pos) : Cmp :=
  if a.1 = k.1 ∧ a.2 = k.2 then .eql
  else if a.1 = k.1 then (if k.2 > a.2 then .grt else if k.2 < a.2 then .les else .eql)
  else (if k.1 > a.1 then .grt else if k.1 < a.1 then .les else .eql)

/-- `pq_init(struct prim_cell, pq_elem, CCC_LES, NULL, cmp_priority_cells, NULL)`, samples/maze.c:262-263. -/
def cfg : Pq.Cfg Cell := ⟨cmpCells, .les, false, 0⟩

/-- `RAND_MAX` of a source of random numbers, and its answers. -/
structure Rand where
  max : Nat
  next : Nat → Nat

/-- `rand_range`, util/random.c:7-14, at the `k`-th call of `rand`. -/
def Rand.range (rand : Rand) (k : Nat) (mn mx : Nat) : Nat := mn + rand.next k / (rand.max / (mx - mn + 1) + 1)

/-- The variables of `animate_maze`, samples/maze.c:242-319; `calls` counts the calls of `rand`. -/
structure St where
  grid : Grid
  costs : Om.Om Cell
  cells : Pq.Pq Cell
  /-- `next_free` and `capacity` of the arena -/
  next : Nat
  cap : Nat
  calls : Nat

/-- `arena_bump_alloc`, samples/maze.c:323-341: the answer to a request for memory. -/
def St.bump (m : St) : Slot := if m.next ≥ m.cap then none else some (m.next + 1)

/-- A struct for the cell was made in the slot the arena answered; the literal leaves NULL in the handle of the queue. -/
def St.made (m : St) (x : Cell) : St :=
  match m.bump with
  | none => m
  | some n => { m with cells := { m.cells with mem := upd m.cells.mem n (some ⟨x, none, none, none, none⟩) },
                       next := m.next + 1, calls := m.calls + 1 }

/-- `om_insert_entry_w(entry_r(&costs, &s), (struct prim_cell){...})`, samples/maze.c:272-274. -/
def insertCell (rand : Rand) (m : St) (p : Pos) : Option (St × Slot) := do
  let x : Cell := ⟨p, rand.range m.calls 0 100⟩
  let (costs, e) ← Om.entry cmpPos Cell.cell m.costs p
  let (costs, a) ← Om.insertEntryW cmpPos Cell.cell costs e x m.bump
  some ({ (if Om.occupied e then m else m.made x) with costs := costs }, a)

/-- `om_or_insert_w(entry_r(&costs, &n), (struct prim_cell){...})`, samples/maze.c:295-297. -/
def cellAt (rand : Rand) (m : St) (p : Pos) : Option (St × Slot) := do
  let x : Cell := ⟨p, rand.range m.calls 0 100⟩
  let (costs, e) ← Om.entry cmpPos Cell.cell m.costs p
  let (costs, a) ← Om.orInsertW cmpPos Cell.cell costs e x m.bump
  some ({ (if Om.occupied e then m else m.made x) with costs := costs }, a)

/-- `dir_offsets`, samples/maze.c:111. -/
def dirs : List Pos := [(-2, 0), (0, 2), (2, 0), (0, -2)]

/-- The loop over the directions, samples/maze.c:284-305. -/
def scan (rand : Rand) (c : Pos) : List Pos → St → Int → Slot → Option (St × Slot)
  | [], m, _, best => some (m, best)
  | d :: ds, m, min, best => do
    let n : Pos := (c.1 + d.1, c.2 + d.2)
    if ← canBuild m.grid n then do
      let (m, p) ← cellAt rand m n
      let a ← p                                                         -- 298 assert
      let e ← m.cells.mem a
      if e.val.cost < min then scan rand c ds m e.val.cost (some a) else scan rand c ds m min best
    else scan rand c ds m min best

/-- The main loop, samples/maze.c:278-315. -/
def loop (rand : Rand) (m : St) : Option St :=
  if Pq.isEmpty m.cells then some m
  else do
    let a ← Pq.front m.cells
    let e ← m.cells.mem a
    let c := e.val.cell
    let g ← wr m.grid c (fun s => { s with cached := true })
    let (m, best) ← scan rand c dirs { m with grid := g } intMax none
    match best with
    | some b => do
      let eb ← m.cells.mem b
      let g ← join m.grid c eb.val.cell
      let (q, _) ← Pq.push cfg m.cells b none
      loop rand { m with grid := g, cells := q }
    | none => do
      let (q, _) ← Pq.pop cfg m.cells
      loop rand { m with cells := q }
partial_fixpoint

/-- `rand_point`, samples/maze.c:369-376.  The order of the two calls is not specified. -/
def randPoint (rand : Rand) (g : Grid) (k : Nat) : Pos :=
  (2 * (rand.range k 1 ((g.rows - 2) / 2).toNat : Int) + 1, 2 * (rand.range (k + 1) 1 ((g.cols - 2) / 2).toNat : Int) + 1)

/-- `animate_maze`, samples/maze.c:242-319. -/
def animate (rand : Rand) (mem : Nat → Cell) (g : Grid) : Option St := do
  let g ← fill g 0 g.rows.toNat
  let m : St := ⟨g, Om.init mem true, Pq.init fun _ => none, 0, ((g.rows * g.cols) / 2).toNat + 1, 2⟩
  let (m, p) ← insertCell rand m (randPoint rand g 0)
  let a ← p                                                             -- 275 assert
  let (q, _) ← Pq.push cfg m.cells a none
  if m.next = 1 then loop rand { m with cells := q } else none          -- 277 assert

/-- `main` after the arguments were read, samples/maze.c:216-225: both numbers are made odd, and the array starts out zero. -/
def build (rand : Rand) (mem : Nat → Cell) (rows cols : Int) : Option St :=
  animate rand mem { rows := rows + (if rows % 2 = 0 then 1 else 0), cols := cols + (if cols % 2 = 0 then 1 else 0),
                     sq := fun _ => ⟨false, false, false, false, false, false⟩ }

/-- The squares that are shown as open. -/
def Grid.opened (g : Grid) (p : Pos) : Prop :=
  0 ≤ p.1 ∧ p.1 < g.rows ∧ 0 ≤ p.2 ∧ p.2 < g.cols ∧ (g.sq (p.1 * g.cols + p.2)).path = true

end CCC.Maze
