import Verif.Model.Graph
/-
Model of the requests in `samples/graph.c`: `parse_path_request` and `find_shortest_paths`.  The input is a list of lines as
`getline` gives them; a line is a list of bytes.  What is printed is not modelled, except for the answers.
-/
namespace CCC.Graph

/-- What `parse_path_request` returns: `'q'` twice, zero twice, or two vertices. -/
inductive Request where
  | quit
  | unclear
  | ask (src dst : Nat)
deriving DecidableEq

/-- The loop of `parse_path_request`, samples/graph.c:1082-1090, with the two fields of `res`; vertex `v` has the title
`'A' + v`.  `vertex_at` checks what the condition says. -/
def pick (n : Nat) (src dst : Option Nat) : List Nat → Option Nat × Option Nat
  | [] => (src, dst)
  | c :: l =>
    if 65 ≤ c ∧ c + 1 ≤ 65 + n then
      match src with
      | none => pick n (some (c - 65)) dst l
      | some _ => pick n src (some (c - 65)) l
    else pick n src dst l

/-- `parse_path_request`, samples/graph.c:1073-1092; `sv_contains` for the one byte `'q'` is membership. -/
def parseRequest (n : Nat) (l : List Nat) : Request :=
  if 113 ∈ l then .quit
  else match pick n none none l with
    | (some s, some d) => .ask s d
    | _ => .unclear

/-- `find_shortest_paths`, samples/graph.c:645-688: the questions and the answers of `dijkstra_shortest_path`.  The last byte
of a line is dropped, samples/graph.c:659.  When the input has ended `getline` fails and the outer loop goes on. -/
def session (g : G) (input : List (List Nat)) : Option (List (Nat × Nat × Nat × List (Nat × Nat))) :=
  match input with
  | [] => session g []
  | l :: ls =>
    match parseRequest g.n l.dropLast with
    | .quit => some []
    | .unclear => some []
    | .ask s d => do
      let (r, p) ← dijkstra g s d
      let rest ← session g ls
      some ((s, d, r, p) :: rest)
partial_fixpoint

end CCC.Graph
