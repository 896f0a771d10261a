import Verif.Props.SearchGraph
import Verif.Props.Graph
/-
C85 and C79 together: the graph that the sample makes is one on which its search for shortest paths works.
-/
namespace CCC.Search
open CCC HashMap

variable {b : Board} {net : Net}

/-- On every board whose number of cells times the number of vertices is below `INT_MAX` the program makes its graph, and
then answers every question for a cheapest way from one vertex to another: it finds one if there is one and says so if
there is none.  What C79 asks of a graph (no two edges from a vertex to the same vertex, costs that do not add up to an
overflow) holds of every graph that the program makes. -/
theorem C85_solve (wide : Bool) (hash : Pt → UInt64) (hp : Heap) (junk : Nat → Fhm.Cell Back) (junkQ : Nat → Pt) {n : Nat}
    (pl : Placed b net n) (h0 : ∀ v, (net v).edges = []) (hsmall : n * (b.rows * b.cols) < 2147483647) :
    ∃ b' net' es, buildEdges (cfg wide hash) hp junk junkQ (List.range n) b net = some (b', net', es) ∧
      Drawn b net b' net' es ∧
      ∀ src dst, src < n → dst < n → ∃ r l, Graph.dijkstra ⟨n, fun v => (net' v).edges⟩ src dst = some (r, l) ∧
        Graph.Found ⟨n, fun v => (net' v).edges⟩ src dst r l ∧ (r = 0 ∨ r = Graph.intMax) := by
  obtain ⟨b', net', es, e, s, d, _⟩ := C85_graph wide hash hp junk junkQ pl h0
  refine ⟨b', net', es, e, d, ?_⟩
  intro src dst hs hd
  refine Graph.C79_graph_shortest (Graph.fit_of_costs (C := (b.rows * b.cols).toNat) hs ?_ ?_ (fun u _ => s.once u)) hs hd
  · intro u v w h
    refine ⟨(s.name u v w h).2, ?_⟩
    rcases (d.edges u v w).1 h with h | ⟨x, hx, rfl, _⟩
    · rw [h0] at h; cases h
    · have := (d.way x hx).2.2
      omega
  · have hin := pl.inside src hs
    have h1 : (0 : Int) ≤ b.rows * b.cols := Int.mul_nonneg (by omega) (by omega)
    show n * (b.rows * b.cols).toNat < 2147483647
    have h2 : ((n * (b.rows * b.cols).toNat : Nat) : Int) < 2147483647 := by
      rw [Int.natCast_mul, Int.toNat_of_nonneg h1]; exact hsmall
    exact_mod_cast h2

/-- The sample board meets the hypotheses. -/
example : Placed sampleBoard sampleNet 2 ∧ (∀ v, (sampleNet v).edges = []) ∧
    (2 : Nat) * (sampleBoard.rows * sampleBoard.cols) < 2147483647 := ⟨sample_placed, fun _ => rfl, by decide⟩

end CCC.Search
