import Verif.Proof.Search
/-
C85: the search of `samples/graph.c` that adds an edge to the graph finds the closest vertex that may be joined, if there
is one, and the edge is a shortest way to it.
-/
namespace CCC.Search
open CCC HashMap

variable {b : Board} {net : Net} {src : Nat}

/-- The loop of `edge_construct` walks back to the start. -/
theorem rebuild_spec {wide : Bool} {hash : Pt → UInt64} {l L : List Back} {D : Pt → Nat} {pend : Pt → Pt → Prop}
    (r : Ready b net src) (hi : Inv b net src l D pend) (hn : (L.map Back.current).Nodup) (hL : ∀ x ∈ l, x ∈ L) :
    ∀ (k : Nat) (x : Back) (m : Fhm.Fhm Back) (cost : Nat) (drawn : List Pt), x ∈ l → D x.current = k →
      Holds (cfg wide hash) m L → cost + k ≤ 2147483647 →
      ∃ w, rebuild (cfg wide hash) m x cost drawn = some (cost + k, drawn ++ w) ∧ w.length = k ∧
        (k ≠ 0 → Route b.Free (net src).pos x.current w) ∧ (k = 0 → x.current = (net src).pos) ∧
        (k ≠ 0 → b.Free x.current) := by
  intro k
  induction k with
  | zero =>
    intro x m cost drawn hx hD hm _
    rcases hi.par x hx with ⟨rfl, _⟩ | ⟨_, _, _, h⟩
    · refine ⟨[], ?_, rfl, by simp, by simp, by simp⟩
      rw [rebuild, if_neg (by show ¬ ((-1 : Int) > 0); decide)]; simp
    · omega
  | succ k ih =>
    intro x m cost drawn hx hD hm hc
    rcases hi.par x hx with ⟨_, h⟩ | ⟨hf, ha, hmet, h⟩
    · omega
    · have hin := hi.inner r hmet
      obtain ⟨y, hy, ey⟩ := hmet
      obtain ⟨m', e, hm'⟩ := fetch_spec hm hn (hL y hy)
      obtain ⟨w, ew, hw, hr, h0, hfy⟩ := ih y m' (cost + 1) (drawn ++ [y.current]) hy (by rw [ey]; omega) hm' (by omega)
      refine ⟨y.current :: w, ?_, by simp [hw], ?_, by omega, fun _ => hf⟩
      · rw [rebuild, if_pos hin.1, ← ey, e]
        simp only [Option.bind_eq_bind, Option.bind_some]
        rw [if_neg (by omega), ew]
        simp; omega
      · intro _
        refine ⟨by rw [ey]; exact ha, ?_⟩
        by_cases hk : k = 0
        · left; exact ⟨h0 hk, List.length_eq_zero_iff.1 (by omega)⟩
        · right; exact ⟨hfy hk, hr hk⟩

/-- `v`, at the cell `q` of the board, may be joined to `src`: it is another vertex, it has fewer than four edges and
there is no edge to it yet. -/
def Joinable (b : Board) (net : Net) (src v : Nat) (q : Pt) : Prop :=
  b.In q ∧ (b.cell q).vertex = some v ∧ src ≠ v ∧ (net v).edges.length < 4 ∧ ∀ e ∈ (net src).edges, e.1 ≠ v

theorem goal_iff {v : Nat} {q : Pt} : b.Goal net src v q ↔ Joinable b net src v q := by
  simp only [Board.Goal, Joinable, eligible, Bool.and_eq_true, decide_eq_true_eq, bne_iff_ne, ne_eq,
    Bool.not_eq_true', List.any_eq_false, beq_iff_eq, and_assoc]
  rfl

/-- The vertices after the edge between `src` and `dst` was added. -/
structure Joined (net net' : Net) (src dst n : Nat) : Prop where
  here : (net' src).edges = (net src).edges ++ [(dst, n)]
  there : (net' dst).edges = (net dst).edges ++ [(src, n)]
  pos : ∀ v, (net' v).pos = (net v).pos
  others : ∀ v, v ≠ src → v ≠ dst → net' v = net v

/-- C85.  The search ends, whatever the hash function is and whatever the memory holds, without an access outside the
board, without a failed assertion and without overflow.  Either no vertex that may be joined can be reached through cells
that belong to no path, and nothing changes, or the search joins a vertex `dst` that may be joined, and:
- the cells drawn lead from `dst` to `src` through cells that belong to no path, and the cost is their number;
- no vertex that may be joined can be reached in fewer steps;
- the edge is added to both ends and nowhere else, and its cost is at most the number of cells. -/
theorem C85_closest (wide : Bool) (hash : Pt → UInt64) (hp : Heap) (junk : Nat → Fhm.Cell Back) (junkQ : Nat → Pt)
    (r : Ready b net src) (hroom : (net src).edges.length < 4) :
    (foundDst (cfg wide hash) hp junk junkQ b net src = some (net, none) ∧
      ∀ v q n, Joinable b net src v q → ¬ Reach b.Free (net src).pos n q) ∨
    ∃ net' dst n way, foundDst (cfg wide hash) hp junk junkQ b net src = some (net', some (dst, n, way)) ∧
      Joinable b net src dst (net dst).pos ∧ way.length = n ∧ Route b.Free (net src).pos (net dst).pos way ∧
      Reach b.Free (net src).pos n (net dst).pos ∧
      (∀ v q n', Joinable b net src v q → Reach b.Free (net src).pos n' q → n ≤ n') ∧
      Joined net net' src dst n ∧ (n : Int) ≤ b.rows * b.cols := by
  obtain ⟨m, e, hm⟩ := put_first (wide := wide) (hash := hash) junk ⟨(net src).pos, (-1, -1)⟩ (hp.map 0)
  have hq0 : Queue ⟨Buf.init junkQ 0 true, 0⟩ [] := by
    refine ⟨⟨rfl, by simp [Buf.init], .inr ⟨rfl, rfl⟩⟩, rfl, ?_⟩
    exact List.length_eq_zero_iff.1 (by rw [Fdeq.seq_length]; rfl)
  obtain ⟨q, j, eq, hq⟩ := push_spec hq0 (net src).pos (hp.queue 0)
  obtain ⟨s, es, ok⟩ := search_spec (hp := hp) r _ m q _ _ [(net src).pos]
    (by simpa using Inv.first r) (by simp [Met]) (by simp) (by simp) hm (by simpa using hq) (Nat.lt_succ_self _)
  have hrun : foundDst (cfg wide hash) hp junk junkQ b net src = (some s).bind (fun s => s.elim (some (net, none)) fun r =>
      (construct (cfg wide hash) r.1 net src r.2).bind fun t => some (t.1, some (r.2, t.2.1, t.2.2))) := by
    unfold foundDst
    have e' : Fhm.step (cfg wide hash) (Fhm.init junk 0 true) (.insertOrAssignW (net src).pos ⟨(net src).pos, (-1, -1)⟩
      (some (hp.map (Fhm.init junk 0 true : Fhm.Fhm Back).cap))) = _ := e
    have eq' : Fdeq.pushBack ⟨Buf.init junkQ 0 true, 0⟩ (net src).pos
      (some (hp.queue (Fdeq.capacity ⟨Buf.init junkQ 0 true, 0⟩))) = _ := eq
    simp only [e', eq', Option.bind_eq_bind, Option.bind_some]
    rw [if_neg (by decide)]
    simp only [es, Option.bind_some]
    cases s <;> rfl
  rw [hrun]
  cases s with
  | none => exact .inl ⟨rfl, fun v q n h => ok v q n (goal_iff.2 h)⟩
  | some s =>
    right
    obtain ⟨m, dst⟩ := s
    obtain ⟨cur, l, D, y, hi, hcur, ha, hg, hny, hm⟩ := ok
    have hpos : (net dst).pos = y := r.places y dst hg.1 hg.2.1
    have hn : (((⟨y, cur⟩ : Back) :: l).map Back.current).Nodup := by
      simp only [List.map_cons, List.nodup_cons, List.mem_map]
      exact ⟨fun ⟨x, hx, ex⟩ => hny ⟨x, hx, ex⟩, hi.nodup⟩
    have hin := hi.inner r hcur
    obtain ⟨x, hx, ex⟩ := hcur
    have hsm := hi.small x hx
    rw [ex] at hsm
    have hcnt := hi.count r
    have hsz := r.size
    obtain ⟨m1, e1, hm1⟩ := fetch_spec hm hn (x := ⟨y, cur⟩) (by simp)
    obtain ⟨m2, e2, hm2⟩ := fetch_spec hm1 hn (x := x) (by simp [hx])
    obtain ⟨w, ew, hw, hr, h0, hfx⟩ := rebuild_spec r hi hn (fun x hx => by simp [hx]) (D cur) x m2 1 [cur] hx (by rw [ex])
      hm2 (by omega)
    have hreb : rebuild (cfg wide hash) m1 ⟨y, cur⟩ 0 [] = some (1 + D cur, [cur] ++ w) := by
      rw [rebuild, if_pos hin.1]
      simp only [← ex, e2, Option.bind_eq_bind, Option.bind_some]
      rw [if_neg (by omega)]
      simp only [ex, List.nil_append, Nat.zero_add]
      exact ew
    have hne : src ≠ dst := (goal_iff.1 hg).2.2.1
    have hdeg : (net dst).edges.length < 4 := (goal_iff.1 hg).2.2.2.1
    refine ⟨fun v => if v = dst then addEdge (if v = src then addEdge (net v) (dst, 1 + D cur) else net v) (src, 1 + D cur)
      else if v = src then addEdge (net v) (dst, 1 + D cur) else net v, dst, 1 + D cur, [cur] ++ w, ?_, ?_, by simp [hw]; omega, ?_, ?_, ?_, ?_, by omega⟩
    rotate_left
    · rw [hpos]; exact goal_iff.1 hg
    · rw [hpos]
      refine ⟨ha, ?_⟩
      by_cases hk : D cur = 0
      · left; exact ⟨by rw [← ex]; exact h0 hk, (List.length_eq_zero_iff.1 (by omega) : w = [])⟩
      · right; rw [← ex]; exact ⟨hfx hk, hr hk⟩
    · rw [hpos]
      refine ⟨D cur, cur, by omega, ?_, ha⟩
      have := hi.walk x hx
      rwa [ex] at this
    · intro v q n' hv hrch
      have := hi.closest (d := D cur) (fun _ _ _ h => h) (goal_iff.2 hv) hrch
      omega
    rotate_left
    · have e1' : fetch (cfg wide hash) m (net dst).pos = some (m1, ⟨y, cur⟩) := by rw [hpos]; exact e1
      simp only [Option.bind_some, Option.elim_some, construct, e1', hreb, Option.bind_eq_bind]
    · refine ⟨?_, ?_, ?_, ?_⟩
      · simp [hne, addEdge, maxDegree, hroom]
      · simp [hne.symm, addEdge, maxDegree, hdeg]
      · intro v
        simp only [addEdge]
        split <;> split <;> (try split) <;> (try split) <;> rfl
      · intro v h1 h2
        simp [h1, h2]

end CCC.Search
