import Verif.Proof.MazeLoop
/-
C83.  The maze sample, `samples/maze.c`, builds a perfect maze: a client of the priority queue and the ordered map at once,
whose structs carry a handle for each and come from an arena.
-/
namespace CCC.Maze
open CCC MapSpec PtrMap

/-- A number of rows or columns made odd. -/
def oddUp (n : Int) : Int := n + (if n % 2 = 0 then 1 else 0)

theorem oddUp_spec {n : Int} (h : 7 ≤ n) : oddUp n % 2 = 1 ∧ 7 ≤ oddUp n := by
  unfold oddUp
  split <;> omega

/-- **C83**.  Whatever the random numbers, the maze sample ends for all numbers of rows and columns it accepts, as long as the
number of squares fits into an `int`; no assertion fails, nothing is read or written outside of the array of squares and the
arena, and the result is a perfect maze: all rooms are open, the border is closed, and there is exactly one way between any
two open squares. -/
theorem C83_maze_partial (rand : Rand) (hr : ∀ k, rand.next k ≤ rand.max) (mem : Nat → Cell) (rows cols : Int) (h1 : 7 ≤ rows)
    (h2 : 7 ≤ cols) (hf : oddUp rows * oddUp cols ≤ intMax) :
    ∃ m, build rand mem rows cols = some m ∧ m.grid.rows = oddUp rows ∧ m.grid.cols = oddUp cols ∧
      Perfect (oddUp rows) (oddUp cols) m.grid.opened := by
  have hR := oddUp_spec h1
  have hC := oddUp_spec h2
  have hr : rand.Ok := hr
  generalize eR : oddUp rows = R at hR hf
  generalize eC : oddUp cols = C at hC hf
  have hbuild : build rand mem rows cols = animate rand mem ⟨R, C, fun _ => ⟨false, false, false, false, false, false⟩⟩ := by
    rw [← eR, ← eC]; rfl
  rw [hbuild]
  obtain ⟨g, e1, r1, c1, b1⟩ := fill_spec R.toNat ⟨R, C, fun _ => ⟨false, false, false, false, false, false⟩⟩ 0 hf
    (fun _ => ⟨rfl, rfl⟩) (by omega) (by simp only; omega) (by simp only; omega)
  simp only at r1 c1
  have fits : g.Fits := by unfold Grid.Fits; rw [r1, c1]; exact hf
  -- the starting point
  have p1 := hr.range 0 (mn := 1) (mx := ((R - 2) / 2).toNat) (by omega)
  have p2 := hr.range 1 (mn := 1) (mx := ((C - 2) / 2).toNat) (by omega)
  have hs : randPoint rand g 0 = (2 * (rand.range 0 1 ((R - 2) / 2).toNat : Int) + 1, 2 * (rand.range 1 1 ((C - 2) / 2).toNat : Int) + 1) := by
    simp only [randPoint, r1, c1]
  generalize rand.range 0 1 ((R - 2) / 2).toNat = u at p1 hs
  generalize rand.range 1 1 ((C - 2) / 2).toNat = v at p2 hs
  have rs : Room R C (randPoint rand g 0) := by
    rw [hs]
    refine ⟨?_, ?_, ?_, ?_, ?_, ?_⟩ <;> simp only <;> omega
  have rn : Room R C ((randPoint rand g 0).1 - 2, (randPoint rand g 0).2) := by
    rw [hs]
    refine ⟨?_, ?_, ?_, ?_, ?_, ?_⟩ <;> simp only <;> omega
  -- the empty containers
  have store0 : Store R C ⟨g, Om.init mem true, Pq.init fun _ => none, 0, ((g.rows * g.cols) / 2).toNat + 1, 2⟩ PrioQ.St.empty [] :=
    ⟨⟨mem, true, [], trivial, ⟨[], rfl⟩, rfl⟩, rfl, .init, rfl, by simp, by simp, by simp, by simp,
      by intro a ha; simp [PrioQ.St.empty] at ha, by simp only [r1, c1]⟩
  obtain ⟨m1, st1, l1, a, x, i1, i2, i3, i4, i5, i6, i7⟩ := insertCell_spec hr store0 hR hC rs
  have hq1 : st1.q = [] := i6.trans rfl
  obtain ⟨q', st2, r, j1, j2, j3⟩ := i2.push i3 (by rw [hq1]; simp) m1.grid
  have hg1 : m1.grid = g := i5
  have hb : ∀ p, (g.bit p).path = false ∧ (g.bit p).cached = false := fun p => b1 _
  have inv : Inv R C { m1 with cells := q' } st2 l1 (fun p => p = randPoint rand g 0) := by
    refine ⟨j2, ?_, ?_, ?_, ?_, ?_, ⟨_, rs, rn, rfl⟩, ?_, ?_, ?_, ?_, ?_⟩
    · simp only [hg1]; exact fits
    · simp only [hg1]; exact r1
    · simp only [hg1]; exact c1
    · intro a' x' ha' hx'
      rw [j3, hq1, List.mem_singleton] at ha'
      subst ha'
      rw [i2.uniq hx' i3]; exact i4
    · rintro p _ rfl
      exact .inl ⟨a, x, by rw [j3]; exact List.mem_cons_self .., i3, i4⟩
    · simp only [hg1]
      intro p _ hp
      rw [(hb p).1] at hp; cases hp
    · rintro p rfl; exact .inr fun p' hp' => hp'
    · rintro p rfl; exact .inr fun p' hp' => hp'
    · simp only [hg1]
      intro p _ hp
      rw [(hb p).2] at hp; cases hp
    · refine ⟨?_, ?_, ?_, ?_, OneWay.single _⟩
      · rintro p rfl; exact rs.2.2
      · rintro p rfl; exact .inl rs.1
      · rintro p rfl e; have := rs.1; omega
      · rintro p rfl e; have := rs.2.1; omega
  obtain ⟨m', st', l', O', k1, k2, k3⟩ := loop_spec hr hR hC _ _ _ _ _ inv rfl
  refine ⟨m', ?_, k2.rows, k2.cols, k2.perfect k3⟩
  simp only [animate, e1, Option.bind_eq_bind, Option.bind_some, i1, j1]
  rw [if_pos i7]
  exact k1

/-! ### Too many squares -/

theorem wr_dims {g g' : Grid} {p : Pos} {f : Sq → Sq} (h : wr g p f = some g') :
    g'.rows = g.rows ∧ g'.cols = g.cols ∧ idx g p ≠ none := by
  simp only [wr, Option.bind_eq_bind, Option.bind_eq_some_iff, Option.some.injEq] at h
  obtain ⟨i, hi, rfl⟩ := h
  exact ⟨rfl, rfl, by rw [hi]; simp⟩

theorem buildWall_dims {g g' : Grid} {p : Pos} (h : buildWall g p = some g') :
    g'.rows = g.rows ∧ g'.cols = g.cols ∧ idx g p ≠ none := by
  simp only [buildWall, Option.bind_eq_bind, Option.bind_eq_some_iff] at h
  obtain ⟨g1, h1, h2⟩ := h
  obtain ⟨a1, a2, a3⟩ := wr_dims h1
  obtain ⟨b1, b2, _⟩ := wr_dims h2
  exact ⟨b1.trans a1, b2.trans a2, a3⟩

theorem idx_dims {g g' : Grid} (h1 : g'.rows = g.rows) (h2 : g'.cols = g.cols) (p : Pos) : idx g' p = idx g p := by
  unfold idx; rw [h1, h2]

theorem fillRow_dims (row : Int) : ∀ (k : Nat) (g g' : Grid) (col : Int), fillRow g row col k = some g' →
    g'.rows = g.rows ∧ g'.cols = g.cols ∧ ∀ j : Nat, j < k → idx g (row, col + j) ≠ none := by
  intro k
  induction k with
  | zero => intro g g' col h; cases h; exact ⟨rfl, rfl, by omega⟩
  | succ k ih =>
    intro g g' col h
    simp only [fillRow, Option.bind_eq_bind, Option.bind_eq_some_iff] at h
    obtain ⟨g1, h1, h2⟩ := h
    obtain ⟨a1, a2, a3⟩ := buildWall_dims h1
    obtain ⟨b1, b2, b3⟩ := ih g1 g' (col + 1) h2
    refine ⟨b1.trans a1, b2.trans a2, ?_⟩
    intro j hj
    cases j with
    | zero => simpa using a3
    | succ j =>
      have := b3 j (by omega)
      rw [idx_dims a1 a2] at this
      rwa [show col + ((j + 1 : Nat) : Int) = col + 1 + j by push_cast; ring]

theorem fill_dims : ∀ (k : Nat) (g g' : Grid) (row : Int), fill g row k = some g' →
    g'.rows = g.rows ∧ g'.cols = g.cols ∧ ∀ i j : Nat, i < k → j < g.cols.toNat → idx g (row + i, 0 + j) ≠ none := by
  intro k
  induction k with
  | zero => intro g g' row h; cases h; exact ⟨rfl, rfl, by omega⟩
  | succ k ih =>
    intro g g' row h
    simp only [fill, Option.bind_eq_bind, Option.bind_eq_some_iff] at h
    obtain ⟨g1, h1, h2⟩ := h
    obtain ⟨a1, a2, a3⟩ := fillRow_dims row _ g g1 0 h1
    obtain ⟨b1, b2, b3⟩ := ih g1 g' (row + 1) h2
    refine ⟨b1.trans a1, b2.trans a2, ?_⟩
    intro i j hi hj
    cases i with
    | zero => simpa using a3 j hj
    | succ i =>
      have := b3 i j (by omega) (by rw [a2]; exact hj)
      rw [idx_dims a1 a2] at this
      rwa [show row + ((i + 1 : Nat) : Int) = row + 1 + i by push_cast; ring]

/-- **C83**.  The bound on the number of squares is the exact one: nothing checks it, and with more squares the index of a square
is computed with an overflow before the maze is begun. -/
theorem C83_maze_violated (rand : Rand) (mem : Nat → Cell) (rows cols : Int) (h1 : 7 ≤ rows) (h2 : 7 ≤ cols)
    (hf : intMax < oddUp rows * oddUp cols) : build rand mem rows cols = none := by
  have hR := oddUp_spec h1
  have hC := oddUp_spec h2
  generalize eR : oddUp rows = R at hR hf
  generalize eC : oddUp cols = C at hC hf
  have hbuild : build rand mem rows cols = animate rand mem ⟨R, C, fun _ => ⟨false, false, false, false, false, false⟩⟩ := by
    rw [← eR, ← eC]; rfl
  rw [hbuild, animate]
  cases hfill : fill ⟨R, C, fun _ => ⟨false, false, false, false, false, false⟩⟩ 0 R.toNat with
  | none => rfl
  | some g =>
    exfalso
    obtain ⟨_, _, h⟩ := fill_dims _ _ _ _ hfill
    have hodd : (R * C) % 2 = 1 := by rw [Int.mul_emod, hR.1, hC.1]; rfl
    refine h (R - 1).toNat (C - 1).toNat (by omega) (by simp only; omega) ?_
    have e1 : (0 : Int) + (R - 1).toNat = R - 1 := by omega
    have e2 : (0 : Int) + (C - 1).toNat = C - 1 := by omega
    rw [e1, e2, idx]
    have e3 : (R - 1) * C + (C - 1) = R * C - 1 := by ring
    simp only [e3]
    rw [if_neg]
    have : intMax = 2147483647 := rfl
    rintro ⟨_, _, _, h4, _⟩
    omega

/-- Mazes the sample accepts: the default one of 66 rows and 111 columns, and one with too many squares. -/
example : oddUp 66 * oddUp 111 ≤ intMax ∧ intMax < oddUp 46340 * oddUp 46341 := by decide
/-- Answers of `rand`: a generator with `RAND_MAX` 32767. -/
example : ∀ k, (⟨32767, fun k => (k * 1103515245 + 12345) % 32768⟩ : Rand).next k ≤ 32767 := by
  intro k; simp only; omega
/-- The default maze with these answers. -/
example (mem : Nat → Cell) : ∃ m, build ⟨32767, fun k => (k * 1103515245 + 12345) % 32768⟩ mem 66 111 = some m ∧
    m.grid.opened (1, 1) ∧ m.grid.opened (65, 109) ∧ ¬ m.grid.opened (0, 5) ∧
    ∃ l, Way m.grid.opened (1, 1) (65, 109) l ∧ ∀ l', Way m.grid.opened (1, 1) (65, 109) l' → l' = l := by
  obtain ⟨m, h, _, _, hp⟩ := C83_maze_partial ⟨32767, fun k => (k * 1103515245 + 12345) % 32768⟩ (by intro k; simp only; omega) mem 66 111
    (by decide) (by decide) (by decide)
  have a := hp.rooms (1, 1) (by unfold Room; decide)
  have b := hp.rooms (65, 109) (by unfold Room; decide)
  refine ⟨m, h, a, b, ?_, hp.ways _ _ a b⟩
  intro hc
  have := hp.border _ hc
  omega

end CCC.Maze
