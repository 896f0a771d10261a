import Verif.Model.Maze
import Mathlib.Tactic.Ring
import Mathlib.Tactic.Linarith
/-
The squares of the maze sample.
-/
namespace CCC.Maze
open CCC

/-- The square is in the array. -/
def Grid.In (g : Grid) (p : Pos) : Prop := 0 ≤ p.1 ∧ p.1 < g.rows ∧ 0 ≤ p.2 ∧ p.2 < g.cols
/-- The square. -/
def Grid.bit (g : Grid) (p : Pos) : Sq := g.sq (p.1 * g.cols + p.2)
/-- The array is not too large. -/
def Grid.Fits (g : Grid) : Prop := g.rows * g.cols ≤ intMax

variable {g : Grid} {p : Pos}

theorem idx_in (hf : g.Fits) (h : g.In p) : idx g p = some (p.1 * g.cols + p.2) := by
  obtain ⟨h1, h2, h3, h4⟩ := h
  unfold Grid.Fits at hf
  have a1 : 0 ≤ p.1 * g.cols := Int.mul_nonneg h1 (by omega)
  have a2 : (p.1 + 1) * g.cols ≤ g.rows * g.cols := Int.mul_le_mul_of_nonneg_right (by omega) (by omega)
  rw [Int.add_mul] at a2
  simp only [idx]
  have : (0 : Int) ≤ intMax := by decide
  rw [if_pos]
  refine ⟨?_, ?_, ?_, ?_, ?_, ?_⟩ <;> omega

theorem idx_inj {q : Pos} (h : g.In p) (h' : g.In q) (e : p.1 * g.cols + p.2 = q.1 * g.cols + q.2) : p = q := by
  obtain ⟨h1, h2, h3, h4⟩ := h
  obtain ⟨k1, k2, k3, k4⟩ := h'
  have hc : g.cols ≠ 0 := by omega
  have e1 : (p.2 + p.1 * g.cols) / g.cols = p.1 := by rw [Int.add_mul_ediv_right _ _ hc, Int.ediv_eq_zero_of_lt h3 h4]; omega
  have e2 : (q.2 + q.1 * g.cols) / g.cols = q.1 := by rw [Int.add_mul_ediv_right _ _ hc, Int.ediv_eq_zero_of_lt k3 k4]; omega
  have e3 : p.1 = q.1 := by rw [← e1, ← e2]; congr 1; omega
  have e4 : p.2 = q.2 := by rw [e3] at e; omega
  exact Prod.ext e3 e4

theorem rd_in (hf : g.Fits) (h : g.In p) : rd g p = some (g.bit p) := by simp [rd, idx_in hf h, Grid.bit]

theorem wr_in (hf : g.Fits) (h : g.In p) (f : Sq → Sq) : ∃ g', wr g p f = some g' ∧ g'.rows = g.rows ∧ g'.cols = g.cols ∧
    ∀ q, g.In q → g'.bit q = if q = p then f (g.bit q) else g.bit q := by
  refine ⟨{ g with sq := fun j => if j = p.1 * g.cols + p.2 then f (g.sq j) else g.sq j },
    by simp only [wr, idx_in hf h, Option.bind_eq_bind, Option.bind_some], rfl, rfl, ?_⟩
  intro q hq
  simp only [Grid.bit]
  by_cases hp : q = p
  · subst hp; simp
  · rw [if_neg hp, if_neg]
    exact fun e => hp (idx_inj hq h e)

/-- Same size, and the squares in `P` became paths and the squares in `C` cached. -/
structure Grew (g g' : Grid) (P C : Pos → Prop) : Prop where
  rows : g'.rows = g.rows
  cols : g'.cols = g.cols
  path : ∀ q, g.In q → ((g'.bit q).path = true ↔ (g.bit q).path = true ∨ P q)
  cached : ∀ q, g.In q → ((g'.bit q).cached = true ↔ (g.bit q).cached = true ∨ C q)

theorem Grew.fits {g' : Grid} {P C : Pos → Prop} (h : Grew g g' P C) (hf : g.Fits) : g'.Fits := by
  unfold Grid.Fits; rw [h.rows, h.cols]; exact hf
theorem Grew.in_ {g' : Grid} {P C : Pos → Prop} (h : Grew g g' P C) {q : Pos} : g'.In q ↔ g.In q := by
  unfold Grid.In; rw [h.rows, h.cols]

theorem Grew.trans {g1 g2 : Grid} {P C P' C' : Pos → Prop} (h : Grew g g1 P C) (h' : Grew g1 g2 P' C') :
    Grew g g2 (fun q => P q ∨ P' q) (fun q => C q ∨ C' q) := by
  refine ⟨h'.rows.trans h.rows, h'.cols.trans h.cols, ?_, ?_⟩
  · intro q hq; rw [h'.path q (h.in_.2 hq), h.path q hq, or_assoc]
  · intro q hq; rw [h'.cached q (h.in_.2 hq), h.cached q hq, or_assoc]

theorem Grew.congr {g' : Grid} {P C P' C' : Pos → Prop} (h : Grew g g' P C) (hp : ∀ q, P q ↔ P' q) (hc : ∀ q, C q ↔ C' q) :
    Grew g g' P' C' :=
  ⟨h.rows, h.cols, fun q hq => by rw [h.path q hq, hp], fun q hq => by rw [h.cached q hq, hc]⟩

theorem wr_cached (hf : g.Fits) (h : g.In p) : ∃ g', wr g p (fun s => { s with cached := true }) = some g' ∧
    Grew g g' (fun _ => False) (fun q => q = p) := by
  obtain ⟨g', h1, h2, h3, h4⟩ := wr_in hf h (fun s => { s with cached := true })
  refine ⟨g', h1, h2, h3, ?_, ?_⟩
  · intro q hq; rw [h4 q hq]; by_cases e : q = p <;> simp [e]
  · intro q hq; rw [h4 q hq]; by_cases e : q = p <;> simp [e]

theorem wr_path (hf : g.Fits) (h : g.In p) : ∃ g', wr g p (fun s => { s with path := true }) = some g' ∧
    Grew g g' (fun q => q = p) (fun _ => False) := by
  obtain ⟨g', h1, h2, h3, h4⟩ := wr_in hf h (fun s => { s with path := true })
  refine ⟨g', h1, h2, h3, ?_, ?_⟩
  · intro q hq; rw [h4 q hq]; by_cases e : q = p <;> simp [e]
  · intro q hq; rw [h4 q hq]; by_cases e : q = p <;> simp [e]

theorem wr_same (hf : g.Fits) (h : g.In p) {f : Sq → Sq} (hp : ∀ s, (f s).path = s.path) (hc : ∀ s, (f s).cached = s.cached) :
    ∃ g', wr g p f = some g' ∧ Grew g g' (fun _ => False) (fun _ => False) := by
  obtain ⟨g', h1, h2, h3, h4⟩ := wr_in hf h f
  refine ⟨g', h1, h2, h3, ?_, ?_⟩
  · intro q hq; rw [h4 q hq]; by_cases e : q = p <;> simp [e, hp]
  · intro q hq; rw [h4 q hq]; by_cases e : q = p <;> simp [e, hc]

theorem Grew.refl (g : Grid) : Grew g g (fun _ => False) (fun _ => False) := ⟨rfl, rfl, by simp, by simp⟩

theorem unwall_spec (hf : g.Fits) {b : Bool} (h : b = true → g.In p) {f : Sq → Sq} (hp : ∀ s, (f s).path = s.path)
    (hc : ∀ s, (f s).cached = s.cached) : ∃ g', unwall g b p f = some g' ∧ Grew g g' (fun _ => False) (fun _ => False) := by
  unfold unwall
  cases b with
  | false => exact ⟨g, rfl, .refl g⟩
  | true =>
    simp only [if_true, rd_in hf (h rfl), Option.bind_eq_bind, Option.bind_some]
    split
    · exact wr_same hf (h rfl) hp hc
    · exact ⟨g, rfl, .refl g⟩

theorem carve_spec (hf : g.Fits) (h : g.In p) : ∃ g', carve g p = some g' ∧ Grew g g' (fun q => q = p) (fun q => q = p) := by
  obtain ⟨g1, e1, r1⟩ := wr_path hf h
  have i1 := fun q => (r1.in_ (q := q)).2
  obtain ⟨g2, e2, r2⟩ := unwall_spec (p := (p.1 - 1, p.2)) (r1.fits hf) (b := decide (p.1 - 1 ≥ 0))
    (f := fun s => { s with south := false }) (by intro hb; apply i1; obtain ⟨a, b, c, d⟩ := h; simp at hb; exact ⟨by simp; omega, by simp; omega, c, d⟩)
    (fun _ => rfl) (fun _ => rfl)
  have r12 := r1.trans r2
  have i2 := fun q => (r12.in_ (q := q)).2
  obtain ⟨g3, e3, r3⟩ := unwall_spec (p := (p.1 + 1, p.2)) (r12.fits hf) (b := decide (p.1 + 1 < g2.rows))
    (f := fun s => { s with north := false }) (by
      intro hb; apply i2; obtain ⟨a, b, c, d⟩ := h; simp [r12.rows] at hb; exact ⟨by simp; omega, by simp; omega, c, d⟩)
    (fun _ => rfl) (fun _ => rfl)
  have r13 := r12.trans r3
  have i3 := fun q => (r13.in_ (q := q)).2
  obtain ⟨g4, e4, r4⟩ := unwall_spec (p := (p.1, p.2 - 1)) (r13.fits hf) (b := decide (p.2 - 1 ≥ 0))
    (f := fun s => { s with east := false }) (by
      intro hb; apply i3; obtain ⟨a, b, c, d⟩ := h; simp at hb; exact ⟨a, b, by simp; omega, by simp; omega⟩)
    (fun _ => rfl) (fun _ => rfl)
  have r14 := r13.trans r4
  have i4 := fun q => (r14.in_ (q := q)).2
  obtain ⟨g5, e5, r5⟩ := unwall_spec (p := (p.1, p.2 + 1)) (r14.fits hf) (b := decide (p.2 + 1 < g4.cols))
    (f := fun s => { s with west := false }) (by
      intro hb; apply i4; obtain ⟨a, b, c, d⟩ := h; simp [r14.cols] at hb; exact ⟨a, b, by simp; omega, by simp; omega⟩)
    (fun _ => rfl) (fun _ => rfl)
  have r15 := r14.trans r5
  obtain ⟨g6, e6, r6⟩ := wr_cached (r15.fits hf) (r15.in_.2 h)
  refine ⟨g6, ?_, (r15.trans r6).congr (by simp) (by simp)⟩
  simp only [carve, Option.bind_eq_bind, e1, e2, e3, e4, e5, e6, Option.bind_some]

theorem join_spec (hf : g.Fits) {cur next : Pos} (h : g.In cur) (hb : g.In (between cur next)) (hn : g.In next) :
    ∃ g', join g cur next = some g' ∧ Grew g g' (fun q => q = cur ∨ q = between cur next ∨ q = next)
      (fun q => q = cur ∨ q = between cur next ∨ q = next) := by
  obtain ⟨g1, e1, r1⟩ := carve_spec hf h
  obtain ⟨g2, e2, r2⟩ := carve_spec (r1.fits hf) (r1.in_.2 hb)
  have r12 := r1.trans r2
  obtain ⟨g3, e3, r3⟩ := carve_spec (r12.fits hf) (r12.in_.2 hn)
  refine ⟨g3, by simp only [join, Option.bind_eq_bind, e1, e2, e3, Option.bind_some], (r12.trans r3).congr ?_ ?_⟩ <;>
    intro q <;> simp only [or_assoc]

theorem canBuild_spec (hf : g.Fits) (p : Pos) : ∃ b, canBuild g p = some b ∧
    (b = true ↔ (0 < p.1 ∧ p.1 < g.rows - 1 ∧ 0 < p.2 ∧ p.2 < g.cols - 1) ∧ (g.bit p).cached = false) := by
  unfold canBuild
  split
  · next h =>
    rw [rd_in hf ⟨by omega, by omega, by omega, by omega⟩]
    refine ⟨_, rfl, ?_⟩
    simp only [Bool.not_eq_true']
    exact ⟨fun e => ⟨h, e⟩, fun e => e.2⟩
  · next h => exact ⟨false, rfl, by simp; intro a b c d; exact absurd ⟨a, b, c, d⟩ h⟩

/-- Nothing is carved yet. -/
def Grid.Blank (g : Grid) : Prop := ∀ i, (g.sq i).path = false ∧ (g.sq i).cached = false

theorem wr_blank (hf : g.Fits) (h : g.In p) (hb : g.Blank) {f : Sq → Sq} (hp : ∀ s, s.path = false → (f s).path = false)
    (hc : ∀ s, (f s).cached = s.cached) : ∃ g', wr g p f = some g' ∧ g'.rows = g.rows ∧ g'.cols = g.cols ∧ g'.Blank := by
  refine ⟨{ g with sq := fun j => if j = p.1 * g.cols + p.2 then f (g.sq j) else g.sq j },
    by simp only [wr, idx_in hf h, Option.bind_eq_bind, Option.bind_some], rfl, rfl, ?_⟩
  intro i
  show (ite _ _ _ : Sq).path = false ∧ (ite _ _ _ : Sq).cached = false
  split
  · exact ⟨hp _ (hb i).1, by rw [hc]; exact (hb i).2⟩
  · exact hb i

theorem buildWall_spec (hf : g.Fits) (h : g.In p) (hb : g.Blank) : ∃ g', buildWall g p = some g' ∧ g'.rows = g.rows ∧
    g'.cols = g.cols ∧ g'.Blank := by
  obtain ⟨g1, e1, r1, c1, b1⟩ := wr_blank hf h hb (f := fun s => { s with
    north := s.north || decide (p.1 - 1 ≥ 0), south := s.south || decide (p.1 + 1 < g.rows),
    west := s.west || decide (p.2 - 1 ≥ 0), east := s.east || decide (p.2 + 1 < g.cols) }) (fun _ h => h) (fun _ => rfl)
  obtain ⟨g2, e2, r2, c2, b2⟩ := wr_blank (g := g1) (p := p) (by unfold Grid.Fits; rw [r1, c1]; exact hf)
    (by unfold Grid.In; rw [r1, c1]; exact h) b1 (f := fun s => { s with path := false }) (fun _ _ => rfl) (fun _ => rfl)
  exact ⟨g2, by simp only [buildWall, Option.bind_eq_bind, e1, Option.bind_some, e2], r2.trans r1, c2.trans c1, b2⟩

theorem fillRow_spec (row : Int) : ∀ (k : Nat) (g : Grid) (col : Int), g.Fits → g.Blank → 0 ≤ row → row < g.rows → 0 ≤ col →
    col + k ≤ g.cols → ∃ g', fillRow g row col k = some g' ∧ g'.rows = g.rows ∧ g'.cols = g.cols ∧ g'.Blank := by
  intro k
  induction k with
  | zero => intro g col _ hb _ _ _ _; exact ⟨g, rfl, rfl, rfl, hb⟩
  | succ k ih =>
    intro g col hf hb h1 h2 h3 h4
    obtain ⟨g1, e1, r1, c1, b1⟩ := buildWall_spec (p := (row, col)) hf ⟨h1, h2, h3, by simp; omega⟩ hb
    obtain ⟨g2, e2, r2, c2, b2⟩ := ih g1 (col + 1) (by unfold Grid.Fits; rw [r1, c1]; exact hf) b1 h1 (by rw [r1]; exact h2) (by omega)
      (by rw [c1]; omega)
    exact ⟨g2, by simp only [fillRow, Option.bind_eq_bind, e1, Option.bind_some, e2], r2.trans r1, c2.trans c1, b2⟩

theorem fill_spec : ∀ (k : Nat) (g : Grid) (row : Int), g.Fits → g.Blank → 0 ≤ row → 0 ≤ g.cols → row + k ≤ g.rows →
    ∃ g', fill g row k = some g' ∧ g'.rows = g.rows ∧ g'.cols = g.cols ∧ g'.Blank := by
  intro k
  induction k with
  | zero => intro g row _ hb _ _ _; exact ⟨g, rfl, rfl, rfl, hb⟩
  | succ k ih =>
    intro g row hf hb h1 hc h2
    obtain ⟨g1, e1, r1, c1, b1⟩ := fillRow_spec row g.cols.toNat g 0 hf hb h1 (by omega) (by omega) (by omega)
    obtain ⟨g2, e2, r2, c2, b2⟩ := ih g1 (row + 1) (by unfold Grid.Fits; rw [r1, c1]; exact hf) b1 (by omega) (by omega) (by rw [r1]; omega)
    exact ⟨g2, by simp only [fill, Option.bind_eq_bind, e1, Option.bind_some, e2], r2.trans r1, c2.trans c1, b2⟩

end CCC.Maze
