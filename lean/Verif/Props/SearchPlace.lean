import Verif.Model.SearchPlace
import Verif.Props.SearchSolve
import Verif.Proof.Maze
/-
C86: the placement of the vertices in `samples/graph.c`.
-/
namespace CCC.Search
open CCC

variable {b : Board} {net : Net}

/-- No vertex at the place or next to it. -/
def Clear (b : Board) (p : Pt) : Prop := (b.cell p).vertex = none ∧ ∀ q, Adj p q → (b.cell q).vertex = none

theorem clear_iff {p : Pt} : Clear b p ↔ ∀ q ∈ around p, (b.cell q).vertex = none := by
  obtain ⟨x, y⟩ := p
  constructor
  · rintro ⟨h, g⟩ q hq
    simp only [around, List.mem_cons, List.not_mem_nil, or_false] at hq
    rcases hq with rfl | rfl | rfl | rfl | rfl
    · exact h
    all_goals exact g _ (by simp [Adj])
  · intro h
    refine ⟨h _ (by simp [around]), ?_⟩
    rintro ⟨u, v⟩ a
    apply h
    simp only [Adj] at a
    simp only [around, List.mem_cons, List.not_mem_nil, or_false, Prod.mk.injEq]
    omega

/-- A board the program accepts. -/
structure Accepted (b : Board) : Prop where
  rows : 9 ≤ b.rows
  cols : 9 ≤ b.cols
  size : b.rows * b.cols ≤ 2147483647

theorem Accepted.at_ (h : Accepted b) {p : Pt} (hp : b.In p) : b.at_ p = some (b.cell p) := by
  have hs := h.size
  unfold Board.In at hp
  have h1 : (p.1 + 1) * b.cols ≤ b.rows * b.cols := Int.mul_le_mul_of_nonneg_right (by omega) (by omega)
  rw [Int.add_mul] at h1
  exact if_pos ⟨hp.1, hp.2.1, hp.2.2.1, hp.2.2.2, by omega⟩

theorem validPos_spec (h : Accepted b) : ∀ l : List Pt, (∀ q ∈ l, b.In q) →
    ∃ v, validPos b l = some v ∧ (v = true ↔ ∀ q ∈ l, (b.cell q).vertex = none) := by
  intro l
  induction l with
  | nil => intro _; exact ⟨true, rfl, by simp⟩
  | cons p l ih =>
    intro hl
    obtain ⟨v, e, hv⟩ := ih (fun q hq => hl q (by simp [hq]))
    simp only [validPos, h.at_ (hl p (by simp)), Option.bind_eq_bind, Option.bind_some]
    cases hp : (b.cell p).vertex with
    | some w => exact ⟨false, rfl, by simp [hp]⟩
    | none => exact ⟨v, by simpa using e, by rw [hv]; simp [hp]⟩

/-- The rows and columns a vertex may be placed in. -/
def Within (b : Board) (p : Pt) : Prop := 3 ≤ p.1 ∧ p.1 ≤ b.rows - 3 ∧ 3 ≤ p.2 ∧ p.2 ≤ b.cols - 3

theorem valid_spec (h : Accepted b) {p : Pt} (hp : Within b p) :
    ∃ v, validPos b (around p) = some v ∧ (v = true ↔ Clear b p) := by
  obtain ⟨v, e, hv⟩ := validPos_spec h (around p) (fun q hq => by
    simp only [around, List.mem_cons, List.not_mem_nil, or_false] at hq
    unfold Within at hp
    unfold Board.In
    rcases hq with rfl | rfl | rfl | rfl | rfl <;> (try simp only) <;> omega)
  exact ⟨v, e, by rw [hv, clear_iff]⟩

section
variable {rs cs : Int}

theorem colLoop_here (h : Accepted b) {col : Int} (hp : Within b (rs, col)) (hc : Clear b (rs, col)) :
    colLoop b rs cs rs col = some (.found (rs, col)) := by
  obtain ⟨v, e, hv⟩ := valid_spec h hp
  unfold Within at hp
  have hv := hv.2 hc
  subst hv
  have h3 : ¬ col = 0 := by have := hp.2.2.1; simp only at this; omega
  rw [colLoop, if_pos (by have := hp.2.2.2; simp only at this; omega)]
  simp only [if_neg h3, e, Option.bind_eq_bind, Option.bind_some, if_true]

theorem colLoop_next (h : Accepted b) {col : Int} (hp : Within b (rs, col)) (hc : ¬ Clear b (rs, col)) :
    colLoop b rs cs rs col = colLoop b rs cs rs ((col + 1) % (b.cols - 2)) := by
  obtain ⟨v, e, hv⟩ := valid_spec h hp
  unfold Within at hp
  simp only at hp
  have hv : v = false := by cases v with | false => rfl | true => exact absurd (hv.1 rfl) hc
  subst hv
  have hr : ¬ ((rs + 1) % b.rows = rs ∧ (col + 1) % b.cols = cs) := by
    rw [Int.emod_eq_of_lt (by omega) (by omega)]; omega
  rw [colLoop, if_pos (by omega)]
  simp only [if_neg (show ¬ col = 0 by omega), e, Option.bind_eq_bind, Option.bind_some, Bool.false_eq_true, if_false,
    if_neg hr]

theorem colLoop_zero (h : Accepted b) : colLoop b rs cs rs 0 = colLoop b rs cs rs 3 := by
  have := h.cols
  conv_lhs => rw [colLoop]
  conv_rhs => rw [colLoop]
  rw [if_pos (by omega), if_pos (show (3 : Int) < b.cols - 2 by omega)]
  rfl

theorem colLoop_up (h : Accepted b) {c₀ : Int} (hw : Within b (rs, c₀)) (hc : Clear b (rs, c₀)) : ∀ (d : Nat) (col : Int),
    3 ≤ col → col ≤ c₀ → c₀ - col = d →
    ∃ c, colLoop b rs cs rs col = some (.found (rs, c)) ∧ Within b (rs, c) ∧ Clear b (rs, c) := by
  intro d
  unfold Within at hw ⊢
  simp only at hw ⊢
  induction d with
  | zero =>
    intro col h1 h2 h3
    have : col = c₀ := by omega
    subst this
    exact ⟨col, colLoop_here h hw hc, hw, hc⟩
  | succ d ih =>
    intro col h1 h2 h3
    have hw' : Within b (rs, col) := by unfold Within; simp only; omega
    by_cases hcl : Clear b (rs, col)
    · exact ⟨col, colLoop_here h hw' hcl, hw', hcl⟩
    · rw [colLoop_next h hw' hcl, Int.emod_eq_of_lt (by omega) (by omega)]
      exact ih (col + 1) (by omega) (by omega) (by omega)

theorem colLoop_found (h : Accepted b) {c₀ : Int} (hw : Within b (rs, c₀)) (hc : Clear b (rs, c₀)) : ∀ (d : Nat)
    (col : Int), 3 ≤ col → col ≤ b.cols - 3 → b.cols - 3 - col = d →
    ∃ c, colLoop b rs cs rs col = some (.found (rs, c)) ∧ Within b (rs, c) ∧ Clear b (rs, c) := by
  intro d
  have hw0 := hw
  unfold Within at hw
  simp only at hw
  induction d with
  | zero =>
    intro col h1 h2 h3
    have hw' : Within b (rs, col) := by unfold Within; simp only; omega
    by_cases hcl : Clear b (rs, col)
    · exact ⟨col, colLoop_here h hw' hcl, hw', hcl⟩
    · rw [colLoop_next h hw' hcl, show col + 1 = b.cols - 2 by omega, Int.emod_self, colLoop_zero h]
      exact colLoop_up h hw0 hc (c₀ - 3).toNat 3 (by omega) (by omega) (by omega)
  | succ d ih =>
    intro col h1 h2 h3
    have hw' : Within b (rs, col) := by unfold Within; simp only; omega
    by_cases hcl : Clear b (rs, col)
    · exact ⟨col, colLoop_here h hw' hcl, hw', hcl⟩
    · rw [colLoop_next h hw' hcl, Int.emod_eq_of_lt (by omega) (by omega)]
      exact ih (col + 1) (by omega) (by omega) (by omega)

/-- In a row without a place the loop over the columns does not end. -/
theorem colLoop_never (h : Accepted b) (hr : 3 ≤ rs ∧ rs ≤ b.rows - 3) (hno : ∀ c, Within b (rs, c) → ¬ Clear b (rs, c))
    (col : Int) (r : Place) (e : colLoop b rs cs rs col = some r) : (col = 0 ∨ 3 ≤ col ∧ col ≤ b.cols - 3) → False := by
  revert e
  refine colLoop.partial_correctness b rs cs rs
    (fun col _ => (col = 0 ∨ 3 ≤ col ∧ col ≤ b.cols - 3) → False) ?_ col r
  intro f ih col r e hcol
  have hcols := h.cols
  rw [if_pos (by omega)] at e
  simp only [Option.bind_eq_bind] at e
  generalize hc : (if col = 0 then padding else col) = c at e
  have hc3 : 3 ≤ c ∧ c ≤ b.cols - 3 := by
    subst hc
    split
    · unfold padding; omega
    · omega
  have hw : Within b (rs, c) := by unfold Within; simp only; omega
  obtain ⟨v, ev, hv⟩ := valid_spec h hw
  have hv : v = false := by cases v with | false => rfl | true => exact absurd (hv.1 rfl) (hno c hw)
  subst hv
  have hrs : ¬ ((rs + 1) % b.rows = rs ∧ (c + 1) % b.cols = cs) := by
    rw [Int.emod_eq_of_lt (by omega) (by omega)]; omega
  simp only [ev, Option.bind_some, Bool.false_eq_true, if_false, if_neg hrs] at e
  refine ih _ _ e ?_
  by_cases hl : c = b.cols - 3
  · left; rw [show c + 1 = b.cols - 2 by omega, Int.emod_self]
  · right; rw [Int.emod_eq_of_lt (by omega) (by omega)]; omega
end

/-- The row the search for a place starts in: a random one. -/
def startRow (rand : Maze.Rand) (k : Nat) (b : Board) : Int := (rand.range k 3 (b.rows - 3).toNat : Nat)

theorem starts (h : Accepted b) {rand : Maze.Rand} (hr : rand.Ok) (k : Nat) :
    (3 ≤ startRow rand k b ∧ startRow rand k b ≤ b.rows - 3) ∧
    3 ≤ ((rand.range (k + 1) 3 (b.cols - 3).toNat : Nat) : Int) ∧
    ((rand.range (k + 1) 3 (b.cols - 3).toNat : Nat) : Int) ≤ b.cols - 3 := by
  have h1 := h.rows
  have h2 := h.cols
  have h3 := hr.range k (mn := 3) (mx := (b.rows - 3).toNat) (by omega)
  have h4 := hr.range (k + 1) (mn := 3) (mx := (b.cols - 3).toNat) (by omega)
  unfold startRow
  omega

theorem placement_eq (h : Accepted b) (rand : Maze.Rand) (k : Nat) (hr : startRow rand k b ≤ b.rows - 3)
    (h0 : 3 ≤ startRow rand k b) : placement rand k b =
      (colLoop b (startRow rand k b) ((rand.range (k + 1) 3 (b.cols - 3).toNat : Nat) : Int) (startRow rand k b)
        ((rand.range (k + 1) 3 (b.cols - 3).toNat : Nat) : Int)).bind (fun r => match r with
          | .found p => some (some p)
          | .exhausted => some none
          | .rowDone => rowLoop b (startRow rand k b) ((rand.range (k + 1) 3 (b.cols - 3).toNat : Nat) : Int)
              ((startRow rand k b + 1) % (b.rows - 2))) := by
  have h1 := h.rows
  have h2 := h.cols
  have e : placement rand k b = rowLoop b (startRow rand k b) ((rand.range (k + 1) 3 (b.cols - 3).toNat : Nat) : Int)
      (startRow rand k b) := by
    unfold placement rowColMin
    rw [if_neg (by omega)]
    rfl
  rw [e, rowLoop, if_pos (by omega)]
  simp only [if_neg (show ¬ startRow rand k b = 0 by omega)]
  rfl

/-- C86, as far as it holds: if the row the search starts in has a place for the vertex, three cells or more away from the
outline's side of the board and not next to another vertex, the search ends with such a place in that row. -/
theorem C86_place_partial (h : Accepted b) {rand : Maze.Rand} (hr : rand.Ok) (k : Nat) {c : Int}
    (hw : Within b (startRow rand k b, c)) (hc : Clear b (startRow rand k b, c)) :
    ∃ p, placement rand k b = some (some p) ∧ p.1 = startRow rand k b ∧ Within b p ∧ Clear b p := by
  obtain ⟨⟨h1, h2⟩, h3, h4⟩ := starts h hr k
  obtain ⟨c', e, hw', hc'⟩ := colLoop_found (cs := ((rand.range (k + 1) 3 (b.cols - 3).toNat : Nat) : Int)) h hw hc
    (b.cols - 3 - ((rand.range (k + 1) 3 (b.cols - 3).toNat : Nat) : Int)).toNat _ h3 h4 (by omega)
  exact ⟨(startRow rand k b, c'), by rw [placement_eq h rand k h2 h1, e]; rfl, rfl, hw', hc'⟩

/-- C86 does not hold: if that row has no place left the search never ends, whatever the other rows have. -/
theorem C86_place_endless (h : Accepted b) {rand : Maze.Rand} (hr : rand.Ok) (k : Nat)
    (hno : ∀ c, Within b (startRow rand k b, c) → ¬ Clear b (startRow rand k b, c)) : placement rand k b = none := by
  obtain ⟨⟨h1, h2⟩, h3, h4⟩ := starts h hr k
  rw [placement_eq h rand k h2 h1]
  cases e : colLoop b (startRow rand k b) ((rand.range (k + 1) 3 (b.cols - 3).toNat : Nat) : Int) (startRow rand k b)
        ((rand.range (k + 1) 3 (b.cols - 3).toNat : Nat) : Int) with
  | none => rfl
  | some r => exact (colLoop_never h ⟨h1, h2⟩ hno _ r e (.inr ⟨h3, h4⟩)).elim

/-- Whenever the search answers, the answer is a place for the vertex. -/
theorem C86_place_sound (h : Accepted b) {rand : Maze.Rand} (hr : rand.Ok) (k : Nat) {a : Option Pt}
    (e : placement rand k b = some a) : ∃ p, a = some p ∧ Within b p ∧ Clear b p := by
  by_cases hc : ∃ c, Within b (startRow rand k b, c) ∧ Clear b (startRow rand k b, c)
  · obtain ⟨c, hw, hc⟩ := hc
    obtain ⟨p, e', _, hw, hc⟩ := C86_place_partial h hr k hw hc
    rw [e'] at e
    exact ⟨p, (Option.some.inj e).symm, hw, hc⟩
  · rw [C86_place_endless h hr k (fun c hw hcl => hc ⟨c, hw, hcl⟩)] at e
    cases e

/-- On a board that is too small the program gives up. -/
theorem C86_place_small (rand : Maze.Rand) (k : Nat) (h : b.rows < 9 ∨ b.cols < 9) : placement rand k b = some none := by
  unfold placement rowColMin
  rw [if_pos (by omega)]

theorem Placed.put {v : Nat} (h : Accepted b) (pl : Placed b net v) {p : Pt} (hw : Within b p) (hc : Clear b p) :
    Placed { b with cell := fun q => if q = p then ⟨some v, true⟩ else b.cell q }
      (fun w => if w = v then ⟨p, []⟩ else net w) (v + 1) := by
  unfold Within at hw
  have hin : b.In p := by unfold Board.In; omega
  have hnot : ∀ w, w < v → (net w).pos ≠ p := by
    intro w hwv e
    have := (pl.cells p w hin).2 ⟨hwv, e⟩
    rw [hc.1] at this; cases this
  refine ⟨?_, ?_, ?_, ?_, pl.size⟩
  · intro q hq hb
    simp only
    split
    · rfl
    · exact pl.border q hq hb
  · intro w hwv
    simp only
    split
    · simp only; omega
    · exact pl.inside w (by omega)
  · intro q w hq
    have hq : b.In q := hq
    simp only
    by_cases e : q = p
    · subst e
      rw [if_pos rfl]
      constructor
      · intro h; cases h; exact ⟨by omega, by simp⟩
      · rintro ⟨h1, h2⟩
        by_cases e : w = v
        · rw [e]
        · rw [if_neg e] at h2
          exact absurd h2 (hnot w (by omega))
    · rw [if_neg e]
      rw [pl.cells q w hq]
      constructor
      · rintro ⟨h1, h2⟩
        refine ⟨by omega, ?_⟩
        rw [if_neg (by omega)]; exact h2
      · rintro ⟨h1, h2⟩
        by_cases ev : w = v
        · rw [if_pos ev] at h2; exact absurd h2.symm e
        · rw [if_neg ev] at h2; exact ⟨by omega, h2⟩
  · intro w hwv
    by_cases e : w = v
    · simp [e]
    · simp only [if_neg e]
      split
      · rfl
      · exact pl.taken w (by omega)

theorem placeAll_spec {rand : Maze.Rand} (hr : rand.Ok) : ∀ (k : Nat) (b : Board) (net : Net) (v : Nat), Accepted b →
    Placed b net v → (∀ w, (net w).edges = []) → ∀ a, placeAll rand b net v k = some a →
    ∃ b' net', a = some (b', net') ∧ b'.rows = b.rows ∧ b'.cols = b.cols ∧ Placed b' net' (v + k) ∧
      ∀ w, (net' w).edges = [] := by
  intro k
  induction k with
  | zero => intro b net v _ pl he a h; cases h; exact ⟨b, net, rfl, rfl, rfl, pl, he⟩
  | succ k ih =>
    intro b net v h pl he a e
    simp only [placeAll, Option.bind_eq_bind, Option.bind_eq_some_iff] at e
    obtain ⟨x, ex, e⟩ := e
    obtain ⟨p, rfl, hw, hc⟩ := C86_place_sound h hr _ ex
    simp only at e
    obtain ⟨b', net', rfl, h1, h2, h3, h4⟩ := ih
      { b with cell := fun q => if q = p then ⟨some v, true⟩ else b.cell q } (fun w => if w = v then ⟨p, []⟩ else net w)
      (v + 1) ⟨h.rows, h.cols, h.size⟩ (pl.put h hw hc)
      (fun w => by by_cases ew : w = v <;> simp [ew, he]) a e
    exact ⟨b', net', rfl, h1, h2, by rw [show v + (k + 1) = v + 1 + k by omega]; exact h3, h4⟩

theorem blank_placed (rows cols : Int) (net : Net) (hs : rows * cols ≤ 2147483647) : Placed (blank rows cols) net 0 := by
  refine ⟨?_, by omega, ?_, by omega, hs⟩
  · intro p _ h
    simp only [blank] at h ⊢
    rw [decide_eq_true_eq]; omega
  · intro p v _
    simp [blank]

/-- C86, the whole making of the graph.  If the placement of `n` vertices ends, every vertex has a place of its own inside
the outline, and the edges are made as `C85_graph` says. -/
theorem C86_build_partial {rand : Maze.Rand} (hr : rand.Ok) {rows cols : Int} (h1 : 9 ≤ rows) (h2 : 9 ≤ cols)
    (hs : rows * cols ≤ 2147483647) (net : Net) (h0 : ∀ v, (net v).edges = []) {n : Nat} {a : Option (Board × Net)}
    (e : placeAll rand (blank rows cols) net 0 n = some a)
    (wide : Bool) (hash : Pt → UInt64) (hp : Heap) (junk : Nat → Fhm.Cell Back) (junkQ : Nat → Pt) :
    ∃ b' net', a = some (b', net') ∧ b'.rows = rows ∧ b'.cols = cols ∧ Placed b' net' n ∧
      ∃ b'' net'' es, buildEdges (cfg wide hash) hp junk junkQ (List.range n) b' net' = some (b'', net'', es) ∧
        Simple net'' n ∧ Drawn b' net' b'' net'' es ∧ (∀ v, v < n → Full b'' net'' v) := by
  obtain ⟨b', net', rfl, g1, g2, pl, he⟩ := placeAll_spec hr n (blank rows cols) net 0 ⟨h1, h2, hs⟩
    (blank_placed rows cols net hs) h0 a e
  rw [Nat.zero_add] at pl
  obtain ⟨b'', net'', es, e', s, d, f, _⟩ := C85_graph wide hash hp junk junkQ pl he
  exact ⟨b', net', rfl, g1, g2, pl, b'', net'', es, e', s, d, f⟩

theorem mem_outline {rows cols : Int} {p : Pt} : p ∈ outlineCells rows cols ↔
    (blank rows cols).In p ∧ (p.2 = 0 ∨ p.2 = cols - 1 ∨ p.1 = 0 ∨ p.1 = rows - 1) := by
  simp only [outlineCells, List.mem_flatMap, List.mem_range, List.mem_filterMap]
  constructor
  · rintro ⟨r, hr, c, hc, h⟩
    split at h
    · cases h
      unfold Board.In
      simp only [blank]
      omega
    · cases h
  · obtain ⟨r, c⟩ := p
    unfold Board.In
    simp only [blank]
    rintro ⟨hi, h⟩
    refine ⟨r.toNat, by omega, c.toNat, by omega, ?_⟩
    rw [if_pos (by omega)]
    simp only [Option.some.injEq, Prod.mk.injEq]
    omega

theorem outlineLoop_spec : ∀ (l : List Pt) (b : Board), Accepted b → (∀ p ∈ l, b.In p) → ∃ b', outlineLoop b l = some b' ∧
    b'.rows = b.rows ∧ b'.cols = b.cols ∧ ∀ x, b'.cell x = if x ∈ l then { b.cell x with path := true } else b.cell x := by
  intro l
  induction l with
  | nil => intro b _ _; exact ⟨b, rfl, rfl, rfl, fun x => by simp⟩
  | cons p l ih =>
    intro b ha h
    obtain ⟨b', e, h1, h2, h3⟩ := ih { b with cell := fun x => if x = p then { b.cell p with path := true } else b.cell x }
      ⟨ha.1, ha.2, ha.3⟩ (fun q hq => h q (by simp [hq]))
    refine ⟨b', by simp only [outlineLoop, ha.at_ (h p (by simp)), Option.bind_eq_bind, Option.bind_some]; exact e, h1, h2, ?_⟩
    intro x
    rw [h3]
    by_cases hx : x = p
    · subst hx; simp
    · simp [hx]

/-- C86: the outline is made if the number of cells is an `int`: there is no vertex, and the cells of the first and the last
row and column are the paths. -/
theorem C86_outline_partial {rows cols : Int} (h1 : 9 ≤ rows) (h2 : 9 ≤ cols) (hs : rows * cols ≤ 2147483647) :
    ∃ b, buildOutline rows cols = some b ∧ b.rows = rows ∧ b.cols = cols ∧
      ∀ p, b.In p → b.cell p = (blank rows cols).cell p ∧ (b.cell p).vertex = none ∧
        ((b.cell p).path = true ↔ p.1 = 0 ∨ p.1 = rows - 1 ∨ p.2 = 0 ∨ p.2 = cols - 1) := by
  obtain ⟨b, e, hr, hc, h⟩ := outlineLoop_spec (outlineCells rows cols) ⟨rows, cols, fun _ => ⟨none, false⟩⟩ ⟨h1, h2, hs⟩
    (fun p hp => (mem_outline.1 hp).1)
  simp only at hr hc
  refine ⟨b, e, hr, hc, fun p hp => ?_⟩
  have hp' : (blank rows cols).In p := by
    unfold Board.In at hp ⊢
    rw [hr, hc] at hp
    exact hp
  rw [h]
  by_cases hb : p.2 = 0 ∨ p.2 = cols - 1 ∨ p.1 = 0 ∨ p.1 = rows - 1
  · rw [if_pos (mem_outline.2 ⟨hp', hb⟩)]
    exact ⟨by simp only [blank, hb, decide_true], rfl, by simp only [true_iff]; omega⟩
  · rw [if_neg (fun hm => hb (mem_outline.1 hm).2)]
    exact ⟨by simp only [blank, hb, decide_false], rfl, by simp only [Bool.false_eq_true, false_iff]; omega⟩

/-- C86, from the outline to the edges.  The whole of `build_graph` on the grid of zeros: if the placement of `n` vertices
ends, every vertex has a place of its own inside the outline, and the edges are made as `C85_graph` says. -/
theorem C86_whole_partial {rand : Maze.Rand} (hr : rand.Ok) {rows cols : Int} (h1 : 9 ≤ rows) (h2 : 9 ≤ cols)
    (hs : rows * cols ≤ 2147483647) (net : Net) (h0 : ∀ v, (net v).edges = []) {n : Nat} {a : Option (Board × Net)}
    (e : (buildOutline rows cols).bind (fun b => placeAll rand b net 0 n) = some a)
    (wide : Bool) (hash : Pt → UInt64) (hp : Heap) (junk : Nat → Fhm.Cell Back) (junkQ : Nat → Pt) :
    ∃ b' net', a = some (b', net') ∧ b'.rows = rows ∧ b'.cols = cols ∧ Placed b' net' n ∧
      ∃ b'' net'' es, buildEdges (cfg wide hash) hp junk junkQ (List.range n) b' net' = some (b'', net'', es) ∧
        Simple net'' n ∧ Drawn b' net' b'' net'' es ∧ (∀ v, v < n → Full b'' net'' v) := by
  obtain ⟨b, eb, er, ec, hb⟩ := C86_outline_partial h1 h2 hs
  rw [eb, Option.bind_some] at e
  have hpl : Placed b net 0 := by
    refine ⟨fun p hi h => ?_, by omega, fun p v hi => ?_, by omega, by rw [er, ec]; exact hs⟩
    · rw [er, ec] at h; exact (hb p hi).2.2.2 h
    · rw [(hb p hi).2.1]; simp
  obtain ⟨b', net', rfl, g1, g2, pl, he⟩ := placeAll_spec hr n b net 0 ⟨by rw [er]; exact h1, by rw [ec]; exact h2,
    by rw [er, ec]; exact hs⟩ hpl h0 a e
  rw [Nat.zero_add] at pl
  obtain ⟨b'', net'', es, e', s, d, f, _⟩ := C85_graph wide hash hp junk junkQ pl he
  exact ⟨b', net', rfl, g1.trans er, g2.trans ec, pl, b'', net'', es, e', s, d, f⟩

/-- The first vertex always gets a place, so the hypothesis of `C86_whole_partial` can be met with every `rand`. -/
theorem first_placed {rand : Maze.Rand} (hr : rand.Ok) {rows cols : Int} (h1 : 9 ≤ rows) (h2 : 9 ≤ cols)
    (hs : rows * cols ≤ 2147483647) (net : Net) :
    ∃ x, (buildOutline rows cols).bind (fun b => placeAll rand b net 0 1) = some (some x) := by
  obtain ⟨b, eb, er, ec, hb⟩ := C86_outline_partial h1 h2 hs
  have ha : Accepted b := ⟨by rw [er]; exact h1, by rw [ec]; exact h2, by rw [er, ec]; exact hs⟩
  have hst := (starts ha hr 0).1
  have hw : Within b (startRow rand 0 b, 3) := by
    unfold Within
    simp only
    omega
  have hc : Clear b (startRow rand 0 b, 3) := by
    refine ⟨(hb _ ?_).2.1, fun q a => (hb _ ?_).2.1⟩
    · unfold Board.In; simp only; omega
    · unfold Adj at a; unfold Board.In; simp only at a ⊢; omega
  obtain ⟨p, e, _⟩ := C86_place_partial ha hr 0 hw hc
  rw [eb, Option.bind_some]
  simp only [placeAll, Nat.mul_zero, e, Option.bind_eq_bind, Option.bind_some]
  exact ⟨_, rfl⟩

/-- C86 does not hold for larger boards, which the program accepts: the index of the last cell overflows. -/
theorem C86_outline_violated {rows cols : Int} (h1 : 9 ≤ rows) (h2 : 9 ≤ cols) (hs : 2147483648 < rows * cols) :
    buildOutline rows cols = none := by
  have hmem : (rows - 1, cols - 1) ∈ outlineCells rows cols := by
    refine mem_outline.2 ⟨?_, by simp⟩
    unfold Board.In
    simp only [blank]
    omega
  have hnone : ∀ b : Board, b.rows = rows → b.cols = cols → b.at_ (rows - 1, cols - 1) = none := by
    intro b _ hc
    refine if_neg ?_
    rintro ⟨_, _, _, _, h⟩
    simp only [hc] at h
    rw [Int.sub_mul] at h
    omega
  have : ∀ (l : List Pt) (b : Board), b.rows = rows → b.cols = cols → (rows - 1, cols - 1) ∈ l → outlineLoop b l = none := by
    intro l
    induction l with
    | nil => intro _ _ _ h; cases h
    | cons p l ih =>
      intro b hr hc h
      rw [outlineLoop]
      cases e : b.at_ p with
      | none => rfl
      | some s =>
        rcases List.mem_cons.1 h with h | h
        · rw [← h, hnone b hr hc] at e; cases e
        · exact ih _ hr hc h
  exact this _ _ rfl rfl hmem

/-- A board of 50000 rows and columns is such a board. -/
example : buildOutline 50000 50000 = none := C86_outline_violated (by decide) (by decide) (by decide)

/-! ### Three vertices on the smallest board -/

/-- A source of random numbers that answers 0. -/
def zeros : Maze.Rand := ⟨2147483647, fun _ => 0⟩
/-- The smallest board with one vertex and with two, as `placeAll` makes them. -/
def board₁ : Board := { blank 9 9 with cell := fun q => if q = (3, 3) then ⟨some 0, true⟩ else (blank 9 9).cell q }
def board₂ : Board := { board₁ with cell := fun q => if q = (3, 5) then ⟨some 1, true⟩ else board₁.cell q }

theorem zeros_ok : zeros.Ok := by intro k; simp [zeros]

instance (b : Board) (p : Pt) : Decidable (Clear b p) := decidable_of_iff _ clear_iff.symm
instance (b : Board) (p : Pt) : Decidable (Within b p) := inferInstanceAs (Decidable (_ ∧ _))

/-- C86 does not hold.  With a `rand` that answers 0 the program places two vertices in a row of the smallest board, and the
search for a place for the third never ends, though there is one. -/
theorem C86_place_violated (net : Net) :
    placeAll zeros (blank 9 9) net 0 2 = some (some (board₂, fun w => if w = 1 then ⟨(3, 5), []⟩ else
      if w = 0 then ⟨(3, 3), []⟩ else net w)) ∧
    placement zeros 4 board₂ = none ∧ placeAll zeros (blank 9 9) net 0 3 = none ∧
    Within board₂ (5, 3) ∧ Clear board₂ (5, 3) := by
  have a0 : Accepted (blank 9 9) := ⟨by decide, by decide, by decide⟩
  have a1 : Accepted board₁ := ⟨by decide, by decide, by decide⟩
  have a2 : Accepted board₂ := ⟨by decide, by decide, by decide⟩
  have p0 : placement zeros 0 (blank 9 9) = some (some (3, 3)) := by
    rw [placement_eq a0 zeros 0 (by decide) (by decide)]
    rw [show startRow zeros 0 (blank 9 9) = 3 by decide]
    rw [show ((zeros.range (0 + 1) 3 ((blank 9 9).cols - 3).toNat : Nat) : Int) = 3 by decide]
    rw [colLoop_here a0 (by decide) (by decide)]; rfl
  have p1 : placement zeros 2 board₁ = some (some (3, 5)) := by
    rw [placement_eq a1 zeros 2 (by decide) (by decide)]
    rw [show startRow zeros 2 board₁ = 3 by decide]
    rw [show ((zeros.range (2 + 1) 3 (board₁.cols - 3).toNat : Nat) : Int) = 3 by decide]
    rw [colLoop_next a1 (by decide) (by decide), show ((3 + 1) % (board₁.cols - 2) : Int) = 4 by decide,
      colLoop_next a1 (by decide) (by decide), show ((4 + 1) % (board₁.cols - 2) : Int) = 5 by decide,
      colLoop_here a1 (by decide) (by decide)]; rfl
  have p2 : placement zeros 4 board₂ = none := by
    apply C86_place_endless a2 zeros_ok
    intro c hw
    rw [show startRow zeros 4 board₂ = 3 by decide] at hw ⊢
    have h3 : 3 ≤ c := hw.2.2.1
    have h4 : c ≤ 6 := hw.2.2.2
    have : c = 3 ∨ c = 4 ∨ c = 5 ∨ c = 6 := by omega
    rcases this with rfl | rfl | rfl | rfl <;> decide
  refine ⟨?_, p2, ?_, by decide, by decide⟩
  · simp only [placeAll, p0, Option.bind_eq_bind, Option.bind_some]
    exact (congrArg (fun x => Option.bind x _) p1).trans rfl
  · simp only [placeAll, p0, Option.bind_eq_bind, Option.bind_some]
    exact (congrArg (fun x => Option.bind x _) p1).trans ((congrArg (fun x => Option.bind x _) p2).trans rfl)

end CCC.Search
