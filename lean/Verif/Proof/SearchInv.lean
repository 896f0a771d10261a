import Verif.Model.Search
import Mathlib.Data.Int.Interval
import Mathlib.Data.Finset.Prod
import Mathlib.Data.List.Nodup
/-
Breadth first search on the board, as a fact about lists of cells: the cells met so far, the cells still to be looked at.
-/
namespace CCC.Search

/-- A cell of the board. -/
def Board.In (b : Board) (p : Pt) : Prop := 0 ≤ p.1 ∧ p.1 < b.rows ∧ 0 ≤ p.2 ∧ p.2 < b.cols
/-- A cell of the board that belongs to no path. -/
def Board.Free (b : Board) (p : Pt) : Prop := b.In p ∧ (b.cell p).path = false
/-- A cell of the board that holds a vertex `src` may be joined to. -/
def Board.Goal (b : Board) (net : Net) (src : Nat) (v : Nat) (p : Pt) : Prop :=
  b.In p ∧ (b.cell p).vertex = some v ∧ eligible net src v = true

/-- The boards the program makes: the outline is a path (`build_path_outline`), a vertex is where its cell says, and the
vertex the search starts from is inside the outline and has its cell.  The number of cells is an `int`. -/
structure Ready (b : Board) (net : Net) (src : Nat) : Prop where
  border : ∀ p, b.In p → p.1 = 0 ∨ p.1 = b.rows - 1 ∨ p.2 = 0 ∨ p.2 = b.cols - 1 → (b.cell p).path = true
  start : 0 < (net src).pos.1 ∧ (net src).pos.1 < b.rows - 1 ∧ 0 < (net src).pos.2 ∧ (net src).pos.2 < b.cols - 1
  here : (b.cell (net src).pos).vertex = some src
  places : ∀ p v, b.In p → (b.cell p).vertex = some v → (net v).pos = p
  size : b.rows * b.cols ≤ 2147483647

/-- Inside the outline. -/
def Board.Inner (b : Board) (p : Pt) : Prop := 0 < p.1 ∧ p.1 < b.rows - 1 ∧ 0 < p.2 ∧ p.2 < b.cols - 1

theorem Board.Inner.in_ {b : Board} {p : Pt} (h : b.Inner p) : b.In p := by
  unfold Board.Inner at h; unfold Board.In; omega

theorem Board.Inner.adj {b : Board} {p q : Pt} (h : b.Inner p) (a : Adj p q) : b.In q := by
  unfold Board.Inner at h; unfold Board.In; unfold Adj at a; omega

variable {b : Board} {net : Net} {src : Nat}

theorem Ready.inner (r : Ready b net src) {p : Pt} (h : b.Free p) : b.Inner p := by
  have h1 := h.1
  have h2 := h.2
  unfold Board.In at h1
  unfold Board.Inner
  by_cases hb : p.1 = 0 ∨ p.1 = b.rows - 1 ∨ p.2 = 0 ∨ p.2 = b.cols - 1
  · rw [r.border p h.1 hb] at h2; cases h2
  · omega

theorem Ready.at_ (r : Ready b net src) {p : Pt} (h : b.In p) : b.at_ p = some (b.cell p) := by
  have hs := r.size
  unfold Board.In at h
  have h1 : (p.1 + 1) * b.cols ≤ b.rows * b.cols := Int.mul_le_mul_of_nonneg_right (by omega) (by omega)
  rw [Int.add_mul] at h1
  exact if_pos ⟨h.1, h.2.1, h.2.2.1, h.2.2.2, by omega⟩

theorem adj_dirs {p q : Pt} : Adj p q ↔ ∃ d ∈ dirs, q = (p.1 + d.1, p.2 + d.2) := by
  obtain ⟨a, b⟩ := p
  obtain ⟨x, y⟩ := q
  simp only [Adj, dirs, List.mem_cons, List.not_mem_nil, or_false, exists_eq_or_imp, exists_eq_left, Prod.mk.injEq]
  omega

/-- Different cells of the board: there are at most as many as the board has. -/
theorem count_le {b : Board} {l : List Pt} (hn : l.Nodup) (h : ∀ p ∈ l, b.In p) (hr : 0 ≤ b.rows) (hc : 0 ≤ b.cols) :
    (l.length : Int) ≤ b.rows * b.cols := by
  have h1 : l.toFinset ⊆ (Finset.Ico (0 : Int) b.rows) ×ˢ (Finset.Ico (0 : Int) b.cols) := by
    intro p hp
    have := h p (by simpa using hp)
    unfold Board.In at this
    simp only [Finset.mem_product, Finset.mem_Ico]
    omega
  have h2 := Finset.card_le_card h1
  rw [List.toFinset_card_of_nodup hn, Finset.card_product, Int.card_Ico, Int.card_Ico] at h2
  have h3 : ((b.rows - 0).toNat * (b.cols - 0).toNat : Nat) = b.rows * b.cols := by
    push_cast
    rw [Int.toNat_of_nonneg (by omega), Int.toNat_of_nonneg (by omega)]; simp
  rw [← h3]
  exact_mod_cast h2

/-- The cell has been met. -/
def Met (l : List Back) (p : Pt) : Prop := ∃ x ∈ l, x.current = p

/-- The state of the search: `l` the cells met, with the cell each was met from, `D` the number of steps to each, `Q` the
cells to look at, and `pend x y` that the neighbour `y` of `x` has not been looked at from `x`. -/
structure Inv (b : Board) (net : Net) (src : Nat) (l : List Back) (D : Pt → Nat) (pend : Pt → Pt → Prop) : Prop where
  nodup : (l.map Back.current).Nodup
  root : (⟨(net src).pos, (-1, -1)⟩ : Back) ∈ l
  par : ∀ x ∈ l, x = ⟨(net src).pos, (-1, -1)⟩ ∧ D x.current = 0 ∨
    (b.Free x.current ∧ Adj x.parent x.current ∧ Met l x.parent ∧ D x.current = D x.parent + 1)
  walk : ∀ x ∈ l, Walk b.Free (net src).pos (D x.current) x.current
  mini : ∀ x ∈ l, ∀ n, Walk b.Free (net src).pos n x.current → D x.current ≤ n
  small : ∀ x ∈ l, D x.current < l.length
  plain : ∀ x ∈ l, ∀ v, ¬ b.Goal net src v x.current
  closed : ∀ x y, Met l x → Adj x y → pend x y ∨ ((∀ v, ¬ b.Goal net src v y) ∧ (b.Free y → Met l y))

variable {l : List Back} {D : Pt → Nat} {pend : Pt → Pt → Prop}

theorem Inv.inner (h : Inv b net src l D pend) (r : Ready b net src) {p : Pt} (hp : Met l p) : b.Inner p := by
  obtain ⟨x, hx, rfl⟩ := hp
  rcases h.par x hx with ⟨e, _⟩ | ⟨hf, _⟩
  · rw [e]; exact r.start
  · exact r.inner hf

theorem Inv.met_root (h : Inv b net src l D pend) : Met l (net src).pos := ⟨_, h.root, rfl⟩

/-- All cells that can be reached in at most as many steps as the cells looked at now have been met. -/
theorem Inv.reached (h : Inv b net src l D pend) {d : Nat} (hp : ∀ x y, Met l x → pend x y → d ≤ D x) {n : Nat} {p : Pt}
    (w : Walk b.Free (net src).pos n p) : n ≤ d → Met l p := by
  induction w with
  | start => intro _; exact h.met_root
  | @step n p q w a hf ih =>
    intro hn
    have hm := ih (by omega)
    obtain ⟨x, hx, e⟩ := hm
    rcases h.closed p q ⟨x, hx, e⟩ a with hpd | ⟨_, hc⟩
    · have h1 := hp p q ⟨x, hx, e⟩ hpd
      have h2 := h.mini x hx n (by rw [e]; exact w)
      rw [e] at h2
      omega
    · exact hc hf

/-- No vertex that may be joined is closer. -/
theorem Inv.closest (h : Inv b net src l D pend) {d : Nat} (hp : ∀ x y, Met l x → pend x y → d ≤ D x) {n v : Nat} {q : Pt}
    (hg : b.Goal net src v q) (w : Reach b.Free (net src).pos n q) : d + 1 ≤ n := by
  obtain ⟨m, p, rfl, w, a⟩ := w
  by_contra hc
  obtain ⟨x, hx, e⟩ := h.reached hp w (by omega)
  rcases h.closed p q ⟨x, hx, e⟩ a with hpd | ⟨hno, _⟩
  · have h1 := hp p q ⟨x, hx, e⟩ hpd
    have h2 := h.mini x hx m (by rw [e]; exact w)
    rw [e] at h2
    omega
  · exact hno v hg

/-- Nothing left to look at: no vertex that may be joined can be reached. -/
theorem Inv.nothing (h : Inv b net src l D pend) (hp : ∀ x y, Met l x → ¬ pend x y) {n v : Nat} {q : Pt}
    (hg : b.Goal net src v q) : ¬ Reach b.Free (net src).pos n q := by
  intro w
  have := h.closest (d := n) (fun x y hm hq => absurd hq (hp x y hm)) hg w
  omega

theorem Inv.count (h : Inv b net src l D pend) (r : Ready b net src) : (l.length : Int) ≤ b.rows * b.cols := by
  have hs := r.start
  have := count_le (b := b) h.nodup (fun p hp => by
    obtain ⟨x, hx, e⟩ := List.mem_map.1 hp
    exact (h.inner r ⟨x, hx, e⟩).in_) (by omega) (by omega)
  rwa [List.length_map] at this

/-- The neighbour `y` of `cur` has been looked at and nothing was done. -/
theorem Inv.pass {pend' : Pt → Pt → Prop} (h : Inv b net src l D pend) {cur y : Pt}
    (hp : ∀ x z, pend x z → pend' x z ∨ (x = cur ∧ z = y)) (hv : ∀ v, ¬ b.Goal net src v y) (hf : b.Free y → Met l y) :
    Inv b net src l D pend' := by
  refine { h with closed := ?_ }
  intro x z hx a
  rcases h.closed x z hx a with hpd | hc
  · rcases hp x z hpd with hq | ⟨_, rfl⟩
    · exact .inl hq
    · exact .inr ⟨hv, hf⟩
  · exact .inr hc

/-- The neighbour `y` of `cur` is met for the first time. -/
theorem Inv.add {pend' : Pt → Pt → Prop} (h : Inv b net src l D pend) {cur y : Pt} (hcur : Met l cur) (a : Adj cur y)
    (hp : ∀ x z, pend x z → pend' x z ∨ (x = cur ∧ z = y)) (hq : ∀ z, pend' y z)
    (hd : ∀ x z, Met l x → pend x z → D cur ≤ D x)
    (hv : ∀ v, ¬ b.Goal net src v y) (hf : b.Free y) (hn : ¬ Met l y) :
    Inv b net src (⟨y, cur⟩ :: l) (fun p => if p = y then D cur + 1 else D p) pend' := by
  have hne : ∀ x ∈ l, x.current ≠ y := fun x hx e => hn ⟨x, hx, e⟩
  have hcy : cur ≠ y := fun e => hn (e ▸ hcur)
  obtain ⟨xc, hxc, exc⟩ := hcur
  refine ⟨?_, ?_, ?_, ?_, ?_, ?_, ?_, ?_⟩
  · simp only [List.map_cons, List.nodup_cons, List.mem_map]
    exact ⟨fun ⟨x, hx, e⟩ => hn ⟨x, hx, e⟩, h.nodup⟩
  · exact List.mem_cons_of_mem _ h.root
  · intro x hx
    rcases List.mem_cons.1 hx with rfl | hx
    · right
      exact ⟨hf, a, ⟨xc, List.mem_cons_of_mem _ hxc, exc⟩, by simp [hcy]⟩
    · rcases h.par x hx with ⟨e, e0⟩ | ⟨h1, h2, h3, h4⟩
      · left; exact ⟨e, by simp only [if_neg (hne x hx)]; exact e0⟩
      · right
        obtain ⟨z, hz, ez⟩ := h3
        refine ⟨h1, h2, ⟨z, List.mem_cons_of_mem _ hz, ez⟩, ?_⟩
        have : x.parent ≠ y := by rw [← ez]; exact hne z hz
        simp only [if_neg (hne x hx), if_neg this]; exact h4
  · intro x hx
    rcases List.mem_cons.1 hx with rfl | hx
    · simp only [if_pos]
      have := h.walk xc hxc
      rw [exc] at this
      exact .step this a hf
    · simp only [if_neg (hne x hx)]; exact h.walk x hx
  · intro x hx n w
    rcases List.mem_cons.1 hx with rfl | hx
    · simp only [if_pos]
      by_contra hc
      exact hn (h.reached hd w (by omega))
    · simp only [if_neg (hne x hx)]; exact h.mini x hx n w
  · intro x hx
    rcases List.mem_cons.1 hx with rfl | hx
    · have := h.small xc hxc
      rw [exc] at this
      simp only [if_pos, List.length_cons]; omega
    · have := h.small x hx
      simp only [if_neg (hne x hx), List.length_cons]; omega
  · intro x hx
    rcases List.mem_cons.1 hx with rfl | hx
    · exact hv
    · exact h.plain x hx
  · intro x z hx az
    obtain ⟨u, hu, rfl⟩ := hx
    rcases List.mem_cons.1 hu with rfl | hu
    · exact .inl (hq z)
    · rcases h.closed _ z ⟨u, hu, rfl⟩ az with hpd | ⟨h1, h2⟩
      · rcases hp _ z hpd with hq' | ⟨_, rfl⟩
        · exact .inl hq'
        · exact .inr ⟨hv, fun _ => ⟨_, List.mem_cons_self, rfl⟩⟩
      · exact .inr ⟨h1, fun hz => by
          obtain ⟨w, hw, e⟩ := h2 hz
          exact ⟨w, List.mem_cons_of_mem _ hw, e⟩⟩

/-- The first state. -/
theorem Inv.first (r : Ready b net src) :
    Inv b net src [⟨(net src).pos, (-1, -1)⟩] (fun _ => 0) (fun x _ => x = (net src).pos) := by
  refine ⟨by simp, by simp, ?_, ?_, by simp, by simp, ?_, ?_⟩
  · intro x hx; left; exact ⟨by simpa using hx, rfl⟩
  · intro x hx
    have : x = ⟨(net src).pos, (-1, -1)⟩ := by simpa using hx
    subst this; exact .start
  · intro x hx v hg
    have : x = ⟨(net src).pos, (-1, -1)⟩ := by simpa using hx
    subst this
    have h1 := hg.2.1
    rw [r.here] at h1
    have h2 := hg.2.2
    rw [← Option.some.inj h1] at h2
    simp [eligible] at h2
  · intro x y hx _
    left
    obtain ⟨u, hu, rfl⟩ := hx
    have : u = ⟨(net src).pos, (-1, -1)⟩ := by simpa using hu
    rw [this]

end CCC.Search
