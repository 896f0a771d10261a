import Verif.Proof.MazeWays
import Verif.Proof.MazeGrid
import Verif.Proof.LedgerSpec
import Verif.Props.OrderedMap
import Verif.Props.PriorityQueue
import Mathlib.Data.Finset.Prod
import Mathlib.Data.Finset.Card
/-
Proof that the maze sample builds a perfect maze.
-/
namespace CCC.Maze
open CCC MapSpec PtrMap

theorem cmpCells_lawful : LawfulCmp cmpCells := by
  constructor
  · intro a b; unfold cmpCells; grind
  · intro a b; unfold cmpCells; grind
  · intro a b c; unfold cmpCells; grind

theorem cfg_lawful : Pq.Lawful cfg := ⟨cmpCells_lawful, .inl rfl, rfl⟩

theorem cmpPos_lawful : LawfulCmp cmpPos := by
  constructor
  · intro a b; unfold cmpPos; grind
  · intro a b; unfold cmpPos; grind
  · intro a b c; unfold cmpPos; grind

theorem cmpPos_eql {a b : Pos} : cmpPos a b = .eql ↔ a = b := by
  obtain ⟨a1, a2⟩ := a
  obtain ⟨b1, b2⟩ := b
  unfold cmpPos; simp only [Prod.mk.injEq]; grind

/-- The answers of `rand` are in its range. -/
def Rand.Ok (rand : Rand) : Prop := ∀ k, rand.next k ≤ rand.max

theorem Rand.Ok.range {rand : Rand} (h : rand.Ok) (k : Nat) {mn mx : Nat} (hm : mn ≤ mx) :
    mn ≤ rand.range k mn mx ∧ rand.range k mn mx ≤ mx := by
  unfold Rand.range
  have h1 : rand.next k < (rand.max / (mx - mn + 1) + 1) * (mx - mn + 1) := by
    refine Nat.lt_of_le_of_lt (h k) ?_
    rw [Nat.mul_comm]
    exact Nat.lt_mul_div_succ _ (by omega)
  have h2 := Nat.div_lt_of_lt_mul h1
  generalize rand.next k / (rand.max / (mx - mn + 1) + 1) = v at h2 ⊢
  omega

/-! ### The rooms -/

/-- All rooms. -/
def rooms (R C : Int) : Finset Pos :=
  (Finset.range ((R - 1) / 2).toNat ×ˢ Finset.range ((C - 1) / 2).toNat).image
    (fun ij => ((2 * (ij.1 : Int) + 1, 2 * (ij.2 : Int) + 1) : Pos))

theorem mem_rooms {R C : Int} (hR : R % 2 = 1) (hC : C % 2 = 1) {p : Pos} (h : Room R C p) : p ∈ rooms R C := by
  obtain ⟨h1, h2, h3, h4, h5, h6⟩ := h
  rw [rooms, Finset.mem_image]
  refine ⟨(((p.1 - 1) / 2).toNat, ((p.2 - 1) / 2).toNat), ?_, ?_⟩
  · simp only [Finset.mem_product, Finset.mem_range]; omega
  · refine Prod.ext ?_ ?_ <;> simp only <;> omega

theorem card_rooms (R C : Int) : (rooms R C).card ≤ ((R - 1) / 2).toNat * ((C - 1) / 2).toNat := by
  refine (Finset.card_image_le).trans ?_
  rw [Finset.card_product, Finset.card_range, Finset.card_range]

theorem card_cap {R C : Int} (hR : 1 ≤ R) (hC : 1 ≤ C) : (rooms R C).card ≤ ((R * C) / 2).toNat + 1 := by
  refine (card_rooms R C).trans ?_
  obtain ⟨a, rfl⟩ := Int.eq_ofNat_of_zero_le (a := R) (by omega)
  obtain ⟨b, rfl⟩ := Int.eq_ofNat_of_zero_le (a := C) (by omega)
  have e1 : (((a : Int) - 1) / 2).toNat ≤ a / 2 := by omega
  have e2 : (((b : Int) - 1) / 2).toNat ≤ b := by omega
  have e3 : (((a : Int) * b) / 2).toNat = a * b / 2 := by
    have : ((a : Int) * b) / 2 = ((a * b / 2 : Nat) : Int) := by push_cast; rfl
    rw [this, Int.toNat_natCast]
  rw [e3]
  have e4 : a / 2 * b ≤ a * b / 2 := by
    rw [Nat.le_div_iff_mul_le (by omega)]
    calc a / 2 * b * 2 = (a / 2 * 2) * b := by ring
      _ ≤ a * b := Nat.mul_le_mul_right _ (Nat.div_mul_le_self a 2)
  calc _ ≤ a / 2 * b := Nat.mul_le_mul e1 e2
    _ ≤ _ := by omega

/-! ### The two containers -/

/-- The cells in the map and in the queue. -/
structure Store (R C : Int) (m : St) (st : PrioQ.St Cell) (l : List (Nat × Cell)) : Prop where
  om : Om.Reach cmpPos Cell.cell m.costs l
  al : m.costs.alloc = true
  pq : Pq.Reach cfg m.cells st
  len : l.length = m.next
  addr : ∀ e ∈ l, 1 ≤ e.1 ∧ e.1 ≤ m.next
  room : ∀ e ∈ l, Room R C e.2.cell
  val : ∀ e ∈ l, st.val e.1 = some e.2
  cost : ∀ e ∈ l, e.2.cost ≤ 100
  queue : ∀ a ∈ st.q, ∃ x, (a, x) ∈ l
  cap : m.cap = ((R * C) / 2).toNat + 1

variable {R C : Int} {m : St} {st : PrioQ.St Cell} {l : List (Nat × Cell)} {rand : Rand}

theorem Store.uniq (h : Store R C m st l) {a : Nat} {x y : Cell} (hx : (a, x) ∈ l) (hy : (a, y) ∈ l) : x = y := by
  have h1 := h.val _ hx
  have h2 := h.val _ hy
  simp only at h1 h2
  rw [h1] at h2
  exact Option.some.inj h2

theorem Store.mem (h : Store R C m st l) {a : Nat} {x : Cell} (hx : (a, x) ∈ l) : ∃ e, m.cells.mem a = some e ∧ e.val = x := by
  have := (Pq.C19_pq_size_partial cfg_lawful h.pq).2.2.2 a
  rw [h.val _ hx] at this
  cases he : m.cells.mem a with
  | none => rw [he] at this; simp at this
  | some e => rw [he] at this; simp at this; exact ⟨e, rfl, this⟩

theorem Store.nodup (h : Store R C m st l) : (l.map (fun e => e.2.cell)).Nodup := by
  have := Om.C23_om_sorted cmpPos_lawful h.om
  unfold Sorted at this
  rw [List.Nodup, List.pairwise_map]
  refine this.imp ?_
  intro a b hab e
  simp only [ekey] at hab
  rw [cmpPos_eql.2 e] at hab
  cases hab

/-- There is room in the arena for a cell that is not in the map. -/
theorem Store.space (h : Store R C m st l) (hR : R % 2 = 1 ∧ 7 ≤ R) (hC : C % 2 = 1 ∧ 7 ≤ C) {p : Pos} (hp : Room R C p)
    (hn : ∀ e ∈ l, e.2.cell ≠ p) : m.bump = some (m.next + 1) := by
  have nd : (p :: l.map (fun e => e.2.cell)).Nodup := by
    rw [List.nodup_cons]
    refine ⟨?_, h.nodup⟩
    intro hm
    obtain ⟨e, he, e1⟩ := List.mem_map.1 hm
    exact hn e he e1
  have sub : (p :: l.map (fun e => e.2.cell)).toFinset ⊆ rooms R C := by
    intro q hq
    rw [List.mem_toFinset, List.mem_cons] at hq
    rcases hq with rfl | hq
    · exact mem_rooms hR.1 hC.1 hp
    · obtain ⟨e, he, rfl⟩ := List.mem_map.1 hq
      exact mem_rooms hR.1 hC.1 (h.room e he)
  have := Finset.card_le_card sub
  rw [List.toFinset_card_of_nodup nd, List.length_cons, List.length_map, h.len] at this
  have := card_cap (R := R) (C := C) (by omega) (by omega)
  unfold St.bump
  rw [h.cap, if_neg (by omega)]

theorem Store.lookup_none (h : lookup cmpPos (ekey Cell.cell) p l = none) : ∀ e ∈ l, e.2.cell ≠ p := by
  intro e he hc
  have := List.find?_eq_none.1 h e he
  simp only [ekey, beq_iff_eq] at this
  exact this (cmpPos_eql.2 hc.symm)

theorem Store.good (h : Store R C m st l) : goodAns l m.bump 0 := by
  intro n hn
  unfold St.bump at hn
  split at hn
  · cases hn
  · cases hn
    refine ⟨⟨by omega, ?_⟩, by omega⟩
    intro e he
    have := h.addr e he
    omega

/-- A struct for a new cell. -/
theorem Store.add (h : Store R C m st l) {p : Pos} (hp : Room R C p) {x : Cell} (hx : x.cell = p) (hcost : x.cost ≤ 100)
    (hb : m.bump = some (m.next + 1)) (hlk : lookup cmpPos (ekey Cell.cell) p l = none) {s' : Om.Om Cell}
    (hs : Om.Reach cmpPos Cell.cell s' (place cmpPos (ekey Cell.cell) (m.next + 1, x) l)) (ha : s'.alloc = true) :
    ∃ st' l', Store R C { m.made x with costs := s' } st' l' ∧ (m.next + 1, x) ∈ l' ∧ (m.made x).grid = m.grid ∧ st'.q = st.q ∧
      Pq.front (m.made x).cells = Pq.front m.cells ∧ (∀ e ∈ l, e ∈ l') ∧ l'.length = l.length + 1 := by
  have hm : m.made x = { m with
      cells := { m.cells with mem := upd m.cells.mem (m.next + 1) (some ⟨x, none, none, none, none⟩) },
      next := m.next + 1, calls := m.calls + 1 } := by simp only [St.made, hb]
  have perm := place_perm (l := l) (key := Cell.cell) cmpPos_lawful (e := (m.next + 1, x)) (by simp only [hx]; exact hlk)
  have hq : m.next + 1 ∉ st.q := by
    intro hq
    obtain ⟨y, hy⟩ := h.queue _ hq
    have := h.addr _ hy
    simp only at this
    omega
  have hpq := h.pq.step (op := .make (m.next + 1) x none none none none) hq trivial rfl
  rw [hm]
  refine ⟨_, _, ⟨hs, ha, hpq, ?_, ?_, ?_, ?_, ?_, ?_, h.cap⟩, perm.mem_iff.2 (by simp), rfl, rfl, rfl, ?_, perm.length_eq⟩
  · rw [perm.length_eq, List.length_cons, h.len]
  · intro e he
    rcases List.mem_cons.1 (perm.mem_iff.1 he) with rfl | he
    · simp
    · have := h.addr e he
      simp only; omega
  · intro e he
    rcases List.mem_cons.1 (perm.mem_iff.1 he) with rfl | he
    · rw [hx]; exact hp
    · exact h.room e he
  · intro e he
    simp only [PrioQ.specStep]
    rcases List.mem_cons.1 (perm.mem_iff.1 he) with rfl | he
    · simp
    · have := h.addr e he
      rw [if_neg (by omega)]
      exact h.val e he
  · intro e he
    rcases List.mem_cons.1 (perm.mem_iff.1 he) with rfl | he
    · exact hcost
    · exact h.cost e he
  · intro a haq
    obtain ⟨y, hy⟩ := h.queue a haq
    exact ⟨y, perm.mem_iff.2 (List.mem_cons_of_mem _ hy)⟩
  · intro e he; exact perm.mem_iff.2 (List.mem_cons_of_mem _ he)

theorem view_ptr {s : Om.Om Cell} {q : Slot} {n : Nat} {x : Cell} (h : Rom.view s q = some (n, x)) : q = some n := by
  cases q with
  | none => cases h
  | some a => simp [Rom.view] at h; rw [h.1]

/-- The cell of a room, made if it was not there. -/
theorem cellAt_spec (hr : rand.Ok) (h : Store R C m st l) (hR : R % 2 = 1 ∧ 7 ≤ R) (hC : C % 2 = 1 ∧ 7 ≤ C) {p : Pos}
    (hp : Room R C p) : ∃ m' st' l' a x, cellAt rand m p = some (m', some a) ∧ Store R C m' st' l' ∧ (a, x) ∈ l' ∧ x.cell = p ∧
      m'.grid = m.grid ∧ st'.q = st.q ∧ Pq.front m'.cells = Pq.front m.cells ∧ ∀ e ∈ l, e ∈ l' := by
  have hc := cmpPos_lawful
  have hcost : (⟨p, (rand.range m.calls 0 100 : Nat)⟩ : Cell).cost ≤ 100 := by
    have := (hr.range m.calls (Nat.zero_le 100)).2
    simp only; omega
  have ok : okOp cmpPos Cell.cell m.costs.alloc l (.orInsertW p ⟨p, (rand.range m.calls 0 100 : Nat)⟩ m.bump) := ⟨h.good, cmpPos_eql.2 rfl⟩
  obtain ⟨T, o⟩ := h.om.sim hc
  obtain ⟨s', hs, _, hal, _⟩ := Om.step_orInsertW hc o ok
  have reach := h.om.step hc ok trivial hs
  rcases o.entry hc p with ⟨t, a, k, A, B, hf, _, _, _, _, _, _, hlk⟩ | ⟨t, T', hf, _, _, _, hlk⟩
  · obtain ⟨hm, he⟩ := Om.lookup_some hlk
    simp only [specStep, hlk] at reach
    simp only [Om.step, hf, Option.bind_eq_bind, Option.bind_some, Om.orInsertW, if_true, Option.some.injEq, Prod.mk.injEq] at hs
    refine ⟨{ m with costs := s' }, st, l, a, m.costs.val a, ?_, ⟨reach, hal.trans h.al, h.pq, h.len, h.addr, h.room, h.val, h.cost,
      h.queue, h.cap⟩, hm, (cmpPos_eql.1 he).symm, rfl, rfl, rfl, fun e he => he⟩
    simp only [cellAt, hf, Option.bind_eq_bind, Option.bind_some, Om.orInsertW, if_true, Om.occupied, Rom.occ_occ, hs.1]
  · have hb := h.space hR hC hp (Store.lookup_none hlk)
    simp only [specStep, hlk, h.al, addAt, if_true, hb] at reach
    obtain ⟨st', l', q1, q2, q3, q4, q5, q6, _⟩ := h.add hp (x := ⟨p, (rand.range m.calls 0 100 : Nat)⟩) rfl hcost hb hlk reach (hal.trans h.al)
    refine ⟨_, st', l', m.next + 1, _, ?_, q1, q2, rfl, q3, q4, q5, q6⟩
    simp only [Om.step, hf, Option.bind_eq_bind, Option.bind_some, Option.bind_eq_some_iff, specStep, hlk, h.al, addAt, if_true, hb,
      Option.some.injEq, Prod.mk.injEq, Out.ptr.injEq] at hs
    obtain ⟨⟨s2, q⟩, hq, rfl, hv⟩ := hs
    have := view_ptr hv
    simp only at this
    subst this
    simp only [cellAt, hf, Option.bind_eq_bind, Option.bind_some, h.al, hb, hq, Om.occupied, Om.isVac_not_occ, Bool.false_eq_true, if_false]

/-- The first cell. -/
theorem insertCell_spec (hr : rand.Ok) (h : Store R C m st []) (hR : R % 2 = 1 ∧ 7 ≤ R) (hC : C % 2 = 1 ∧ 7 ≤ C) {p : Pos}
    (hp : Room R C p) : ∃ m' st' l' a x, insertCell rand m p = some (m', some a) ∧ Store R C m' st' l' ∧ (a, x) ∈ l' ∧ x.cell = p ∧
      m'.grid = m.grid ∧ st'.q = st.q ∧ m'.next = 1 := by
  have hc := cmpPos_lawful
  have hcost : (⟨p, (rand.range m.calls 0 100 : Nat)⟩ : Cell).cost ≤ 100 := by
    have := (hr.range m.calls (Nat.zero_le 100)).2
    simp only; omega
  have ok : okOp cmpPos Cell.cell m.costs.alloc [] (.insertEntryW p ⟨p, (rand.range m.calls 0 100 : Nat)⟩ m.bump) := ⟨h.good, cmpPos_eql.2 rfl⟩
  obtain ⟨T, o⟩ := h.om.sim hc
  obtain ⟨s', hs, _, hal, _⟩ := Om.step_insertEntryW hc o ok
  have reach := h.om.step hc ok trivial hs
  rcases o.entry hc p with ⟨t, a, k, A, B, hf, _, _, _, _, _, _, hlk⟩ | ⟨t, T', hf, _, _, _, hlk⟩
  · cases hlk
  · have hb := h.space hR hC hp (Store.lookup_none hlk)
    simp only [specStep, hlk, h.al, addAt, if_true, hb] at reach
    obtain ⟨st', l', q1, q2, q3, q4, q5, q6, q7⟩ := h.add hp (x := ⟨p, (rand.range m.calls 0 100 : Nat)⟩) rfl hcost hb hlk reach (hal.trans h.al)
    refine ⟨_, st', l', m.next + 1, _, ?_, q1, q2, rfl, q3, q4, by rw [← q1.len, q7]; rfl⟩
    simp only [Om.step, hf, Option.bind_eq_bind, Option.bind_some, Option.bind_eq_some_iff, specStep, hlk, h.al, addAt, if_true, hb,
      Option.some.injEq, Prod.mk.injEq, Out.ptr.injEq] at hs
    obtain ⟨⟨s2, q⟩, hq, rfl, hv⟩ := hs
    have := view_ptr hv
    simp only at this
    subst this
    simp only [insertCell, hf, Option.bind_eq_bind, Option.bind_some, h.al, hb, hq, Om.occupied, Om.isVac_not_occ, Bool.false_eq_true, if_false]

/-- A room that can be joined to `c`. -/
def Target (R C : Int) (g : Grid) (c q : Pos) : Prop :=
  Room R C q ∧ (g.bit q).cached = false ∧ ∃ d ∈ dirs, q = (c.1 + d.1, c.2 + d.2)

theorem scan_spec (hr : rand.Ok) (hR : R % 2 = 1 ∧ 7 ≤ R) (hC : C % 2 = 1 ∧ 7 ≤ C) {c : Pos} (hc : Room R C c) (g : Grid)
    (hf : g.Fits) (gr : g.rows = R) (gc : g.cols = C) : ∀ (ds : List Pos), (∀ d ∈ ds, d ∈ dirs) → ∀ (m : St) (st : PrioQ.St Cell)
    (l : List (Nat × Cell)) (min : Int) (best : Slot), Store R C m st l → m.grid = g → (best = none → min = intMax) →
    (∀ b, best = some b → ∃ x, (b, x) ∈ l ∧ Target R C g c x.cell) →
    ∃ m' st' l' best', scan rand c ds m min best = some (m', best') ∧ Store R C m' st' l' ∧ m'.grid = g ∧ st'.q = st.q ∧
      Pq.front m'.cells = Pq.front m.cells ∧ (∀ e ∈ l, e ∈ l') ∧
      (best' = none → best = none ∧ ∀ d ∈ ds, Room R C (c.1 + d.1, c.2 + d.2) → (g.bit (c.1 + d.1, c.2 + d.2)).cached = true) ∧
      (∀ b, best' = some b → ∃ x, (b, x) ∈ l' ∧ Target R C g c x.cell) := by
  intro ds
  induction ds with
  | nil =>
    intro _ m st l min best h hg _ hb
    exact ⟨m, st, l, best, rfl, h, hg, rfl, rfl, fun e he => he, fun e => ⟨e, by simp⟩, hb⟩
  | cons d ds ih =>
    intro hd m st l min best h hg hmin hb
    have hds : ∀ d ∈ ds, d ∈ dirs := fun e he => hd e (List.mem_cons_of_mem _ he)
    have hdd : d ∈ dirs := hd d (by simp)
    obtain ⟨b, e1, e2⟩ := canBuild_spec hf (c.1 + d.1, c.2 + d.2)
    rw [scan]
    simp only [Option.bind_eq_bind, hg, e1, Option.bind_some]
    cases b with
    | false =>
      obtain ⟨m', st', l', best', k1, k2, k3, k4, k5, k6, k7, k8⟩ := ih hds m st l min best h hg hmin hb
      refine ⟨m', st', l', best', by simpa using k1, k2, k3, k4, k5, k6, fun hn => ⟨(k7 hn).1, ?_⟩, k8⟩
      intro d' hd' hroom
      rcases List.mem_cons.1 hd' with rfl | hd'
      · cases hcd : (g.bit (c.1 + d'.1, c.2 + d'.2)).cached with
        | true => rfl
        | false =>
          have := e2.2 ⟨by rw [gr, gc]; exact hroom.2.2, hcd⟩
          cases this
      · exact (k7 hn).2 d' hd' hroom
    | true =>
      obtain ⟨e3, e4⟩ := e2.1 rfl
      rw [gr, gc] at e3
      have hroom : Room R C (c.1 + d.1, c.2 + d.2) := by
        refine ⟨?_, ?_, e3⟩
        · have := hc.1
          simp only [dirs, List.mem_cons, List.not_mem_nil, or_false] at hdd
          rcases hdd with rfl | rfl | rfl | rfl <;> simp only <;> omega
        · have := hc.2.1
          simp only [dirs, List.mem_cons, List.not_mem_nil, or_false] at hdd
          rcases hdd with rfl | rfl | rfl | rfl <;> simp only <;> omega
      obtain ⟨m1, st1, l1, a, x, k1, k2, k3, k4, k5, k6, k7, k8⟩ := cellAt_spec hr h hR hC hroom
      obtain ⟨e, he, hex⟩ := k2.mem k3
      have ht : Target R C g c x.cell := by rw [k4]; exact ⟨hroom, e4, d, hdd, rfl⟩
      simp only [if_true, k1, Option.bind_some, he, hex]
      by_cases hlt : x.cost < min
      · rw [if_pos hlt]
        obtain ⟨m', st', l', best', j1, j2, j3, j4, j5, j6, j7, j8⟩ := ih hds m1 st1 l1 x.cost (some a) k2 (k5.trans hg) (by simp)
          (by intro b hb; cases hb; exact ⟨x, k3, ht⟩)
        exact ⟨m', st', l', best', j1, j2, j3, j4.trans k6, j5.trans k7, fun e he => j6 e (k8 e he),
          fun hn => (by have := (j7 hn).1; cases this), j8⟩
      · rw [if_neg hlt]
        obtain ⟨m', st', l', best', j1, j2, j3, j4, j5, j6, j7, j8⟩ := ih hds m1 st1 l1 min best k2 (k5.trans hg) hmin
          (by intro b hb'; obtain ⟨y, y1, y2⟩ := hb b hb'; exact ⟨y, k8 _ y1, y2⟩)
        refine ⟨m', st', l', best', j1, j2, j3, j4.trans k6, j5.trans k7, fun e he => j6 e (k8 e he), ?_, j8⟩
        intro hn
        have := hmin (j7 hn).1
        have h100 := k2.cost _ k3
        exfalso
        apply hlt
        rw [this]
        simp only at h100
        have : (100 : Int) < intMax := by decide
        omega

end CCC.Maze
