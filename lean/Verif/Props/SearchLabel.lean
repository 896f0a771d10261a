import Verif.Model.SearchLabel
import Verif.Props.SearchPaint
/-
C88: the labels of the edges in `samples/graph.c`.
-/
namespace CCC.Search
open CCC

variable {b b' : Board} {net net' : Net}

/-- The number with these decimal digits, the last one first. -/
def number : List Nat → Nat := List.foldr (fun d a => d + 10 * a) 0

/-- The place `k` steps `u` before `p`. -/
def before (p u : Pt) (k : Nat) : Pt := (p.1 - k * u.1, p.2 - k * u.2)

/-- `l` is the label of an edge of cost `cost`: its digits, written one after the other from left to right or from top to
bottom, each on one of the cells. -/
def Labels (cells : List Pt) (cost : Nat) (l : List (Pt × Nat)) : Prop :=
  number (l.map Prod.snd) = cost ∧ (∀ x ∈ l, x.2 < 10 ∧ x.1 ∈ cells) ∧
  ∃ p u, (u = (0, 1) ∨ u = (1, 0)) ∧ l.map Prod.fst = (List.range l.length).map (before p u)

theorem before_zero (p u : Pt) : before p u 0 = p := by simp [before]
theorem before_succ (p u : Pt) (k : Nat) : before p u (k + 1) = before (p.1 - u.1, p.2 - u.2) u k := by
  simp only [before, Prod.mk.injEq]
  push_cast
  constructor <;> rw [Int.add_mul] <;> omega

theorem countDigits_pos {n : Nat} (h : n ≠ 0) : countDigits n = countDigits (n / 10) + 1 := by
  rw [countDigits, if_neg h]

theorem writeDigits_spec {u : Pt} : ∀ (k n : Nat) (p : Pt), countDigits n = k →
    (∀ i, i < k → ∃ c, b.at_ (before p u i) = some c) →
    ∃ l, writeDigits b u p n = some l ∧ l.length = k ∧ number (l.map Prod.snd) = n ∧ (∀ x ∈ l, x.2 < 10) ∧
      l.map Prod.fst = (List.range k).map (before p u) := by
  intro k
  induction k with
  | zero =>
    intro n p hn _
    have : n = 0 := by
      by_contra h
      rw [countDigits_pos h] at hn; omega
    subst this
    exact ⟨[], by rw [writeDigits]; rfl, rfl, rfl, by simp, rfl⟩
  | succ k ih =>
    intro n p hn hat
    have h0 : n ≠ 0 := by rintro rfl; rw [countDigits, if_pos rfl] at hn; omega
    rw [countDigits_pos h0] at hn
    obtain ⟨c, hc⟩ := hat 0 (by omega)
    rw [before_zero] at hc
    obtain ⟨l, e, h1, h2, h3, h4⟩ := ih (n / 10) (p.1 - u.1, p.2 - u.2) (by omega) (fun i hi => by
      rw [← before_succ]; exact hat (i + 1) (by omega))
    refine ⟨(p, n % 10) :: l, ?_, by simp [h1], ?_, ?_, ?_⟩
    · rw [writeDigits, dif_neg h0, hc, e]; rfl
    · simp only [List.map_cons, number, List.foldr_cons]
      simp only [number] at h2
      rw [h2]; omega
    · intro x hx
      rcases List.mem_cons.1 hx with rfl | hx
      · exact Nat.mod_lt _ (by omega)
      · exact h3 x hx
    · rw [List.range_succ_eq_map, List.map_cons, List.map_cons, List.map_map, before_zero, h4]
      congr 1
      apply List.map_congr_left
      intro i _
      exact (before_succ p u i).symm

/-- The step in a direction. -/
def Facing.step : Facing → Pt
  | .north => (-1, 0)
  | .south => (1, 0)
  | .east => (0, 1)
  | .west => (0, -1)
  | .diagonal => (0, 0)

theorem encodeDigits_spec {cells : List Pt} {cur : Pt} {cost : Nat} {o : Facing}
    (hat : ∀ p ∈ cells, ∃ c, b.at_ p = some c) (ho : o ≠ .diagonal)
    (hc : ∀ i, 1 ≤ i → i ≤ countDigits cost → before cur o.step i ∈ cells) :
    ∃ l, encodeDigits b cur cost (countDigits cost + 2) o = some l ∧ Labels cells cost l := by
  have key : ∀ (p u : Pt), (u = (0, 1) ∨ u = (1, 0)) → (∀ i, i < countDigits cost → before p u i ∈ cells) →
      ∃ l, writeDigits b u p cost = some l ∧ Labels cells cost l := by
    intro p u hu hi
    obtain ⟨l, e, h1, h2, h3, h4⟩ := writeDigits_spec (b := b) (u := u) _ cost p rfl (fun i h => hat _ (hi i h))
    refine ⟨l, e, h2, ?_, p, u, hu, by rw [h1]; exact h4⟩
    intro x hx
    refine ⟨h3 x hx, ?_⟩
    have : x.1 ∈ l.map Prod.fst := List.mem_map.2 ⟨x, hx, rfl⟩
    rw [h4, List.mem_map] at this
    obtain ⟨i, hi', e⟩ := this
    rw [← e]; exact hi i (List.mem_range.1 hi')
  unfold encodeDigits
  cases o with
  | diagonal => exact absurd rfl ho
  | north =>
    rw [if_pos (.inl rfl), if_pos rfl]
    refine key _ _ (.inr rfl) (fun i hi => ?_)
    have := hc (countDigits cost - i) (by omega) (by omega)
    convert this using 1
    simp only [before, Facing.step, Prod.mk.injEq]
    omega
  | south =>
    rw [if_pos (.inr rfl), if_neg (by decide)]
    refine key _ _ (.inr rfl) (fun i hi => ?_)
    have := hc (i + 1) (by omega) (by omega)
    convert this using 1
    simp only [before, Facing.step, Prod.mk.injEq]
    omega
  | east =>
    rw [if_neg (by decide), if_neg (by decide)]
    refine key _ _ (.inl rfl) (fun i hi => ?_)
    have := hc (i + 1) (by omega) (by omega)
    convert this using 1
    simp only [before, Facing.step, Prod.mk.injEq]
    omega
  | west =>
    rw [if_neg (by decide), if_pos rfl]
    refine key _ _ (.inl rfl) (fun i hi => ?_)
    have := hc (countDigits cost - i) (by omega) (by omega)
    convert this using 1
    simp only [before, Facing.step, Prod.mk.injEq]
    omega

theorem direction_cases (p q : Pt) : match direction p q with
    | .east => q.1 = p.1 ∧ p.2 < q.2
    | .west => q.1 = p.1 ∧ q.2 < p.2
    | .south => q.2 = p.2 ∧ p.1 < q.1
    | .north => q.2 = p.2 ∧ q.1 < p.1
    | .diagonal => True := by
  split <;> rename_i h <;> unfold direction at h <;> simp only at h <;> (repeat' split at h) <;>
    first | trivial | omega | cases h

/-- A step that does not turn: it goes on in the direction of the step before. -/
theorem direction_spec {prev cur next : Pt} (h : prev = cur ∨ Adj prev cur) (a : Adj cur next) (hne : prev ≠ next)
    (hd : direction prev next ≠ .diagonal) :
    next = (cur.1 + (direction prev next).step.1, cur.2 + (direction prev next).step.2) ∧
      (prev ≠ cur → cur = (prev.1 + (direction prev next).step.1, prev.2 + (direction prev next).step.2)) := by
  have hc := direction_cases prev next
  obtain ⟨a1, a2⟩ := prev
  obtain ⟨b1, b2⟩ := cur
  obtain ⟨c1, c2⟩ := next
  generalize direction (a1, a2) (c1, c2) = o at *
  unfold Adj at *
  simp only [ne_eq, Prod.mk.injEq] at *
  cases o <;> simp only [Facing.step] at * <;> first | omega | exact (hd trivial).elim | simp_all

/-- There is room for a label ahead. -/
def Room (need : Nat) : Pt → Pt → Nat → List Pt → Prop
  | _, _, _, [] => False
  | prev, cur, k, y :: rest =>
    k = need ∨ (rest ≠ [] ∧ Room need cur y (if direction prev y = .diagonal then 0 else k + 1) rest)

/-- `m` cells in a line from `p` on. -/
def line (p u : Pt) : Nat → List Pt
  | 0 => []
  | m + 1 => p :: line (p.1 + u.1, p.2 + u.2) u m

theorem direction_line {p u : Pt} (hu : Adj (0, 0) u) :
    direction p (p.1 + u.1 + u.1, p.2 + u.2 + u.2) ≠ .diagonal := by
  intro h
  unfold Adj at hu
  unfold direction at h
  simp only at hu h
  (repeat' split at h) <;> first | omega | cases h

theorem room_line {need : Nat} {u : Pt} (hu : Adj (0, 0) u) {B : List Pt} (hB : B ≠ []) : ∀ (m k : Nat) (p : Pt), k ≤ need →
    need ≤ k + m → Room need p (p.1 + u.1, p.2 + u.2) k (line (p.1 + u.1 + u.1, p.2 + u.2 + u.2) u m ++ B) := by
  intro m
  induction m with
  | zero =>
    intro k p h1 h2
    cases B with
    | nil => exact absurd rfl hB
    | cons y B => exact .inl (by omega)
  | succ m ih =>
    intro k p h1 h2
    by_cases hk : k = need
    · exact .inl hk
    · refine .inr ⟨by simp [hB], ?_⟩
      rw [if_neg (direction_line hu)]
      exact ih (k + 1) (p.1 + u.1, p.2 + u.2) (by omega) (by omega)

theorem room_stretch {need : Nat} {u : Pt} (hu : Adj (0, 0) u) {B : List Pt} (hB : B ≠ []) (p : Pt) :
    ∀ (A : List Pt) (k : Nat) (prev cur : Pt) (rest : List Pt), k ≤ need → cur :: rest = A ++ line p u (need + 2) ++ B →
    Room need prev cur k rest := by
  intro A
  induction A with
  | nil =>
    intro k prev cur rest hk e
    simp only [line, List.nil_append, List.cons_append, List.cons.injEq] at e
    obtain ⟨rfl, rfl⟩ := e
    by_cases hk' : k = need
    · exact .inl hk'
    · refine .inr ⟨by simp [hB], ?_⟩
      exact room_line hu hB need _ cur (by split <;> omega) (by omega)
  | cons a A ih =>
    intro k prev cur rest hk e
    simp only [List.cons_append, List.cons.injEq] at e
    obtain ⟨rfl, rfl⟩ := e
    cases hr : A ++ line p u (need + 2) ++ B with
    | nil => simp [hB] at hr
    | cons y rest =>
      by_cases hk' : k = need
      · exact .inl hk'
      · refine .inr ⟨?_, ih _ _ y rest (by split <;> omega) hr.symm⟩
        rintro rfl
        have := congrArg List.length hr
        have hb := List.length_pos_iff.2 hB
        simp [line] at this
        omega

section
variable {id : Pt → Nat × Nat} {edge : Nat × Nat} {dst : Nat}

theorem label_spec {F : Pt → Prop} {t : Pt} {cost : Nat} {cells : List Pt} (hin : ∀ p, F p → b.Inner p) (hFt : ¬ F t)
    (hat : ∀ p, b.In p → b.at_ p = some (b.cell p)) (ht : ∀ p, b.In p → ((b.cell p).vertex = some dst ↔ p = t))
    (hcells : ∀ p ∈ cells, ∃ c, b.at_ p = some c) :
    ∀ (rest : List Pt) (cur prev : Pt) (k : Nat) (o : Facing), b.Inner cur → cur ≠ t → Least F t cur rest → prev ∉ rest →
    (∀ p ∈ rest.dropLast, id p = edge) → (∀ p ∈ rest.dropLast, p ∈ cells) →
    (∀ p, id p = edge → p ∈ cur :: rest ∨ p = prev ∨ ∀ y ∈ cur :: rest, ¬ Adj p y) →
    (prev = cur ∨ ∀ y ∈ rest, ¬ Adj prev y) →
    (prev = cur ∨ Adj prev cur) →
    (1 ≤ k → o ≠ .diagonal ∧ prev ≠ cur ∧ cur ∈ cells ∧ cur = (prev.1 + o.step.1, prev.2 + o.step.2)) →
    (∀ i, 1 ≤ i → i + 1 ≤ k → before cur o.step i ∈ cells) →
    ∃ l, labelLoop b id edge dst t cost cur prev k o = some l ∧
      ((l = [] ∧ ¬ Room (countDigits cost + 2) prev cur k rest) ∨ Labels cells cost l) := by
  intro rest
  induction rest with
  | nil => intro _ _ _ _ _ _ h; exact h.1.elim
  | cons y rest ih =>
    intro cur prev k o hcur hct h hpr hint hcl hid hprev hadj hk hback
    rw [labelLoop, if_neg hct]
    by_cases hfull : k = countDigits cost + 2
    · rw [if_pos hfull]
      obtain ⟨l, e, hl⟩ := encodeDigits_spec (b := b) (cur := cur) (cost := cost) (o := o) hcells (hk (by omega)).1
        (fun i h1 h2 => hback i h1 (by omega))
      exact ⟨l, e, .inr hl⟩
    rw [if_neg hfull]
    have hds : ∀ d ∈ dirs, Adj cur (cur.1 + d.1, cur.2 + d.2) := fun d hd => adj_dirs.2 ⟨d, hd, rfl⟩
    have hay : Adj cur y := h.1.1.symm
    have hdy : ∃ d ∈ dirs, (cur.1 + d.1, cur.2 + d.2) = y := by
      obtain ⟨d, hd, e⟩ := adj_dirs.1 hay; exact ⟨d, hd, e.symm⟩
    have hid' : ∀ p, Adj cur p → id p = edge → p = prev ∨ p = y := by
      intro p a e
      rcases hid p e with hp | hp | hp
      · rcases List.mem_cons.1 hp with rfl | hp
        · exact absurd rfl a.ne
        · rcases List.mem_cons.1 hp with rfl | hp
          · exact .inr rfl
          · exact absurd a.symm (h.chord hp)
      · exact .inl hp
      · exact absurd a.symm (hp cur (by simp))
    by_cases hr : rest = []
    · subst hr
      have hyt : y = t := by
        rcases h.1.2 with ⟨e, _⟩ | ⟨_, r⟩
        · exact e
        · exact r.elim
      subst hyt
      rw [turn_arrived (fun p a => hat p (hcur.adj a)) (fun p a => ht p (hcur.adj a)) hid' dirs hds hdy]
      refine ⟨[], rfl, .inl ⟨rfl, ?_⟩⟩
      rintro (h | h)
      · exact hfull h
      · exact h.1 rfl
    · obtain ⟨hFy, hl⟩ := h.tail hr
      have hyt : y ≠ t := by rintro rfl; exact hFt hFy
      have hpy : prev ≠ y := by rintro rfl; exact hpr (by simp)
      have hyd : y ∈ (y :: rest).dropLast := by rw [List.dropLast_cons_of_ne_nil hr]; simp
      rw [turn_go (y := y) (fun p a => hat p (hcur.adj a)) (fun p a e => by
        have := (ht p (hcur.adj a)).1 e
        subst this
        exact h.chord hl.1.start_mem a.symm) hid' (hint y hyd) hpy dirs hds hdy]
      have hroom : ∀ k', Room (countDigits cost + 2) prev cur k (y :: rest) →
          k' = (if direction prev y = .diagonal then 0 else k + 1) → Room (countDigits cost + 2) cur y k' rest := by
        rintro k' (h | h) rfl
        · exact absurd h hfull
        · exact h.2
      suffices hs : ∃ l, labelLoop b id edge dst t cost y cur (if direction prev y = .diagonal then 0 else k + 1)
          (direction prev y) = some l ∧ ((l = [] ∧ ¬ Room (countDigits cost + 2) cur y
            (if direction prev y = .diagonal then 0 else k + 1) rest) ∨ Labels cells cost l) by
        obtain ⟨l, e, hl⟩ := hs
        exact ⟨l, e, hl.imp_left (fun h => ⟨h.1, fun hr => h.2 (hroom _ hr rfl)⟩)⟩
      refine ih y cur _ _ (hin y hFy) hyt hl (fun hc => h.notin hct (by simp [hc]))
        (fun p hp => hint p (by rw [List.dropLast_cons_of_ne_nil hr]; simp [hp]))
        (fun p hp => hcl p (by rw [List.dropLast_cons_of_ne_nil hr]; simp [hp]))
        (fun p e => by
          rcases hid p e with hp | hp | hp
          · rcases List.mem_cons.1 hp with rfl | hp
            · exact .inr (.inl rfl)
            · exact .inl hp
          · rcases hprev with e' | hprev
            · exact .inr (.inl (hp.trans e'))
            · subst hp; exact .inr (.inr hprev)
          · exact .inr (.inr (fun z hz => hp z (List.mem_cons_of_mem _ hz))))
        (.inr (fun z hz a => h.chord hz a.symm)) (.inr hay) ?_ ?_
      · intro h1
        have hd : direction prev y ≠ .diagonal := by
          intro hd; rw [if_pos hd] at h1; omega
        exact ⟨hd, hay.ne, hcl y hyd, (direction_spec hadj hay hpy hd).1⟩
      · intro i h1 h2
        have hd : direction prev y ≠ .diagonal := by
          intro hd; rw [if_pos hd] at h2; omega
        rw [if_neg hd] at h2
        obtain ⟨ho, hpc, hcc, ec⟩ := hk (by omega)
        obtain ⟨e1, e2⟩ := direction_spec hadj hay hpy hd
        have e2 := e2 hpc
        have hstep : (direction prev y).step = o.step := by
          have h3 := e2.symm.trans ec
          rw [Prod.mk.injEq] at h3
          exact Prod.ext (by omega) (by omega)
        have hy : before y (direction prev y).step i = before cur o.step (i - 1) := by
          obtain ⟨j, rfl⟩ : ∃ j, i = j + 1 := ⟨i - 1, by omega⟩
          rw [before_succ, hstep, Nat.add_sub_cancel]
          rw [hstep] at e1
          rw [e1]
          congr 1
          exact Prod.ext (by simp) (by simp)
        rw [hy]
        by_cases hi : i = 1
        · subst hi; rw [Nat.sub_self, before_zero]; exact hcc
        · exact hback (i - 1) (by omega) (by omega)
end

/-- C88.  When an edge has been made its label is written, without a write outside the board: either nothing, or the decimal
digits of its cost, from left to right or from top to bottom, each on its own cell of the way of this edge between its ends,
hence neither on a vertex nor on the way of another edge.  If there is a straight stretch that is longer than the label by four
cells, before the last cell of the way, the label is written.  `fs` are the edges made so far. -/
theorem C88_label (wide : Bool) (hash : Pt → UInt64) (hp : Heap) (junk : Nat → Fhm.Cell Back) (junkQ : Nat → Pt) {n : Nat}
    (pl : Placed b net n) (h0 : ∀ v, (net v).edges = []) :
    ∃ b' net' es, buildEdges (cfg wide hash) hp junk junkQ (List.range n) b net = some (b', net', es) ∧
      Drawn b net b' net' es ∧
      ∀ fs, fs <+: es → ∀ e ∈ fs, ∃ l, addLabel b' net' fs e = some l ∧ (l = [] ∨ Labels e.way.dropLast e.cost l) ∧
        ∀ A p u B, Adj (0, 0) u → B ≠ [] → (net e.dst).pos :: e.way = A ++ line p u (countDigits e.cost + 4) ++ B →
          Labels e.way.dropLast e.cost l := by
  obtain ⟨b', net', es, e, d, m, h⟩ := build_track wide hash hp junk junkQ pl h0
  refine ⟨b', net', es, e, d, ?_⟩
  intro fs hfs e he
  obtain ⟨F, t⟩ := h fs hfs e he
  have hl := t.least
  unfold addLabel
  rw [makeEdge_comm t.lt]
  have := label_spec (cost := e.cost) (id := idAt fs) (edge := makeEdge e.src e.dst) t.inner t.ends.1 t.at_ t.atSrc
    (fun p hp => ⟨_, t.at_ p (t.inner p (hl.1.free p hp)).in_⟩) e.way (net' e.dst).pos (net' e.dst).pos 0 .north
    t.innerDst t.ne hl (hl.notin t.ne) t.ids (fun _ h => h) (fun p h => by
      left
      rcases t.only p h with h | h
      · exact List.mem_cons_of_mem _ (List.dropLast_subset _ h)
      · rw [h]; exact List.mem_cons_of_mem _ hl.1.start_mem) (.inl rfl) (.inl rfl) (by omega) (by omega)
  obtain ⟨l, el, hlab⟩ := this
  refine ⟨l, el, hlab.imp_left And.left, ?_⟩
  intro A p u B hu hB hpath
  rcases hlab with ⟨_, hno⟩ | h
  · rw [← m.pos] at hpath
    exact absurd (room_stretch hu hB p A 0 _ _ _ (by omega) hpath) hno
  · exact h

/-! ### A label that is written -/

/-- A board of 5 by 10 cells with two vertices, and an edge along the row between them. -/
def labelBoard : Board := ⟨5, 10, fun p => ⟨if p = (2, 2) then some 0 else if p = (2, 7) then some 1 else none,
  decide (p.1 = 0 ∨ p.1 = 4 ∨ p.2 = 0 ∨ p.2 = 9 ∨ (p.1 = 2 ∧ 2 ≤ p.2 ∧ p.2 ≤ 7))⟩⟩
def labelNet : Net := fun v => if v = 0 then ⟨(2, 2), [(1, 5)]⟩ else ⟨(2, 7), [(0, 5)]⟩
def labelEdge : Edge := ⟨0, 1, 5, [(2, 6), (2, 5), (2, 4), (2, 3), (2, 2)]⟩

theorem labelLoop_go {id : Pt → Nat × Nat} {edge : Nat × Nat} {dst cost k : Nat} {goal cur prev y : Pt} {o : Facing}
    (h1 : cur ≠ goal) (h2 : k ≠ countDigits cost + 2) (h3 : turn b id edge dst cur prev dirs = some (.go y)) :
    labelLoop b id edge dst goal cost cur prev k o =
      labelLoop b id edge dst goal cost y cur (if direction prev y = .diagonal then 0 else k + 1) (direction prev y) := by
  rw [labelLoop, if_neg h1, if_neg h2, h3]; rfl

/-- The cost is written on the third cell from the right, as the edge was found from there. -/
theorem sample_label : addLabel labelBoard labelNet [labelEdge] labelEdge = some [((2, 5), 5)] := by
  have hc : countDigits 5 = 1 := by simp [countDigits]
  unfold addLabel
  rw [show labelEdge.cost = 5 from rfl]
  rw [labelLoop_go (y := (2, 6)) (by decide) (by rw [hc]; decide) (by rfl)]
  rw [labelLoop_go (y := (2, 5)) (by decide) (by rw [hc]; decide) (by rfl)]
  rw [labelLoop_go (y := (2, 4)) (by decide) (by rw [hc]; decide) (by rfl)]
  rw [labelLoop, if_neg (by decide), if_pos (by rw [hc]; decide), hc]
  unfold encodeDigits
  rw [if_neg (by decide)]
  rw [writeDigits, dif_neg (by decide), writeDigits]
  rfl

end CCC.Search
