import Verif.Model.SearchShape
import Verif.Props.SearchPaint
/-
C90: the shapes of the ways in `samples/graph.c`.
-/
namespace CCC.Search
open CCC

variable {b b' : Board} {net net' : Net}

theorem mem_joins {src dst : Nat} {edge : Nat × Nat} {path : Pt → Bool} {id : Pt → Nat × Nat} {p q : Pt} :
    q ∈ joins b src dst edge path id p ↔ Adj p q ∧ b.In q ∧
      ((b.cell q).vertex = some src ∨ (b.cell q).vertex = some dst ∨ (path q = true ∧ id q = edge)) := by
  obtain ⟨p1, p2⟩ := p
  obtain ⟨q1, q2⟩ := q
  unfold joins
  rw [List.mem_filter]
  refine and_congr ?_ ?_
  · simp only [List.mem_cons, List.not_mem_nil, or_false, Prod.mk.injEq, Adj]
    omega
  · simp only [Bool.and_eq_true, Bool.or_eq_true, decide_eq_true_eq, Board.In, or_assoc]

section
variable {src dst : Nat} {edge : Nat × Nat}

theorem shapeWay_sound {x y : Pt} : ∀ (way : List Pt) (path : Pt → Bool) (id : Pt → Nat × Nat),
    (x, y) ∈ shapeWay b src dst edge path id way → x ∈ way ∧ b.In y ∧ ((b.cell y).vertex = some src ∨
      (b.cell y).vertex = some dst ∨ y ∈ way ∨ id y = edge) := by
  intro way
  induction way with
  | nil => intro _ _ h; cases h
  | cons p l ih =>
    intro path id h
    simp only [shapeWay, List.mem_append, List.mem_map, Prod.mk.injEq] at h
    rcases h with ⟨q, h, rfl, rfl⟩ | h
    · obtain ⟨_, hi, h⟩ := mem_joins.1 h
      refine ⟨by simp, hi, ?_⟩
      rcases h with h | h | ⟨_, h⟩
      · exact .inl h
      · exact .inr (.inl h)
      · by_cases e : q = p
        · exact .inr (.inr (.inl (by simp [e])))
        · rw [if_neg e] at h; exact .inr (.inr (.inr h))
    · obtain ⟨h1, hi, h2⟩ := ih _ _ h
      refine ⟨List.mem_cons_of_mem _ h1, hi, ?_⟩
      rcases h2 with h | h | h | h
      · exact .inl h
      · exact .inr (.inl h)
      · exact .inr (.inr (.inl (List.mem_cons_of_mem _ h)))
      · by_cases e : y = p
        · exact .inr (.inr (.inl (by simp [e])))
        · rw [if_neg e] at h; exact .inr (.inr (.inr h))

theorem shapeWay_consec {x y : Pt} (a : Adj x y) (hx : b.In x) {B : List Pt} : ∀ (A : List Pt) (path : Pt → Bool)
    (id : Pt → Nat × Nat), ((id x).1 ||| edge.1, (id x).2 ||| edge.2) = edge →
    (y, x) ∈ shapeWay b src dst edge path id (A ++ x :: y :: B) := by
  intro A
  induction A with
  | nil =>
    intro path id h
    simp only [List.nil_append, shapeWay, List.mem_append, List.mem_map, Prod.mk.injEq]
    right; left
    refine ⟨x, mem_joins.2 ⟨a.symm, hx, .inr (.inr ⟨by simp, ?_⟩)⟩, by simp⟩
    rw [if_neg a.ne, if_pos rfl, h]
  | cons p A ih =>
    intro path id h
    simp only [List.cons_append, shapeWay, List.mem_append]
    right
    apply ih
    by_cases e : x = p
    · rw [if_pos e, h]; exact Prod.ext (Nat.or_self _) (Nat.or_self _)
    · rw [if_neg e]; exact h

end

theorem mem_shapeAll {x : Pt × Pt} : ∀ (es fs : List Edge), x ∈ shapeAll b fs es ↔ ∃ gs e hs, es = gs ++ e :: hs ∧
    x ∈ shapeWay b e.src e.dst (makeEdge e.src e.dst)
      (fun x => (b.cell x).path || (fs ++ gs).any (fun f => decide (x ∈ f.way))) (idAt (fs ++ gs)) e.way := by
  intro es
  induction es with
  | nil =>
    intro fs
    constructor
    · intro h; cases h
    · rintro ⟨gs, e, hs, h, _⟩; simp at h
  | cons e es ih =>
    intro fs
    rw [shapeAll, List.mem_append, ih]
    constructor
    · rintro (h | ⟨gs, f, hs, rfl, h⟩)
      · exact ⟨[], e, es, rfl, by rw [List.append_nil]; exact h⟩
      · exact ⟨e :: gs, f, hs, rfl, by rw [List.append_assoc] at h; exact h⟩
    · rintro ⟨gs, f, hs, he, h⟩
      cases gs with
      | nil =>
        simp only [List.nil_append, List.cons.injEq] at he
        obtain ⟨rfl, rfl⟩ := he
        rw [List.append_nil] at h
        exact .inl h
      | cons g gs =>
        simp only [List.cons_append, List.cons.injEq] at he
        obtain ⟨rfl, rfl⟩ := he
        exact .inr ⟨gs, f, hs, rfl, by rw [List.append_assoc]; exact h⟩

/-- Neighbours on a shortest way follow one another on it. -/
theorem Least.consec {F : Pt → Prop} {s : Pt} : ∀ {l : List Pt} {q : Pt}, Least F s q l → ∀ x ∈ q :: l, ∀ y ∈ q :: l,
    Adj x y → (∃ A B, q :: l = A ++ x :: y :: B) ∨ (∃ A B, q :: l = A ++ y :: x :: B)
  | [], _, h => h.1.elim
  | a :: l, q, h => by
    intro x hx y hy ad
    have first : ∀ z ∈ a :: l, Adj z q → z = a := by
      intro z hz az
      rcases List.mem_cons.1 hz with rfl | hz
      · rfl
      · exact absurd az (h.chord hz)
    rcases List.mem_cons.1 hx with rfl | hx'
    · rcases List.mem_cons.1 hy with rfl | hy
      · exact absurd rfl ad.ne
      · have := first y hy ad.symm
        subst this
        exact .inl ⟨[], l, rfl⟩
    · rcases List.mem_cons.1 hy with rfl | hy'
      · have := first x hx' ad
        subst this
        exact .inr ⟨[], l, rfl⟩
      · by_cases hl : l = []
        · subst hl
          rw [List.mem_singleton] at hx' hy'
          subst hx'; subst hy'
          exact absurd rfl ad.ne
        · rcases (h.tail hl).2.consec x hx' y hy' ad with ⟨A, B, e⟩ | ⟨A, B, e⟩
          · exact .inl ⟨q :: A, B, by rw [e]; rfl⟩
          · exact .inr ⟨q :: A, B, by rw [e]; rfl⟩

theorem idAt_snoc (fs : List Edge) (e : Edge) (p : Pt) : idAt (fs ++ [e]) p =
    if p ∈ e.way then ((idAt fs p).1 ||| (makeEdge e.src e.dst).1, (idAt fs p).2 ||| (makeEdge e.src e.dst).2)
    else idAt fs p := by
  simp only [idAt, orAt, List.foldl_append, List.foldl_cons, List.foldl_nil]
  split <;> rfl

/-- C90.  On the graph the program makes, a cell drawn for an edge between its ends points to a neighbour, in the shape it is
printed with, if and only if the neighbour is on the way of the same edge, its ends included. -/
theorem C90_shape (wide : Bool) (hash : Pt → UInt64) (hp : Heap) (junk : Nat → Fhm.Cell Back) (junkQ : Nat → Pt) {n : Nat}
    (pl : Placed b net n) (h0 : ∀ v, (net v).edges = []) :
    ∃ b' net' es, buildEdges (cfg wide hash) hp junk junkQ (List.range n) b net = some (b', net', es) ∧
      Drawn b net b' net' es ∧
      ∀ e ∈ es, ∀ p ∈ e.way.dropLast, ∀ q, Adj p q →
        (((p, q) ∈ shapeAll b [] es ∨ (q, p) ∈ shapeAll b [] es) ↔ q ∈ (net e.dst).pos :: e.way) := by
  obtain ⟨b', net', es, eb, d, m, h⟩ := build_track wide hash hp junk junkQ pl h0
  refine ⟨b', net', es, eb, d, ?_⟩
  have hapart : ∀ f ∈ es, ∀ g ∈ es, ∀ p, p ∈ f.way.dropLast → p ∈ g.way.dropLast → f = g := by
    have hs : Std.Symm (fun f g : Edge => ∀ p, p ∈ f.way.dropLast → p ∈ g.way.dropLast → f = g) :=
      ⟨fun f g h p hp hq => (h p hq hp).symm⟩
    have := List.Pairwise.forall_of_forall (l := es)
      (R := fun f g : Edge => ∀ p, p ∈ f.way.dropLast → p ∈ g.way.dropLast → f = g) (fun _ _ _ _ _ => rfl)
      (d.apart.imp (fun h p hp hq => absurd hq (h p hp)))
    intro f hf g hg
    exact this hf hg
  have hvert : ∀ p v, b.In p → (b.cell p).vertex = some v → ¬ b.Free p := by
    intro p v hp hv hf
    obtain ⟨h1, rfl⟩ := (pl.cells p v hp).1 hv
    have := hf.2
    rw [pl.taken v h1] at this
    cases this
  have hpos : ∀ p v, b.In p → (b.cell p).vertex = some v → p = (net v).pos := fun p v hp hv => ((pl.cells p v hp).1 hv).2.symm
  /- a cell of a way is one of its inner cells or the vertex it was made from -/
  have hcell : ∀ f ∈ es, ∀ p ∈ f.way, b.Free p → p ∈ f.way.dropLast := by
    intro f hf p hp hfr
    rcases (d.way f hf).1.last p hp with h1 | h1
    · exact h1
    · obtain ⟨F, t⟩ := h es (List.prefix_refl _) f hf
      have h2 := (t.atSrc p ((m.in_ p).2 hfr.1)).2 (by rw [m.pos]; exact h1)
      rw [m.vertex] at h2
      exact absurd hfr (hvert p _ hfr.1 h2)
  /- what is joined is on one way -/
  have hsound : ∀ x y, (x, y) ∈ shapeAll b [] es → ∃ f ∈ es, x ∈ f.way ∧ b.In y ∧ y ∈ (net f.dst).pos :: f.way := by
    intro x y hxy
    obtain ⟨gs, f, hs, e, hxy⟩ := (mem_shapeAll _ _).1 hxy
    rw [List.nil_append] at hxy
    have hf : f ∈ es := by rw [e]; simp
    obtain ⟨F, t⟩ := h (gs ++ [f]) ⟨hs, by rw [e]; simp⟩ f (by simp)
    obtain ⟨h1, hi, h2⟩ := shapeWay_sound _ _ _ hxy
    refine ⟨f, hf, h1, hi, ?_⟩
    have hsrc : (net f.src).pos ∈ f.way := (d.way f hf).1.start_mem
    rcases h2 with h2 | h2 | h2 | h2
    · rw [hpos y _ hi h2]; exact List.mem_cons_of_mem _ hsrc
    · rw [hpos y _ hi h2]; simp
    · exact List.mem_cons_of_mem _ h2
    · by_cases hy : y ∈ f.way
      · exact List.mem_cons_of_mem _ hy
      · have h3 := idAt_snoc gs f y
        rw [if_neg hy, h2] at h3
        rcases t.only y h3 with h4 | h4
        · exact List.mem_cons_of_mem _ (List.dropLast_subset _ h4)
        · rw [h4, m.pos]; exact List.mem_cons_of_mem _ hsrc
  intro e he p hp q a
  have hfree : b.Free p := (d.way e he).1.free p hp
  have hdst : ∀ f ∈ es, b.In p → p ≠ (net f.dst).pos := by
    intro f hf hi e1
    obtain ⟨F, t⟩ := h es (List.prefix_refl _) f hf
    have h2 := (t.atDst p ((m.in_ p).2 hi)).2 (by rw [m.pos]; exact e1)
    rw [m.vertex] at h2
    exact hvert p _ hi h2 hfree
  have hsame : ∀ f ∈ es, p ∈ (net f.dst).pos :: f.way → f = e := by
    intro f hf hpf
    rcases List.mem_cons.1 hpf with h1 | h1
    · exact absurd h1 (hdst f hf hfree.1)
    · exact hapart f hf e he p (hcell f hf p h1 hfree) hp
  constructor
  · rintro (hj | hj)
    · obtain ⟨f, hf, h1, _, h2⟩ := hsound _ _ hj
      rw [← hsame f hf (List.mem_cons_of_mem _ h1)]
      exact h2
    · obtain ⟨f, hf, h1, _, h2⟩ := hsound _ _ hj
      rw [← hsame f hf h2]
      exact List.mem_cons_of_mem _ h1
  · intro hq
    obtain ⟨gs, hs, ees⟩ := List.append_of_mem he
    obtain ⟨F, t⟩ := h es (List.prefix_refl _) e he
    have hl := t.least
    rw [m.pos, m.pos] at hl
    /- consecutive cells are joined -/
    have hcon : ∀ x y A B, (net e.dst).pos :: e.way = A ++ x :: y :: B → (y, x) ∈ shapeAll b [] es := by
      intro x y A B hw
      refine (mem_shapeAll _ _).2 ⟨gs, e, hs, ees, ?_⟩
      rw [List.nil_append]
      cases A with
      | nil =>
        simp only [List.nil_append, List.cons.injEq] at hw
        obtain ⟨rfl, hw⟩ := hw
        have hr := (d.way e he).1
        rw [hw] at hr ⊢
        simp only [shapeWay, List.mem_append, List.mem_map, Prod.mk.injEq]
        left
        have hin : b.In (net e.dst).pos := by
          have := t.innerDst.in_
          rw [m.pos] at this
          exact (m.in_ _).1 this
        have hv := (t.atDst (net e.dst).pos ((m.in_ _).2 hin)).2 (by rw [m.pos])
        rw [m.vertex] at hv
        exact ⟨_, mem_joins.2 ⟨hr.1, hin, .inr (.inl hv)⟩, by simp⟩
      | cons z A =>
        simp only [List.cons_append, List.cons.injEq] at hw
        obtain ⟨rfl, hw⟩ := hw
        have hxd : x ∈ e.way.dropLast := by
          rw [hw, List.dropLast_append_of_ne_nil (by simp), List.dropLast_cons_of_ne_nil (by simp)]
          simp
        have hxf : b.Free x := (d.way e he).1.free x hxd
        have hadj : Adj x y := by
          have hr := (d.way e he).1
          rw [hw] at hr
          have : ∀ (A : List Pt) (q : Pt), Route b.Free (net e.src).pos q (A ++ x :: y :: B) → Adj x y := by
            intro A
            induction A with
            | nil =>
              intro q r
              rcases r.2 with ⟨_, h⟩ | ⟨_, r⟩
              · cases h
              · exact r.1.symm
            | cons c A ih =>
              intro q r
              rcases r.2 with ⟨_, h⟩ | ⟨_, r⟩
              · simp at h
              · exact ih c r
          exact this A _ hr
        have hall : ∀ f ∈ gs, x ∈ f.way → f = e := by
          intro f hf hxw
          have hf : f ∈ es := by rw [ees]; simp [hf]
          exact hapart f hf e he x (hcell f hf x hxw hxf) hxd
        have hor : ((idAt gs x).1 ||| (makeEdge e.src e.dst).1, (idAt gs x).2 ||| (makeEdge e.src e.dst).2) =
            makeEdge e.src e.dst := by
          refine Prod.ext ?_ ?_
          · rcases orAt_const (g := fun e => (makeEdge e.src e.dst).1) (c := (makeEdge e.src e.dst).1) (p := x) (es := gs)
              (fun f hf hx => by rw [hall f hf hx]) with h | h <;> simp [idAt, h.1]
          · rcases orAt_const (g := fun e => (makeEdge e.src e.dst).2) (c := (makeEdge e.src e.dst).2) (p := x) (es := gs)
              (fun f hf hx => by rw [hall f hf hx]) with h | h <;> simp [idAt, h.1]
        rw [hw]
        exact shapeWay_consec hadj hxf.1 A _ _ hor
    rcases hl.consec p (List.mem_cons_of_mem _ (List.dropLast_subset _ hp)) q hq a with ⟨A, B, hw⟩ | ⟨A, B, hw⟩
    · exact .inr (hcon _ _ A B hw)
    · exact .inl (hcon _ _ A B hw)

/-- The board of `sample_placed` meets the hypotheses, and the cell between its two vertices points to the second. -/
theorem sample_shape (wide : Bool) (hash : Pt → UInt64) (hp : Heap) (junk : Nat → Fhm.Cell Back) (junkQ : Nat → Pt) :
    ∃ b' net' es, buildEdges (cfg wide hash) hp junk junkQ (List.range 2) sampleBoard sampleNet = some (b', net', es) ∧
      ∃ e ∈ es, ∃ p ∈ e.way.dropLast, Adj p (sampleNet e.dst).pos ∧ ((p, (sampleNet e.dst).pos) ∈ shapeAll sampleBoard [] es ∨
        ((sampleNet e.dst).pos, p) ∈ shapeAll sampleBoard [] es) := by
  obtain ⟨b', net', es, e, d, h⟩ := C90_shape wide hash hp junk junkQ sample_placed (fun _ => rfl)
  obtain ⟨net₁, way, e₃⟩ := sample_joined wide hash hp junk junkQ
  have hes : ∃ f ∈ es, f.src = 0 ∧ f.dst = 1 ∧ f.cost = 2 := by
    have e := e
    simp only [show List.range 2 = [0, 1] from rfl, buildEdges, Option.bind_eq_bind, Option.bind_eq_some_iff] at e
    obtain ⟨⟨b₁, n₁, es₁⟩, h1, ⟨b₂, n₂, es₂⟩, _, h3⟩ := e
    rw [joinAll, if_pos (by decide), e₃] at h1
    simp only [Option.bind_eq_bind, Option.bind_some, Option.bind_eq_some_iff] at h1
    obtain ⟨⟨b₃, n₃, es₃⟩, _, h4⟩ := h1
    simp only [Option.some.injEq, Prod.mk.injEq] at h3 h4
    rw [← h3.2.2, ← h4.2.2]
    exact ⟨⟨0, 1, 2, way⟩, by simp, rfl, rfl, rfl⟩
  obtain ⟨g, hg, g0, g1, g2⟩ := hes
  obtain ⟨hr, hlen⟩ := d.way g hg
  refine ⟨b', net', es, e, g, hg, ?_⟩
  have hl : g.way.length = 2 := by omega
  obtain ⟨p, q, hw⟩ := List.length_eq_two.1 hl
  have ha : Adj p (sampleNet g.dst).pos := by rw [hw] at hr; exact hr.1
  have hp' : p ∈ g.way.dropLast := by rw [hw]; simp
  exact ⟨p, hp', ha, (h g hg p hp' _ ha).2 (by simp)⟩

end CCC.Search
