import Verif.Props.Search
/-
C85, the whole graph: the edges laid out by `build_graph` of `samples/graph.c`.
-/
namespace CCC.Search
open CCC HashMap

variable {b b' : Board} {net net' : Net} {src : Nat}

theorem Walk.mono {F G : Pt → Prop} (h : ∀ p, F p → G p) {s : Pt} {n : Nat} {p : Pt} (w : Walk F s n p) : Walk G s n p := by
  induction w with
  | start => exact .start
  | step _ a hf ih => exact .step ih a (h _ hf)

theorem Reach.mono {F G : Pt → Prop} (h : ∀ p, F p → G p) {s : Pt} {n : Nat} {p : Pt} (w : Reach F s n p) :
    Reach G s n p := by
  obtain ⟨m, q, e, w, a⟩ := w
  exact ⟨m, q, e, w.mono h, a⟩

theorem draw_in (way : List Pt) (p : Pt) : (draw b way).In p ↔ b.In p := Iff.rfl
theorem draw_vertex (way : List Pt) (p : Pt) : ((draw b way).cell p).vertex = (b.cell p).vertex := by
  simp only [draw]; split <;> rfl
theorem draw_path (way : List Pt) (p : Pt) (h : (b.cell p).path = true) : ((draw b way).cell p).path = true := by
  simp only [draw]; split
  · rfl
  · exact h
theorem draw_free (way : List Pt) (p : Pt) (h : (draw b way).Free p) : b.Free p := by
  refine ⟨h.1, ?_⟩
  cases e : (b.cell p).path with
  | false => rfl
  | true => have := h.2; rw [draw_path way p e] at this; cases this

/-- The board and the vertices before any edge is made: the outline is a path, there are `n` vertices, each with its cell
inside the outline, which counts as a cell of a path. -/
structure Placed (b : Board) (net : Net) (n : Nat) : Prop where
  border : ∀ p, b.In p → p.1 = 0 ∨ p.1 = b.rows - 1 ∨ p.2 = 0 ∨ p.2 = b.cols - 1 → (b.cell p).path = true
  inside : ∀ v, v < n → 0 < (net v).pos.1 ∧ (net v).pos.1 < b.rows - 1 ∧ 0 < (net v).pos.2 ∧ (net v).pos.2 < b.cols - 1
  cells : ∀ p v, b.In p → ((b.cell p).vertex = some v ↔ v < n ∧ (net v).pos = p)
  taken : ∀ v, v < n → (b.cell (net v).pos).path = true
  size : b.rows * b.cols ≤ 2147483647

/-- A graph without loops, without multiple edges, with at most four edges at each vertex, in which every edge is known at
both ends with the same positive cost. -/
structure Simple (net : Net) (n : Nat) : Prop where
  both : ∀ v w k, (w, k) ∈ (net v).edges → (v, k) ∈ (net w).edges
  loop : ∀ v w k, (w, k) ∈ (net v).edges → w ≠ v
  once : ∀ v, ((net v).edges.map Prod.fst).Nodup
  four : ∀ v, (net v).edges.length ≤ 4
  name : ∀ v w k, (w, k) ∈ (net v).edges → v < n ∧ w < n
  cost : ∀ v w k, (w, k) ∈ (net v).edges → 1 ≤ k

/-- No edge can be added to the vertex. -/
def Full (b : Board) (net : Net) (v : Nat) : Prop :=
  (net v).edges.length = 4 ∨ ∀ w q n, Joinable b net v w q → ¬ Reach b.Free (net v).pos n q

/-- `b'` and `net'` come from `b` and `net` by adding edges. -/
structure More (b : Board) (net : Net) (b' : Board) (net' : Net) : Prop where
  rows : b'.rows = b.rows
  cols : b'.cols = b.cols
  vertex : ∀ p, (b'.cell p).vertex = (b.cell p).vertex
  path : ∀ p, (b.cell p).path = true → (b'.cell p).path = true
  pos : ∀ v, (net' v).pos = (net v).pos
  edges : ∀ v, ∃ l, (net' v).edges = (net v).edges ++ l

theorem More.refl (b : Board) (net : Net) : More b net b net :=
  ⟨rfl, rfl, fun _ => rfl, fun _ h => h, fun _ => rfl, fun _ => ⟨[], by simp⟩⟩

theorem More.trans {b₁ b₂ b₃ : Board} {n₁ n₂ n₃ : Net} (h : More b₁ n₁ b₂ n₂) (g : More b₂ n₂ b₃ n₃) :
    More b₁ n₁ b₃ n₃ := by
  refine ⟨g.rows.trans h.rows, g.cols.trans h.cols, fun p => (g.vertex p).trans (h.vertex p),
    fun p hp => g.path p (h.path p hp), fun v => (g.pos v).trans (h.pos v), fun v => ?_⟩
  obtain ⟨l, e⟩ := h.edges v
  obtain ⟨l', e'⟩ := g.edges v
  exact ⟨l ++ l', by rw [e', e, List.append_assoc]⟩

theorem More.in_ (h : More b net b' net') (p : Pt) : b'.In p ↔ b.In p := by
  unfold Board.In; rw [h.rows, h.cols]

theorem More.free (h : More b net b' net') (p : Pt) (hf : b'.Free p) : b.Free p := by
  refine ⟨(h.in_ p).1 hf.1, ?_⟩
  cases e : (b.cell p).path with
  | false => rfl
  | true => have := hf.2; rw [h.path p e] at this; cases this

theorem More.placed {n : Nat} (h : More b net b' net') (pl : Placed b net n) : Placed b' net' n := by
  refine ⟨?_, ?_, ?_, ?_, ?_⟩
  · intro p hp hb
    rw [h.rows, h.cols] at hb
    exact h.path p (pl.border p ((h.in_ p).1 hp) hb)
  · intro v hv; rw [h.pos, h.rows, h.cols]; exact pl.inside v hv
  · intro p v hp; rw [h.vertex, h.pos]; exact pl.cells p v ((h.in_ p).1 hp)
  · intro v hv; rw [h.pos]; exact h.path _ (pl.taken v hv)
  · rw [h.rows, h.cols]; exact pl.size

theorem More.full (h : More b net b' net') {v n : Nat} (s : Simple net' n) (hf : Full b net v) : Full b' net' v := by
  obtain ⟨l, e⟩ := h.edges v
  rcases hf with hf | hf
  · left
    have := s.four v
    rw [e, List.length_append] at this ⊢
    omega
  · right
    intro w q k hj hr
    obtain ⟨l', e'⟩ := h.edges w
    refine hf w q k ⟨(h.in_ q).1 hj.1, by rw [← h.vertex]; exact hj.2.1, hj.2.2.1, ?_, ?_⟩ ?_
    · have := hj.2.2.2.1
      rw [e', List.length_append] at this
      omega
    · intro x hx
      exact hj.2.2.2.2 x (by rw [e]; simp [hx])
    · rw [h.pos] at hr
      exact hr.mono h.free

theorem Placed.ready {n : Nat} (pl : Placed b net n) {v : Nat} (hv : v < n) : Ready b net v := by
  have hin := pl.inside v hv
  refine ⟨pl.border, hin, ?_, ?_, pl.size⟩
  · exact (pl.cells _ v (by unfold Board.In; omega)).2 ⟨hv, rfl⟩
  · intro p w hp hw
    exact ((pl.cells p w hp).1 hw).2

theorem Joined.more {dst n : Nat} (j : Joined net net' src dst n) (way : List Pt) : More b net (draw b way) net' := by
  refine ⟨rfl, rfl, draw_vertex way, draw_path way, j.pos, fun v => ?_⟩
  by_cases h1 : v = src
  · subst h1; exact ⟨_, j.here⟩
  · by_cases h2 : v = dst
    · subst h2; exact ⟨_, j.there⟩
    · exact ⟨[], by rw [j.others v h1 h2]; simp⟩

theorem Joined.simple {dst k n : Nat} (j : Joined net net' src dst k) (s : Simple net n) (hs : src < n) (hd : dst < n)
    (hne : src ≠ dst) (h1 : (net src).edges.length < 4) (h2 : (net dst).edges.length < 4)
    (hno : ∀ e ∈ (net src).edges, e.1 ≠ dst) (hk : 1 ≤ k) : Simple net' n := by
  have hno' : ∀ e ∈ (net dst).edges, e.1 ≠ src := by
    rintro ⟨w, c⟩ he rfl
    exact hno _ (s.both _ _ _ he) rfl
  /- an edge of the new graph is old or new -/
  have hmem : ∀ v w c, (w, c) ∈ (net' v).edges ↔ (w, c) ∈ (net v).edges ∨ (v = src ∧ w = dst ∧ c = k) ∨
      (v = dst ∧ w = src ∧ c = k) := by
    intro v w c
    by_cases e1 : v = src
    · subst e1; rw [j.here]; simp [hne]
    · by_cases e2 : v = dst
      · subst e2; rw [j.there]; simp [e1]
      · rw [j.others v e1 e2]; simp [e1, e2]
  refine ⟨?_, ?_, ?_, ?_, ?_, ?_⟩
  · intro v w c h
    rw [hmem] at h ⊢
    rcases h with h | ⟨rfl, rfl, rfl⟩ | ⟨rfl, rfl, rfl⟩
    · exact .inl (s.both v w c h)
    · exact .inr (.inr ⟨rfl, rfl, rfl⟩)
    · exact .inr (.inl ⟨rfl, rfl, rfl⟩)
  · intro v w c h
    rw [hmem] at h
    rcases h with h | ⟨rfl, rfl, rfl⟩ | ⟨rfl, rfl, rfl⟩
    · exact s.loop v w c h
    · exact hne.symm
    · exact hne
  · intro v
    by_cases e1 : v = src
    · subst e1; rw [j.here, List.map_append, List.nodup_append]
      refine ⟨s.once _, by simp, ?_⟩
      intro a ha c hc
      obtain ⟨x, hx, rfl⟩ := List.mem_map.1 ha
      simp only [List.map_cons, List.map_nil, List.mem_singleton] at hc
      subst hc
      exact hno x hx
    · by_cases e2 : v = dst
      · subst e2; rw [j.there, List.map_append, List.nodup_append]
        refine ⟨s.once _, by simp, ?_⟩
        intro a ha c hc
        obtain ⟨x, hx, rfl⟩ := List.mem_map.1 ha
        simp only [List.map_cons, List.map_nil, List.mem_singleton] at hc
        subst hc
        exact hno' x hx
      · rw [j.others v e1 e2]; exact s.once v
  · intro v
    by_cases e1 : v = src
    · subst e1; rw [j.here]; simp; omega
    · by_cases e2 : v = dst
      · subst e2; rw [j.there]; simp; omega
      · rw [j.others v e1 e2]; exact s.four v
  · intro v w c h
    rw [hmem] at h
    rcases h with h | ⟨rfl, rfl, rfl⟩ | ⟨rfl, rfl, rfl⟩
    · exact s.name v w c h
    · exact ⟨hs, hd⟩
    · exact ⟨hd, hs⟩
  · intro v w c h
    rw [hmem] at h
    rcases h with h | ⟨rfl, rfl, rfl⟩ | ⟨rfl, rfl, rfl⟩
    · exact s.cost v w c h
    · exact hk
    · exact hk

theorem Route.mono {F G : Pt → Prop} (h : ∀ p, F p → G p) {s : Pt} : ∀ {l : List Pt} {q : Pt}, Route F s q l →
    Route G s q l
  | [], _, r => r
  | _ :: _, _, ⟨a, r⟩ => ⟨a, r.imp_right (fun r => ⟨h _ r.1, r.2.mono h⟩)⟩

theorem Route.free {F : Pt → Prop} {s : Pt} : ∀ {l : List Pt} {q : Pt}, Route F s q l → ∀ p ∈ l.dropLast, F p
  | [], _, r => r.elim
  | [_], _, _ => by simp
  | x :: y :: l, _, ⟨_, r⟩ => by
    intro p hp
    rcases r with ⟨_, h⟩ | ⟨hx, r⟩
    · cases h
    · rw [List.dropLast_cons_of_ne_nil (by simp)] at hp
      rcases List.mem_cons.1 hp with rfl | hp
      · exact hx
      · exact r.free p hp

/-- `es` are the edges added between `b`, `net` and `b'`, `net'`:
- the cells drawn for an edge lead from one end to the other over cells that belonged to no path in `b`, and the cost is
  their number, at most the number of cells of the board;
- the ways of two of them share no cell other than that of the vertex at the end;
- they are the edges known at their ends, besides the edges of `net`. -/
structure Drawn (b : Board) (net : Net) (b' : Board) (net' : Net) (es : List Edge) : Prop where
  way : ∀ e ∈ es, Route b.Free (net e.src).pos (net e.dst).pos e.way ∧ e.way.length = e.cost ∧
    (e.cost : Int) ≤ b.rows * b.cols
  apart : es.Pairwise (fun e f => ∀ p ∈ e.way.dropLast, p ∉ f.way.dropLast)
  path : ∀ e ∈ es, ∀ p ∈ e.way, (b'.cell p).path = true
  edges : ∀ v w k, (w, k) ∈ (net' v).edges ↔ (w, k) ∈ (net v).edges ∨
    ∃ e ∈ es, e.cost = k ∧ ((e.src = v ∧ e.dst = w) ∨ (e.src = w ∧ e.dst = v))

theorem Drawn.nil (b : Board) (net : Net) : Drawn b net b net [] := ⟨by simp, by simp, by simp, by simp⟩

theorem Drawn.append {b₁ b₂ b₃ : Board} {n₁ n₂ n₃ : Net} {es fs : List Edge} (h : Drawn b₁ n₁ b₂ n₂ es)
    (m : More b₁ n₁ b₂ n₂) (g : Drawn b₂ n₂ b₃ n₃ fs) (m' : More b₂ n₂ b₃ n₃) : Drawn b₁ n₁ b₃ n₃ (es ++ fs) := by
  refine ⟨?_, ?_, ?_, ?_⟩
  · intro e he
    rcases List.mem_append.1 he with he | he
    · exact h.way e he
    · have := g.way e he
      rw [m.pos, m.pos, m.rows, m.cols] at this
      exact ⟨this.1.mono m.free, this.2⟩
  · rw [List.pairwise_append]
    refine ⟨h.apart, g.apart, ?_⟩
    intro e he f hf p hp hp'
    have h1 := h.path e he p (List.dropLast_subset _ hp)
    have h2 := ((g.way f hf).1.free p hp').2
    rw [h1] at h2; cases h2
  · intro e he p hp
    rcases List.mem_append.1 he with he | he
    · exact m'.path p (h.path e he p hp)
    · exact g.path e he p hp
  · intro v w k
    rw [g.edges, h.edges]
    constructor
    · rintro ((h | ⟨e, he, h⟩) | ⟨e, he, h⟩)
      · exact .inl h
      · exact .inr ⟨e, List.mem_append_left _ he, h⟩
      · exact .inr ⟨e, List.mem_append_right _ he, h⟩
    · rintro (h | ⟨e, he, h⟩)
      · exact .inl (.inl h)
      · rcases List.mem_append.1 he with he | he
        · exact .inl (.inr ⟨e, he, h⟩)
        · exact .inr ⟨e, he, h⟩

theorem Joined.drawn {dst k : Nat} {way : List Pt} (j : Joined net net' src dst k) (hne : src ≠ dst)
    (hr : Route b.Free (net src).pos (net dst).pos way) (hk : way.length = k)
    (hc : (k : Int) ≤ b.rows * b.cols) : Drawn b net (draw b way) net' [⟨src, dst, k, way⟩] := by
  refine ⟨?_, by simp, ?_, ?_⟩
  · intro e he
    rw [List.mem_singleton] at he; subst he
    exact ⟨hr, hk, hc⟩
  · intro e he p hp
    rw [List.mem_singleton] at he; subst he
    have hp : p ∈ way := hp
    simp [draw, hp]
  · intro v w c
    simp only [List.mem_singleton, exists_eq_left]
    by_cases e1 : v = src
    · subst e1; rw [j.here]
      simp only [List.mem_append, List.mem_singleton, Prod.mk.injEq]
      constructor
      · rintro (h | ⟨rfl, rfl⟩)
        · exact .inl h
        · exact .inr ⟨rfl, .inl ⟨trivial, rfl⟩⟩
      · rintro (h | ⟨rfl, ⟨_, rfl⟩ | ⟨rfl, rfl⟩⟩)
        · exact .inl h
        · exact .inr ⟨rfl, rfl⟩
        · exact absurd rfl hne
    · by_cases e2 : v = dst
      · subst e2; rw [j.there]
        simp only [List.mem_append, List.mem_singleton, Prod.mk.injEq]
        constructor
        · rintro (h | ⟨rfl, rfl⟩)
          · exact .inl h
          · exact .inr ⟨rfl, .inr ⟨rfl, trivial⟩⟩
        · rintro (h | ⟨rfl, ⟨rfl, _⟩ | ⟨rfl, _⟩⟩)
          · exact .inl h
          · exact absurd rfl e1
          · exact .inr ⟨rfl, rfl⟩
      · rw [j.others v e1 e2]
        constructor
        · exact .inl
        · rintro (h | ⟨rfl, ⟨rfl, _⟩ | ⟨_, rfl⟩⟩)
          · exact h
          · exact absurd rfl e1
          · exact absurd rfl e2

theorem joinAll_spec (wide : Bool) (hash : Pt → UInt64) (hp : Heap) (junk : Nat → Fhm.Cell Back) (junkQ : Nat → Pt)
    {n : Nat} (hs : src < n) : ∀ (d : Nat) (b : Board) (net : Net), Placed b net n → Simple net n →
    4 - (net src).edges.length ≤ d →
    ∃ b' net' es, joinAll (cfg wide hash) hp junk junkQ b net src = some (b', net', es) ∧ More b net b' net' ∧
      Simple net' n ∧ Full b' net' src ∧ Drawn b net b' net' es := by
  intro d
  induction d with
  | zero =>
    intro b net pl s hd
    have := s.four src
    rw [joinAll, if_neg (by unfold maxDegree; omega)]
    exact ⟨b, net, [], rfl, .refl _ _, s, .inl (by omega), .nil _ _⟩
  | succ d ih =>
    intro b net pl s hd
    by_cases hlt : (net src).edges.length < 4
    · rw [joinAll, if_pos (by unfold maxDegree; exact hlt)]
      rcases C85_closest wide hash hp junk junkQ (pl.ready hs) hlt with
        ⟨e, hno⟩ | ⟨net₁, dst, k, way, e, hj, hw, hroute, hr, _, j, hc⟩
      · exact ⟨b, net, [], by simp [e], .refl _ _, s, .inr hno, .nil _ _⟩
      · have hdst : dst < n := ((pl.cells _ dst hj.1).1 hj.2.1).1
        have hk : 1 ≤ k := by obtain ⟨m, _, rfl, _⟩ := hr; omega
        have s₁ := j.simple s hs hdst hj.2.2.1 hlt hj.2.2.2.1 hj.2.2.2.2 hk
        have m₁ : More b net (draw b way) net₁ := j.more way
        have hlen : (net₁ src).edges.length = (net src).edges.length + 1 := by rw [j.here]; simp
        obtain ⟨b', net', es, e', m', s', f', d'⟩ := ih (draw b way) net₁ (m₁.placed pl) s₁ (by omega)
        exact ⟨b', net', ⟨src, dst, k, way⟩ :: es, by simp [e, e'], m₁.trans m', s', f',
          (j.drawn hj.2.2.1 hroute hw hc).append m₁ d' m'⟩
    · have := s.four src
      rw [joinAll, if_neg (by unfold maxDegree; omega)]
      exact ⟨b, net, [], rfl, .refl _ _, s, .inl (by omega), .nil _ _⟩

theorem buildEdges_spec (wide : Bool) (hash : Pt → UInt64) (hp : Heap) (junk : Nat → Fhm.Cell Back) (junkQ : Nat → Pt)
    {n : Nat} : ∀ (vs : List Nat) (b : Board) (net : Net), (∀ v ∈ vs, v < n) → Placed b net n → Simple net n →
    ∃ b' net' es, buildEdges (cfg wide hash) hp junk junkQ vs b net = some (b', net', es) ∧ More b net b' net' ∧
      Simple net' n ∧ (∀ v ∈ vs, Full b' net' v) ∧ Drawn b net b' net' es := by
  intro vs
  induction vs with
  | nil => intro b net _ _ s; exact ⟨b, net, [], rfl, .refl _ _, s, by simp, .nil _ _⟩
  | cons v vs ih =>
    intro b net hv pl s
    obtain ⟨b₁, net₁, es, e₁, m₁, s₁, f₁, d₁⟩ :=
      joinAll_spec wide hash hp junk junkQ (hv v (by simp)) 4 b net pl s (by omega)
    obtain ⟨b', net', es', e', m', s', f', d'⟩ := ih b₁ net₁ (fun w hw => hv w (by simp [hw])) (m₁.placed pl) s₁
    refine ⟨b', net', es ++ es', by simp [buildEdges, e₁, e'], m₁.trans m', s', ?_, d₁.append m₁ d' m'⟩
    intro w hw
    rcases List.mem_cons.1 hw with rfl | hw
    · exact m'.full s' f₁
    · exact f' w hw

/-- C85, the whole graph.  From vertices without edges on a board with an outline, the program lays out its edges `es`,
without failure, and in the end:
- the graph has no loops and no multiple edges, at most four edges at each vertex, and every edge is known at both ends
  with the same positive cost;
- an edge is drawn along a way over cells that were free at the beginning, hence neither through a vertex nor over the
  outline, its cost is the length of the way, and two ways share no cell except for a vertex at the end;
- no edge is missing: every vertex has four edges or none can be added to it;
- the vertices are where they were. -/
theorem C85_graph (wide : Bool) (hash : Pt → UInt64) (hp : Heap) (junk : Nat → Fhm.Cell Back) (junkQ : Nat → Pt) {n : Nat}
    (pl : Placed b net n) (h0 : ∀ v, (net v).edges = []) :
    ∃ b' net' es, buildEdges (cfg wide hash) hp junk junkQ (List.range n) b net = some (b', net', es) ∧ Simple net' n ∧
      Drawn b net b' net' es ∧ (∀ v, v < n → Full b' net' v) ∧ (∀ v, (net' v).pos = (net v).pos) ∧
      ∀ p, (b'.cell p).vertex = (b.cell p).vertex := by
  have s : Simple net n := by constructor <;> simp [h0]
  obtain ⟨b', net', es, e, m, s', f, d⟩ := buildEdges_spec wide hash hp junk junkQ (List.range n) b net
    (fun v hv => List.mem_range.1 hv) pl s
  exact ⟨b', net', es, e, s', d, fun v hv => f v (List.mem_range.2 hv), m.pos, m.vertex⟩

/-! ### A board that meets the hypotheses -/

/-- A board of 5 by 7 cells with its outline and two vertices. -/
def sampleBoard : Board :=
  ⟨5, 7, fun p => ⟨if p = (2, 2) then some 0 else if p = (2, 4) then some 1 else none,
    decide (p.1 = 0 ∨ p.1 = 4 ∨ p.2 = 0 ∨ p.2 = 6 ∨ p = (2, 2) ∨ p = (2, 4))⟩⟩
/-- Its vertices. -/
def sampleNet : Net := fun v => ⟨if v = 0 then (2, 2) else (2, 4), []⟩

theorem sample_placed : Placed sampleBoard sampleNet 2 := by
  refine ⟨?_, ?_, ?_, ?_, by decide⟩
  rotate_left 3
  · intro v hv
    have : v = 0 ∨ v = 1 := by omega
    rcases this with rfl | rfl <;> decide
  · intro p _ h
    simp only [sampleBoard] at h ⊢
    rw [decide_eq_true_eq]; omega
  · intro v hv
    have : v = 0 ∨ v = 1 := by omega
    rcases this with rfl | rfl <;> decide
  · intro p v _
    simp only [sampleBoard, sampleNet]
    by_cases e1 : p = (2, 2)
    · subst e1
      simp only [if_true, Option.some.injEq]
      constructor
      · rintro rfl; simp
      · rintro ⟨hv, h⟩
        by_contra hc
        rw [if_neg (by omega)] at h
        simp at h
    · rw [if_neg e1]
      by_cases e2 : p = (2, 4)
      · subst e2
        simp only [if_true, Option.some.injEq]
        constructor
        · rintro rfl; simp
        · rintro ⟨hv, h⟩
          by_contra hc
          rw [if_pos (by omega)] at h
          simp at h
      · rw [if_neg e2]
        constructor
        · intro h; cases h
        · rintro ⟨hv, h⟩
          split at h
          · exact absurd h.symm e1
          · exact absurd h.symm e2

instance (p q : Pt) : Decidable (Adj p q) := inferInstanceAs (Decidable (_ ∨ _))
instance (b : Board) (p : Pt) : Decidable (b.In p) := inferInstanceAs (Decidable (_ ∧ _))

/-- On this board the two vertices are joined by an edge of cost 2. -/
theorem sample_joined (wide : Bool) (hash : Pt → UInt64) (hp : Heap) (junk : Nat → Fhm.Cell Back) (junkQ : Nat → Pt) :
    ∃ net' way, foundDst (cfg wide hash) hp junk junkQ sampleBoard sampleNet 0 = some (net', some (1, 2, way)) := by
  have hr : Reach sampleBoard.Free (sampleNet 0).pos 2 (2, 4) :=
    ⟨1, (2, 3), rfl, .step .start (by decide) ⟨by decide, by decide⟩, by decide⟩
  have hj : Joinable sampleBoard sampleNet 0 1 (2, 4) := ⟨by decide, by decide, by decide, by decide, by simp [sampleNet]⟩
  rcases C85_closest wide hash hp junk junkQ (sample_placed.ready (v := 0) (by omega)) (by decide) with
    ⟨_, h⟩ | ⟨net', dst, n, way, e, hd, hw, hroute, _, hmin, _, _⟩
  · exact absurd hr (h 1 _ 2 hj)
  · have h1 : dst = 1 := by
      have := ((sample_placed.cells _ dst hd.1).1 hd.2.1).1
      have := hd.2.2.1
      omega
    subst h1
    have h2 : n ≤ 2 := hmin 1 _ 2 hj hr
    have h3 : n = 2 := by
      match way, hw, hroute with
      | [], _, h => exact h.elim
      | [p], _, ⟨a, h⟩ =>
        rcases h with ⟨rfl, _⟩ | ⟨_, h⟩
        · exact absurd a (by decide)
        · exact h.elim
      | _ :: _ :: w, hw, _ => simp at hw; omega
    subst h3
    exact ⟨net', way, e⟩

end CCC.Search
