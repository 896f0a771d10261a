import Verif.Model.SearchPaint
import Verif.Props.SearchPlace
import Mathlib.Data.List.Pairwise
/-
C87: painting an edge of the graph in `samples/graph.c`.
-/
namespace CCC.Search
open CCC

variable {b b' : Board} {net net' : Net} {src : Nat}

theorem Adj.symm {p q : Pt} (h : Adj p q) : Adj q p := by unfold Adj at *; omega
theorem Adj.ne {p q : Pt} (h : Adj p q) : p ≠ q := by rintro rfl; unfold Adj at h; omega

theorem Route.start_mem {F : Pt → Prop} {s : Pt} : ∀ {l : List Pt} {q : Pt}, Route F s q l → s ∈ l
  | [], _, r => r.elim
  | a :: l, _, ⟨_, r⟩ => by
    rcases r with ⟨e, _⟩ | ⟨_, r⟩
    · simp [e]
    · exact List.mem_cons_of_mem _ r.start_mem

/-! ### Shortest ways have no shortcuts -/

section
variable {F : Pt → Prop} {s : Pt}

theorem Route.walk : ∀ {l : List Pt} {q : Pt}, Route F s q l → ∀ x ∈ l, ∃ k, k < l.length ∧ Walk F s k x
  | [], _, r => r.elim
  | p :: l, q, ⟨a, r⟩ => by
    have hp : ∃ k, k ≤ l.length ∧ Walk F s k p := by
      rcases r with ⟨rfl, rfl⟩ | ⟨hf, r⟩
      · exact ⟨0, Nat.le_refl _, .start⟩
      · cases l with
        | nil => exact r.elim
        | cons y l =>
          obtain ⟨k, hk, w⟩ := r.walk y (by simp)
          exact ⟨k + 1, hk, .step w r.1 hf⟩
    intro x hx
    rcases List.mem_cons.1 hx with rfl | hx
    · obtain ⟨k, hk, w⟩ := hp; exact ⟨k, by simp; omega, w⟩
    · rcases r with ⟨_, rfl⟩ | ⟨_, r⟩
      · cases hx
      · obtain ⟨k, hk, w⟩ := r.walk x hx; exact ⟨k, by simp; omega, w⟩

theorem Route.back {q₀ : Pt} : ∀ {l : List Pt} {q : Pt} {m : Nat}, Walk F q₀ m q → Route F s q l → Reach F q₀ (m + l.length) s
  | [], _, _, _, r => r.elim
  | p :: l, q, m, w, ⟨a, r⟩ => by
    rcases r with ⟨rfl, rfl⟩ | ⟨hf, r⟩
    · exact ⟨m, q, rfl, w, a.symm⟩
    · have := Route.back (.step w a.symm hf) r
      rwa [show m + 1 + l.length = m + (p :: l).length by simp; omega] at this

theorem Walk.route {n : Nat} {p : Pt} (w : Walk F s n p) : ∀ {q : Pt}, Adj p q → ∃ l, l.length = n + 1 ∧ Route F s q l := by
  induction w with
  | start => intro q a; exact ⟨[s], rfl, a, .inl ⟨rfl, rfl⟩⟩
  | step _ a hf ih =>
    intro q a'
    obtain ⟨l, hl, r⟩ := ih a
    exact ⟨_ :: l, by simp [hl], a', .inr ⟨hf, r⟩⟩

theorem Reach.symm {q : Pt} {n : Nat} (h : Reach F s n q) : Reach F q n s := by
  obtain ⟨m, p, rfl, w, a⟩ := h
  obtain ⟨l, hl, r⟩ := w.route a
  have := Route.back .start r
  rwa [hl, Nat.zero_add] at this

theorem Route.last : ∀ {l : List Pt} {q : Pt}, Route F s q l → ∀ p ∈ l, p ∈ l.dropLast ∨ p = s
  | [], _, r => r.elim
  | [x], _, ⟨_, r⟩ => by
    intro p hp
    rcases r with ⟨rfl, _⟩ | ⟨_, r⟩
    · exact .inr (List.mem_singleton.1 hp)
    · exact r.elim
  | x :: y :: l, _, ⟨_, r⟩ => by
    intro p hp
    rcases r with ⟨_, h⟩ | ⟨_, r⟩
    · cases h
    · rw [List.dropLast_cons_of_ne_nil (by simp)]
      rcases List.mem_cons.1 hp with rfl | hp
      · exact .inl (by simp)
      · rcases r.last p hp with h | h
        · exact .inl (List.mem_cons_of_mem _ h)
        · exact .inr h

theorem Route.reverse {q₀ : Pt} : ∀ {l : List Pt} {q : Pt} {acc : List Pt}, Route F s q l →
    (∀ p, Adj q p → Route F q₀ p (q :: acc)) → Route F q₀ s (l.dropLast.reverse ++ q :: acc)
  | [], _, _, r, _ => r.elim
  | [p], q, acc, ⟨a, r⟩, h => by
    rcases r with ⟨rfl, _⟩ | ⟨_, r⟩
    · simpa using h _ a.symm
    · exact r.elim
  | p :: y :: l, q, acc, ⟨a, r⟩, h => by
    rcases r with ⟨_, e⟩ | ⟨hf, r⟩
    · cases e
    · have := Route.reverse (q₀ := q₀) (acc := q :: acc) r (fun x hx => ⟨hx, .inr ⟨hf, h p a.symm⟩⟩)
      rw [List.dropLast_cons_of_ne_nil (by simp)]
      simpa using this

/-- A shortest way. -/
def Least (F : Pt → Prop) (s q : Pt) (l : List Pt) : Prop := Route F s q l ∧ ∀ n, Reach F s n q → l.length ≤ n

theorem Least.tail {q p : Pt} {l : List Pt} (h : Least F s q (p :: l)) (hl : l ≠ []) : F p ∧ Least F s p l := by
  obtain ⟨⟨a, r⟩, hm⟩ := h
  rcases r with ⟨_, e⟩ | ⟨hf, r⟩
  · exact absurd e hl
  · refine ⟨hf, r, ?_⟩
    rintro n ⟨m, x, rfl, w, ax⟩
    have := hm (m + 2) ⟨m + 1, p, rfl, .step w ax hf, a⟩
    simp only [List.length_cons] at this
    omega

theorem Least.chord {q p : Pt} {l : List Pt} (h : Least F s q (p :: l)) {x : Pt} (hx : x ∈ l) : ¬ Adj x q := by
  intro a
  have hl : l ≠ [] := by rintro rfl; cases hx
  obtain ⟨k, hk, w⟩ := (h.tail hl).2.1.walk x hx
  have := h.2 (k + 1) ⟨k, x, rfl, w, a⟩
  simp only [List.length_cons] at this
  omega

theorem Least.notin {q : Pt} {l : List Pt} (h : Least F s q l) (hq : q ≠ s) : q ∉ l := by
  intro hx
  obtain ⟨k, hk, w⟩ := h.1.walk q hx
  cases w with
  | start => exact hq rfl
  | step w a _ =>
    have := h.2 _ ⟨_, _, rfl, w, a⟩
    omega

theorem Least.reverse {q : Pt} {l : List Pt} (h : Least F s q l) : Least F q s (l.dropLast.reverse ++ [q]) := by
  refine ⟨h.1.reverse (fun p a => ⟨a, .inl ⟨rfl, rfl⟩⟩), ?_⟩
  intro n hn
  have := h.2 n hn.symm
  have hl : l ≠ [] := by rintro rfl; exact h.1
  have := List.length_pos_iff.2 hl
  simp; omega
end

/-! ### The loop over the directions -/

section
variable {id : Pt → Nat × Nat} {edge : Nat × Nat} {dst : Nat} {cur prev : Pt}

theorem turn_arrived {t : Pt} (hat : ∀ p, Adj cur p → b.at_ p = some (b.cell p))
    (ht : ∀ p, Adj cur p → ((b.cell p).vertex = some dst ↔ p = t))
    (hid : ∀ p, Adj cur p → id p = edge → p = prev ∨ p = t) : ∀ ds : List Pt,
    (∀ d ∈ ds, Adj cur (cur.1 + d.1, cur.2 + d.2)) → (∃ d ∈ ds, (cur.1 + d.1, cur.2 + d.2) = t) →
    turn b id edge dst cur prev ds = some .arrived := by
  intro ds
  induction ds with
  | nil => rintro _ ⟨d, h, _⟩; cases h
  | cons d ds ih =>
    intro ha hd
    have a := ha d (by simp)
    simp only [turn, hat _ a, Option.bind_eq_bind, Option.bind_some]
    by_cases e : (cur.1 + d.1, cur.2 + d.2) = t
    · rw [if_pos ((ht _ a).2 e)]
    · rw [if_neg (fun h => e ((ht _ a).1 h)), if_neg (fun h => (hid _ a h.1).elim (fun g => h.2 g.symm) e)]
      refine ih (fun x hx => ha x (by simp [hx])) ?_
      obtain ⟨x, hx, ex⟩ := hd
      rcases List.mem_cons.1 hx with rfl | hx
      · exact absurd ex e
      · exact ⟨x, hx, ex⟩

theorem turn_go {y : Pt} (hat : ∀ p, Adj cur p → b.at_ p = some (b.cell p))
    (ht : ∀ p, Adj cur p → (b.cell p).vertex ≠ some dst)
    (hid : ∀ p, Adj cur p → id p = edge → p = prev ∨ p = y) (hy : id y = edge) (hne : prev ≠ y) : ∀ ds : List Pt,
    (∀ d ∈ ds, Adj cur (cur.1 + d.1, cur.2 + d.2)) → (∃ d ∈ ds, (cur.1 + d.1, cur.2 + d.2) = y) →
    turn b id edge dst cur prev ds = some (.go y) := by
  intro ds
  induction ds with
  | nil => rintro _ ⟨d, h, _⟩; cases h
  | cons d ds ih =>
    intro ha hd
    have a := ha d (by simp)
    simp only [turn, hat _ a, Option.bind_eq_bind, Option.bind_some, if_neg (ht _ a)]
    by_cases e : (cur.1 + d.1, cur.2 + d.2) = y
    · rw [e, if_pos ⟨hy, hne⟩]
    · rw [if_neg (fun h => (hid _ a h.1).elim (fun g => h.2 g.symm) e)]
      refine ih (fun x hx => ha x (by simp [hx])) ?_
      obtain ⟨x, hx, ex⟩ := hd
      rcases List.mem_cons.1 hx with rfl | hx
      · exact absurd ex e
      · exact ⟨x, hx, ex⟩

/-- Along a shortest way whose inner cells, and no others but its first and last one, have the id, the walk does not go
astray. -/
theorem follow_spec {F : Pt → Prop} {t : Pt} (hin : ∀ p, F p → b.Inner p) (hFt : ¬ F t)
    (hat : ∀ p, b.In p → b.at_ p = some (b.cell p)) (ht : ∀ p, b.In p → ((b.cell p).vertex = some dst ↔ p = t)) :
    ∀ (rest : List Pt) (cur prev : Pt), b.Inner cur → cur ≠ t → Least F t cur rest → prev ∉ rest →
    (∀ p ∈ rest.dropLast, id p = edge) →
    (∀ p, id p = edge → p ∈ cur :: rest ∨ p = prev ∨ ∀ y ∈ cur :: rest, ¬ Adj p y) →
    (prev = cur ∨ ∀ y ∈ rest, ¬ Adj prev y) →
    follow b id edge dst t cur prev = some (cur :: rest.dropLast) := by
  intro rest
  induction rest with
  | nil => intro _ _ _ _ h; exact h.1.elim
  | cons y rest ih =>
    intro cur prev hcur hct h hpr hint hid hprev
    have hds : ∀ d ∈ dirs, Adj cur (cur.1 + d.1, cur.2 + d.2) := fun d hd => adj_dirs.2 ⟨d, hd, rfl⟩
    have hay : Adj cur y := h.1.1.symm
    have hdy : ∃ d ∈ dirs, (cur.1 + d.1, cur.2 + d.2) = y := by
      obtain ⟨d, hd, e⟩ := adj_dirs.1 hay; exact ⟨d, hd, e.symm⟩
    have hid' : ∀ p, Adj cur p → id p = edge → p = prev ∨ p = y := by
      intro p a e
      rcases hid p e with hp | hp | hp
      · rcases List.mem_cons.1 hp with rfl | hp
        · exact absurd rfl a.ne
        · rcases List.mem_cons.1 hp with rfl | hp
          · exact .inr rfl
          · exact absurd a.symm (h.chord hp)
      · exact .inl hp
      · exact absurd a.symm (hp cur (by simp))
    rw [follow, if_neg hct]
    by_cases hr : rest = []
    · subst hr
      have hyt : y = t := by
        rcases h.1.2 with ⟨e, _⟩ | ⟨_, r⟩
        · exact e
        · exact r.elim
      subst hyt
      rw [turn_arrived (fun p a => hat p (hcur.adj a)) (fun p a => ht p (hcur.adj a)) hid' dirs hds hdy]
      rfl
    · obtain ⟨hFy, hl⟩ := h.tail hr
      have htl : t ∈ rest := hl.1.start_mem
      have hyt : y ≠ t := by rintro rfl; exact hFt hFy
      have hpy : prev ≠ y := by rintro rfl; exact hpr (by simp)
      have hiy : id y = edge := hint y (by rw [List.dropLast_cons_of_ne_nil hr]; simp)
      rw [turn_go (y := y) (fun p a => hat p (hcur.adj a)) (fun p a e => by
        have := (ht p (hcur.adj a)).1 e
        subst this
        exact h.chord htl a.symm) hid' hiy hpy dirs hds hdy]
      have := ih y cur (hin y hFy) hyt hl (fun hc => h.notin hct (by simp [hc]))
        (fun p hp => hint p (by rw [List.dropLast_cons_of_ne_nil hr]; simp [hp]))
        (fun p e => by
          rcases hid p e with hp | hp | hp
          · rcases List.mem_cons.1 hp with rfl | hp
            · exact .inr (.inl rfl)
            · exact .inl hp
          · rcases hprev with e' | hprev
            · exact .inr (.inl (hp.trans e'))
            · subst hp; exact .inr (.inr hprev)
          · exact .inr (.inr (fun z hz => hp z (List.mem_cons_of_mem _ hz))))
        (.inr (fun z hz a => h.chord hz a.symm))
      simp only [Option.bind_eq_bind, Option.bind_some, this]
      rw [List.dropLast_cons_of_ne_nil hr]
end

/-! ### The ids in the cells -/

theorem orAt_const {g : Edge → Nat} {c : Nat} {p : Pt} {es : List Edge} (h : ∀ e ∈ es, p ∈ e.way → g e = c) :
    (orAt g es p = 0 ∧ ∀ e ∈ es, p ∉ e.way) ∨ (orAt g es p = c ∧ ∃ e ∈ es, p ∈ e.way) := by
  have key : ∀ (es : List Edge) (a : Nat), (∀ e ∈ es, p ∈ e.way → g e = c) → (a = 0 ∨ a = c) →
      (es.foldl (fun a e => if p ∈ e.way then a ||| g e else a) a = a ∧ ∀ e ∈ es, p ∉ e.way) ∨
      (es.foldl (fun a e => if p ∈ e.way then a ||| g e else a) a = c ∧ ∃ e ∈ es, p ∈ e.way) := by
    intro es
    induction es with
    | nil => intro a _ _; exact .inl ⟨rfl, by simp⟩
    | cons e es ih =>
      intro a h ha
      simp only [List.foldl_cons]
      by_cases hp : p ∈ e.way
      · right
        have hc : a ||| g e = c := by
          rw [h e (by simp) hp]; rcases ha with rfl | rfl <;> simp
        rw [if_pos hp, hc]
        refine ⟨?_, e, by simp, hp⟩
        rcases ih c (fun f hf => h f (by simp [hf])) (.inr rfl) with h | h
        · exact h.1
        · exact h.1
      · rw [if_neg hp]
        rcases ih a (fun f hf => h f (by simp [hf])) ha with ⟨h1, h2⟩ | ⟨h1, f, h2, h3⟩
        · left
          refine ⟨h1, ?_⟩
          intro f hf
          rcases List.mem_cons.1 hf with rfl | hf
          · exact hp
          · exact h2 f hf
        · exact .inr ⟨h1, f, by simp [h2], h3⟩
  exact key es 0 h (.inl rfl)

theorem makeEdge_lt {a c : Nat} (h : a < c) : makeEdge a c = (title a, title c) := by
  unfold makeEdge title; rw [if_pos (by omega)]
theorem makeEdge_comm {a c : Nat} (h : a < c) : makeEdge c a = makeEdge a c := by
  unfold makeEdge title; rw [if_neg (by omega), if_pos (by omega)]

/-- What the edges made have in common: an edge is made from the end of the lower number, along a way that is a shortest one
over some of the cells that were free, and no edge is made twice. -/
structure Near (b : Board) (net : Net) (n : Nat) (es : List Edge) : Prop where
  ways : ∀ e ∈ es, e.src < e.dst ∧ e.dst < n ∧
    ∃ F, (∀ p, F p → b.Free p) ∧ Least F (net e.src).pos (net e.dst).pos e.way
  fresh : ∀ e ∈ es, ∀ x ∈ (net e.src).edges, x.1 ≠ e.dst
  once : es.Pairwise (fun e f => e.src = f.src → e.dst ≠ f.dst)

theorem Near.append {b₁ b₂ : Board} {n₁ n₂ : Net} {n : Nat} {es fs : List Edge} (h : Near b₁ n₁ n es)
    (d : Drawn b₁ n₁ b₂ n₂ es) (m : More b₁ n₁ b₂ n₂) (g : Near b₂ n₂ n fs) : Near b₁ n₁ n (es ++ fs) := by
  refine ⟨?_, ?_, ?_⟩
  · intro e he
    rcases List.mem_append.1 he with he | he
    · exact h.ways e he
    · obtain ⟨h1, h2, F, h3, h4⟩ := g.ways e he
      rw [m.pos, m.pos] at h4
      exact ⟨h1, h2, F, fun p hp => m.free p (h3 p hp), h4⟩
  · intro e he x hx
    rcases List.mem_append.1 he with he | he
    · exact h.fresh e he x hx
    · obtain ⟨l, el⟩ := m.edges e.src
      exact g.fresh e he x (by rw [el]; simp [hx])
  · rw [List.pairwise_append]
    refine ⟨h.once, g.once, ?_⟩
    intro e he f hf e1 e2
    exact g.fresh f hf (e.dst, e.cost) ((d.edges _ _ _).2 (.inr ⟨e, he, rfl, .inl ⟨e1, rfl⟩⟩)) e2

theorem joinAll_near (wide : Bool) (hash : Pt → UInt64) (hp : Heap) (junk : Nat → Fhm.Cell Back) (junkQ : Nat → Pt)
    {n : Nat} (hs : src < n) : ∀ (d : Nat) (b : Board) (net : Net), Placed b net n → Simple net n →
    (∀ v, v < src → Full b net v) → 4 - (net src).edges.length ≤ d →
    ∃ b' net' es, joinAll (cfg wide hash) hp junk junkQ b net src = some (b', net', es) ∧ Near b net n es := by
  intro d
  induction d with
  | zero =>
    intro b net pl s hf hd
    have := s.four src
    rw [joinAll, if_neg (by unfold maxDegree; omega)]
    exact ⟨b, net, [], rfl, by simp, by simp, by simp⟩
  | succ d ih =>
    intro b net pl s hf hd
    by_cases hlt : (net src).edges.length < 4
    · rw [joinAll, if_pos (by unfold maxDegree; exact hlt)]
      rcases C85_closest wide hash hp junk junkQ (pl.ready hs) hlt with
        ⟨e, hno⟩ | ⟨net₁, dst, k, way, e, hj, hw, hroute, hr, hmin, j, hc⟩
      · exact ⟨b, net, [], by simp [e], by simp, by simp, by simp⟩
      · have hdst : dst < n := ((pl.cells _ dst hj.1).1 hj.2.1).1
        have hk : 1 ≤ k := by obtain ⟨m, _, rfl, _⟩ := hr; omega
        have s₁ := j.simple s hs hdst hj.2.2.1 hlt hj.2.2.2.1 hj.2.2.2.2 hk
        have m₁ : More b net (draw b way) net₁ := j.more way
        have hlen : (net₁ src).edges.length = (net src).edges.length + 1 := by rw [j.here]; simp
        have hsd : src < dst := by
          have hne := hj.2.2.1
          by_contra hge
          rcases hf dst (by omega) with h4 | h4
          · have := hj.2.2.2.1; omega
          · have hin := pl.inside src hs
            refine h4 src (net src).pos k ⟨by unfold Board.In; omega, ?_, fun h => hne h.symm, hlt, ?_⟩ hr.symm
            · exact (pl.cells _ src (by unfold Board.In; omega)).2 ⟨hs, rfl⟩
            · rintro ⟨w, c⟩ he rfl
              exact hj.2.2.2.2 _ (s.both _ _ _ he) rfl
        obtain ⟨b', net', es, e', ne⟩ := ih (draw b way) net₁ (m₁.placed pl) s₁ (fun v hv => m₁.full s₁ (hf v hv)) (by omega)
        have n₁ : Near b net n [⟨src, dst, k, way⟩] := by
          refine ⟨?_, ?_, by simp⟩
          · intro e he
            rw [List.mem_singleton] at he; subst he
            exact ⟨hsd, hdst, b.Free, fun _ h => h, hroute, fun m hm => by rw [hw]; exact hmin dst _ m hj hm⟩
          · intro e he
            rw [List.mem_singleton] at he; subst he
            exact hj.2.2.2.2
        exact ⟨b', net', ⟨src, dst, k, way⟩ :: es, by simp [e, e'], n₁.append (j.drawn hj.2.2.1 hroute hw hc) m₁ ne⟩
    · have := s.four src
      rw [joinAll, if_neg (by unfold maxDegree; omega)]
      exact ⟨b, net, [], rfl, by simp, by simp, by simp⟩

theorem buildEdges_near (wide : Bool) (hash : Pt → UInt64) (hp : Heap) (junk : Nat → Fhm.Cell Back) (junkQ : Nat → Pt)
    {n : Nat} : ∀ (k v : Nat) (b : Board) (net : Net), v + k = n → Placed b net n → Simple net n →
    (∀ w, w < v → Full b net w) →
    ∃ b' net' es, buildEdges (cfg wide hash) hp junk junkQ (List.range' v k) b net = some (b', net', es) ∧
      Near b net n es := by
  intro k
  induction k with
  | zero => intro v b net _ _ _ _; exact ⟨b, net, [], rfl, by simp, by simp, by simp⟩
  | succ k ih =>
    intro v b net hv pl s hf
    obtain ⟨b₁, net₁, es, e₁, m₁, s₁, f₁, d₁⟩ := joinAll_spec wide hash hp junk junkQ (show v < n by omega) 4 b net pl s (by omega)
    obtain ⟨_, _, _, e₂, ne⟩ := joinAll_near wide hash hp junk junkQ (show v < n by omega) 4 b net pl s hf (by omega)
    rw [e₁] at e₂
    cases e₂
    obtain ⟨b', net', es', e', ne'⟩ := ih (v + 1) b₁ net₁ (by omega) (m₁.placed pl) s₁ (fun w hw => by
      by_cases e : w = v
      · rw [e]; exact f₁
      · exact m₁.full s₁ (hf w (by omega)))
    exact ⟨b', net', es ++ es', by simp [List.range'_succ, buildEdges, e₁, e'], ne.append d₁ m₁ ne'⟩

/-- What the walk along an edge relies on: the way is a shortest one over some cells, its inner cells have the id of the edge,
and no other cell has but the one the edge was made from. -/
structure Track (b : Board) (net : Net) (es : List Edge) (e : Edge) (F : Pt → Prop) : Prop where
  lt : e.src < e.dst
  inner : ∀ p, F p → b.Inner p
  ends : ¬ F (net e.src).pos ∧ ¬ F (net e.dst).pos
  at_ : ∀ p, b.In p → b.at_ p = some (b.cell p)
  atSrc : ∀ p, b.In p → ((b.cell p).vertex = some e.src ↔ p = (net e.src).pos)
  atDst : ∀ p, b.In p → ((b.cell p).vertex = some e.dst ↔ p = (net e.dst).pos)
  innerSrc : b.Inner (net e.src).pos
  innerDst : b.Inner (net e.dst).pos
  ne : (net e.dst).pos ≠ (net e.src).pos
  least : Least F (net e.src).pos (net e.dst).pos e.way
  ids : ∀ p ∈ e.way.dropLast, idAt es p = makeEdge e.src e.dst
  only : ∀ p, idAt es p = makeEdge e.src e.dst → p ∈ e.way.dropLast ∨ p = (net e.src).pos

theorem track {n : Nat} {es : List Edge} (pl : Placed b net n) (m : More b net b' net') (ne : Near b net n es)
    (apart : es.Pairwise (fun e f => ∀ p ∈ e.way.dropLast, p ∉ f.way.dropLast)) : ∀ e ∈ es,
    ∃ F, Track b' net' es e F := by
  have pl' := m.placed pl
  intro e he
  obtain ⟨hlt, hdn, F, hF, hl⟩ := ne.ways e he
  have hsn : e.src < n := by omega
  have hfree : ∀ p, F p → b.Inner p := by
    intro p hp
    have h := hF p hp
    have hin := h.1
    have hb : ¬ (p.1 = 0 ∨ p.1 = b.rows - 1 ∨ p.2 = 0 ∨ p.2 = b.cols - 1) := by
      intro hb; have := h.2; rw [pl.border p hin hb] at this; cases this
    unfold Board.In at hin; unfold Board.Inner; omega
  have hinner : ∀ p, b.Inner p → b'.Inner p := by
    intro p hp; unfold Board.Inner at *; rw [m.rows, m.cols]; exact hp
  have hvert : ∀ v, v < n → ¬ b.Free (net v).pos := by
    intro v hv h; have := h.2; rw [pl.taken v hv] at this; cases this
  have hvin : ∀ v, v < n → b.In (net v).pos := by
    intro v hv; have := pl.inside v hv; unfold Board.In; omega
  have hinj : ∀ v w, v < n → w < n → (net v).pos = (net w).pos → v = w := by
    intro v w hv hw e
    have h1 := (pl.cells _ v (hvin v hv)).2 ⟨hv, rfl⟩
    have h2 := (pl.cells _ w (hvin v hv)).2 ⟨hw, e.symm⟩
    rw [h1] at h2; exact Option.some.inj h2
  /- a cell of a way is free or the vertex it was made from -/
  have hcell : ∀ f ∈ es, ∀ p ∈ f.way, (p ∈ f.way.dropLast ∧ b.Free p) ∨ p = (net f.src).pos := by
    intro f hf p hp
    obtain ⟨_, _, G, hG, hg⟩ := ne.ways f hf
    rcases hg.1.last p hp with h | h
    · exact .inl ⟨h, hG p (hg.1.free p h)⟩
    · exact .inr h
  have hapart : ∀ f ∈ es, ∀ g ∈ es, ∀ p, p ∈ f.way.dropLast → p ∈ g.way.dropLast → f = g := by
    have hs : Std.Symm (fun f g : Edge => ∀ p, p ∈ f.way.dropLast → p ∈ g.way.dropLast → f = g) :=
      ⟨fun f g h p hp hq => (h p hq hp).symm⟩
    have := List.Pairwise.forall_of_forall (l := es)
      (R := fun f g : Edge => ∀ p, p ∈ f.way.dropLast → p ∈ g.way.dropLast → f = g) (fun _ _ _ _ _ => rfl)
      (apart.imp (fun h p hp hq => absurd hq (h p hp)))
    intro f hf g hg
    exact this hf hg
  have honce : ∀ f ∈ es, f.src = e.src → f.dst = e.dst → f = e := by
    have hs : Std.Symm (fun f g : Edge => f.src = g.src → f.dst = g.dst → f = g) :=
      ⟨fun f g h e1 e2 => (h e1.symm e2.symm).symm⟩
    have := List.Pairwise.forall_of_forall (l := es)
      (R := fun f g : Edge => f.src = g.src → f.dst = g.dst → f = g) (fun _ _ _ _ => rfl)
      (ne.once.imp (fun h e1 e2 => absurd e2 (h e1)))
    intro f hf
    exact this hf he
  have hmk : ∀ f ∈ es, makeEdge f.src f.dst = (title f.src, title f.dst) := fun f hf => makeEdge_lt (ne.ways f hf).1
  /- the ways through a free cell are one way -/
  have hone : ∀ f ∈ es, ∀ p ∈ f.way.dropLast, b.Free p → idAt es p = makeEdge f.src f.dst := by
    intro f hf p hp hfr
    have hall : ∀ g ∈ es, p ∈ g.way → g = f := by
      intro g hg hpg
      rcases hcell g hg p hpg with ⟨h, _⟩ | h
      · exact hapart g hg f hf p h hp
      · have := ne.ways g hg
        exact absurd (h ▸ hfr) (hvert g.src (by omega))
    have hex : ¬ ∀ g ∈ es, p ∉ g.way := fun h => h f hf (List.dropLast_subset _ hp)
    unfold idAt
    refine Prod.ext ?_ ?_
    · rcases orAt_const (g := fun e => (makeEdge e.src e.dst).1) (c := (makeEdge f.src f.dst).1) (p := p) (es := es)
        (fun g hg hpg => by rw [hall g hg hpg]) with h | h
      · exact absurd h.2 hex
      · exact h.1
    · rcases orAt_const (g := fun e => (makeEdge e.src e.dst).2) (c := (makeEdge f.src f.dst).2) (p := p) (es := es)
        (fun g hg hpg => by rw [hall g hg hpg]) with h | h
      · exact absurd h.2 hex
      · exact h.1
  /- the cells with the id of the edge are those of its way -/
  have hid : ∀ p, idAt es p = makeEdge e.src e.dst → p ∈ e.way.dropLast ∨ p = (net e.src).pos := by
    intro p hp
    rw [hmk e he] at hp
    by_cases hex : ∃ g ∈ es, p ∈ g.way ∧ b.Free p
    · obtain ⟨g, hg, hpg, hfr⟩ := hex
      rcases hcell g hg p hpg with ⟨h, _⟩ | h
      · have h1 := hone g hg p h hfr
        rw [hp, hmk g hg, Prod.mk.injEq] at h1
        unfold title at h1
        rw [honce g hg (by omega) (by omega)] at h
        exact .inl h
      · have := ne.ways g hg
        exact absurd (h ▸ hfr) (hvert g.src (by omega))
    · by_cases hex' : ∃ g ∈ es, p ∈ g.way
      · obtain ⟨g, hg, hpg⟩ := hex'
        have hgp : ∀ f ∈ es, p ∈ f.way → p = (net f.src).pos := by
          intro f hf hpf
          rcases hcell f hf p hpf with ⟨_, h⟩ | h
          · exact absurd ⟨f, hf, hpf, h⟩ hex
          · exact h
        have hc : ∀ f ∈ es, p ∈ f.way → (makeEdge f.src f.dst).1 = title g.src := by
          intro f hf hpf
          have h1 := ne.ways f hf
          have h2 := ne.ways g hg
          rw [hmk f hf, hinj f.src g.src (by omega) (by omega) ((hgp f hf hpf).symm.trans (hgp g hg hpg))]
        rcases orAt_const hc with h | h
        · exact absurd hpg (h.2 g hg)
        · have h1 := congrArg Prod.fst hp
          simp only [idAt] at h1
          rw [h.1] at h1
          unfold title at h1
          rw [← show g.src = e.src by omega]
          exact .inr (hgp g hg hpg)
      · rcases orAt_const (g := fun e => (makeEdge e.src e.dst).1) (c := 0) (p := p) (es := es)
          (fun g hg hpg => absurd ⟨g, hg, hpg⟩ hex') with h | h
        · have h1 := congrArg Prod.fst hp
          simp only [idAt] at h1
          rw [h.1] at h1
          unfold title at h1
          omega
        · exact absurd h.2 hex'
  have hin : ∀ v, v < n → b'.Inner (net v).pos := fun v hv => hinner _ (pl.inside v hv)
  have hat : ∀ p, b'.In p → b'.at_ p = some (b'.cell p) := fun p h => (pl'.ready hsn).at_ h
  have ht : ∀ v, v < n → ∀ p, b'.In p → ((b'.cell p).vertex = some v ↔ p = (net v).pos) := by
    intro v hv p hp
    rw [pl'.cells p v hp, m.pos]
    exact ⟨fun h => h.2.symm, fun h => ⟨hv, h.symm⟩⟩
  have hne : (net e.dst).pos ≠ (net e.src).pos := fun h => by have := hinj _ _ hdn hsn h; omega
  have hint : ∀ p ∈ e.way.dropLast, idAt es p = makeEdge e.src e.dst :=
    fun p hp => hone e he p hp (hF p (hl.1.free p hp))
  refine ⟨F, hlt, fun p h => hinner p (hfree p h), ?_, hat, ?_, ?_, ?_, ?_, ?_, ?_, hint, ?_⟩
  · rw [m.pos, m.pos]; exact ⟨fun h => hvert _ hsn (hF _ h), fun h => hvert _ hdn (hF _ h)⟩
  · rw [m.pos]; exact ht _ hsn
  · rw [m.pos]; exact ht _ hdn
  · rw [m.pos]; exact hin _ hsn
  · rw [m.pos]; exact hin _ hdn
  · rw [m.pos, m.pos]; exact hne
  · rw [m.pos, m.pos]; exact hl
  · rw [m.pos]; exact hid

/-- The walk along an edge, on a board with edges `es`. -/
theorem paint_spec {es : List Edge} {e : Edge} {F : Pt → Prop} (t : Track b net es e F) :
    paintEdge b net es e.dst e.src = some ((net e.dst).pos :: e.way.dropLast) ∧
      paintEdge b net es e.src e.dst = some ((net e.src).pos :: e.way.dropLast.reverse) := by
  have hl := t.least
  constructor
  · unfold paintEdge
    rw [makeEdge_comm t.lt]
    refine follow_spec t.inner t.ends.1 t.at_ t.atSrc e.way _ _
      t.innerDst t.ne hl (hl.notin t.ne) t.ids ?_ (.inl rfl)
    intro p h
    left
    rcases t.only p h with h | h
    · exact List.mem_cons_of_mem _ (List.dropLast_subset _ h)
    · rw [h]; exact List.mem_cons_of_mem _ hl.1.start_mem
  · have hl' := hl.reverse
    unfold paintEdge
    have := follow_spec (b := b) (id := idAt es) (edge := makeEdge e.src e.dst) t.inner t.ends.2 t.at_ t.atDst
      (e.way.dropLast.reverse ++ [(net e.dst).pos]) (net e.src).pos (net e.src).pos
      t.innerSrc t.ne.symm hl' (hl'.notin t.ne.symm) (by simpa using t.ids) (by
        intro p h
        left
        rcases t.only p h with h | h
        · simp [h]
        · simp [h]) (.inl rfl)
    simpa using this

/-- The edges the program makes can be followed, after each of them. -/
theorem build_track (wide : Bool) (hash : Pt → UInt64) (hp : Heap) (junk : Nat → Fhm.Cell Back) (junkQ : Nat → Pt) {n : Nat}
    (pl : Placed b net n) (h0 : ∀ v, (net v).edges = []) :
    ∃ b' net' es, buildEdges (cfg wide hash) hp junk junkQ (List.range n) b net = some (b', net', es) ∧
      Drawn b net b' net' es ∧ More b net b' net' ∧ ∀ fs, fs <+: es → ∀ e ∈ fs, ∃ F, Track b' net' fs e F := by
  have s : Simple net n := by constructor <;> simp [h0]
  obtain ⟨b', net', es, e, m, s', f, d⟩ := buildEdges_spec wide hash hp junk junkQ (List.range n) b net
    (fun v hv => List.mem_range.1 hv) pl s
  obtain ⟨_, _, _, e₂, ne⟩ := buildEdges_near wide hash hp junk junkQ n 0 b net (by omega) pl s (by omega)
  rw [← List.range_eq_range', e] at e₂
  cases e₂
  refine ⟨b', net', es, e, d, m, ?_⟩
  intro fs hfs
  exact track pl m ⟨fun e he => ne.ways e (hfs.subset he), fun e he => ne.fresh e (hfs.subset he),
    ne.once.sublist hfs.sublist⟩ (d.apart.sublist hfs.sublist)

/-- C87.  On the graph the program makes, painting an edge from either end to the other ends, reads no cell outside the
board, and paints the cell of the vertex it starts from and then the cells of the way of this edge, in order, and no
other cell.  The same holds for the walk along an edge while only some of the edges (`fs`) have been made. -/
theorem C87_paint (wide : Bool) (hash : Pt → UInt64) (hp : Heap) (junk : Nat → Fhm.Cell Back) (junkQ : Nat → Pt) {n : Nat}
    (pl : Placed b net n) (h0 : ∀ v, (net v).edges = []) :
    ∃ b' net' es, buildEdges (cfg wide hash) hp junk junkQ (List.range n) b net = some (b', net', es) ∧
      Drawn b net b' net' es ∧
      ∀ fs, fs <+: es → ∀ e ∈ fs, paintEdge b' net' fs e.dst e.src = some ((net e.dst).pos :: e.way.dropLast) ∧
        paintEdge b' net' fs e.src e.dst = some ((net e.src).pos :: e.way.dropLast.reverse) := by
  obtain ⟨b', net', es, e, d, m, h⟩ := build_track wide hash hp junk junkQ pl h0
  refine ⟨b', net', es, e, d, ?_⟩
  intro fs hfs e he
  obtain ⟨F, t⟩ := h fs hfs e he
  have := paint_spec t
  rwa [m.pos, m.pos] at this

/-- C87 for the graph that the program has made: every edge known to a vertex can be painted, from there to the other end,
and as many cells are painted as the edge costs. -/
theorem C87_paint_known (wide : Bool) (hash : Pt → UInt64) (hp : Heap) (junk : Nat → Fhm.Cell Back) (junkQ : Nat → Pt)
    {n : Nat} (pl : Placed b net n) (h0 : ∀ v, (net v).edges = []) :
    ∃ b' net' es, buildEdges (cfg wide hash) hp junk junkQ (List.range n) b net = some (b', net', es) ∧
      ∀ v w k, (w, k) ∈ (net' v).edges → ∃ l, paintEdge b' net' es v w = some ((net v).pos :: l) ∧ l.length + 1 = k ∧
        ∀ p ∈ l, b.Free p := by
  obtain ⟨b', net', es, e, d, h⟩ := C87_paint wide hash hp junk junkQ pl h0
  refine ⟨b', net', es, e, ?_⟩
  intro v w k hk
  rcases (d.edges v w k).1 hk with hk | ⟨f, hf, hc, hk⟩
  · rw [h0] at hk; cases hk
  · obtain ⟨h1, h2⟩ := h es (List.prefix_refl _) f hf
    obtain ⟨hr, hl, _⟩ := d.way f hf
    have hpos : 0 < f.way.length := by
      apply List.length_pos_iff.2
      intro h; rw [h] at hr; exact hr.elim
    rcases hk with ⟨rfl, rfl⟩ | ⟨rfl, rfl⟩
    · exact ⟨_, h2, by simp; omega, fun p hp => hr.free p (by simpa using hp)⟩
    · exact ⟨_, h1, by simp; omega, fun p hp => hr.free p hp⟩

/-- The board of `sample_placed` meets the hypotheses, and there is an edge to paint. -/
theorem sample_painted (wide : Bool) (hash : Pt → UInt64) (hp : Heap) (junk : Nat → Fhm.Cell Back) (junkQ : Nat → Pt) :
    ∃ b' net' es, buildEdges (cfg wide hash) hp junk junkQ (List.range 2) sampleBoard sampleNet = some (b', net', es) ∧
      ∃ p, paintEdge b' net' es 0 1 = some [(2, 2), p] := by
  obtain ⟨b', net', es, e, h⟩ := C87_paint_known wide hash hp junk junkQ sample_placed (fun _ => rfl)
  obtain ⟨_, _, _, e₂, s, d, f, pos, vert⟩ := C85_graph wide hash hp junk junkQ sample_placed (fun _ => rfl)
  rw [e] at e₂
  cases e₂
  obtain ⟨net₁, way, e₃⟩ := sample_joined wide hash hp junk junkQ
  have hes : ∃ f ∈ es, f.src = 0 ∧ f.dst = 1 ∧ f.cost = 2 := by
    simp only [show List.range 2 = [0, 1] from rfl, buildEdges, Option.bind_eq_bind, Option.bind_eq_some_iff] at e
    obtain ⟨⟨b₁, n₁, es₁⟩, h1, ⟨b₂, n₂, es₂⟩, _, h3⟩ := e
    rw [joinAll, if_pos (by decide), e₃] at h1
    simp only [Option.bind_eq_bind, Option.bind_some, Option.bind_eq_some_iff] at h1
    obtain ⟨⟨b₃, n₃, es₃⟩, _, h4⟩ := h1
    simp only [Option.some.injEq, Prod.mk.injEq] at h3 h4
    rw [← h3.2.2, ← h4.2.2]
    exact ⟨⟨0, 1, 2, way⟩, by simp, rfl, rfl, rfl⟩
  obtain ⟨g, hg, g0, g1, g2⟩ := hes
  obtain ⟨l, hl, hk, _⟩ := h 0 1 g.cost ((d.edges _ _ _).2 (.inr ⟨g, hg, rfl, .inl ⟨g0, g1⟩⟩))
  obtain ⟨p, rfl⟩ := List.length_eq_one_iff.1 (show l.length = 1 by omega)
  exact ⟨b', net', es, e, p, hl⟩

end CCC.Search
