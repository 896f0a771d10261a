import Verif.Proof.GraphParallel
import Mathlib.Data.List.Perm.Subperm
/-
Property of the shortest path search of the graph sample (`samples/graph.c`), a client of the priority queue.
-/
namespace CCC.Graph
open CCC PrioQ

variable {g : G} {src dst : Nat} {st : St Vtx} {s : Pq.Pq Vtx} {rk : Nat → Nat} {N : Nat}

/-- What the search should find: the edges of a cheapest way, or `INT_MAX` if there is none. -/
def Found (g : G) (src dst : Nat) (r : Nat) (l : List (Nat × Nat)) : Prop :=
  (∃ d, Way g src dst l d ∧ IsDist g src dst d ∧ r ≠ intMax) ∨ ((∀ d, ¬ Walk g src dst d) ∧ r = intMax ∧ l = [])

/-- What the graphs of the sample are like: edges lead to vertices; no two edges from a vertex lead to the same one
(samples/graph.c:440-441, `has_edge_with`); and no sum of costs the search forms is above `INT_MAX`. -/
structure Fit (g : G) (src : Nat) : Prop where
  edge : ∀ u < g.n, ∀ v w, (v, w) ∈ g.edges u → v < g.n
  simple : ∀ u < g.n, ((g.edges u).map Prod.fst).Nodup
  small : ∀ u d v w, IsDist g src u d → (v, w) ∈ g.edges u → d + w < intMax

theorem search_spec (hf : Fit g src) (hdn : dst < g.n) : ∀ (k : Nat) {s : Pq.Pq Vtx} {st : St Vtx} {rk : Nat → Nat} {N : Nat}, st.q.length = k →
    Pq.Reach cfg s st → Inv g src st (fun _ => []) rk N → dst ∈ st.q →
    ∃ r l, search g dst s = some (r, l) ∧ Found g src dst r l ∧ (r = 0 ∨ r = intMax) := by
  intro k
  induction k with
  | zero =>
    intro s st rk N hk _ _ hd
    rw [List.length_eq_zero_iff.1 hk] at hd
    simp at hd
  | succ k ih =>
    intro s st rk N hk hr h hd
    obtain ⟨hf1, hf2⟩ := Pq.C18_pq_front_partial cfg_lawful hr
    cases hfr : Pq.front s with
    | none => rw [hf1.1 hfr] at hd; simp at hd
    | some u =>
      obtain ⟨huq, x, hx, hmin⟩ := hf2 u hfr
      have hmin' : ∀ e ∈ st.q, ∀ z, st.val e = some z → x.dist ≤ z.dist := by
        intro e he z hz
        obtain ⟨w, hw, hb⟩ := hmin e he
        rw [hz] at hw
        cases hw
        rw [beats_iff] at hb
        omega
      have hroot : Pq.front s = st.front := (hr.sim cfg_lawful).root
      have hu := h.mem u huq
      obtain ⟨x', hx', hxn, hxd⟩ := h.has u hu
      rw [hx] at hx'; cases hx'
      obtain ⟨s1, h1, h2, _, _⟩ := Pq.C19_pq_step_partial cfg_lawful hr .pop trivial trivial
      have hfs : st.front = some u := by rw [← hroot, hfr]
      simp only [specStep, hfs] at h1 h2
      have hpop : Pq.pop cfg s = some (s1, .ok) := by
        simp only [Pq.step, Option.bind_eq_bind, Option.bind_eq_some_iff, Option.some.injEq, Prod.mk.injEq, Out.res.injEq] at h1
        obtain ⟨⟨a, b⟩, h1, rfl, rfl⟩ := h1
        exact h1
      generalize hst : st.without u (Pq.front s1) = st1 at h2
      have hq1 : st1.q = st.q.erase u := by rw [← hst]; rfl
      have hval : st1.val = st.val := by rw [← hst]; rfl
      have hstale : st1.stale = false := by rw [← hst]; simp [St.without, hfs]
      have hqi : ∀ a, a ∈ st1.q ↔ a ∈ st.q ∧ a ≠ u := by
        intro a; rw [hq1, h.nodup.mem_erase_iff]; exact and_comm
      have huq1 : u ∉ st1.q := fun hc => ((hqi u).1 hc).2 rfl
      obtain ⟨eu, heu, rfl⟩ := mem_val h2 (v := u) (x := x) (by rw [hval]; exact hx)
      have hemp : Pq.isEmpty s = false := by
        rw [(Pq.C19_pq_size_partial cfg_lawful hr).2.1, hk]; rfl
      have hsrch : search g dst s = (if eu.val.name = dst ∨ eu.val.dist = intMax then
          if eu.val.dist ≠ intMax then paint s1 u else some (eu.val.dist, [])
          else (relax u s1 (g.edges eu.val.name)).bind (search g dst)) := by
        rw [search.eq_def]
        simp only [hemp, Bool.false_eq_true, if_false, hfr, hpop, heu, Option.bind_eq_bind, Option.bind_some]
      by_cases hinf : eu.val.dist = intMax
      · refine ⟨intMax, [], ?_, .inr ⟨fun d hw => ?_, rfl, rfl⟩, .inr rfl⟩
        · rw [hsrch, if_pos (.inr hinf), if_neg (by simp [hinf]), hinf]
        · have all : ∀ v d, Walk g src v d → v < g.n ∧ v ∉ st.q := by
            intro v d hw
            induction hw with
            | nil =>
              refine ⟨h.srcn, fun hc => ?_⟩
              obtain ⟨y, hy, _⟩ := h.has src h.srcn
              have := hmin' src hc y hy
              rw [(h.src0 y hy).1, hinf] at this
              simp [intMax] at this
            | @snoc p v w d hw he ihw =>
              obtain ⟨hp, hpq⟩ := ihw
              have hv := hf.edge p hp v w he
              refine ⟨hv, fun hc => ?_⟩
              obtain ⟨y, hy, _⟩ := h.has p hp
              obtain ⟨z, hz, _⟩ := h.has v hv
              have hd : IsDist g src p y.dist := by
                obtain ⟨l, hl, _⟩ := back hr h _ p y rfl hp hpq hy
                refine ⟨hl.walk, fun d' hw' => ?_⟩
                rcases (walks hf.edge h hw').2 with ⟨_, x, a, b⟩ | ⟨q, a, z, b, c⟩
                · rw [hy] at a; cases a; exact b
                · exact Nat.le_trans (h.le p y q z hp hpq hy a b) c
              have h3 := hf.small p y.dist v w hd he
              have h4 := h.edge p y hp hpq hy v w he (by simp) z hz
              have h5 := hmin' v hc z hz
              omega
          exact (all dst d hw).2 hd
      · have hdist : ∀ d', Walk g src u d' → eu.val.dist ≤ d' := by
          intro d' hw'
          rcases (walks hf.edge h hw').2 with ⟨a, _⟩ | ⟨q, a, z, b, c⟩
          · exact absurd huq a
          · exact Nat.le_trans (hmin' q a z b) c
        have hinv : Inv g src st1 (fun p => if p = u then g.edges u else []) (fun v => if v = u then N else rk v) (N + 1) := by
          have hnq : ∀ v, v ∉ st1.q → v = u ∨ v ∉ st.q := by
            intro v hv
            rw [hqi] at hv
            by_cases hvu : v = u
            · exact .inl hvu
            · exact .inr fun hc => hv ⟨hc, hvu⟩
          refine ⟨fun v hv => h.mem v ((hqi v).1 hv).1, by rw [hq1]; exact h.nodup.erase u, by rw [hval]; exact h.has, h.srcn,
            by rw [hval]; exact h.src0, ?_, ?_, ?_, ?_, ?_⟩
          · intro v y hv hvq hy
            rw [hval] at hy
            rcases hnq v hvq with rfl | hvq
            · rw [hx] at hy; cases hy; exact hinf
            · exact h.fin v y hv hvq hy
          · intro v y hv hy hyd hvs
            rw [hval] at hy ⊢
            obtain ⟨p, z, w, b1, b2, b3, b4⟩ := h.pre v y hv hy hyd hvs
            exact ⟨p, z, w, b1, b2, fun hc => b3 ((hqi p).1 hc).1, b4⟩
          · intro p z hp hpq hz b w hb hbt yb hyb
            rw [hval] at hz hyb
            rcases hnq p hpq with rfl | hpq
            · simp only [if_true] at hbt; exact absurd hb hbt
            · exact h.edge p z hp hpq hz b w hb (by simp) yb hyb
          · intro p z v y hp hpq hz hv hy
            rw [hval] at hz hy
            rcases hnq p hpq with rfl | hpq
            · rw [hx] at hz; cases hz; exact hmin' v ((hqi v).1 hv).1 y hy
            · exact h.le p z v y hp hpq hz ((hqi v).1 hv).1 hy
          · intro v y hv hvq hy
            rw [hval] at hy
            by_cases hvu : v = u
            · subst hvu
              rw [hx] at hy; cases hy
              simp only [if_true]
              refine ⟨by omega, fun p hp hvs => ?_⟩
              obtain ⟨p', z, w, b1, b2, b3, b4, _⟩ := h.pre v eu.val hv hx hinf hvs
              rw [hp] at b1
              cases b1
              rw [if_neg (fun hc => b3 (by rw [hc]; exact huq))]
              exact (h.rank p z b2 b3 b4).1
            · have hvq' := (hnq v hvq).resolve_left hvu
              obtain ⟨b1, b2⟩ := h.rank v y hv hvq' hy
              rw [if_neg hvu]
              refine ⟨by omega, fun p hp hvs => ?_⟩
              obtain ⟨p', z, w, c1, c2, c3, c4, _⟩ := h.pre v y hv hy (h.fin v y hv hvq' hy) hvs
              rw [hp] at c1
              cases c1
              rw [if_neg (fun hc => c3 (by rw [hc]; exact huq))]
              exact b2 p hp hvs
        obtain ⟨l, hl, hp⟩ := back h2 hinv _ u eu.val rfl hu huq1 (by rw [hval]; exact hx)
        by_cases hdst : eu.val.name = dst
        · have hud : u = dst := by rw [← hxn]; exact hdst
          refine ⟨0, l, ?_, .inl ⟨eu.val.dist, by rw [← hud]; exact hl, by rw [← hud]; exact ⟨hl.walk, hdist⟩, by simp [intMax]⟩, .inl rfl⟩
          rw [hsrch, if_pos (.inl hdst), if_pos hinf, hp]
        · have hud : u ≠ dst := by rw [← hxn]; exact hdst
          obtain ⟨s2, st2, c1, c2, c3, c4⟩ := relax_spec hf.edge hu (fun v w he => hf.small u _ v w ⟨hl.walk, hdist⟩ he) (g.edges u) h2 hinv
            (fun _ he => he) (hf.simple u hu) (by rw [hval]; exact hx) huq1 (fun p y hp hpq hy => by
              by_cases hpu : p = u
              · subst hpu; rw [hval, hx] at hy; cases hy; exact Nat.le_refl _
              · rw [hval] at hy
                exact h.le p y u _ hp (fun hc => hpq ((hqi p).2 ⟨hc, hpu⟩)) hy huq hx) (by rw [hstale]; simp)
          obtain ⟨r, l', d1, d2⟩ := ih (by rw [c3, hq1, List.length_erase_of_mem huq]; omega) c2 c4 (by rw [c3]; exact (hqi dst).2 ⟨hd, Ne.symm hud⟩)
          refine ⟨r, l', ?_, d2⟩
          rw [hsrch, if_neg (by simp [hdst, hinf]), hxn, c1]
          exact d1

/-- The structs as the first loop makes them, up to vertex `i`. -/
theorem fill_spec : ∀ (k i : Nat) {s : Pq.Pq Vtx} {st : St Vtx}, Pq.Reach cfg s st → (∀ v, v ∈ st.q ↔ v < i) →
    (∀ v < i, st.val v = some ⟨if v = src then 0 else intMax, v, none⟩) →
    ∃ s' st', fill src s i k = some s' ∧ Pq.Reach cfg s' st' ∧ (∀ v, v ∈ st'.q ↔ v < i + k) ∧
      ∀ v < i + k, st'.val v = some ⟨if v = src then 0 else intMax, v, none⟩ := by
  intro k
  induction k with
  | zero => intro i s st hr hq hv; exact ⟨s, st, rfl, hr, hq, hv⟩
  | succ k ih =>
    intro i s st hr hq hv
    have hni : i ∉ st.q := by rw [hq]; omega
    have h1 := Pq.Reach.step (op := .make i ⟨if i = src then 0 else intMax, i, none⟩ none none none none) hr hni trivial rfl
    generalize hst : (specStep cfg.order st _ _).1 = st1 at h1
    have hq1 : st1.q = st.q := by rw [← hst]; rfl
    have hv1 : ∀ v, st1.val v = if v = i then some ⟨if i = src then 0 else intMax, i, none⟩ else st.val v := by
      intro v; rw [← hst]; rfl
    obtain ⟨s2, h2, h3, _, _⟩ := Pq.C19_pq_step_partial cfg_lawful h1 (.push i) ⟨by rw [hq1]; exact hni, by rw [hv1]; simp⟩ trivial
    have hp : Pq.push cfg { s with mem := upd s.mem i (some ⟨⟨if i = src then 0 else intMax, i, none⟩, none, none, none, none⟩) } i none =
        some (s2, some i) := by
      simp only [Pq.step, specStep, Option.bind_eq_bind, Option.bind_eq_some_iff, Option.some.injEq, Prod.mk.injEq, Out.ptr.injEq] at h2
      obtain ⟨⟨a, b⟩, h2, rfl, rfl⟩ := h2
      exact h2
    generalize hst2 : (specStep cfg.order st1 (Pq.front s2) (.push i)).1 = st2 at h3
    have hq2 : st2.q = i :: st1.q := by rw [← hst2]; rfl
    have hv2 : st2.val = st1.val := by rw [← hst2]; rfl
    obtain ⟨s', st', a, b, c, d⟩ := ih (i + 1) h3 (by intro v; rw [hq2, hq1, List.mem_cons, hq]; omega) (by
      intro v hvi
      rw [hv2, hv1]
      by_cases hvi' : v = i
      · subst hvi'; rw [if_pos rfl]
      · rw [if_neg hvi']; exact hv v (by omega))
    refine ⟨s', st', ?_, b, by intro v; rw [c]; omega, fun v hv => d v (by omega)⟩
    rw [fill]
    simp only [hp, Option.bind_eq_bind, Option.bind_some, reduceCtorEq, if_false]
    exact a

/-- **C79** (graph sample).  In every graph of the kind the sample makes, with any number of vertices, the search ends
without undefined behaviour and without a failed assertion.  If the destination can be reached from the source the edges
painted last are those of a cheapest way, from its end to its start, and the answer is not `INT_MAX`; otherwise the answer
is `INT_MAX` and no edge is painted. -/
theorem C79_graph_shortest (hf : Fit g src) (hs : src < g.n) (hd : dst < g.n) :
    ∃ r l, dijkstra g src dst = some (r, l) ∧ Found g src dst r l ∧ (r = 0 ∨ r = intMax) := by
  obtain ⟨s, st, h1, h2, h3, h4⟩ := fill_spec (src := src) g.n 0 .init (by intro v; simp [St.empty]) (by intro v hv; omega)
  have hinv : Inv g src st (fun _ => []) (fun _ => 0) 0 := by
    have hq : ∀ v, v < g.n → v ∈ st.q := fun v hv => (h3 v).2 (by omega)
    refine ⟨fun v hv => by have := (h3 v).1 hv; omega, (Pq.C19_pq_size_partial cfg_lawful h2).2.2.1, ?_, hs, ?_, ?_, ?_, ?_, ?_, ?_⟩
    · intro v hv
      refine ⟨_, h4 v (by omega), rfl, ?_⟩
      show (if v = src then 0 else intMax) ≤ intMax
      split <;> omega
    · intro x hx
      rw [h4 src (by omega)] at hx
      cases hx
      simp
    · intro v _ hv hn; exact absurd (hq v hv) hn
    · intro v x hv hx hxd hvs
      rw [h4 v (by omega)] at hx
      cases hx
      simp [hvs] at hxd
    · intro v _ hv hn; exact absurd (hq v hv) hn
    · intro v _ _ _ hv hn; exact absurd (hq v hv) hn
    · intro v _ hv hn; exact absurd (hq v hv) hn
  obtain ⟨r, l, a, b⟩ := search_spec hf hd _ rfl h2 hinv ((h3 dst).2 (by omega))
  refine ⟨r, l, ?_, b⟩
  simp only [dijkstra, h1, Option.bind_eq_bind, Option.bind_some, a]

/-- The vertices of a way are ends of shorter ways. -/
theorem Way.part {a b d : Nat} {l : List (Nat × Nat)} (h : Way g a b l d) {x : Nat} (hx : x ∈ a :: l.map Prod.fst) :
    ∃ l2 d2, Way g a x l2 d2 ∧ d2 ≤ d ∧ l2 <:+ l := by
  induction h with
  | nil =>
    simp at hx
    subst hx
    exact ⟨[], 0, .nil, Nat.le_refl _, List.suffix_refl _⟩
  | @cons u v w d l he hw ih =>
    by_cases hxv : x = v
    · subst hxv; exact ⟨_, _, .cons he hw, Nat.le_refl _, List.suffix_refl _⟩
    · obtain ⟨l2, d2, h1, h2, h3⟩ := ih (by simpa [hxv] using hx)
      exact ⟨l2, d2, h1, by omega, h3.trans (List.suffix_cons _ _)⟩

/-- A way need not visit a vertex twice. -/
theorem Walk.short {a b d : Nat} (h : Walk g a b d) : ∃ l d', Way g a b l d' ∧ d' ≤ d ∧ (a :: l.map Prod.fst).Nodup := by
  induction h with
  | nil => exact ⟨[], 0, .nil, Nat.le_refl _, by simp⟩
  | @snoc u v w d _ he ih =>
    obtain ⟨l, d', h1, h2, h3⟩ := ih
    by_cases hv : v ∈ a :: l.map Prod.fst
    · obtain ⟨l2, d2, a1, a2, a3⟩ := h1.part hv
      exact ⟨l2, d2, a1, by omega, h3.sublist ((a3.map _).sublist.cons_cons a)⟩
    · refine ⟨(v, u) :: l, d' + w, .cons he h1, by omega, ?_⟩
      simp only [List.map_cons, List.nodup_cons, List.mem_cons, not_or] at h3 hv ⊢
      exact ⟨⟨Ne.symm hv.1, h3.1⟩, hv.2, h3.2⟩

/-- With `n` vertices and costs of at most `C`, no sum is above `INT_MAX` if `n * C` is not. -/
theorem fit_of_costs {C : Nat} (hs : src < g.n) (he : ∀ u v w, (v, w) ∈ g.edges u → v < g.n ∧ w ≤ C) (hC : g.n * C < intMax)
    (hn : ∀ u < g.n, ((g.edges u).map Prod.fst).Nodup) : Fit g src := by
  refine ⟨fun u _ v w h => (he u v w h).1, hn, fun u d v w hd hw => ?_⟩
  obtain ⟨l, d', h1, h2, h3⟩ := hd.1.short
  have key : ∀ {b : Nat} {l : List (Nat × Nat)} {d : Nat}, Way g src b l d → (∀ x ∈ src :: l.map Prod.fst, x < g.n) ∧ d ≤ l.length * C := by
    intro b l d h
    induction h with
    | nil => exact ⟨by simpa using hs, by simp⟩
    | @cons u v w d l h1 _ ih =>
      obtain ⟨a, b⟩ := he u v w h1
      refine ⟨fun x hx => ?_, ?_⟩
      · simp only [List.map_cons, List.mem_cons] at hx
        rcases hx with rfl | rfl | hx
        · exact hs
        · exact a
        · exact ih.1 x (by simp only [List.mem_cons]; exact .inr hx)
      · rw [List.length_cons, Nat.add_mul]; have := ih.2; omega
  obtain ⟨hlt, hd'⟩ := key h1
  have hlen : l.length + 1 ≤ g.n := by
    have := (List.subperm_of_subset h3 (l₂ := List.range g.n) (fun x hx => List.mem_range.2 (hlt x hx))).length_le
    simpa using this
  have h4 := hd.2 d' h1.walk
  have h5 := (he u v w hw).2
  have h6 : (l.length + 1) * C ≤ g.n * C := Nat.mul_le_mul_right C hlen
  rw [Nat.add_mul] at h6
  omega

/-- A graph of five vertices, the last of which cannot be reached, meets the hypotheses. -/
def sampleG : G := ⟨5, fun u => match u with | 0 => [(1, 10), (2, 3)] | 1 => [(3, 1)] | 2 => [(1, 4), (3, 20)] | _ => []⟩

theorem sample_fit : Fit sampleG 0 := by
  refine fit_of_costs (C := 20) (by decide) (fun u v w h => ?_) (by decide) (fun u hu => ?_)
  · match u with
    | 0 | 1 | 2 => simp [sampleG] at h; show v < 5 ∧ w ≤ 20; omega
    | u + 3 => simp [sampleG] at h
  · match u with
    | 0 | 1 | 2 => decide
    | u + 3 => exact List.nodup_nil

example : ∃ r l, dijkstra sampleG 0 3 = some (r, l) ∧ Found sampleG 0 3 r l ∧ (r = 0 ∨ r = intMax) :=
  C79_graph_shortest sample_fit (by decide) (by decide)

/-- The answer of the search is not the cost of the way, as its type suggests: whatever the cost, it is 0, since the loop
that paints the path leaves the variable at the source. -/
theorem C79_graph_answer {d : Nat} (hf : Fit g src) (hs : src < g.n) (hd : dst < g.n) (hw : Walk g src dst d) :
    ∃ l, dijkstra g src dst = some (0, l) := by
  obtain ⟨r, l, h1, h2, h3⟩ := C79_graph_shortest hf hs hd
  refine ⟨l, ?_⟩
  rcases h3 with rfl | rfl
  · exact h1
  · rcases h2 with ⟨_, _, _, h⟩ | ⟨h, _⟩
    · exact absurd rfl h
    · exact absurd hw (h d)

/-- A graph with two edges from one vertex to another. -/
def parallelG : G := ⟨4, fun u => if u = 0 then [(2, 9), (3, 8), (1, 10), (3, 2)] else []⟩

/-- Without the condition that no two edges from a vertex lead to the same one the search fails: vertex 3, brought to the
front of the queue by the first of its edges, is decreased again, which tears vertex 2 out of the queue; when the queue is
nearly empty its front is NULL, and the search uses it.  This is what `C19_pq_violated` means for a client whose structs all
stay alive. -/
theorem C79_graph_violated_parallel : Walk parallelG 0 2 9 ∧ dijkstra parallelG 0 2 = none := by
  refine ⟨Walk.snoc (u := 0) (w := 9) .nil (by simp [parallelG]), ?_⟩
  have h : ((fill 0 (Pq.init fun _ => none) 0 4).bind fun s => searchF parallelG 2 6 s) = some none := by rfl
  rw [Option.bind_eq_some_iff] at h
  obtain ⟨s, h1, h2⟩ := h
  show ((fill 0 (Pq.init fun _ => none) 0 4).bind fun s => search parallelG 2 s) = none
  rw [h1]
  exact searchF_eq _ _ _ h2

end CCC.Graph
