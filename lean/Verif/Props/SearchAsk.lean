import Verif.Model.SearchAsk
import Verif.Props.SearchSolve
/-
C89: the requests in `samples/graph.c`.
-/
namespace CCC.Graph
open CCC

/-- The vertices a line names, in order: those of its bytes that are titles of vertices. -/
def named (n : Nat) (l : List Nat) : List Nat := (l.filter (fun c => decide (65 ≤ c ∧ c < 65 + n))).map (· - 65)

/-- A line asks for the way from `s` to `d`: it has no `q`, and the first and the last vertex it names, of two or more, are
`s` and `d`. -/
def Asks (n : Nat) (line : List Nat) (s d : Nat) : Prop :=
  ∃ text nl, line = text ++ [nl] ∧ 113 ∉ text ∧ ∃ m, named n text = s :: m ++ [d]

/-- A line ends the session: it has a `q`, or it names fewer than two vertices. -/
def Ends (n : Nat) (line : List Nat) : Prop :=
  ∃ text nl, line = text ++ [nl] ∧ (113 ∈ text ∨ (named n text).length < 2)

theorem pick_some (n : Nat) : ∀ (l : List Nat) (s : Nat) (d : Option Nat), pick n (some s) d l =
    (some s, ((named n l).getLast?).or d) := by
  intro l
  induction l with
  | nil => intro s d; rfl
  | cons c l ih =>
    intro s d
    by_cases h : 65 ≤ c ∧ c < 65 + n
    · have e : named n (c :: l) = (c - 65) :: named n l := by simp [named, h]
      rw [pick, if_pos (by omega), e]
      simp only [ih]
      rw [List.getLast?_cons]
      cases (named n l).getLast? <;> rfl
    · have e : named n (c :: l) = named n l := by
        unfold named; rw [List.filter_cons_of_neg (by simpa using h)]
      rw [pick, if_neg (by omega), ih, e]

theorem pick_none (n : Nat) : ∀ (l : List Nat), pick n none none l =
    ((named n l).head?, ((named n l).tail).getLast?) := by
  intro l
  induction l with
  | nil => rfl
  | cons c l ih =>
    by_cases h : 65 ≤ c ∧ c < 65 + n
    · have e : named n (c :: l) = (c - 65) :: named n l := by simp [named, h]
      rw [pick, if_pos (by omega), e]
      simp only [pick_some, Option.or_none, List.head?_cons, List.tail_cons]
    · have e : named n (c :: l) = named n l := by
        unfold named; rw [List.filter_cons_of_neg (by simpa using h)]
      rw [pick, if_neg (by omega), ih, e]

theorem Asks.parse {n : Nat} {line : List Nat} {s d : Nat} (h : Asks n line s d) :
    parseRequest n line.dropLast = .ask s d := by
  obtain ⟨text, nl, rfl, hq, m, e⟩ := h
  rw [List.dropLast_concat]
  unfold parseRequest
  rw [if_neg hq, pick_none, e]
  simp

theorem Asks.lt {n : Nat} {line : List Nat} {s d : Nat} (h : Asks n line s d) : s < n ∧ d < n := by
  obtain ⟨text, nl, rfl, hq, m, e⟩ := h
  have : ∀ v ∈ named n text, v < n := by
    intro v hv
    simp only [named, List.mem_map, List.mem_filter, decide_eq_true_eq] at hv
    obtain ⟨c, ⟨_, hc⟩, rfl⟩ := hv
    omega
  rw [e] at this
  exact ⟨this s (by simp), this d (by simp)⟩

theorem Ends.parse {n : Nat} {line : List Nat} (h : Ends n line) :
    parseRequest n line.dropLast = .quit ∨ parseRequest n line.dropLast = .unclear := by
  obtain ⟨text, nl, rfl, h⟩ := h
  rw [List.dropLast_concat]
  unfold parseRequest
  by_cases hq : 113 ∈ text
  · rw [if_pos hq]; exact .inl rfl
  · have h := h.resolve_left hq
    rw [if_neg hq, pick_none]
    right
    match named n text, h with
    | [], _ => rfl
    | [x], _ => rfl

/-- Every line asks something or ends the session. -/
theorem asks_or_ends (n : Nat) {line : List Nat} (h : line ≠ []) : Ends n line ∨ ∃ s d, Asks n line s d := by
  have e := List.dropLast_concat_getLast h
  by_cases hq : 113 ∈ line.dropLast
  · exact .inl ⟨_, _, e.symm, .inl hq⟩
  · by_cases hl : (named n line.dropLast).length < 2
    · exact .inl ⟨_, _, e.symm, .inr hl⟩
    · right
      match hm : named n line.dropLast with
      | [] => rw [hm] at hl; exact absurd (by decide) hl
      | [x] => rw [hm] at hl; exact absurd (by simp) hl
      | x :: y :: m =>
        have e2 := List.dropLast_concat_getLast (l := y :: m) (by simp)
        exact ⟨x, (y :: m).getLast (by simp), _, _, e.symm, hq, (y :: m).dropLast, by rw [hm, List.cons_append, e2]⟩

/-- The answers to the lines. -/
inductive Answered (g : G) : List (List Nat) → List (Nat × Nat × Nat × List (Nat × Nat)) → Prop where
  | nil : Answered g [] []
  | cons {line : List Nat} {s d r : Nat} {p : List (Nat × Nat)} {ls : List (List Nat)}
      {as : List (Nat × Nat × Nat × List (Nat × Nat))} :
      Asks g.n line s d → Found g s d r p → Answered g ls as → Answered g (line :: ls) ((s, d, r, p) :: as)

theorem session_answers {g : G} (hg : ∀ s d, s < g.n → d < g.n → ∃ r l, dijkstra g s d = some (r, l) ∧ Found g s d r l)
    {last : List Nat} {more : List (List Nat)} (he : Ends g.n last) : ∀ (lines : List (List Nat)),
    (∀ l ∈ lines, ∃ s d, Asks g.n l s d) → ∃ as, session g (lines ++ last :: more) = some as ∧ Answered g lines as := by
  intro lines
  induction lines with
  | nil =>
    intro _
    refine ⟨[], ?_, .nil⟩
    rw [List.nil_append, session.eq_def]
    rcases he.parse with h | h <;> simp only [h]
  | cons l ls ih =>
    intro h
    obtain ⟨s, d, ha⟩ := h l (by simp)
    obtain ⟨as, e, hr⟩ := ih (fun x hx => h x (by simp [hx]))
    obtain ⟨r, p, ed, hf⟩ := hg s d ha.lt.1 ha.lt.2
    refine ⟨(s, d, r, p) :: as, ?_, .cons ha hf hr⟩
    rw [List.cons_append, session.eq_def]
    simp only [ha.parse, ed, e, Option.bind_eq_bind, Option.bind_some]

theorem session_endless (g : G) (input : List (List Nat)) (as : List (Nat × Nat × Nat × List (Nat × Nat)))
    (e : session g input = some as) : (∀ l ∈ input, ∃ s d, Asks g.n l s d) → False := by
  revert e
  refine session.partial_correctness g (fun input _ => (∀ l ∈ input, ∃ s d, Asks g.n l s d) → False) ?_ input as
  intro f ih input as e h
  cases input with
  | nil => exact ih [] as e (by simp)
  | cons l ls =>
    obtain ⟨s, d, ha⟩ := h l (by simp)
    simp only [ha.parse, Option.bind_eq_bind, Option.bind_eq_some_iff] at e
    obtain ⟨_, _, rest, er, _⟩ := e
    exact ih ls rest er (fun x hx => h x (by simp [hx]))

end CCC.Graph

namespace CCC.Search
open CCC

variable {b : Board} {net : Net}

/-- C89, as far as it holds.  On every graph the program makes, of at most 26 vertices: the lines up to the first one that has
a `q` or names fewer than two vertices are answered, each with a cheapest way from the first to the last vertex it names or
the answer that there is none, and then the session ends, whatever follows. -/
theorem C89_session_partial (wide : Bool) (hash : Pt → UInt64) (hp : Heap) (junk : Nat → Fhm.Cell Back) (junkQ : Nat → Pt)
    {n : Nat} (pl : Placed b net n) (h0 : ∀ v, (net v).edges = []) (hsmall : n * (b.rows * b.cols) < 2147483647) :
    ∃ b' net' es, buildEdges (cfg wide hash) hp junk junkQ (List.range n) b net = some (b', net', es) ∧
      ∀ lines last more, (∀ l ∈ lines, ∃ s d, Graph.Asks n l s d) → Graph.Ends n last →
        ∃ as, Graph.session ⟨n, fun v => (net' v).edges⟩ (lines ++ last :: more) = some as ∧
          Graph.Answered ⟨n, fun v => (net' v).edges⟩ lines as := by
  obtain ⟨b', net', es, e, _, h⟩ := C85_solve wide hash hp junk junkQ pl h0 hsmall
  refine ⟨b', net', es, e, ?_⟩
  intro lines last more hl he
  exact Graph.session_answers (g := ⟨n, fun v => (net' v).edges⟩) (fun s d hs hd => by
    obtain ⟨r, l, h1, h2, _⟩ := h s d hs hd
    exact ⟨r, l, h1, h2⟩) he lines hl

/-- C89 does not hold: if the input ends before such a line the program never does, on any graph, also if there is no input at
all. -/
theorem C89_session_violated (g : Graph.G) (lines : List (List Nat)) (h : ∀ l ∈ lines, ∃ s d, Graph.Asks g.n l s d) :
    Graph.session g lines = none := by
  cases e : Graph.session g lines with
  | none => rfl
  | some as => exact (Graph.session_endless g lines as e h).elim

/-- `A->B` asks for the way from the first vertex to the second, `quit` ends the session, and so does `A` alone. -/
example : Graph.Asks 2 [65, 45, 62, 66, 10] 0 1 ∧ Graph.Ends 2 [113, 117, 105, 116, 10] ∧ Graph.Ends 2 [65, 10] :=
  ⟨⟨[65, 45, 62, 66], 10, rfl, by decide, [], by decide⟩, ⟨[113, 117, 105, 116], 10, rfl, .inl (by decide)⟩,
    ⟨[65], 10, rfl, .inr (by decide)⟩⟩

end CCC.Search
