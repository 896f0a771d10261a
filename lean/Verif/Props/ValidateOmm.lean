import Verif.Proof.MultiSound
import Verif.Props.ValidateLinked
/-
C57 for the multimap: what follows when `ccc_omm_validate` accepts a memory, however it came about.
-/
namespace CCC.Omm
open CCC Links Tree MultiSpec

variable {α κ : Type} {cmp : κ → κ → Cmp} {key : α → κ} {s : Omm α} {D : Nat → List Nat}

/-- The structs reached from the root through the branches. -/
inductive InTree (s : Omm α) : Nat → Prop
  | root : s.root ≠ 0 → InTree s s.root
  | branch {a b : Nat} {d : Bool} : InTree s a → s.br a d = some b → b ≠ 0 → InTree s b

/-- What validation does not check.  `D a` are the structs that wait behind `a`: if `a` has duplicates they are a closed doubly
linked ring that begins with the struct `a` names as its parent, and only that one has a parent; they are not in the tree, and
have the key of `a`.  The sentinel has no NULL links.  What an allocating multimap stores was allocated. -/
structure Rings (cmp : κ → κ → Cmp) (key : α → κ) (s : Omm α) (D : Nat → List Nat) : Prop where
  sentinel : s.live 0 = true ∧ (∀ d, s.br 0 d ≠ none) ∧ s.par 0 ≠ none
  single : ∀ a, ¬ InTree s a ∨ hasDups s a = some false → D a = []
  ring : ∀ a, InTree s a → hasDups s a = some true → ∃ x xs, s.par a = some x ∧ D a = x :: xs ∧ (D a).Nodup ∧
    (∀ pre y z post, x :: xs ++ [x] = pre ++ y :: z :: post → s.br y true = some z ∧ s.br z false = some y) ∧
    ∀ y ∈ xs, s.par y = none
  member : ∀ a x, x ∈ D a → x ≠ 0 ∧ s.live x = true ∧ ¬ InTree s x ∧ cmp (key (s.val a)) (key (s.val x)) = .eql
  own : s.alloc = true → ∀ a, InTree s a ∨ (∃ n, a ∈ D n) → s.own a = true

theorem lnks_of {br : Nat → Bool → Slot} : ∀ {l : List Nat},
    (∀ pre y z post, l = pre ++ y :: z :: post → br y true = some z ∧ br z false = some y) → Lnks br l
  | [], _ => trivial
  | [_], _ => trivial
  | a :: b :: l, h => by
    obtain ⟨h1, h2⟩ := h [] a b l rfl
    exact ⟨h1, h2, lnks_of (fun pre y z post e => h (a :: pre) y z post (by rw [e]; rfl))⟩

theorem lnks_at {br : Nat → Bool → Slot} {pre post : List Nat} {y z : Nat} (h : Lnks br (pre ++ y :: z :: post)) :
    br y true = some z ∧ br z false = some y := by
  have := ((Lnks_append pre y (z :: post)).1 h).2
  exact ⟨this.1, this.2.1⟩

/-- The nodes of the tree found by validation. -/
theorem mem_kids {T : Tree} (hr : s.root = T.rootId) (hk : Kids s T) (a : Nat) : a ∈ T.ids ↔ InTree s a := by
  constructor
  · have : ∀ {T : Tree}, Kids s T → (T.rootId ≠ 0 → InTree s T.rootId) → ∀ a ∈ T.ids, InTree s a := by
      intro T
      induction T with
      | nil => intro _ _ a ha; simp [ids] at ha
      | node i k l r il ir =>
        intro hk hi a ha
        obtain ⟨i0, _, e1, e2, kl, kr⟩ := hk
        have hi : InTree s i := hi i0
        simp only [ids, List.mem_append, List.mem_cons] at ha
        rcases ha with ha | rfl | ha
        · exact il kl (fun h => .branch hi e1 h) a ha
        · exact hi
        · exact ir kr (fun h => .branch hi e2 h) a ha
    exact this hk (fun h => by rw [← hr] at h ⊢; exact .root h) a
  · intro h
    have step : ∀ {T : Tree}, Kids s T → ∀ a ∈ T.ids, ∀ d b, s.br a d = some b → b ≠ 0 → b ∈ T.ids := by
      intro T
      induction T with
      | nil => intro _ a ha; simp [ids] at ha
      | node i k l r il ir =>
        intro hk a ha d b hb b0
        obtain ⟨i0, _, e1, e2, kl, kr⟩ := hk
        simp only [ids, List.mem_append, List.mem_cons] at ha ⊢
        have root : ∀ t : Tree, t.rootId = b → b ∈ t.ids := by
          intro t e
          cases t with
          | nil => exact absurd e.symm b0
          | node => have : _ = b := e; subst this; simp [ids, rootId]
        rcases ha with ha | rfl | ha
        · exact .inl (il kl a ha d b hb b0)
        · cases d
          · rw [e1] at hb; exact .inl (root l (Option.some.inj hb))
          · rw [e2] at hb; exact .inr (.inr (root r (Option.some.inj hb)))
        · exact .inr (.inr (ir kr a ha d b hb b0))
    induction h with
    | root h0 =>
      rw [hr] at h0 ⊢
      cases T with
      | nil => exact absurd rfl h0
      | node => simp [ids, rootId]
    | branch _ hb b0 ih => exact step hk _ ih _ _ hb b0

/-- **C57** for the multimap, the part that holds.  If validation accepts a memory whose rings of duplicates are in order, then
the structs in the tree and the rings are a multimap: they are all different and as many as the size says, the loops visit them in
the order of their keys, and every later sequence of calls answers as the specification does for them.  Missing: validation
itself does not look at the rings (`C57_omm_violated`). -/
theorem C57_omm_validate_partial (hc : LawfulCmp cmp) (h : validate cmp key s = some true) (hd : Rings cmp key s D) :
    ∃ l : List (Nat × α),
      (do let p ← begin_ s; iterate (fun a => next s a false) none p) = some ((descending cmp key l).map Prod.fst) ∧
      (do let p ← rbegin s; iterate (fun a => next s a true) none p) = some ((ascending cmp key l).map Prod.fst) ∧
      (l.map Prod.fst).Nodup ∧ size s = l.length ∧ (∀ e ∈ l, s.val e.1 = e.2) ∧
      (∀ a, a ∈ l.map Prod.fst ↔ InTree s a ∨ ∃ n, a ∈ D n) ∧
      ∀ ops, okRun cmp key s.alloc s.off ⟨l, [], []⟩ ops →
        ∃ s', run cmp key s ops = some (s', (specRun cmp key s.alloc ⟨l, [], []⟩ ops).2) := by
  unfold validate at h
  simp only [bind, Option.bind_eq_some_iff] at h
  obtain ⟨v, hv, h⟩ := h
  split at h
  · simp at h
  rename_i hv'
  have hv' : v = true := by cases v <;> simp_all
  subst hv'
  simp only [Option.bind_eq_some_iff] at h
  obtain ⟨w, hw, h⟩ := h
  split at h
  · simp at h
  rename_i hw'
  have hw' : w = true := by cases w <;> simp_all
  subst hw'
  simp only [Option.bind_eq_some_iff] at h
  obtain ⟨n, hn, h⟩ := h
  have hz : n = s.sz := by simpa using h
  subst hz
  obtain ⟨T, t1, t2, t3, _⟩ := subtrees_sound hc s _ _ _ _ hv rfl
  have hr : s.root = T.rootId := Option.some.inj t1
  have hk := knows_sound t2 (by rw [← hr]; exact hw)
  have hm := mem_kids hr t2
  have hro : RingsOk cmp key s D T := by
    refine ⟨hd.sentinel, ?_, ?_, ?_⟩
    · intro a ha
      apply hd.single
      rw [← hm a]
      exact ha
    · intro a ha hh
      obtain ⟨x, xs, g1, g2, g3, g4, g5⟩ := hd.ring a ((hm a).1 ha) hh
      exact ⟨x, xs, g1, g2, g2 ▸ g3, lnks_of g4, g5⟩
    · intro a x hx
      rw [hm x]
      exact hd.member a x hx
  have c := sound_core hc hr t2 hk t3 hro
  have hsz : s.sz = (T.ids.flatMap (fun n => n :: D n)).length := by
    have := c.recursiveSize c.whole.tree
    rw [← hr, hn] at this
    exact Option.some.inj this
  have hA : ∀ a, a ∈ T.ids.flatMap (fun n => n :: D n) ↔ InTree s a ∨ ∃ n, a ∈ D n := by
    intro a
    constructor
    · intro h
      obtain ⟨n, hn, h⟩ := List.mem_flatMap.1 h
      rcases List.mem_cons.1 h with rfl | h
      · exact .inl ((hm a).1 hn)
      · exact .inr ⟨n, h⟩
    · rintro (h | ⟨n, h⟩)
      · exact c.memT ((hm a).2 h)
      · exact (c.memD h).1
  have m : SimA cmp key s.alloc s.off s ⟨(T.ids.flatMap (fun n => n :: D n)).map (fun a => (a, s.val a)), [], []⟩
      (T.ids.flatMap (fun n => n :: D n)) D (plainLinks s T) T := by
    refine ⟨?_, hsz, rfl, fun ha a h => hd.own ha a ((hA a).1 h), by simp, rfl, rfl⟩
    have : (fun a => a ∈ ([] : List Nat) ∧ a ∉ ([] : List Nat)) = fun _ => False := by funext a; simp
    rw [this]
    exact c
  have hfst : ((T.ids.flatMap (fun n => n :: D n)).map (fun a => (a, s.val a))).map Prod.fst = T.ids.flatMap (fun n => n :: D n) := by
    rw [List.map_map]; simp [Function.comp_def]
  refine ⟨(T.ids.flatMap (fun n => n :: D n)).map (fun a => (a, s.val a)), ?_, ?_, ?_, ?_, ?_, ?_, ?_⟩
  · have e := m.descending hc
    have hb := c.begin_ hsz
    have := iterate_spec (c.flat_nodup false) (fun pre a post e => c.next hc false e) (pre := []) (m := flat false D T) (post := []) (by simp)
    simp only at e
    rw [e, List.map_map]
    simp only [hb, Option.bind_eq_bind, Option.bind_some]
    simpa [cell, Function.comp_def] using this
  · have e := m.ascending hc
    have hb := c.rbegin hsz
    have := iterate_spec (c.flat_nodup true) (fun pre a post e => c.next hc true e) (pre := []) (m := flat true D T) (post := []) (by simp)
    simp only at e
    rw [e, List.map_map]
    simp only [hb, Option.bind_eq_bind, Option.bind_some]
    simpa [cell, Function.comp_def] using this
  · rw [hfst]; exact c.nodupA hc
  · simp only [size, List.length_map]; exact hsz
  · intro e he
    obtain ⟨a, _, rfl⟩ := List.mem_map.1 he
    rfl
  · intro a
    rw [hfst]
    exact hA a
  · intro ops hok
    obtain ⟨s', h1, _⟩ := run_sim hc ops ⟨_, _, _, _, m⟩ hok
    exact ⟨s', h1⟩

/-- The hypotheses hold in every state the program can reach. -/
theorem C57_omm_rings {al : Bool} {off : Nat} {st : St α} (hc : LawfulCmp cmp) (h : Reach cmp key al off s st) :
    validate cmp key s = some true ∧ ∃ D, Rings cmp key s D ∧ ∀ a, (InTree s a ∨ ∃ n, a ∈ D n) ↔ a ∈ st.elems.map Prod.fst := by
  obtain ⟨A, D, h', T, m⟩ := h.sim hc
  have c := m.core
  have hk : ∀ {t : Tree} {p : Nat}, Rep h' p t → Kids s t := by
    intro t
    induction t with
    | nil => intro p _; trivial
    | node i k l r il ir =>
      intro p hr
      obtain ⟨i0, lv, b1, b2, ip, rl, rr⟩ := hr
      exact ⟨i0, c.rel.live i lv, by rw [c.rel.br i false lv, b1], by rw [c.rel.br i true lv, b2], il rl, ir rr⟩
  have hm := mem_kids c.root (hk c.whole.tree)
  have hA : ∀ a, (InTree s a ∨ ∃ n, a ∈ D n) ↔ a ∈ A := by
    intro a
    constructor
    · rintro (h | ⟨n, h⟩)
      · exact c.memT ((hm a).2 h)
      · exact (c.memD h).1
    · intro h
      obtain ⟨n, hn, h⟩ := c.find_node h
      rcases h with rfl | h
      · exact .inl ((hm a).1 hn)
      · exact .inr ⟨n, h⟩
  refine ⟨c.validate hc m.sz, D, ⟨?_, ?_, ?_, ?_, ?_⟩, ?_⟩
  · refine ⟨c.rel.live 0 c.rel.zero, fun d => ?_, ?_⟩
    · rw [c.rel.br 0 d c.rel.zero]; simp
    · rw [c.rel.plain 0 c.rel.zero c.rel.d0]; simp
  · intro a ha
    cases e : D a with
    | nil => rfl
    | cons x xs =>
      exfalso
      have hT := c.tree_of (n := a) (y := x) (by rw [e]; simp)
      rcases ha with ha | ha
      · exact ha ((hm a).1 hT)
      · rw [c.rel.hasDups (c.whole.tree.live a hT), e] at ha
        simp at ha
  · intro a ha hh
    have lv := c.whole.tree.live a ((hm a).2 ha)
    rw [c.rel.hasDups lv] at hh
    cases e : D a with
    | nil => rw [e] at hh; simp at hh
    | cons x xs =>
      obtain ⟨q1, _, q3, q4⟩ := c.rel.head a x xs lv e
      refine ⟨x, xs, q1, rfl, e ▸ c.rel.dnd a, ?_, q3⟩
      intro pre y z post he
      refine lnks_at (pre := pre) (post := post) ?_
      rw [← he]; exact q4
  · intro a x hx
    refine ⟨c.ne_zero (c.memD hx).1, (c.rel.dnl a x hx).2.1, fun h => ?_, (c.memD hx).2⟩
    have := c.whole.tree.live x ((hm x).2 h)
    rw [(c.rel.dnl a x hx).2.2] at this
    cases this
  · intro ha a h
    rw [m.alloc] at ha
    exact m.own ha a ((hA a).1 h)
  · intro a
    rw [hA, m.elems, List.map_map]
    simp [Function.comp_def]

/-- In a reachable state in which any other number is written into the size, validation does not succeed. -/
theorem C57_omm_wrong_size {al : Bool} {off : Nat} {st : St α} (hc : LawfulCmp cmp) (h : Reach cmp key al off s st) {n : Nat}
    (hn : n ≠ size s) : validate cmp key { s with sz := n } ≠ some true := by
  intro hv
  obtain ⟨hv0, D, hd, _⟩ := C57_omm_rings hc h
  have tr : ∀ {s1 s2 : Omm α}, s2.br = s1.br → s2.root = s1.root → ∀ a, InTree s1 a → InTree s2 a := by
    intro s1 s2 e1 e2 a ha
    induction ha with
    | root e => rw [← e2] at e ⊢; exact .root e
    | branch _ hb b0 ih => exact .branch ih (by rw [e1]; exact hb) b0
  have ti : ∀ a, InTree { s with sz := n } a ↔ InTree s a :=
    fun a => ⟨tr (s1 := { s with sz := n }) (s2 := s) rfl rfl a, tr (s1 := s) (s2 := { s with sz := n }) rfl rfl a⟩
  have hdup : ∀ a, hasDups { s with sz := n } a = hasDups s a := fun _ => rfl
  have hd' : Rings cmp key { s with sz := n } D := by
    refine ⟨hd.sentinel, ?_, ?_, ?_, ?_⟩
    · intro a; rw [ti, hdup]; exact hd.single a
    · intro a; rw [ti, hdup]; exact hd.ring a
    · intro a x; rw [ti]; exact hd.member a x
    · intro ha a; rw [ti]; exact hd.own ha a
  obtain ⟨l, _, _, n1, z1, _, q1, _⟩ := C57_omm_validate_partial hc hv0 hd
  obtain ⟨l', _, _, n2, z2, _, q2, _⟩ := C57_omm_validate_partial hc hv hd'
  have : (l.map Prod.fst).Perm (l'.map Prod.fst) := (List.perm_ext_iff_of_nodup n1 n2).2 (fun a => by
    rw [q1, q2, ti])
  have := this.length_eq
  simp only [List.length_map] at this
  simp only [size] at z1 z2 hn
  omega

example : ∃ s st D, Reach natCmp (Prod.fst : Nat × Nat → Nat) false 0 s st ∧ st.elems = sampleElems ∧
    Rings natCmp (Prod.fst : Nat × Nat → Nat) s D ∧ validate natCmp Prod.fst s = some true := by
  obtain ⟨s, st, h, he, _⟩ := sample_reach
  obtain ⟨hv, D, hd, _⟩ := C57_omm_rings natCmp_lawful h
  exact ⟨s, st, D, h, he, hd, hv⟩

end CCC.Omm
