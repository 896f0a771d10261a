import Verif.Proof.ValidateSound
import Verif.Props.FlatOrderedMap
import Mathlib.Data.List.Perm.Subperm
/-
Soundness of the validation functions of the ordered maps: what holds of a map that validation accepts, when the links,
sizes and data in memory are arbitrary, not only those the library's calls produce.

`live` says which addresses hold a struct with link fields; `none` as an answer is an access to another address, or a
recursion that does not end, so `validate … = some true` says the function returned, and returned true.
-/
namespace CCC.Om
open CCC MapSpec PtrMap Tree
open CCC.Rom (elems ids_elems)

variable {α κ : Type} {cmp : κ → κ → Cmp} {key : α → κ}

theorem Ok.vals {s : Om α} {l : List (Nat × α)} {T : Tree} (o : Ok cmp key s l T) : ∀ e ∈ l, s.val e.1 = e.2 := by
  intro e he
  rw [o.list] at he
  exact (Rom.mem_elems.1 he).2.symm

/-- **C57** (ordered map).  Whatever is in memory: if validation accepts a map then both loops end and visit the same
distinct elements in ascending and descending key order, as many as the size says, and every later history answers as
the sorted list of these elements does. -/
theorem C57_om_validate (hc : LawfulCmp cmp) {s : Om α} (h0 : s.t.live 0 = true) (h : validate cmp key s = some true) :
    ∃ l : List (Nat × α),
      (do let p ← begin_ s; iterate (next s) end_ p) = some (l.map Prod.fst) ∧
      (do let p ← rbegin s; iterate (rnext s) end_ p) = some (l.map Prod.fst).reverse ∧
      (l.map Prod.fst).Nodup ∧ size s = l.length ∧ Sorted cmp (ekey key) l ∧ (∀ e ∈ l, s.val e.1 = e.2) ∧
      ∀ ops, safeRun cmp key s.alloc l ops → ∃ s', run cmp key s ops = some (s', (specRun cmp key s.alloc l ops).2) := by
  obtain ⟨T, o⟩ := validate_sound hc h0 h
  have sm : Sim cmp key s (elems s.val T.ids) := ⟨T, o⟩
  obtain ⟨hn, hnx, hrn, hb, hrb⟩ := sm.next_walk
  refine ⟨elems s.val T.ids, ?_, ?_, hn, o.size, o.sorted, o.vals, ?_⟩
  · simp only [hb, Option.bind_eq_bind, Option.bind_some]
    have := iterate_spec hn hnx (pre := []) (m := (elems s.val T.ids).map Prod.fst) (post := []) (by simp)
    simpa [end_] using this
  · simp only [hrb, Option.bind_eq_bind, Option.bind_some]
    have := iterate_spec (nodup_reverse' hn) hrn (pre := []) (m := ((elems s.val T.ids).map Prod.fst).reverse) (post := []) (by simp)
    simpa [end_] using this
  · intro ops hok
    obtain ⟨s', h1, _⟩ := run_spec hc ops sm hok
    exact ⟨s', h1⟩

/-- A tree nobody built: 2 is the root, 1 and 3 its children. -/
def handmade : Om (Nat × Nat) :=
  { t := { br := fun a d => if a = 2 then (if d then 3 else 1) else 0, par := fun a => if a = 2 then 0 else 2
           parity := fun _ => true, live := fun a => decide (a ≤ 3), root := 2 }
    sz := 3, val := fun a => (a, 7), alloc := true }

theorem handmade_subtrees : Rom.areSubtreesValid natCmp (Prod.fst : Nat × Nat → Nat) handmade 0 2 0 = some true := by
  repeat' (rw [Rom.areSubtreesValid]; simp [handmade, Links.getBr, Rom.at_, natCmp])

theorem handmade_parents : Rom.isStoringParent handmade.t 0 2 = some true := by
  repeat' (rw [Rom.isStoringParent]; simp [handmade, Links.getBr, Links.getPar])

theorem handmade_size : Rom.recursiveSize handmade.t 2 = some 3 := by
  repeat' (rw [Rom.recursiveSize]; simp [handmade, Links.getBr])

example : validate natCmp Prod.fst handmade = some true ∧ handmade.t.live 0 = true := by
  refine ⟨?_, rfl⟩
  have hr : handmade.t.root = 2 := rfl
  simp only [validate, hr, handmade_subtrees, handmade_parents, handmade_size, Option.bind_eq_bind, Option.bind_some]
  rfl

end CCC.Om

namespace CCC.Rom
open CCC MapSpec PtrMap Tree

variable {α κ : Type} {cmp : κ → κ → Cmp} {key : α → κ}

theorem validate_sound (hc : LawfulCmp cmp) {s : Rom α} (h : validate cmp key s = some true) :
    ∃ T, Om.Ok cmp key s (elems s.val T.ids) T := by
  simp only [validate, Option.bind_eq_bind, Links.getParity] at h
  by_cases h0 : s.t.live 0 = true
  · simp only [h0, if_true, Option.bind_some] at h
    cases hq : s.t.parity 0 with
    | false => simp [hq] at h
    | true =>
    simp only [hq, Bool.not_true, Bool.false_eq_true, if_false] at h
    cases ha : areSubtreesValid cmp key s 0 s.t.root 0 with
    | none => simp [ha] at h
    | some a =>
      cases a with
      | false => simp [ha] at h
      | true =>
        simp only [ha, Option.bind_some, Bool.not_true, Bool.false_eq_true, if_false] at h
        cases hn : recursiveSize s.t s.t.root with
        | none => simp [hn] at h
        | some n =>
          simp only [hn, Option.bind_some] at h
          by_cases hz : n = s.sz
          · rw [if_neg (by simpa using hz)] at h
            obtain ⟨T, w, srt, n'⟩ := checks_sound hc h0 ha h
            rw [hn, Option.some.injEq] at n'
            exact ⟨T, w, rfl, srt, by rw [← hz, n']; simp [elems]⟩
          · rw [if_pos hz] at h; cases h
  · simp [h0] at h

theorem walk_of_whole {s : Rom α} {l : List (Nat × α)} {T : Tree} (o : Om.Ok cmp key s l T) :
    (l.map Prod.fst).Nodup ∧
    (∀ pre a post, l.map Prod.fst = pre ++ a :: post → next s a = some post.head?) ∧
    (∀ pre a post, (l.map Prod.fst).reverse = pre ++ a :: post → rnext s a = some post.head?) ∧
    begin_ s = some (l.map Prod.fst).head? ∧ rbegin s = some (l.map Prod.fst).reverse.head? := by
  have hids : l.map Prod.fst = T.ids := by rw [o.list]; exact ids_elems _ _
  have hz : ∀ m : List Nat, (∀ a ∈ m, a ∈ T.ids) → toSlot (m.headD 0) = m.head? := by
    intro m hm
    cases m with
    | nil => rfl
    | cons b m => simp [toSlot, o.ne_zero (hm b (by simp))]
  have hz' : ∀ m : List Nat, (∀ a ∈ m, a ∈ T.ids) → toSlot (m.getLastD 0) = m.reverse.head? := by
    intro m hm
    have := hz m.reverse (by simpa using hm)
    simpa using this
  rw [hids]
  refine ⟨o.nodup, ?_, ?_, ?_, ?_⟩
  · intro pre a post e
    simp only [next, Wavl.next_whole o.whole e true, Option.bind_eq_bind, Option.bind_some, if_true]
    rw [hz post (fun b hb => by rw [e]; simp [hb])]
  · intro pre a post e
    have e' : T.ids = post.reverse ++ a :: pre.reverse := by
      have := congrArg List.reverse e
      simpa using this
    simp only [rnext, Wavl.next_whole o.whole e' false, Option.bind_eq_bind, Option.bind_some, Bool.false_eq_true, if_false]
    rw [hz' _ (fun b hb => by rw [e']; simp [List.mem_reverse.1 hb])]
    simp
  · simp only [begin_, Wavl.minMaxFrom_whole o.whole false, Wavl.endOf, Option.bind_eq_bind, Option.bind_some,
      Bool.false_eq_true, if_false]
    rw [hz _ (fun _ h => h)]
  · simp only [rbegin, Wavl.minMaxFrom_whole o.whole true, Wavl.endOf, Option.bind_eq_bind, Option.bind_some, if_true]
    rw [hz' _ (fun _ h => h)]

/-- A search in any search tree, balanced or not. -/
theorem find_of_whole (hc : LawfulCmp cmp) {s : Rom α} {l : List (Nat × α)} {T : Tree} (o : Om.Ok cmp key s l T) (k : κ) :
    (∃ x, find cmp key s k = some (.eql, x) ∧ lookup cmp (ekey key) k l = some (x, s.val x)) ∨
    (∃ q, find cmp key s k = some q ∧ q.1 ≠ .eql ∧ lookup cmp (ekey key) k l = none) := by
  have side : ∀ {is : List Nat} {c : Cmp}, (∀ a ∈ is, cmp k (key (s.val a)) = c) →
      ∀ e ∈ elems s.val is, cmp k (ekey key e) = c := by
    intro is c h1 e he
    obtain ⟨m, v⟩ := mem_elems.1 he
    simp only [ekey, v]; exact h1 _ m
  rcases Wavl.find_cases (by simpa using o.whole.tree) o.whole.ctx (o.mono hc k) with
    ⟨pre, x, post, e, hx, h1, h2, hf⟩ | ⟨rfl, hf⟩ | ⟨f, cx, e, h1, h2, hf⟩
  · left
    refine ⟨x, hf, ?_⟩
    rw [o.list, e, elems_append]
    exact lookup_split (side h1) hx
  · right
    refine ⟨_, hf, by simp, ?_⟩
    rw [o.list]; rfl
  · right
    refine ⟨_, hf, by cases f.dir <;> simp, ?_⟩
    rw [o.list, e, plug_ids]
    simp only [ids, List.append_nil, elems_append]
    exact lookup_none (side h1) (side h2)

/-- **C57** (realtime ordered map).  Whatever is in memory: if validation accepts a map then both loops end and visit
the same distinct elements in ascending and descending key order, as many as the size says, and every key is found
exactly if one of these elements has it.  Validation does not look at the ranks, so it does not establish the
logarithmic depth: `C57_rom_unbalanced_accepted`. -/
theorem C57_rom_validate (hc : LawfulCmp cmp) {s : Rom α} (h : validate cmp key s = some true) :
    ∃ l : List (Nat × α),
      (do let p ← begin_ s; iterate (next s) end_ p) = some (l.map Prod.fst) ∧
      (do let p ← rbegin s; iterate (rnext s) end_ p) = some (l.map Prod.fst).reverse ∧
      (l.map Prod.fst).Nodup ∧ size s = l.length ∧ Sorted cmp (ekey key) l ∧ (∀ e ∈ l, s.val e.1 = e.2) ∧
      ∀ k, get cmp key s k = some ((lookup cmp (ekey key) k l).map Prod.fst) ∧
        contains cmp key s k = some (lookup cmp (ekey key) k l).isSome := by
  obtain ⟨T, o⟩ := validate_sound hc h
  obtain ⟨hn, hnx, hrn, hb, hrb⟩ := walk_of_whole o
  refine ⟨elems s.val T.ids, ?_, ?_, hn, o.size, o.sorted, o.vals, ?_⟩
  · simp only [hb, Option.bind_eq_bind, Option.bind_some]
    have := iterate_spec hn hnx (pre := []) (m := (elems s.val T.ids).map Prod.fst) (post := []) (by simp)
    simpa [end_] using this
  · simp only [hrb, Option.bind_eq_bind, Option.bind_some]
    have := iterate_spec (nodup_reverse' hn) hrn (pre := []) (m := ((elems s.val T.ids).map Prod.fst).reverse) (post := []) (by simp)
    simpa [end_] using this
  · intro k
    rcases find_of_whole hc o k with ⟨x, hf, hl⟩ | ⟨q, hf, hq, hl⟩
    · simp [get, contains, hf, hl]
    · simp [get, contains, hf, hl, hq]

/-- `n` elements in a line: each is the right child of the one before. -/
def line (n : Nat) : Rom (Nat × Nat) :=
  { t := { br := fun a d => if d && decide (a < n) then a + 1 else 0, par := fun a => a - 1
           parity := fun _ => true, live := fun _ => true, root := if n = 0 then 0 else 1 }
    sz := n, val := fun a => (a, a), alloc := false }

/-- The part of the line from `a` on. -/
def lineTree (a : Nat) : Nat → Tree
  | 0 => nil
  | m + 1 => node a 0 nil (lineTree (a + 1) m)

theorem lineTree_ids (a m : Nat) : (lineTree a m).ids = List.range' a m := by
  induction m generalizing a with
  | zero => rfl
  | succ m ih => simp [lineTree, ids, ih, List.range'_succ]

theorem lineTree_rep (n : Nat) : ∀ m a, a + m = n + 1 → a ≠ 0 → Rep (line n).t (a - 1) (lineTree a m) := by
  intro m
  induction m with
  | zero => intro a _ _; trivial
  | succ m ih =>
    intro a h h0
    refine ⟨h0, rfl, by simp [line], ?_, rfl, trivial, by simpa using ih (a + 1) (by omega) (by omega)⟩
    cases m with
    | zero => simp only [line, lineTree, rootId]; rw [if_neg]; simp; omega
    | succ m => simp only [line, lineTree, rootId]; rw [if_pos]; simp; omega

/-- Validation accepts every line, in which the path to the last element has as many elements as the map: it does not
establish the balance C30 speaks of, which holds for maps the library's own calls build. -/
theorem C57_rom_unbalanced_accepted (n : Nat) : validate natCmp Prod.fst (line n) = some true ∧ size (line n) = n ∧
    ∀ a, 1 ≤ a → a < n → (line n).t.br a true = a + 1 := by
  refine ⟨?_, rfl, fun a _ h => by simp [line, h]⟩
  have hr : Rep (line n).t 0 (lineTree 1 n) := lineTree_rep n n 1 (by omega) (by omega)
  have hroot : (line n).t.root = (lineTree 1 n).rootId := by cases n <;> rfl
  have hs : (lineTree 1 n).ids.Pairwise
      (fun a b => natCmp (Prod.fst ((line n).val a)) (Prod.fst ((line n).val b)) = .les) := by
    rw [lineTree_ids]
    refine (List.pairwise_lt_range' (s := 1) (n := n)).imp ?_
    intro a b h
    simp [line, natCmp, h]
  have hp : (line n).t.getParity 0 = some true := rfl
  rw [validate]
  simp only [hp, Option.bind_eq_bind, Option.bind_some, hroot,
    areSubtreesValid_spec natCmp_lawful (line n) (low := 0) (high := 0) hr hs (by simp) (by simp), recursiveSize_spec hr,
    Bool.not_true, Bool.false_eq_true, if_false]
  rw [if_neg (by rw [lineTree_ids]; simp [line])]
  exact isStoringParent_spec hr

end CCC.Rom

namespace CCC.Fom
open CCC MapSpec FlatMap Tree
open CCC.Rom (elems)
open CCC.Frm (Frm Junk inUse asRom)

variable {α κ : Type} {cmp : κ → κ → Cmp} {key : α → κ}

/-- Distinct numbers between 1 and `n`, as many as there are: all of them. -/
theorem pigeon {is : List Nat} {n : Nat} (hn : is.Nodup) (hr : ∀ a ∈ is, 1 ≤ a ∧ a ≤ n) (hl : is.length = n) :
    ∀ a, 1 ≤ a → a ≤ n → a ∈ is := by
  intro a h1 h2
  have hp : is.Perm (List.range' 1 n) := by
    refine (List.subperm_of_subset hn ?_).perm_of_length_le (by simp [hl])
    intro b hb
    have := hr b hb
    simp only [List.mem_range'_1]; omega
  exact hp.mem_iff.2 (by simp only [List.mem_range'_1]; omega)

theorem started_of_checks (hc : LawfulCmp cmp) {s : Fom α} (hl : s.t.live = inUse s.sz s.cap) (hle : s.sz ≤ s.cap)
    (hsz : s.sz ≠ 0) (ha : Rom.areSubtreesValid cmp key (asRom s) 0 s.t.root 0 = some true)
    (hp : Rom.isStoringParent s.t 0 s.t.root = some true) {n : Nat} (hn : Rom.recursiveSize s.t s.t.root = some n)
    (hz : n = s.sz - 1) : ∃ T, Started cmp key s (elems s.val T.ids) T := by
  have h0 : (asRom s).t.live 0 = true := by
    show s.t.live 0 = true
    rw [hl]; simp only [inUse, Bool.and_eq_true, decide_eq_true_eq]; omega
  obtain ⟨T, w, srt, n'⟩ := Rom.checks_sound hc (s := asRom s) h0 ha hp
  have n' : Rom.recursiveSize s.t s.t.root = some T.ids.length := n'
  rw [hn, Option.some.injEq] at n'
  have hlen : (elems s.val T.ids).length = T.ids.length := by simp [elems]
  have o : Om.Ok cmp key (asRom s) (elems s.val T.ids) T := ⟨w, rfl, srt, by show s.sz - 1 = _; rw [hlen]; omega⟩
  refine ⟨T, o, hl, by rw [hlen]; omega, hle, ?_⟩
  rw [hlen]
  refine pigeon o.nodup ?_ rfl
  intro a hm
  have h1 := o.ne_zero hm
  have h2 : s.t.live a = true := Rep.live (h := (asRom s).t) (by simpa using w.tree) a hm
  rw [hl] at h2
  simp only [inUse, Bool.and_eq_true, decide_eq_true_eq] at h2
  omega

/-- What the checks common to the two flat maps establish. -/
theorem sim_of_checks (hc : LawfulCmp cmp) {s : Fom α} (hl : s.t.live = inUse s.sz s.cap) (hle : s.sz ≤ s.cap)
    (hr : s.t.root ≠ 0 ∨ s.sz ≤ 1) (ha : Rom.areSubtreesValid cmp key (asRom s) 0 s.t.root 0 = some true)
    (hp : Rom.isStoringParent s.t 0 s.t.root = some true) {n : Nat} (hn : Rom.recursiveSize s.t s.t.root = some n)
    (hz : ¬ (n ≠ 0 ∧ n ≠ s.sz - 1)) :
    ∃ l T, Ok cmp key s ⟨l, s.cap, decide (s.sz ≠ 0)⟩ T ∧ (∀ e ∈ l, s.val e.1 = e.2) ∧ size s = l.length := by
  by_cases h0 : s.sz = 0
  · have hroot : s.t.root = 0 := by
      apply Classical.byContradiction
      intro hne
      rw [Rom.recursiveSize, if_neg hne] at hn
      have : s.t.live s.t.root = false := by rw [hl, h0]; simp [inUse]
      simp [Links.getBr, this] at hn
    exact ⟨[], nil, ⟨rfl, Or.inr ⟨by simp [h0], rfl, rfl, ⟨hl, h0, hroot⟩⟩⟩, by simp, by simp [size, h0]⟩
  · have hz' : n = s.sz - 1 := by
      rcases hr with hr | hr
      · have : n ≠ 0 := by
          intro hn0
          subst hn0
          rw [Rom.recursiveSize, if_neg hr] at hn
          simp only [Option.bind_eq_bind, Option.bind_eq_some_iff] at hn
          obtain ⟨_, _, _, _, _, _, _, _, hh⟩ := hn
          simp only [Option.some.injEq] at hh
          omega
        apply Classical.byContradiction
        intro h; exact hz ⟨this, h⟩
      · have : s.sz - 1 = 0 := by omega
        apply Classical.byContradiction
        intro h; exact hz ⟨by omega, h⟩
    obtain ⟨T, o⟩ := started_of_checks hc hl hle h0 ha hp hn hz'
    refine ⟨_, T, ⟨rfl, Or.inl ⟨by simp [h0], o⟩⟩, ?_, ?_⟩
    · intro e he
      exact (Rom.mem_elems.1 he).2.symm
    · have := o.sz
      rw [size, if_neg h0, this]; rfl

theorem iterate_of_sim {s : Fom α} {st : St α} (hs : Sim cmp key s st) :
    (do let p ← begin_ s false; iterate (next s · true) (end_ s) p) = some (st.l.map Prod.fst) ∧
    (do let p ← begin_ s true; iterate (next s · false) (end_ s) p) = some (st.l.map Prod.fst).reverse := by
  obtain ⟨hn, hnx, hrn, hb, hrb⟩ := hs.next_walk
  have he := hs.end_ne
  constructor
  · simp only [hb, Option.bind_eq_bind, Option.bind_some]
    have := iterate_spec' he hn hnx (pre := []) (m := st.l.map Prod.fst) (post := []) (by simp)
    simpa using this
  · simp only [hrb, Option.bind_eq_bind, Option.bind_some]
    have := iterate_spec' (by simpa using he) (nodup_reverse' hn) hrn (pre := []) (m := (st.l.map Prod.fst).reverse)
      (post := []) (by simp)
    simpa using this

theorem Sim.sorted {s : Fom α} {st : St α} (hs : Sim cmp key s st) : Sorted cmp (ekey key) st.l := by
  obtain ⟨T, _, ⟨_, o⟩ | ⟨_, hl, _, o⟩⟩ := hs
  · exact o.ok.sorted
  · rw [hl]; exact List.Pairwise.nil

/-- **C57** (flat ordered map).  Whatever is in the slots: if the map has a root, or its buffer holds at most the
library's own slot, and validation accepts it, then both loops end and visit the same distinct elements in ascending and
descending key order, as many as the size says, and every later history answers as the sorted list of these elements
does.  Missing: a map with elements in the buffer but no root, see `C57_fom_violated`. -/
theorem C57_fom_validate_partial (hc : LawfulCmp cmp) {s : Fom α} (hl : s.t.live = inUse s.sz s.cap) (hle : s.sz ≤ s.cap)
    (hr : s.t.root ≠ 0 ∨ s.sz ≤ 1) (h : validate cmp key s = some true) :
    ∃ l : List (Nat × α),
      (do let p ← begin_ s false; iterate (next s · true) (end_ s) p) = some (l.map Prod.fst) ∧
      (do let p ← begin_ s true; iterate (next s · false) (end_ s) p) = some (l.map Prod.fst).reverse ∧
      (l.map Prod.fst).Nodup ∧ size s = l.length ∧ Sorted cmp (ekey key) l ∧ (∀ e ∈ l, s.val e.1 = e.2) ∧
      ∀ ops, safeRun cmp key s.hasAlloc ⟨l, s.cap, decide (s.sz ≠ 0)⟩ ops →
        ∃ s', run cmp key s ops = some (s', (specRunS cmp key s.hasAlloc ⟨l, s.cap, decide (s.sz ≠ 0)⟩ ops).2) := by
  simp only [validate, Option.bind_eq_bind] at h
  cases ha : Rom.areSubtreesValid cmp key (asRom s) 0 s.t.root 0 with
  | none => simp [ha] at h
  | some a =>
    cases a with
    | false => simp [ha] at h
    | true =>
      simp only [ha, Option.bind_some, Bool.not_true, Bool.false_eq_true, if_false] at h
      cases hn : Rom.recursiveSize s.t s.t.root with
      | none => simp [hn] at h
      | some n =>
        simp only [hn, Option.bind_some] at h
        by_cases hz : n ≠ 0 ∧ n ≠ s.sz - 1
        · rw [if_pos hz] at h; cases h
        · rw [if_neg hz] at h
          obtain ⟨l, T, o, hv, hsz⟩ := sim_of_checks hc hl hle hr ha h hn hz
          have sm : Sim cmp key s ⟨l, s.cap, decide (s.sz ≠ 0)⟩ := ⟨T, o⟩
          refine ⟨l, (iterate_of_sim sm).1, (iterate_of_sim sm).2, sm.next_walk.1, hsz, sm.sorted, hv, ?_⟩
          intro ops hok
          obtain ⟨s', h1, _⟩ := run_spec hc ops sm hok
          exact ⟨s', h1⟩

/-- A map whose root was lost: two elements in the buffer, no tree. -/
def rootless (α : Type) [Inhabited α] : Fom α :=
  { t := { br := fun _ _ => 0, par := fun _ => 0, parity := fun _ => true, live := inUse 3 8, root := 0 }
    val := fun _ => default, sz := 3, cap := 8, hasAlloc := false }

theorem rootless_accepted : validate natCmp Prod.fst (rootless (Nat × Nat)) = some true ∧
    size (rootless (Nat × Nat)) = 2 ∧
    (do let p ← begin_ (rootless (Nat × Nat)) false
        iterate (next (rootless (Nat × Nat)) · true) (end_ (rootless (Nat × Nat))) p) = some [] := by
  refine ⟨?_, rfl, ?_⟩
  · have e1 : Rom.areSubtreesValid natCmp (Prod.fst : Nat × Nat → Nat) (asRom (rootless (Nat × Nat))) 0 0 0 = some true := by
      rw [Rom.areSubtreesValid]; rfl
    have e2 : Rom.recursiveSize (rootless (Nat × Nat)).t 0 = some 0 := by rw [Rom.recursiveSize]; rfl
    have e3 : Rom.isStoringParent (rootless (Nat × Nat)).t 0 0 = some true := by rw [Rom.isStoringParent]; rfl
    have hr : (rootless (Nat × Nat)).t.root = 0 := rfl
    simp [validate, hr, e1, e2, e3]
  · have hb : begin_ (rootless (Nat × Nat)) false = some (some 0) := by
      simp [begin_, rootless, Wavl.minMaxFrom]
    simp only [hb, Option.bind_eq_bind, Option.bind_some]
    rw [iterate.eq_def]; rfl

/-- **C57 is violated**: validation accepts a map whose size says 2 and whose iteration visits nothing, because the size
is compared only when the tree is not empty. -/
theorem C57_fom_violated : ∃ s : Fom (Nat × Nat), validate natCmp Prod.fst s = some true ∧ size s = 2 ∧
    (do let p ← begin_ s false; iterate (next s · true) (end_ s) p) = some [] :=
  ⟨rootless _, rootless_accepted⟩

end CCC.Fom

namespace CCC.Frm
open CCC MapSpec FlatMap Tree
open CCC.Rom (elems)

variable {α κ : Type} {cmp : κ → κ → Cmp} {key : α → κ}

/-- **C57** (flat realtime ordered map).  Whatever is in the slots: if the map has a root, or its buffer holds at most
the library's own slot, and validation accepts it, then both loops end and visit the same distinct elements in
ascending and descending key order, as many as the size says, and every key is found exactly if one of these elements
has it.  Missing: a map with elements in the buffer but no root, see `C57_frm_violated`. -/
theorem C57_frm_validate_partial (hc : LawfulCmp cmp) {s : Frm α} (hl : s.t.live = inUse s.sz s.cap) (hle : s.sz ≤ s.cap)
    (hr : s.t.root ≠ 0 ∨ s.sz ≤ 1) (h : validate cmp key s = some true) :
    ∃ l : List (Nat × α),
      (do let p ← begin_ s false; iterate (next s · true) (end_ s) p) = some (l.map Prod.fst) ∧
      (do let p ← begin_ s true; iterate (next s · false) (end_ s) p) = some (l.map Prod.fst).reverse ∧
      (l.map Prod.fst).Nodup ∧ size s = l.length ∧ Sorted cmp (ekey key) l ∧ (∀ e ∈ l, s.val e.1 = e.2) ∧
      ∀ k, get cmp key s k = some ((lookup cmp (ekey key) k l).map Prod.fst) ∧
        contains cmp key s k = some (lookup cmp (ekey key) k l).isSome := by
  simp only [validate, Option.bind_eq_bind, Option.bind_eq_some_iff] at h
  obtain ⟨p, _, h⟩ := h
  cases p with
  | false => simp at h
  | true =>
  simp only [Bool.not_true, Bool.false_eq_true, if_false, Option.bind_eq_some_iff] at h
  obtain ⟨a, ha, h⟩ := h
  cases a with
  | false => simp at h
  | true =>
  simp only [Bool.not_true, Bool.false_eq_true, if_false, Option.bind_eq_some_iff] at h
  obtain ⟨n, hn, h⟩ := h
  by_cases hz : n ≠ 0 ∧ n ≠ s.sz - 1
  · rw [if_pos hz] at h; cases h
  rw [if_neg hz] at h
  obtain ⟨l, T, o, hv, hsz⟩ := Fom.sim_of_checks hc hl hle hr ha h hn hz
  have sm : Fom.Sim cmp key s ⟨l, s.cap, decide (s.sz ≠ 0)⟩ := ⟨T, o⟩
  refine ⟨l, (Fom.iterate_of_sim sm).1, (Fom.iterate_of_sim sm).2, sm.next_walk.1, hsz, sm.sorted, hv, ?_⟩
  intro k
  obtain ⟨_, ⟨_, o⟩ | ⟨_, hl, _, o⟩⟩ := o
  · have hf : ∀ q, Rom.find cmp key (asRom s) k = some q → find cmp key s k = some q := fun q h => h
    rcases Rom.find_of_whole hc o.ok k with ⟨x, h1, h2⟩ | ⟨q, h1, hq, h2⟩
    · simp [get, contains, hf _ h1, h2]
    · simp [get, contains, hf _ h1, h2, hq]
  · simp only at hl
    subst hl
    have : find cmp key s k = some (.err, 0) := by
      rw [find, Wavl.find, o.root, Wavl.findLoop]; rfl
    simp [get, contains, this, lookup]

/-- **C57 is violated**: validation accepts a map whose size says 2 and whose iteration visits nothing, because the size
is compared only when the tree is not empty. -/
theorem C57_frm_violated : ∃ s : Frm (Nat × Nat), validate natCmp Prod.fst s = some true ∧ size s = 2 ∧
    (do let p ← begin_ s false; iterate (next s · true) (end_ s) p) = some [] := by
  obtain ⟨h1, h2, h3⟩ := Fom.rootless_accepted
  refine ⟨Fom.rootless _, ?_, h2, h3⟩
  have hp : (Fom.rootless (Nat × Nat)).t.getParity 0 = some true := rfl
  have hs : (Fom.rootless (Nat × Nat)).sz = 3 := rfl
  simp only [validate, hp, hs]
  exact h1

/-- A tree nobody built, in a buffer of eight slots: 2 is the root, 1 and 3 its children. -/
def handmade : Frm (Nat × Nat) :=
  { t := { br := fun a d => if a = 2 then (if d then 3 else 1) else 0, par := fun a => if a = 2 then 0 else 2
           parity := fun _ => true, live := inUse 4 8, root := 2 }
    val := fun a => (a, 7), sz := 4, cap := 8, hasAlloc := false }

theorem handmade_accepted : validate natCmp Prod.fst handmade = some true ∧
    Fom.validate natCmp Prod.fst handmade = some true := by
  have e1 : Rom.areSubtreesValid natCmp (Prod.fst : Nat × Nat → Nat) (asRom handmade) 0 2 0 = some true := by
    repeat' (rw [Rom.areSubtreesValid]; simp [handmade, Links.getBr, Rom.at_, natCmp, asRom, inUse])
  have e2 : Rom.isStoringParent handmade.t 0 2 = some true := by
    repeat' (rw [Rom.isStoringParent]; simp [handmade, Links.getBr, Links.getPar, inUse])
  have e3 : Rom.recursiveSize handmade.t 2 = some 3 := by
    repeat' (rw [Rom.recursiveSize]; simp [handmade, Links.getBr, inUse])
  have hr : handmade.t.root = 2 := rfl
  have hs : handmade.sz = 4 := rfl
  have hp : handmade.t.getParity 0 = some true := rfl
  constructor
  · simp [validate, hr, hs, hp, e1, e2, e3]
  · simp [Fom.validate, hr, hs, e1, e2, e3]

example : handmade.t.live = inUse handmade.sz handmade.cap ∧ handmade.sz ≤ handmade.cap ∧
    (handmade.t.root ≠ 0 ∨ handmade.sz ≤ 1) := ⟨rfl, by decide, Or.inl (by decide)⟩

end CCC.Frm
