import Verif.Proof.Traverse
import Verif.Proof.FlatOrderedMapSpine
import Verif.Props.OrderedMap
import Verif.Props.FlatOrderedMap
import Verif.Props.Logarithmic
import Verif.Props.LogarithmicFlat
/-
C69: what iteration costs.  `iterateN` is the user's loop `iterate` with every access of the library to an element counted.
-/

namespace CCC
open CCC

theorem Costs.zero {α : Type} {x : Count α} {m : Nat} {r : α} (h : Costs x m r) : x 0 = some (r, m) := by
  have := h 0; rwa [Nat.zero_add] at this

theorem Costs.again {β : Type} {x : Count β} {m : Nat} {r : β} (h : Costs x m r) : ∀ k, Costs (againN x k) (k * m) ()
  | 0 => by rw [Nat.zero_mul]; exact .pure _
  | k + 1 => by rw [Nat.succ_mul, Nat.add_comm (k * m)]; exact h.bind (f := fun _ => againN x k) (h.again k)

theorem arm_spine (n : Nat) : Wavl.arm false (Om.spine n) = n := by
  induction n with
  | zero => rfl
  | succ n ih => simp [Om.spine, Wavl.arm, ih]; omega

end CCC

namespace CCC.Om
open CCC PtrMap MapSpec Tree Rom Wavl
variable {α κ : Type} {cmp : κ → κ → Cmp} {key : α → κ}

/-- **C69 (ordered map).**  A whole loop over the map, in either direction, visits the elements in order and makes at most six
accesses per element, whatever the shape of the tree. -/
theorem C69_om_traverse (hc : LawfulCmp cmp) {s : Om α} {l : List (Nat × α)} (h : Reach cmp key s l) :
    (∃ m, (do let p ← beginA s; iterateN (nextA s) end_ p) 0 = some (l.map Prod.fst, m) ∧ m ≤ 6 * l.length) ∧
    (∃ m, (do let p ← rbeginA s; iterateN (rnextA s) end_ p) 0 = some ((l.map Prod.fst).reverse, m) ∧ m ≤ 6 * l.length) := by
  obtain ⟨i1, i2⟩ := C24_om_iteration hc h
  obtain ⟨T, o⟩ := h.sim hc
  have hlen : T.ids.length = l.length := by rw [o.list]; simp [elems]
  by_cases h0 : s.sz = 0
  · have hl : l = [] := by have := o.size; rw [h0] at this; exact List.length_eq_zero_iff.1 this.symm
    subst hl
    refine ⟨⟨0 + 0, ?_, by simp⟩, ⟨0 + 0, ?_, by simp⟩⟩ <;> refine Costs.zero ?_
    · rw [beginA, if_pos h0]
      refine (Costs.pure _).bind ?_
      rw [iterateN, end_, if_pos rfl]; exact .pure _
    · rw [rbeginA, if_pos h0]
      refine (Costs.pure _).bind ?_
      rw [iterateN, end_, if_pos rfl]; exact .pure _
  · have hne : T ≠ nil := by
      rintro rfl
      apply h0; rw [o.size, ← hlen]; rfl
    constructor
    · obtain ⟨m1, c1, b1⟩ := first_le o.whole hne true
      have e1 : Wavl.minMaxLoop s.t s.t.root false = some (endOf false T.ids) := (minMaxLoopN_er _ _ _).eq c1
      simp only [begin_, if_neg h0, e1, Option.bind_eq_bind, Option.bind_some] at i1
      obtain ⟨m2, c2, b2⟩ := walk_le o.whole true enc_toSlot (nxN := nextA s) (fun a => rfl) (fun a => rfl) i1 (within_end T false)
      refine ⟨m1 + m2, Costs.zero ?_, ?_⟩
      · rw [beginA, if_neg h0]
        exact (c1.out some).bind c2
      · simp only [slotPos, end_, List.length_map, Bool.not_true] at b1 b2
        omega
    · obtain ⟨m1, c1, b1⟩ := first_le o.whole hne false
      have e1 : Wavl.minMaxLoop s.t s.t.root true = some (endOf true T.ids) := (minMaxLoopN_er _ _ _).eq c1
      simp only [rbegin, if_neg h0, e1, Option.bind_eq_bind, Option.bind_some] at i2
      obtain ⟨m2, c2, b2⟩ := walk_le o.whole false enc_toSlot (nxN := rnextA s) (fun a => rfl) (fun a => rfl) i2 (within_end T true)
      refine ⟨m1 + m2, Costs.zero ?_, ?_⟩
      · rw [rbeginA, if_neg h0]
        exact (c1.out some).bind c2
      · simp only [slotPos, end_, List.length_map, List.length_reverse, Bool.not_false] at b1 b2
        omega

theorem spine_run (j : Nat) : ∀ {s : Om Nat} {i : Nat}, Ok natCmp id s (nums i) (spine i) → s.alloc = false →
    ∃ s' rs, run natCmp id s ((List.range' (i + 1) j).map (fun i => .tryInsert i i none)) = some (s', rs) ∧
      Ok natCmp id s' (nums (i + j)) (spine (i + j)) := by
  induction j with
  | zero => intro s i o _; exact ⟨s, [], rfl, o⟩
  | succ j ih =>
    intro s i o ha
    obtain ⟨s1, e, o1, ha1⟩ := spine_insert o ha
    obtain ⟨s', rs, h, o'⟩ := ih o1 ha1
    refine ⟨s', .ent Stat.vacant (some (i + 1, i + 1)) :: rs, ?_, by rw [show i + (j + 1) = i + 1 + j by omega]; exact o'⟩
    rw [List.range'_succ, List.map_cons, run]
    simp only [e, h, Option.bind_eq_bind, Option.bind_some]

theorem spec_ascending : ∀ j i, (specRun natCmp id false (nums i) ((List.range' (i + 1) j).map
    (fun i => (.tryInsert i i none : Op Nat Nat)))).1 = nums (i + j) := by
  intro j
  induction j with
  | zero => intro i; rfl
  | succ j ih =>
    intro i
    rw [List.range'_succ, List.map_cons]
    simp only [specRun]
    rw [spec_insert, ih (i + 1), show i + (j + 1) = i + 1 + j by omega]

/-- Ascending insertions reach the path of `n` elements. -/
theorem spine_reach (n : Nat) : ∃ s, Reach natCmp id s (nums n) ∧ Ok natCmp id s (nums n) (spine n) := by
  obtain ⟨s, rs, e, o⟩ := spine_run n (s := init (fun _ => 0) false) (i := 0) (init_ok _ false) rfl
  have h1 := safe_ascending 0 n 0
  rw [List.replicate_zero, List.append_nil] at h1
  have h2 := spec_ascending n 0
  rw [show 0 + n = n from Nat.zero_add n] at o h2
  exact ⟨s, ⟨_, _, _, h1, ⟨_, e⟩, h2⟩, o⟩

/-- C70 fails: `ccc_om_next` and `ccc_om_rnext` are documented as "O(1)", but no constant bounds the
accesses of one `rnext`: from the smallest of `n` elements inserted in ascending order it climbs over all of them. -/
theorem C70_om_rnext_violated : ¬ ∃ c : Nat, ∀ (s : Om Nat) (l : List (Nat × Nat)), Reach natCmp id s l →
    ∀ e ∈ l.map Prod.fst, ∀ q n, rnextA s e 0 = some (q, n) → n ≤ c := by
  rintro ⟨c, h⟩
  obtain ⟨s, hs, o⟩ := spine_reach (c + 1)
  obtain ⟨y, hy, hc⟩ := lastN_cost o.whole (by simp [spine]) false
  have := h s _ hs y (by rw [o.list, ids_elems]; exact hy) _ _ (hc.out toSlot).zero
  rw [arm_spine] at this
  omega

example : ∃ s m, Reach natCmp (Prod.fst : Nat × Nat → Nat) s [(4, (1, 3)), (2, (3, 7)), (3, (8, 3)), (5, (9, 4))] ∧
    (do let p ← beginA s; iterateN (nextA s) end_ p) 0 = some ([4, 2, 3, 5], m) ∧ m ≤ 24 := by
  obtain ⟨s, h⟩ := sample_reach
  obtain ⟨⟨m, h1, h2⟩, _⟩ := C69_om_traverse natCmp_lawful h
  exact ⟨s, m, h, h1, h2⟩

end CCC.Om

namespace CCC.Rom
open CCC PtrMap MapSpec Tree Wavl
variable {α κ : Type} {cmp : κ → κ → Cmp} {key : α → κ}

/-- **C69 (realtime ordered map).**  As `C69_om_traverse`. -/
theorem C69_rom_traverse (hc : LawfulCmp cmp) {s : Rom α} {l : List (Nat × α)} (h : Reach cmp key s l) :
    (∃ m, (do let p ← begin_N s; iterateN (nextN s) end_ p) 0 = some (l.map Prod.fst, m) ∧ m ≤ 6 * l.length) ∧
    (∃ m, (do let p ← rbeginN s; iterateN (rnextN s) end_ p) 0 = some ((l.map Prod.fst).reverse, m) ∧ m ≤ 6 * l.length) := by
  obtain ⟨i1, i2⟩ := C31_rom_iteration hc h
  obtain ⟨T, o⟩ := h.sim hc
  simp only [begin_, rbegin, Option.bind_eq_bind, Option.bind_assoc, Option.bind_some] at i1 i2
  constructor
  · obtain ⟨m, c, b⟩ := tour_le o.wv.whole true enc_toSlot (nxN := nextN s) (fun a => rfl) (fun a => rfl) i1
    refine ⟨m, Costs.zero ?_, by simpa using b⟩
    simpa only [begin_N, show (end_ : Slot) = toSlot 0 from rfl, bind_assoc, pure_bind, Bool.not_true, Bool.not_false] using c
  · obtain ⟨m, c, b⟩ := tour_le o.wv.whole false enc_toSlot (nxN := rnextN s) (fun a => rfl) (fun a => rfl) i2
    refine ⟨m, Costs.zero ?_, by simpa using b⟩
    simpa only [rbeginN, show (end_ : Slot) = toSlot 0 from rfl, bind_assoc, pure_bind, Bool.not_true, Bool.not_false] using c

theorem loop_log {h : Links} {T : Tree} (w : Whole h [] T) (hv : Valid T) (trav : Bool) {enc : Nat → Slot}
    (he : ∀ b, enc b = some b ∨ (b = 0 ∧ enc b = none)) {nx : Nat → Option Slot} {nxN : Nat → Count Slot}
    (hx : ∀ a, nx a = (Wavl.next h a trav).bind (fun b => some (enc b)))
    (hxN : ∀ a, nxN a = (do let n ← Wavl.nextN h a trav; pure (enc n)))
    {y : Option (Slot × Slot)} {x : Count (Slot × Slot)} (hb : Bd x y (8 * T.rk + 4))
    (hw : ∀ r, y = some r → Within' T r.1 ∧ Within' T r.2) {L : List Nat}
    (hi : (y.bind fun r => overRange nx r) = some L) {n : Nat} (hn : T.ids.length ≤ n) :
    ∃ m : Nat, (do let r ← x; overRangeN nxN r) 0 = some (L, m) ∧ (m : ℝ) ≤ 6 * L.length + 24 * Real.logb 2 (n + 1) + 4 := by
  obtain ⟨r, e1, e2⟩ := Option.bind_eq_some_iff.1 hi
  obtain ⟨m1, b1, c1⟩ := hb _ e1
  obtain ⟨w1, w2⟩ := hw _ e1
  simp only [overRange, Range.begin_, Range.end_] at e2
  obtain ⟨m2, c2, b2⟩ := walk_le w trav he hx hxN e2 w1
  refine ⟨m1 + m2, Costs.zero (c1.bind (by simpa only [overRangeN, Range.begin_, Range.end_] using c2)), ?_⟩
  have hp : ∀ q, Within' T q → slotPos trav T q ≤ 2 * (T.rk : Int) ∧ -(2 * (T.rk : Int)) ≤ slotPos trav T q := by
    intro q hq
    cases q with
    | none => simp [slotPos]
    | some a => exact pos_rk w hv trav (hq a rfl)
  have p1 := hp _ w1
  have p2 := hp _ w2
  have hk := rk_log hv hn
  have : ((m1 + m2 : Nat) : Int) ≤ 6 * L.length + 12 * T.rk + 4 := by push_cast; omega
  have : ((m1 + m2 : Nat) : ℝ) ≤ 6 * L.length + 12 * T.rk + 4 := by exact_mod_cast this
  linarith

theorem find_map_within {T : Tree} {p : Nat × α → Bool} {l : List (Nat × α)} (hl : ∀ e ∈ l, e.1 ∈ T.ids) :
    Within' T ((l.find? p).map Prod.fst) := by
  intro a ha
  obtain ⟨e, he, rfl⟩ := Option.map_eq_some_iff.1 ha
  exact Or.inr (hl e (List.mem_of_find?_eq_some he))

/-- Asking for a range of `k` elements and looping over it costs at most `6 k` accesses and a logarithmic number. -/
theorem C69_rom_range (hc : LawfulCmp cmp) {s : Rom α} {l : List (Nat × α)} (h : Reach cmp key s l) {b e : κ}
    (hbe : cmp b e ≠ .grt) :
    let L := (l.filter (fun x => cmp b (key x.2) != .grt && cmp e (key x.2) != .les)).map Prod.fst
    ∃ m : Nat, (do let r ← equalRangeN cmp key s b e true; overRangeN (nextN s) r) 0 = some (L, m) ∧
      (m : ℝ) ≤ 6 * L.length + 24 * Real.logb 2 (l.length + 1) + 4 := by
  intro L
  have hi := C25_rom_range hc h hbe
  have he := (C25_rom_range_ends hc h b e).1
  obtain ⟨T, o⟩ := h.sim hc
  have hm : ∀ e ∈ l, e.1 ∈ T.ids := fun e he => (mem_elems.1 (o.list ▸ he)).1
  refine loop_log o.wv.whole o.valid true enc_toSlot (fun a => rfl) (fun a => rfl) (equalRangeN_bd hc o b e true) ?_ hi ?_
  · intro r hr
    rw [he] at hr; cases hr
    exact ⟨find_map_within hm, find_map_within hm⟩
  · rw [o.list]; simp [elems]

/-- The same backwards over a reverse range. -/
theorem C69_rom_rrange (hc : LawfulCmp cmp) {s : Rom α} {l : List (Nat × α)} (h : Reach cmp key s l) {b e : κ}
    (hbe : cmp e b ≠ .grt) :
    let L := ((l.filter (fun x => cmp b (key x.2) != .les && cmp e (key x.2) != .grt)).map Prod.fst).reverse
    ∃ m : Nat, (do let r ← equalRangeN cmp key s b e false; overRangeN (rnextN s) r) 0 = some (L, m) ∧
      (m : ℝ) ≤ 6 * L.length + 24 * Real.logb 2 (l.length + 1) + 4 := by
  intro L
  have hi := C25_rom_rrange hc h hbe
  have he := (C25_rom_range_ends hc h b e).2
  obtain ⟨T, o⟩ := h.sim hc
  have hm : ∀ e ∈ l.reverse, e.1 ∈ T.ids := fun e he => (mem_elems.1 (o.list ▸ List.mem_reverse.1 he)).1
  refine loop_log o.wv.whole o.valid false enc_toSlot (fun a => rfl) (fun a => rfl) (equalRangeN_bd hc o b e false) ?_ hi ?_
  · intro r hr
    rw [he] at hr; cases hr
    exact ⟨find_map_within hm, find_map_within hm⟩
  · rw [o.list]; simp [elems]

/-- One step in a tree in which the rank rules hold. -/
theorem step_log {h : Links} {T : Tree} (w : Whole h [] T) (hv : Valid T) {a : Nat} (ha : a ∈ T.ids) (trav : Bool) {n : Nat}
    (hn : T.ids.length ≤ n) : ∃ b m : Nat, Costs (Wavl.nextN h a trav) m b ∧ (m : ℝ) ≤ 8 * Real.logb 2 (n + 1) + 6 := by
  obtain ⟨pre, post, e⟩ := List.append_of_mem ha
  have hx := next_whole w e trav
  obtain ⟨m, c, b⟩ := nextN_le w ha trav _ hx
  refine ⟨_, m, c, ?_⟩
  have hb : (if trav then post.headD 0 else pre.getLastD 0) = 0 ∨ (if trav then post.headD 0 else pre.getLastD 0) ∈ T.ids := by
    rw [e]
    cases trav with
    | true =>
      rw [if_pos rfl]
      cases post with
      | nil => exact Or.inl rfl
      | cons x post => right; simp
    | false =>
      rw [if_neg (by simp)]
      cases hpre : pre.getLast? with
      | none => left; simp [List.getLastD_eq_getLast?, hpre]
      | some x =>
        right
        have := List.mem_of_getLast? hpre
        simp [List.getLastD_eq_getLast?, hpre, this]
  have p1 := pos_rk w hv trav (Or.inr ha)
  have p2 := pos_rk w hv trav hb
  have hk := rk_log hv hn
  have : (m : Int) ≤ 4 * T.rk + 6 := by omega
  have : (m : ℝ) ≤ 4 * T.rk + 6 := by exact_mod_cast this
  linarith

/-- What holds of C70 for the realtime ordered map: one step is logarithmic in the worst case.  Missing: the constant bound,
which is false (`C70_rom_next_violated`). -/
theorem C70_rom_next_partial (hc : LawfulCmp cmp) {s : Rom α} {l : List (Nat × α)} (h : Reach cmp key s l) {e : Nat}
    (he : e ∈ l.map Prod.fst) :
    (∃ (q : Slot) (n : Nat), nextN s e 0 = some (q, n) ∧ (n : ℝ) ≤ 8 * Real.logb 2 (l.length + 1) + 6) ∧
    (∃ (q : Slot) (n : Nat), rnextN s e 0 = some (q, n) ∧ (n : ℝ) ≤ 8 * Real.logb 2 (l.length + 1) + 6) := by
  obtain ⟨T, o⟩ := h.sim hc
  have hm : e ∈ T.ids := by rw [o.list, ids_elems] at he; exact he
  have hT : T.ids.length ≤ l.length := by rw [o.list]; simp [elems]
  obtain ⟨_, n1, c1, b1⟩ := step_log o.wv.whole o.valid hm true hT
  obtain ⟨_, n2, c2, b2⟩ := step_log o.wv.whole o.valid hm false hT
  exact ⟨⟨_, n1, (c1.out toSlot).zero, b1⟩, ⟨_, n2, (c2.out toSlot).zero, b2⟩⟩

example : ∃ s q, ∃ n : Nat, Reach natCmp (Prod.fst : Nat × Nat → Nat) s [(4, (1, 3)), (2, (3, 7)), (3, (8, 3)), (5, (9, 4))] ∧
    nextN s 3 0 = some (q, n) ∧ (n : ℝ) ≤ 8 * Real.logb 2 (4 + 1) + 6 := by
  obtain ⟨s, h⟩ := sample_reach
  obtain ⟨⟨q, n, h1, h2⟩, _⟩ := C70_rom_next_partial natCmp_lawful h (e := 3) (by simp)
  exact ⟨s, q, n, h, h1, by simpa using h2⟩

/-- C70 fails: `ccc_rom_next` and `ccc_rom_rnext` are documented as "O(1)", but no constant bounds the
accesses of either. -/
theorem C70_rom_next_violated :
    (¬ ∃ c : Nat, ∀ (s : Rom Nat) (l : List (Nat × Nat)), Reach natCmp id s l →
      ∀ e ∈ l.map Prod.fst, ∀ q n, nextN s e 0 = some (q, n) → n ≤ c) ∧
    (¬ ∃ c : Nat, ∀ (s : Rom Nat) (l : List (Nat × Nat)), Reach natCmp id s l →
      ∀ e ∈ l.map Prod.fst, ∀ q n, rnextN s e 0 = some (q, n) → n ≤ c) := by
  have key : ∀ c d, ∃ s l, Reach natCmp (id : Nat → Nat) s l ∧ ∃ e ∈ l.map Prod.fst, ∃ m, Costs (Wavl.nextN s.t e d) m 0 ∧ c < m := by
    intro c d
    obtain ⟨s, hs⟩ := ascending_reach (2 ^ c)
    obtain ⟨T, o⟩ := hs.sim natCmp_lawful
    have hl := congrArg List.length o.list
    simp only [Om.nums, elems, List.length_map, List.length_range'] at hl
    have hne : T ≠ nil := by
      rintro rfl
      have := Nat.two_pow_pos c
      simp [ids] at hl
    obtain ⟨y, hy, hc⟩ := lastN_cost o.wv.whole hne d
    refine ⟨s, _, hs, y, by rw [o.list, ids_elems]; exact hy, _, hc, ?_⟩
    have h1 := size_rk o.valid
    rw [← hl] at h1
    have h2 : c < T.rk := (Nat.pow_lt_pow_iff_right (a := 2) (by decide)).1 (by omega)
    have := rk_arm o.valid d
    omega
  constructor
  · rintro ⟨c, h⟩
    obtain ⟨s, l, hs, e, he, m, hm, hlt⟩ := key c true
    have := h s l hs e he _ _ (hm.out toSlot).zero
    omega
  · rintro ⟨c, h⟩
    obtain ⟨s, l, hs, e, he, m, hm, hlt⟩ := key c false
    have := h s l hs e he _ _ (hm.out toSlot).zero
    omega

example : ∃ s m, Reach natCmp (Prod.fst : Nat × Nat → Nat) s [(4, (1, 3)), (2, (3, 7)), (3, (8, 3)), (5, (9, 4))] ∧
    (do let p ← rbeginN s; iterateN (rnextN s) end_ p) 0 = some ([5, 3, 2, 4], m) ∧ m ≤ 24 := by
  obtain ⟨s, h⟩ := sample_reach
  obtain ⟨_, ⟨m, h1, h2⟩⟩ := C69_rom_traverse natCmp_lawful h
  exact ⟨s, m, h, h1, h2⟩

example : ∃ (s : Rom (Nat × Nat)) (m : Nat), (do let r ← equalRangeN natCmp Prod.fst s 2 8 true; overRangeN (nextN s) r) 0 = some ([2, 3], m) ∧
    (m : ℝ) ≤ 6 * 2 + 24 * Real.logb 2 (4 + 1) + 4 := by
  obtain ⟨s, h⟩ := sample_reach
  obtain ⟨m, h1, h2⟩ := C69_rom_range natCmp_lawful h (b := 2) (e := 8) (by decide)
  exact ⟨s, m, h1, by simpa [natCmp] using h2⟩

end CCC.Rom

namespace CCC.FlatMap
open CCC MapSpec

theorem spec_add_nums {i cap : Nat} {J : Type} {j : Option J} (h : i + 1 < cap) :
    (specStep natCmp id false ⟨Om.nums i, cap, decide (i ≠ 0)⟩ (.tryInsert (i + 1) j : Op Nat Nat J)).1 =
      ⟨Om.nums (i + 1), cap, true⟩ := by
  have hg : ∀ e ∈ Om.nums i, natCmp (i + 1) (ekey id e) = .grt := by
    intro e he
    simp only [Om.nums, List.mem_map, List.mem_range'] at he
    obtain ⟨a, ⟨j, hj, rfl⟩, rfl⟩ := he
    have h1 : ¬ i + 1 < ekey id (1 + 1 * j, 1 + 1 * j) := by show ¬ i + 1 < 1 + 1 * j; omega
    have h2 : ekey id (1 + 1 * j, 1 + 1 * j) < i + 1 := by show 1 + 1 * j < i + 1; omega
    rw [natCmp, if_neg h1, if_pos h2]
  have hlk : lookup natCmp (ekey id) (id (i + 1)) (Om.nums i) = none := by
    have := lookup_none (cmp := natCmp) (key := ekey id) (k := i + 1) (post := []) hg (by simp)
    simpa using this
  have hpl := place_split (cmp := natCmp) (key := ekey id) (e := (i + 1, i + 1)) (pre := Om.nums i) (post := []) hg (by simp)
  rw [List.append_nil] at hpl
  have hlen : (Om.nums i).length = i := by simp [Om.nums]
  have hr : room false j.isSome ⟨Om.nums i, cap, decide (i ≠ 0)⟩ = (⟨Om.nums i, cap, true⟩, true) := by
    by_cases h0 : i = 0
    · subst h0
      simp only [room, grow, ne_eq, not_true, decide_false, Bool.false_eq_true, if_false, if_pos (show 0 < cap by omega),
        if_pos (show 1 < cap by omega)]
    · simp only [room, grow, ne_eq, h0, not_false_eq_true, decide_true, if_true, hlen, if_pos h]
  simp only [specStep, hlk, add, hr, hlen, hpl]
  simp [Om.nums, List.range'_concat, Nat.add_comm]

end CCC.FlatMap

namespace CCC.Fom
open CCC MapSpec Tree Wavl FlatMap
variable {α κ : Type} {cmp : κ → κ → Cmp} {key : α → κ}

/-- **C69 (flat ordered map).**  As `C69_om_traverse`. -/
theorem C69_fom_traverse (hc : LawfulCmp cmp) {s : Fom α} {st : St α} (h : Reach cmp key s st) :
    (∃ m, (do let p ← beginA s false; iterateN (nextA s · true) (end_ s) p) 0 = some (st.l.map Prod.fst, m) ∧
      m ≤ 6 * st.l.length) ∧
    (∃ m, (do let p ← beginA s true; iterateN (nextA s · false) (end_ s) p) 0 = some ((st.l.map Prod.fst).reverse, m) ∧
      m ≤ 6 * st.l.length) := by
  obtain ⟨i1, i2⟩ := C28_fom_iteration hc h
  obtain ⟨T, o⟩ := h.sim hc
  by_cases h0 : s.sz = 0
  · have hl : st.l = [] := by
      rcases o.2 with ⟨_, o⟩ | ⟨_, o, _⟩
      · exact absurd h0 (by rw [o.sz]; omega)
      · exact o
    rw [hl]
    refine ⟨⟨0 + 0, ?_, by simp⟩, ⟨0 + 0, ?_, by simp⟩⟩ <;> refine Costs.zero ?_ <;>
    · rw [beginA, if_pos h0]
      refine (Costs.pure _).bind ?_
      rw [iterateN.eq_def, end_, if_pos h0, if_pos rfl]; exact .pure _
  · have w : Whole s.t [] T := by
      rcases o.2 with ⟨_, o⟩ | ⟨_, _, _, o⟩
      · exact o.ok.whole
      · exact absurd o.sz h0
    simp only [begin_, end_, if_neg h0, Option.bind_eq_bind, Option.bind_assoc, Option.bind_some] at i1 i2
    have e1 : ∀ d a, next s a d = (Wavl.next s.t a d).bind (fun b => some (some b)) := fun d a => by
      rw [next, if_neg h0]; rfl
    have e2 : ∀ d a, nextA s a d = (do let n ← Wavl.nextN s.t a d; pure (some n)) := fun d a => by
      rw [nextA, if_neg h0]
    constructor
    · obtain ⟨m, c, b⟩ := tour_le w true (fun b => Or.inl rfl) (nxN := (nextA s · true)) (e1 true) (e2 true) i1
      refine ⟨m, Costs.zero ?_, by simpa using b⟩
      simpa only [beginA, end_, if_neg h0, bind_assoc, pure_bind, Bool.not_true, Bool.not_false] using c
    · obtain ⟨m, c, b⟩ := tour_le w false (fun b => Or.inl rfl) (nxN := (nextA s · false)) (e1 false) (e2 false) i2
      refine ⟨m, Costs.zero ?_, by simpa using b⟩
      simpa only [beginA, end_, if_neg h0, bind_assoc, pure_bind, Bool.not_true, Bool.not_false] using c

theorem safe_ascending {cap : Nat} : ∀ (j i : Nat), i + j < cap → safeRun (α := Nat) natCmp id false ⟨Om.nums i, cap, decide (i ≠ 0)⟩
      ((List.range' (i + 1) j).map (fun i => .tryInsert i none)) ∧
    ∀ pre, pre <+: ((List.range' (i + 1) j).map (fun i => (.tryInsert i none : Op Nat Nat (Frm.Junk Nat)))) →
      (specRunS natCmp id false ⟨Om.nums i, cap, decide (i ≠ 0)⟩ pre).1 =
        ⟨Om.nums (i + pre.length), cap, decide (i + pre.length ≠ 0)⟩ := by
  intro j
  induction j with
  | zero =>
    intro i _
    refine ⟨trivial, fun pre hp => ?_⟩
    rw [List.range'_zero, List.map_nil, List.prefix_nil] at hp
    subst hp; rfl
  | succ j ih =>
    intro i hi
    rw [List.range'_succ, List.map_cons]
    have e : specStepS natCmp id false ⟨Om.nums i, cap, decide (i ≠ 0)⟩ (.tryInsert (i + 1) none : Op Nat Nat (Frm.Junk Nat)) =
      specStep natCmp id false ⟨Om.nums i, cap, decide (i ≠ 0)⟩ (.tryInsert (i + 1) none) := rfl
    obtain ⟨h1, h2⟩ := ih (i + 1) (by omega)
    constructor
    · refine ⟨trivial, trivial, ?_⟩
      rw [e, spec_add_nums (by omega)]
      exact h1
    · intro pre hp
      rcases List.prefix_cons_iff.1 hp with rfl | ⟨t, rfl, h'⟩
      · rfl
      · have := h2 t h'
        simp only [specRunS]
        rw [e, spec_add_nums (by omega), List.length_cons, show i + (t.length + 1) = i + 1 + t.length by omega]
        exact this

theorem spine_reach (mem : Frm.Junk Nat) (n : Nat) : ∃ s rs ops, ops.length = n ∧ run natCmp id (init mem (n + 1) false) ops = some (s, rs) ∧
    safeRun natCmp id false ⟨[], n + 1, false⟩ ops ∧
    (∀ pre, pre <+: ops → (specRunS natCmp id false ⟨[], n + 1, false⟩ pre).1 =
      ⟨Om.nums pre.length, n + 1, decide (pre.length ≠ 0)⟩) ∧
    Ok natCmp id s ⟨Om.nums n, n + 1, decide (n ≠ 0)⟩ (Om.spine n) := by
  obtain ⟨s, rs, e, o⟩ := spine_run (cap := n + 1) n (s := init mem (n + 1) false) (i := 0) (by omega) (init_ok mem (n + 1) false) rfl
  obtain ⟨h1, h2⟩ := safe_ascending (cap := n + 1) n 0 (by omega)
  rw [Nat.zero_add n] at o
  refine ⟨s, rs, _, by simp, e, h1, fun pre hp => ?_, o⟩
  have := h2 pre hp
  rw [Nat.zero_add] at this
  exact this

/-- C70 fails for the flat ordered map: as `C70_om_rnext_violated`. -/
theorem C70_fom_rnext_violated : ¬ ∃ c : Nat, ∀ (s : Fom Nat) (st : St Nat), Reach natCmp id s st →
    ∀ e ∈ st.l.map Prod.fst, ∀ q n, nextA s e false 0 = some (q, n) → n ≤ c := by
  rintro ⟨c, h⟩
  obtain ⟨s, rs, ops, hl, e, hs, hsp, o⟩ := spine_reach ⟨fun _ _ => 0, fun _ => 0, fun _ => false, fun _ => 0⟩ (c + 1)
  have hsp := hsp ops (List.prefix_refl _)
  rw [hl] at hsp
  obtain ⟨_, ⟨_, o⟩ | ⟨o, _⟩⟩ := o
  swap
  · cases o
  have h0 : s.sz ≠ 0 := by rw [o.sz]; omega
  obtain ⟨y, hy, hc⟩ := lastN_cost o.ok.whole (by simp [Om.spine]) false
  have hm : y ∈ (Om.nums (c + 1)).map Prod.fst := by
    have := o.ok.list; rw [show Om.nums (c + 1) = _ from this, Rom.ids_elems]; exact hy
  have hcost : Costs (nextA s y false) (2 * arm false (Om.spine (c + 1)) + 1) (some 0) := by
    rw [nextA, if_neg h0]; exact hc.out some
  have := h s _ ⟨_, _, _, _, hs, ⟨_, e⟩, hsp⟩ y hm _ _ hcost.zero
  rw [arm_spine] at this
  omega

/-- C62 fails for `ccc_fom_begin`, which walks down the tree without splaying, although it is documented as "Amortized
O(lg N)": for no constants are a history and `k` calls of `begin` after it within the documented bound, even when only
the accesses of these `k` calls count. -/
theorem C62_fom_begin_violated : ¬ ∃ c d : ℝ, ∀ (mem : Frm.Junk Nat) (cap : Nat) (ops : List (Op Nat Nat (Frm.Junk Nat))) (N : Nat),
    safeRun natCmp id false ⟨[], cap, false⟩ ops →
    (∀ pre, pre <+: ops → (specRunS natCmp id false ⟨[], cap, false⟩ pre).1.l.length ≤ N) →
    ∀ s rs, run natCmp id (init mem cap false) ops = some (s, rs) → ∀ k m, againN (beginA s false) k 0 = some ((), m) →
    (m : ℝ) ≤ (ops.length + k) * (c * Real.logb 2 (N + 2) + d) := by
  rintro ⟨c, d, h⟩
  obtain ⟨m, hm⟩ := exists_nat_ge (2 * |c| + 2 * |d| + 4)
  have hc := abs_nonneg c
  have hd := abs_nonneg d
  have hm4 : 4 ≤ m := by
    have : (4 : ℝ) ≤ m := by linarith
    exact_mod_cast this
  have hp : m * m ≤ 2 ^ m := by
    clear hm
    induction m, hm4 using Nat.le_induction with
    | base => decide
    | succ m hm ih =>
      rw [Nat.pow_succ]
      nlinarith
  obtain ⟨n, hn⟩ : ∃ n, n + 3 = 2 ^ m := ⟨2 ^ m - 3, by have : 4 * 4 ≤ m * m := Nat.mul_le_mul hm4 hm4; omega⟩
  obtain ⟨s, rs, ops, hl, e, hs, hsp, o⟩ := spine_reach ⟨fun _ _ => 0, fun _ => 0, fun _ => false, fun _ => 0⟩ (n + 1)
  obtain ⟨_, ⟨_, o⟩ | ⟨o, _⟩⟩ := o
  swap
  · cases o
  have h0 : s.sz ≠ 0 := by rw [o.sz]; omega
  obtain ⟨y, hy⟩ := firstN_cost o.ok.whole (by simp [Om.spine]) false
  have hcost : Costs (beginA s false) (n + 1) (some y) := by
    rw [beginA, if_neg h0]
    have := hy.out some
    rw [arm_spine] at this
    exact this
  have := h _ _ ops (n + 1) hs (fun pre hpre => by
    rw [hsp pre hpre]
    have := hpre.length_le
    simp [Om.nums]; omega) s rs e (n + 1) _ (hcost.again (n + 1)).zero
  have hlog : Real.logb 2 ((n + 1 : ℕ) + 2) = m := by
    have e : (((n + 1 : ℕ) : ℝ) + 2) = 2 ^ m := by
      have : ((n + 3 : ℕ) : ℝ) = ((2 ^ m : ℕ) : ℝ) := by rw [hn]
      push_cast at this ⊢
      linarith
    rw [e, Real.logb_pow, Real.logb_self_eq_one (by norm_num), mul_one]
  rw [hlog, hl] at this
  have hn' : ((n : ℝ) + 3) = 2 ^ m := by exact_mod_cast hn
  have hp' : (m : ℝ) * m ≤ 2 ^ m := by exact_mod_cast hp
  push_cast at this
  have hc' := le_abs_self c
  have hd' := le_abs_self d
  have hm4' : (4 : ℝ) ≤ m := by exact_mod_cast hm4
  have hn0 : (0 : ℝ) ≤ n := Nat.cast_nonneg n
  -- divide by `n + 1`
  have h1 : (n : ℝ) + 1 ≤ 2 * (c * m + d) := by
    by_contra hh
    have : (0 : ℝ) < n + 1 := by linarith
    nlinarith
  have h2 : c * m ≤ |c| * m := mul_le_mul_of_nonneg_right hc' (by linarith)
  nlinarith

example : ∃ s m, Reach natCmp (Prod.fst : Nat × Nat → Nat) s sampleSt ∧
    (do let p ← beginA s false; iterateN (nextA s · true) (end_ s) p) 0 = some ([4, 2, 3, 1], m) ∧ m ≤ 24 := by
  obtain ⟨s, h⟩ := sample_reach
  obtain ⟨⟨m, h1, h2⟩, _⟩ := C69_fom_traverse natCmp_lawful h
  exact ⟨s, m, h, h1, h2⟩

end CCC.Fom

namespace CCC.Frm
open CCC MapSpec Tree Wavl FlatMap Rom
variable {α κ : Type} {cmp : κ → κ → Cmp} {key : α → κ}

/-- **C69 (flat realtime ordered map).**  As `C69_om_traverse`. -/
theorem C69_frm_traverse (hc : LawfulCmp cmp) {s : Frm α} {st : St α} (h : Reach cmp key s st) :
    (∃ m, (do let p ← begin_N s false; iterateN (nextN s · true) (end_ s) p) 0 = some (st.l.map Prod.fst, m) ∧
      m ≤ 6 * st.l.length) ∧
    (∃ m, (do let p ← begin_N s true; iterateN (nextN s · false) (end_ s) p) 0 = some ((st.l.map Prod.fst).reverse, m) ∧
      m ≤ 6 * st.l.length) := by
  obtain ⟨i1, i2⟩ := C31_frm_iteration_partial hc h
  obtain ⟨T, o⟩ := h.sim hc
  by_cases h0 : s.sz = 0
  · have hl : st.l = [] := by
      rcases o.2 with ⟨_, o⟩ | ⟨_, o, _⟩
      · exact absurd h0 (by rw [o.sz]; omega)
      · exact o
    rw [hl]
    refine ⟨⟨0 + 0, ?_, by simp⟩, ⟨0 + 0, ?_, by simp⟩⟩ <;> refine Costs.zero ?_ <;>
    · rw [begin_N, if_pos h0]
      refine (Costs.pure _).bind ?_
      rw [iterateN.eq_def, end_, if_pos h0, if_pos rfl]; exact .pure _
  · have w : Whole s.t [] T := by
      rcases o.2 with ⟨_, o⟩ | ⟨_, _, _, o⟩
      · exact o.ok.wv.whole
      · exact absurd o.sz h0
    simp only [begin_, end_, if_neg h0, Option.bind_eq_bind, Option.bind_assoc, Option.bind_some] at i1 i2
    have e1 : ∀ d a, next s a d = (Wavl.next s.t a d).bind (fun b => some (some b)) := fun d a => by
      rw [next, if_neg h0]; rfl
    have e2 : ∀ d a, nextN s a d = (do let n ← Wavl.nextN s.t a d; pure (some n)) := fun d a => by
      rw [nextN, if_neg h0]
    constructor
    · obtain ⟨m, c, b⟩ := tour_le w true (fun b => Or.inl rfl) (nxN := (nextN s · true)) (e1 true) (e2 true) i1
      refine ⟨m, Costs.zero ?_, by simpa using b⟩
      simpa only [begin_N, end_, if_neg h0, bind_assoc, pure_bind, Bool.not_true, Bool.not_false] using c
    · obtain ⟨m, c, b⟩ := tour_le w false (fun b => Or.inl rfl) (nxN := (nextN s · false)) (e1 false) (e2 false) i2
      refine ⟨m, Costs.zero ?_, by simpa using b⟩
      simpa only [begin_N, end_, if_neg h0, bind_assoc, pure_bind, Bool.not_true, Bool.not_false] using c

theorem or_end_within {T : Tree} {s : Frm α} {p : Nat × α → Bool} {l : List (Nat × α)} (hl : ∀ e ∈ l, e.1 ∈ T.ids) :
    Within' T (((l.find? p).map Prod.fst).or (end_ s)) := by
  intro a ha
  cases hf : (l.find? p).map Prod.fst with
  | some x => rw [hf] at ha; cases ha; exact find_map_within hl _ hf
  | none =>
    rw [hf, Option.none_or, end_] at ha
    split at ha
    · cases ha
    · cases ha; exact Or.inl rfl

/-- **C69 (flat realtime ordered map, ranges).**  As `C69_rom_range`. -/
theorem C69_frm_range (hc : LawfulCmp cmp) {s : Frm α} {st : St α} (h : Reach cmp key s st) {b e : κ}
    (hbe : cmp b e ≠ .grt) :
    let L := (st.l.filter (fun x => cmp b (key x.2) != .grt && cmp e (key x.2) != .les)).map Prod.fst
    ∃ m : Nat, (do let r ← equalRangeN cmp key s b e true; overRangeN (nextN s · true) r) 0 = some (L, m) ∧
      (m : ℝ) ≤ 6 * L.length + 24 * Real.logb 2 (st.l.length + 1) + 4 := by
  intro L
  have hi := C25_frm_range hc h hbe
  have hs := h.sim hc
  by_cases hne : st.l = []
  · have e0 : isEmpty s = true := by
      obtain ⟨T, o⟩ := hs
      rw [isEmpty, o.size_eq, hne]; rfl
    refine ⟨0 + 0, Costs.zero ?_, ?_⟩
    · rw [equalRangeN, if_pos e0]
      refine (Costs.pure _).bind ?_
      rw [overRangeN, iterateN.eq_def, if_pos (by rfl), show L = [] by simp [L, hne]]
      exact .pure _
    · simp [L, hne]
  have he := (C25_frm_range_ends hc h b e hne).1
  obtain ⟨T, o⟩ := hs
  obtain ⟨_, o'⟩ | ⟨_, o', _⟩ := o.2
  swap
  · exact absurd o' hne
  have h0 : s.sz ≠ 0 := by rw [o'.sz]; omega
  have hm : ∀ e ∈ st.l, e.1 ∈ T.ids := fun e he => (mem_elems.1 (o'.ok.list ▸ he)).1
  refine loop_log o'.ok.wv.whole o'.ok.valid true (enc := some) (fun b => Or.inl rfl)
    (fun a => by rw [next, if_neg h0]; rfl) (fun a => by rw [nextN, if_neg h0]; rfl) (equalRangeN_bd hc o b e true) ?_ hi ?_
  · intro r hr
    rw [he] at hr; cases hr
    exact ⟨or_end_within hm, or_end_within hm⟩
  · have := congrArg List.length o'.ok.list
    simp [elems] at this; omega

/-- The same backwards over a reverse range. -/
theorem C69_frm_rrange (hc : LawfulCmp cmp) {s : Frm α} {st : St α} (h : Reach cmp key s st) {b e : κ}
    (hbe : cmp e b ≠ .grt) :
    let L := ((st.l.filter (fun x => cmp b (key x.2) != .les && cmp e (key x.2) != .grt)).map Prod.fst).reverse
    ∃ m : Nat, (do let r ← equalRangeN cmp key s b e false; overRangeN (nextN s · false) r) 0 = some (L, m) ∧
      (m : ℝ) ≤ 6 * L.length + 24 * Real.logb 2 (st.l.length + 1) + 4 := by
  intro L
  have hi := C25_frm_rrange hc h hbe
  have hs := h.sim hc
  by_cases hne : st.l = []
  · have e0 : isEmpty s = true := by
      obtain ⟨T, o⟩ := hs
      rw [isEmpty, o.size_eq, hne]; rfl
    refine ⟨0 + 0, Costs.zero ?_, ?_⟩
    · rw [equalRangeN, if_pos e0]
      refine (Costs.pure _).bind ?_
      rw [overRangeN, iterateN.eq_def, if_pos (by rfl), show L = [] by simp [L, hne]]
      exact .pure _
    · simp [L, hne]
  have he := (C25_frm_range_ends hc h b e hne).2
  obtain ⟨T, o⟩ := hs
  obtain ⟨_, o'⟩ | ⟨_, o', _⟩ := o.2
  swap
  · exact absurd o' hne
  have h0 : s.sz ≠ 0 := by rw [o'.sz]; omega
  have hm : ∀ e ∈ st.l.reverse, e.1 ∈ T.ids := fun e he => (mem_elems.1 (o'.ok.list ▸ List.mem_reverse.1 he)).1
  refine loop_log o'.ok.wv.whole o'.ok.valid false (enc := some) (fun b => Or.inl rfl)
    (fun a => by rw [next, if_neg h0]; rfl) (fun a => by rw [nextN, if_neg h0]; rfl) (equalRangeN_bd hc o b e false) ?_ hi ?_
  · intro r hr
    rw [he] at hr; cases hr
    exact ⟨or_end_within hm, or_end_within hm⟩
  · have := congrArg List.length o'.ok.list
    simp [elems] at this; omega

theorem ascending_reach (n : Nat) : ∃ s, Reach natCmp (id : Nat → Nat) s ⟨Om.nums (n + 1), n + 2, true⟩ := by
  have hs : ∀ j i, i + j < n + 2 → okRun (J := Junk Nat) natCmp id false ⟨Om.nums i, n + 2, decide (i ≠ 0)⟩
        ((List.range' (i + 1) j).map (fun i => .tryInsert i none)) ∧
      (specRun (J := Junk Nat) natCmp id false ⟨Om.nums i, n + 2, decide (i ≠ 0)⟩
        ((List.range' (i + 1) j).map (fun i => .tryInsert i none))).1 = ⟨Om.nums (i + j), n + 2, decide (i + j ≠ 0)⟩ := by
    intro j
    induction j with
    | zero => intro i _; exact ⟨trivial, rfl⟩
    | succ j ih =>
      intro i hi
      rw [List.range'_succ, List.map_cons]
      simp only [okRun, specRun]
      rw [spec_add_nums (by omega), show i + (j + 1) = i + 1 + j by omega]
      have := ih (i + 1) (by omega)
      exact ⟨⟨trivial, this.1⟩, this.2⟩
  have h := hs (n + 1) 0 (by omega)
  rw [Nat.zero_add] at h
  obtain ⟨s, e⟩ := C32_frm_history_partial natCmp_lawful ⟨fun _ _ => 0, fun _ => 0, fun _ => false, fun _ => 0⟩ (n + 2) false _ h.1
  exact ⟨s, _, _, _, _, h.1, ⟨_, e⟩, (by have := h.2; rw [Nat.zero_add] at this; exact this)⟩

/-- What holds of C70 for the flat realtime map: one step is logarithmic in the worst case.  Missing: the constant bound,
which is false (`C70_frm_next_violated`). -/
theorem C70_frm_next_partial (hc : LawfulCmp cmp) {s : Frm α} {st : St α} (h : Reach cmp key s st) (d : Bool) {e : Nat}
    (he : e ∈ st.l.map Prod.fst) :
    ∃ (q : Slot) (n : Nat), nextN s e d 0 = some (q, n) ∧ (n : ℝ) ≤ 8 * Real.logb 2 (st.l.length + 1) + 6 := by
  obtain ⟨T, _, o⟩ := h.sim hc
  obtain ⟨_, o⟩ | ⟨_, o, _⟩ := o
  swap
  · rw [o] at he; simp at he
  have hm : e ∈ T.ids := by rw [o.ok.list, ids_elems] at he; exact he
  have hT : T.ids.length ≤ st.l.length := by rw [o.ok.list]; simp [elems]
  obtain ⟨q, n1, c1, b1⟩ := Rom.step_log o.ok.wv.whole o.ok.valid hm d hT
  have h0 : s.sz ≠ 0 := by rw [o.sz]; omega
  have c2 : Costs (nextN s e d) n1 (some q) := by rw [nextN, if_neg h0]; exact c1.out some
  exact ⟨_, n1, c2.zero, b1⟩

example : ∃ s q, ∃ n : Nat, Reach natCmp (Prod.fst : Nat × Nat → Nat) s sampleSt ∧ nextN s 3 true 0 = some (q, n) ∧
    (n : ℝ) ≤ 8 * Real.logb 2 (4 + 1) + 6 := by
  obtain ⟨s, h⟩ := sample_reach
  obtain ⟨q, n, h1, h2⟩ := C70_frm_next_partial natCmp_lawful h true (e := 3) (by simp [sampleSt])
  exact ⟨s, q, n, h, h1, by simpa [sampleSt] using h2⟩

/-- C70 fails for the flat realtime map: as `C70_rom_next_violated`. -/
theorem C70_frm_next_violated (d : Bool) : ¬ ∃ c : Nat, ∀ (s : Frm Nat) (st : St Nat), Reach natCmp id s st →
    ∀ e ∈ st.l.map Prod.fst, ∀ q n, nextN s e d 0 = some (q, n) → n ≤ c := by
  rintro ⟨c, h⟩
  obtain ⟨s, hs⟩ := ascending_reach (2 ^ c)
  obtain ⟨T, _, o⟩ := hs.sim natCmp_lawful
  obtain ⟨_, o⟩ | ⟨o, _⟩ := o
  swap
  · cases o
  have h0 : s.sz ≠ 0 := by rw [o.sz]; omega
  have hl := congrArg List.length o.ok.list
  simp only [Om.nums, elems, List.length_map, List.length_range'] at hl
  have hne : T ≠ nil := by
    rintro rfl
    simp [ids] at hl
  obtain ⟨y, hy, hc⟩ := lastN_cost o.ok.wv.whole hne d
  have h1 := size_rk o.ok.valid
  rw [← hl] at h1
  have h2 : c < T.rk := (Nat.pow_lt_pow_iff_right (a := 2) (by decide)).1 (by omega)
  have h3 := rk_arm o.ok.valid d
  have hm : y ∈ (Om.nums (2 ^ c + 1)).map Prod.fst := by
    have := o.ok.list; rw [show Om.nums (2 ^ c + 1) = _ from this, ids_elems]; exact hy
  have hcost : Costs (nextN s y d) (2 * arm d T + 1) (some 0) := by
    rw [nextN, if_neg h0]; exact hc.out some
  have := h s _ hs y hm _ _ hcost.zero
  omega

example : ∃ s m, Reach natCmp (Prod.fst : Nat × Nat → Nat) s sampleSt ∧
    (do let p ← begin_N s true; iterateN (nextN s · false) (end_ s) p) 0 = some ([1, 3, 2, 4], m) ∧ m ≤ 24 := by
  obtain ⟨s, h⟩ := sample_reach
  obtain ⟨_, ⟨m, h1, h2⟩⟩ := C69_frm_traverse natCmp_lawful h
  exact ⟨s, m, h, h1, h2⟩

end CCC.Frm
