import Verif.Props.FlatPQ
import Verif.Props.FlatDequeMore
import Verif.Props.FlatHashMap
/-
Soundness of the validation functions of the double-ended queue and the hash map, for arbitrary memory.
-/

namespace CCC.Fdeq
open CCC

variable {α : Type}

theorem next_any {d : Fdeq α} (hf : d.front < d.buf.cap) (hs : d.buf.cap < d.buf.sz) {i : Nat} (hi : i < d.buf.cap) :
    d.next ((d.front + i) % d.buf.cap) =
      some (if i + 1 < d.buf.cap then some ((d.front + (i + 1)) % d.buf.cap) else none) := by
  have hlt : (d.front + i) % d.buf.cap < d.buf.cap := Nat.mod_lt _ (by omega)
  have hinc : d.increment ((d.front + i) % d.buf.cap) = (d.front + (i + 1)) % d.buf.cap := by
    rw [increment_eq hlt, Nat.mod_add_mod, Nat.add_assoc]
  have hidx : d.indexOf ((d.front + i) % d.buf.cap) = some ((d.front + i) % d.buf.cap) := by
    simp only [indexOf]; rw [if_pos hlt]
  unfold next
  rw [hidx]
  simp only [Option.bind_eq_bind, Option.bind_some, hinc]
  have hlt2 : (d.front + (i + 1)) % d.buf.cap < d.buf.cap := Nat.mod_lt _ (by omega)
  have hval := mod_wrap (cap := d.buf.cap) (x := d.front + (i + 1)) (by omega)
  by_cases h1 : i + 1 < d.buf.cap
  · rw [if_pos h1, if_neg]
    · simp only [Buf.at_]; rw [if_neg (by omega)]; rfl
    · rw [hval]; unfold distance; split <;> (try split) <;> omega
  · rw [if_neg h1, if_pos]
    · rfl
    · rw [hval]; unfold distance; split <;> (try split) <;> omega

/-- A queue whose size exceeds its capacity is not accepted: the walk comes round after `capacity` steps. -/
theorem fwd_any {d : Fdeq α} (hf : d.front < d.buf.cap) (hs : d.buf.cap < d.buf.sz) : ∀ n i, i + n = d.buf.cap → i < d.buf.cap →
    d.validateFwd (some ((d.front + i) % d.buf.cap)) i = some (some d.buf.cap) := by
  intro n
  induction n with
  | zero => intro i h1 h2; omega
  | succ n ih =>
    intro i h1 h2
    rw [validateFwd, if_neg (by omega)]
    simp only [next_any hf hs h2, Option.bind_eq_bind, Option.bind_some]
    by_cases h3 : i + 1 < d.buf.cap
    · rw [if_pos h3, ih (i + 1) (by omega) h3]
    · rw [if_neg h3, validateFwd, show i + 1 = d.buf.cap by omega]

theorem inv_of_validate {d : Fdeq α} (hl : d.buf.len = d.buf.cap) (h0 : d.buf.sz ≠ 0) (h : d.validate = some true) :
    d.Inv := by
  simp only [validate, isEmpty, h0, decide_false, Bool.false_eq_true, if_false, begin] at h
  by_cases hf : d.front < d.buf.cap
  · refine ⟨hl, ?_, Or.inl hf⟩
    apply Classical.byContradiction
    intro hs
    have hb : d.buf.at_ d.front = some ((d.front + 0) % d.buf.cap) := by
      rw [Nat.add_zero, Nat.mod_eq_of_lt hf]; simp only [Buf.at_]; rw [if_neg (by omega)]
    have hb' : d.buf.at_ d.front = some d.front := by
      simp only [Buf.at_]; rw [if_neg (by omega)]
    rw [if_neg (by rw [hb']; simp), hb, fwd_any hf (by omega) d.buf.cap 0 (by omega) (by omega)] at h
    simp only [Option.bind_eq_bind, Option.bind_some] at h
    rw [if_pos (by simp; omega)] at h
    simp at h
  · have : d.buf.at_ d.front = none := by simp only [Buf.at_]; rw [if_pos (by omega)]
    rw [if_pos (by rw [this]; simp)] at h
    simp at h

/-- The slots of the stored elements, front first. -/
def slots (d : Fdeq α) : List Nat := (List.range d.buf.sz).map (fun i => (d.front + i) % d.buf.cap)

theorem slots_nodup {d : Fdeq α} (h : d.Inv) : d.slots.Nodup := by
  unfold slots List.Nodup
  rw [List.pairwise_map]
  refine (List.pairwise_lt_range (n := d.buf.sz)).imp_of_mem ?_
  intro a b ha hb hab
  simp only [List.mem_range] at ha hb
  have := h.sz
  have hf : d.front < d.buf.cap := by have := h.front; omega
  rw [mod_wrap (x := d.front + a) (by omega), mod_wrap (x := d.front + b) (by omega)]
  split <;> split <;> omega

theorem slots_get {d : Fdeq α} {pre post : List Nat} {a : Nat} (e : d.slots = pre ++ a :: post) :
    a = (d.front + pre.length) % d.buf.cap ∧ pre.length < d.buf.sz ∧
    post.head? = (if pre.length + 1 < d.buf.sz then some ((d.front + (pre.length + 1)) % d.buf.cap) else none) := by
  have hl := congrArg List.length e
  simp only [slots, List.length_map, List.length_range, List.length_append, List.length_cons] at hl
  have h1 : d.slots[pre.length]? = some a := by rw [e]; simp
  have h2 : d.slots[pre.length + 1]? = post.head? := by
    rw [e, List.getElem?_append_right (by omega)]
    simp [List.head?_eq_getElem?]
  have hg : ∀ i, d.slots[i]? = if i < d.buf.sz then some ((d.front + i) % d.buf.cap) else none := by
    intro i
    simp only [slots, List.getElem?_map]
    by_cases hi : i < d.buf.sz
    · rw [List.getElem?_range hi, if_pos hi]; rfl
    · rw [List.getElem?_eq_none (by simpa using hi), if_neg hi]; rfl
  rw [hg, if_pos (by omega)] at h1
  rw [hg] at h2
  exact ⟨(Option.some.inj h1).symm, by omega, h2.symm⟩

/-- **C57** (double-ended queue).  Whatever its front index and size: if validation accepts a queue then both loops end and
visit the same slots in opposite order, none twice, as many as the size says, and if this is not zero then they read the
sequence all the other theorems about the queue speak of. -/
theorem C57_fdeq_validate {d : Fdeq α} (hl : d.buf.len = d.buf.cap) (h : d.validate = some true) :
    ∃ ps : List Nat, iterate d.next none d.begin = some ps ∧
      (do let b ← d.backElem; iterate d.rnext none b) = some ps.reverse ∧
      ps.Nodup ∧ d.size = ps.length ∧ (∀ p ∈ ps, p < d.buf.len) ∧ (d.size ≠ 0 → d.Inv) := by
  by_cases h0 : d.buf.sz = 0
  · refine ⟨[], ?_, ?_, List.nodup_nil, h0, by simp, fun hh => absurd h0 hh⟩
    · rw [begin, if_pos h0, iterate.eq_def]; rfl
    · rw [backElem, if_pos h0]
      simp only [Option.bind_eq_bind, Option.bind_some]
      rw [iterate.eq_def]; rfl
  · have hi := inv_of_validate hl h0 h
    have hs := hi.sz
    have hf : d.front < d.buf.cap := by have := hi.front; omega
    have hlen : d.slots.length = d.buf.sz := by simp [slots]
    have hnd := slots_nodup hi
    have hh : d.slots.head? = some d.front := by
      rw [List.head?_eq_getElem?]
      simp [slots, Nat.pos_of_ne_zero h0, Nat.mod_eq_of_lt hf]
    have hlast : d.slots.reverse.head? = some ((d.front + (d.buf.sz - 1)) % d.buf.cap) := by
      rw [List.head?_reverse, List.getLast?_eq_getElem?, hlen, slots, List.getElem?_map, List.getElem?_range (by omega)]
      rfl
    refine ⟨d.slots, ?_, ?_, hnd, hlen.symm, ?_, fun _ => hi⟩
    · have hb : d.begin = d.slots.head? := by
        rw [hh, begin, if_neg h0]; simp only [Buf.at_]; rw [if_neg (by omega)]
      rw [hb]
      have := iterate_spec (next := d.next) hnd (fun pre a post e => by
        obtain ⟨e1, e2, e3⟩ := slots_get e
        rw [e1, next_spec hi e2, e3]) (pre := []) (m := d.slots) (post := []) (by simp)
      simpa using this
    · have hb : d.backElem = some d.slots.reverse.head? := by
        rw [hlast, backElem, if_neg h0]
        simp only [lastElemIndex, modCap]; rw [if_neg (by omega)]
        have := Nat.mod_lt (d.front + (d.buf.sz - 1)) (show 0 < d.buf.cap by omega)
        simp only [Option.map_some, Buf.at_]; rw [if_neg (by omega)]
      simp only [hb, Option.bind_eq_bind, Option.bind_some]
      have := iterate_spec (next := d.rnext) (nodup_reverse' hnd) (fun pre a post e => by
        have e' : d.slots = post.reverse ++ a :: pre.reverse := by
          have := congrArg List.reverse e
          simpa using this
        obtain ⟨e1, e2, _⟩ := slots_get e'
        rw [e1, rnext_spec hi e2]
        rw [List.length_reverse]
        cases post with
        | nil => simp
        | cons b post =>
          have e'' : d.slots = post.reverse ++ b :: (a :: pre.reverse) := by rw [e']; simp
          obtain ⟨f1, _, _⟩ := slots_get e''
          simp [f1]) (pre := []) (m := d.slots.reverse) (post := []) (by simp)
      simpa using this
    · intro p hp
      simp only [slots, List.mem_map] at hp
      obtain ⟨i, _, rfl⟩ := hp
      rw [hl]; exact Nat.mod_lt _ (by omega)

end CCC.Fdeq

namespace CCC.Fhm
open CCC HashMap

variable {α κ : Type} {c : Cfg κ α}

/-- What the loop of `validate` checks. -/
theorem validateLoop_sound {s : Fhm α} : ∀ n i em oc, i + n = s.cap → validateLoop c s i em oc = some true →
    oc + (occ s i n).length = size s ∧
    ∀ j, i ≤ j → j < s.cap → (s.mem j).hash ≠ 0 → validDistance c s j (s.mem j).hash = some true := by
  intro n
  induction n with
  | zero =>
    intro i em oc hi h
    rw [validateLoop, if_pos (by omega)] at h
    simp only [Option.some.injEq, Bool.and_eq_true, beq_iff_eq] at h
    exact ⟨by simpa [occ] using h.1, fun j h1 h2 => by omega⟩
  | succ n ih =>
    intro i em oc hi h
    have hlt : i < s.cap := by omega
    rw [validateLoop, if_neg (by omega)] at h
    simp only [at_eq hlt, Option.bind_eq_bind, Option.bind_some] at h
    rw [occ_succ]
    by_cases h0 : (s.mem i).hash = 0
    · rw [if_pos h0] at h ⊢
      obtain ⟨h1, h2⟩ := ih (i + 1) _ _ (by omega) h
      refine ⟨h1, fun j hj hj' ho => ?_⟩
      by_cases e : j = i
      · subst e; exact absurd h0 ho
      · exact h2 j (by omega) hj' ho
    · rw [if_neg h0] at h ⊢
      cases hv : validDistance c s i (s.mem i).hash with
      | none => simp [hv] at h
      | some b =>
        cases b with
        | false => simp [hv] at h
        | true =>
          simp only [hv, Option.bind_some, Bool.not_true, Bool.false_eq_true, if_false] at h
          obtain ⟨h1, h2⟩ := ih (i + 1) _ _ (by omega) h
          refine ⟨by simp only [List.length_cons]; omega, fun j hj hj' ho => ?_⟩
          by_cases e : j = i
          · subst e; exact hv
          · exact h2 j (by omega) hj' ho

/-- **C57** (hash map).  Whatever is in the slots: if validation accepts a map then the loop ends, visits no slot twice,
visits as many as the size says, and visits the slots that are marked occupied.  That the elements there can be found is
another matter, see `C57_fhm_validate_history` and `C57_fhm_lost_accepted`. -/
theorem C57_fhm_validate {s : Fhm α} (h : validate c s = some true) :
    ∃ ps, (do let p ← begin_ s; iterate (next s) (end_ s) p) = some ps ∧ ps.Nodup ∧ size s = ps.length ∧
      ∀ i, i ∈ ps ↔ i < s.cap ∧ (s.mem i).hash ≠ 0 := by
  obtain ⟨h1, _⟩ := validateLoop_sound s.cap 0 0 0 (by omega) h
  have hsz : size s = (occ s 0 s.cap).length := by omega
  refine ⟨occ s 0 s.cap, ?_, occ_nodup _ _ _, hsz, fun i => by simp [occ, List.mem_range'_1]⟩
  by_cases h0 : s.sz = 0
  · have : occ s 0 s.cap = [] := by
      rw [← List.length_eq_zero_iff, ← hsz, size, if_pos h0]
    rw [this, begin_, if_pos h0]
    simp only [Option.bind_eq_bind, Option.bind_some]
    rw [iterate.eq_def]; simp [end_]
  · simp only [begin_, if_neg h0, scan_spec s s.cap 0 (by omega), Option.bind_eq_bind, Option.bind_some]
    have := iterate_spec (next := next s) (occ_nodup s 0 s.cap) (occ_next s s.cap 0 (by omega)) (pre := [])
      (m := occ s 0 s.cap) (post := []) (by simp)
    simpa [end_] using this

/-- Every element has the right hash beside it and its key only once, the two working slots are empty, and some slot is
free: what validation does not check, apart from the next condition. -/
structure Clean (c : Cfg κ α) (s : Fhm α) : Prop where
  cap : 6 ≤ s.cap
  started : 2 ≤ s.sz
  room : s.sz < s.cap
  work : (s.mem 0).hash = 0 ∧ (s.mem 1).hash = 0
  hash : ∀ i, i < s.cap → (s.mem i).hash ≠ 0 → (s.mem i).hash = filter c (c.key (s.mem i).val)
  once : ∀ i j, i < s.cap → j < s.cap → (s.mem i).hash ≠ 0 → (s.mem j).hash ≠ 0 → i ≠ j →
    c.eq (c.key (s.mem i).val) (c.key (s.mem j).val) = false
  /-- no element stands in the slot right before its home, from where validation does not walk at all -/
  far : ∀ i, 2 ≤ i → i < s.cap → (s.mem i).hash ≠ 0 → i ≠ decrement s.cap (toI c s.cap (s.mem i).hash)

theorem Clean.tbl {s : Fhm α} (k : Clean c s) (h : validate c s = some true) : Tbl c s := by
  have hcap := k.cap
  have hst := k.started
  obtain ⟨h1, h2⟩ := validateLoop_sound s.cap 0 0 0 (by omega) h
  have hocc : occ s 0 s.cap = occ s 2 (s.cap - 2) := by
    have e : s.cap = (s.cap - 2) + 1 + 1 := by omega
    conv => lhs; rw [e]
    rw [occ_succ, if_pos k.work.1, occ_succ, if_pos k.work.2]
  have hcells : cells s.mem s.cap = (occ s 2 (s.cap - 2)).map s.mem := by
    unfold cells occ
    rw [List.filter_map]; rfl
  have mem_cells : ∀ x ∈ cells s.mem s.cap, ∃ i, i < s.cap ∧ (s.mem i).hash ≠ 0 ∧ s.mem i = x := by
    intro x hx
    rw [hcells, List.mem_map] at hx
    obtain ⟨i, hi, rfl⟩ := hx
    simp only [occ, List.mem_filter, List.mem_range'_1, decide_eq_true_eq] at hi
    exact ⟨i, by omega, hi.2, rfl⟩
  refine ⟨hcap, ?_, k.work.1, k.work.2, ?_, ?_, ?_, k.room⟩
  · intro i hi hi' ho hd
    have hr := inc_range (cap := s.cap) (by omega) hi
    have hv := h2 _ (by omega) hr.2 ho
    have hh := toI_range c (cap := s.cap) (by omega) (s.mem (increment s.cap i)).hash
    have hfar := k.far _ hr.1 hr.2 ho
    have hdi := dec_inc (cap := s.cap) (by omega) hi hi'
    unfold dd at hd ⊢
    have hpos := dist_inc_pos hi hi' hh.1 hh.2 hd
    unfold validDistance at hv
    simp only at hv
    rw [validLoop, if_neg hfar] at hv
    simp only [at_eq hr.2, Option.bind_eq_bind, Option.bind_some, if_neg ho, gt_iff_lt, Nat.lt_irrefl, if_false] at hv
    rw [hdi, if_neg (by omega), validLoop] at hv
    have hne : i ≠ decrement s.cap (toI c s.cap (s.mem (increment s.cap i)).hash) := by
      intro e
      have := inc_dec (cap := s.cap) (by omega) hh.1 hh.2
      rw [← e] at this
      rw [← this, dist_self] at hd
      omega
    rw [if_neg hne] at hv
    simp only [at_eq hi', Option.bind_eq_bind, Option.bind_some] at hv
    by_cases h0 : (s.mem i).hash = 0
    · rw [if_pos h0] at hv; simp at hv
    · rw [if_neg h0] at hv
      by_cases h3 : distance s.cap (increment s.cap i) (toI c s.cap (s.mem (increment s.cap i)).hash) - 1 >
          distance s.cap i (toI c s.cap (s.mem i).hash)
      · rw [if_pos h3] at hv; simp at hv
      · exact ⟨h0, by omega⟩
  · intro x hx
    obtain ⟨i, hi, ho, rfl⟩ := mem_cells x hx
    exact k.hash i hi ho
  · rw [hcells, List.pairwise_map]
    refine (occ_nodup s 2 (s.cap - 2)).imp_of_mem ?_
    intro i j hi hj hij
    simp only [occ, List.mem_filter, List.mem_range'_1, decide_eq_true_eq] at hi hj
    exact k.once i j (by omega) (by omega) hi.2 hj.2 hij
  · have hz : size s = s.sz - 2 := by unfold size; rw [if_neg (by omega), if_neg (by omega)]
    rw [hocc] at h1
    rw [hcells, List.length_map]; omega

/-- If moreover the keys, hashes and working slots are as they should be and no element stands right before its home,
then every later history answers as the list of the elements visited does. -/
theorem C57_fhm_validate_history (hl : Lawful c) {s : Fhm α} (k : Clean c s) (h : validate c s = some true) :
    ∃ ps, (do let p ← begin_ s; iterate (next s) (end_ s) p) = some ps ∧
      ∀ (b : Bool) (ops : List (Op α κ)), safeRun c s.hasAlloc ⟨ps.map (fun i => (s.mem i).val), s.cap, b⟩ ops →
        ∃ s', run c s ops =
          some (s', (specRun c s.hasAlloc ⟨ps.map (fun i => (s.mem i).val), s.cap, b⟩ ops).2) := by
  have t := k.tbl h
  have hst := k.started
  refine ⟨occ s 0 s.cap, ?_, ?_⟩
  · simp only [begin_, if_neg (show ¬ s.sz = 0 by omega), scan_spec s s.cap 0 (by omega), Option.bind_eq_bind, Option.bind_some]
    have := iterate_spec (next := next s) (occ_nodup s 0 s.cap) (occ_next s s.cap 0 (by omega)) (pre := [])
      (m := occ s 0 s.cap) (post := []) (by simp)
    simpa [end_] using this
  · intro b ops hok
    have sm : Sim c s ⟨(occ s 0 s.cap).map (fun i => (s.mem i).val), s.cap, b⟩ :=
      ⟨rfl, Or.inl ⟨t, by rw [t.occ_vals]⟩⟩
    obtain ⟨s', h1, _⟩ := run_spec hl ops sm hok
    exact ⟨s', h1⟩

/-- Six slots, an element with key 4 at home and one with key 10 behind it, one step from home. -/
def handmade : Fhm (Nat × Nat) :=
  { mem := fun i => if i = 4 then ⟨4, (4, 7)⟩ else if i = 5 then ⟨10, (10, 8)⟩ else ⟨0, (0, 0)⟩, sz := 4, cap := 6, hasAlloc := false }

theorem handmade_clean : Clean natCfg handmade := by
  refine ⟨by decide, by decide, by decide, by decide, ?_, ?_, ?_⟩
  · intro i hi ho
    have : i = 0 ∨ i = 1 ∨ i = 2 ∨ i = 3 ∨ i = 4 ∨ i = 5 := by simp only [handmade] at hi; omega
    rcases this with rfl | rfl | rfl | rfl | rfl | rfl <;> first | exact absurd rfl ho | rfl
  · intro i j hi hj ho ho' hij
    have : i = 0 ∨ i = 1 ∨ i = 2 ∨ i = 3 ∨ i = 4 ∨ i = 5 := by simp only [handmade] at hi; omega
    have : j = 0 ∨ j = 1 ∨ j = 2 ∨ j = 3 ∨ j = 4 ∨ j = 5 := by simp only [handmade] at hj; omega
    rcases ‹i = 0 ∨ _› with rfl | rfl | rfl | rfl | rfl | rfl <;> first | exact absurd rfl ho | skip
    all_goals rcases ‹j = 0 ∨ _› with rfl | rfl | rfl | rfl | rfl | rfl <;> first | exact absurd rfl ho' | exact absurd rfl hij | rfl
  · intro i h2 hi ho
    have : i = 2 ∨ i = 3 ∨ i = 4 ∨ i = 5 := by simp only [handmade] at hi; omega
    rcases this with rfl | rfl | rfl | rfl <;> first | exact absurd rfl ho | decide

theorem handmade_accepted : validate natCfg handmade = some true := by
  have e4 : validDistance natCfg handmade 4 4 = some true := by
    unfold validDistance
    rw [validLoop, if_neg (by decide)]
    simp only [at_eq (s := handmade) (i := 4) (by decide), Option.bind_eq_bind, Option.bind_some]
    rw [if_neg (by decide), if_neg (by decide), validLoop]
    rfl
  have e5 : validDistance natCfg handmade 5 10 = some true := by
    unfold validDistance
    rw [validLoop, if_neg (by decide)]
    simp only [at_eq (s := handmade) (i := 5) (by decide), Option.bind_eq_bind, Option.bind_some]
    rw [if_neg (by decide), if_neg (by decide), validLoop, if_neg (by decide)]
    simp only [at_eq (s := handmade) (i := decrement handmade.cap 5) (by decide), Option.bind_eq_bind, Option.bind_some]
    rw [if_neg (by decide), if_neg (by decide), validLoop]
    rfl
  have st : ∀ i em oc, i < 4 → validateLoop natCfg handmade i em oc = validateLoop natCfg handmade (i + 1) (em + 1) oc := by
    intro i em oc hi
    have hc : handmade.cap = 6 := rfl
    rw [validateLoop, if_neg (by omega)]
    simp only [at_eq (s := handmade) (i := i) (by omega), Option.bind_eq_bind, Option.bind_some]
    rw [if_pos]
    simp only [handmade]
    rw [if_neg (by omega), if_neg (by omega)]
  rw [validate, st 0 _ _ (by omega), st 1 _ _ (by omega), st 2 _ _ (by omega), st 3 _ _ (by omega), validateLoop, if_neg (by decide)]
  simp only [at_eq (s := handmade) (i := 4) (by decide), Option.bind_eq_bind, Option.bind_some]
  rw [if_neg (by decide)]
  have h4 : (handmade.mem 4).hash = 4 := rfl
  have h5 : (handmade.mem 5).hash = 10 := rfl
  simp only [h4, e4, Option.bind_some, Bool.not_true, Bool.false_eq_true, if_false]
  rw [validateLoop, if_neg (by decide)]
  simp only [at_eq (s := handmade) (i := 4 + 1) (by decide), Option.bind_eq_bind, Option.bind_some]
  rw [if_neg (by decide)]
  simp only [h5, e5, Option.bind_some, Bool.not_true, Bool.false_eq_true, if_false]
  rw [validateLoop]
  rfl

/-- Six slots, one element, in the slot before its home. -/
def lost : Fhm (Nat × Nat) :=
  { mem := fun i => if i = 3 then ⟨4, (4, 7)⟩ else ⟨0, (0, 0)⟩, sz := 3, cap := 6, hasAlloc := false }

/-- Validation accepts a map with an element that no lookup finds: the walk from the slot before the home is over before
it begins. -/
theorem C57_fhm_lost_accepted : validate natCfg lost = some true ∧ size lost = 1 ∧
    (lost.mem 3).hash = filter natCfg (natCfg.key (lost.mem 3).val) ∧ natCfg.key (lost.mem 3).val = 4 ∧
    get natCfg lost 4 = some none := by
  refine ⟨?_, rfl, rfl, rfl, ?_⟩
  · have hv : validDistance natCfg lost 3 4 = some true := by
      unfold validDistance
      rw [validLoop]; rfl
    have st : ∀ i em oc, i < 6 → i ≠ 3 → validateLoop natCfg lost i em oc = validateLoop natCfg lost (i + 1) (em + 1) oc := by
      intro i em oc hi hne
      have hc : lost.cap = 6 := rfl
      rw [validateLoop, if_neg (by omega)]
      simp only [at_eq (s := lost) (i := i) (by omega), Option.bind_eq_bind, Option.bind_some]
      rw [if_pos]
      simp only [lost]
      rw [if_neg hne]
    have h3 : (lost.mem 3).hash = 4 := rfl
    rw [validate, st 0 _ _ (by omega) (by omega), st 1 _ _ (by omega) (by omega), st 2 _ _ (by omega) (by omega),
      validateLoop, if_neg (by decide)]
    simp only [at_eq (s := lost) (i := 2 + 1) (by decide), Option.bind_eq_bind, Option.bind_some]
    rw [if_neg (by decide)]
    simp only [h3, hv, Option.bind_some, Bool.not_true, Bool.false_eq_true, if_false]
    rw [st 4 _ _ (by omega) (by omega), st 5 _ _ (by omega) (by omega), validateLoop]
    rfl
  · rw [get, if_neg (by decide), find, if_neg (by decide), if_neg (by decide), findLoop]
    rfl

end CCC.Fhm

namespace CCC.Fpq
open CCC

variable {α : Type}

/-- **C57 (flat priority queue), partial.**  Whatever the memory holds, if `validate` answers true then front is a stored
element that no stored element beats (NULL exactly when the queue is empty), and every later history behaves as a bag with an
extreme element.  Missing: the function does not check that one slot is left as swap space; this is a hypothesis here, and
`C57_fpq_violated` shows that a full queue is accepted. -/
theorem C57_fpq_validate_partial {q : Fpq α} (hl : q.buf.len = q.buf.cap) (hr : q.buf.sz = 0 ∨ q.buf.sz < q.buf.cap)
    (hc : LawfulCmp q.cmp) (ho : IsOrder q.order) (hv : q.validate = some true) :
    ((q.size = 0 ∧ q.front = none) ∨
      ∃ k x, q.front = some k ∧ k < q.size ∧ q.load k = some x ∧ ∀ j y, j < q.size → q.load j = some y → ¬ q.beats y x) ∧
    ∀ ops, q.HistOk ops → ∃ q' os, q.run ops = some (q', os) ∧ SpecRun q.beats ops q.contents os q'.contents := by
  have hi : q.Inv := ⟨hl, hr, C46_fpq_validate_sound q hl (by omega) hv, hc, ho⟩
  refine ⟨?_, fun ops h => ?_⟩
  · rcases C13_front q hi with ⟨h1, h2⟩ | ⟨k, x, h1, h2, h3, _, h4⟩
    · refine Or.inl ⟨?_, h2⟩
      have := congrArg List.length h1
      simpa [contents, window_length, size] using this
    · refine Or.inr ⟨k, x, h1, h2, h3, fun j y hj hy => h4 y ?_⟩
      have : q.deref (some j) = some (q.buf.mem j) := deref_some hi hj
      simp only [deref, Option.bind_some] at this
      rw [hy] at this; cases this
      simp only [contents, window, List.mem_map, List.mem_range]
      exact ⟨j, hj, by simp⟩
  · obtain ⟨q', os, h1, _, h2⟩ := C13_history ops q hi h
    exact ⟨q', os, h1, h2⟩

/-- Two slots of user memory, one element; the free slot happens to hold a number. -/
def almost : Fpq Nat :=
  { buf := { mem := fun i => i, len := 2, sz := 1, cap := 2, hasAlloc := false }, cmp := natCmp, order := .les }

/-- The queue a refused `emplace` leaves behind: full. -/
def full : Fpq Nat := { almost with buf := { almost.buf with sz := 2 } }

/-- **C57 is violated.**  `validate` accepts a full queue, whose next pop has no swap space and trips an assertion.  A refused
`emplace` on a valid queue leads there. -/
theorem C57_fpq_violated : almost.Inv ∧ almost.emplace 5 none none = some (full, none) ∧ full.validate = some true ∧
    full.size = 2 ∧ full.pop = none := by
  refine ⟨⟨rfl, Or.inr (by simp [almost]), ?_, natCmp_lawful, Or.inl rfl⟩, ?_, ?_, rfl, ?_⟩
  · intro k hk hkn; simp [almost] at hkn; omega
  · simp [almost, full, emplace, Buf.allocBack, Buf.alloc, Buf.fn]
  · simp [almost, full, validate]
    rw [validateLoop]
    simp [childBad, load, Buf.at_, Buf.load, wins, natCmp]
    rw [validateLoop]; simp
  · simp [almost, full, pop, Buf.at_, swap]

/-- The hypotheses are met: three elements in four slots. -/
example : (⟨{ mem := fun i => i, len := 4, sz := 3, cap := 4, hasAlloc := false }, natCmp, .les⟩ : Fpq Nat).validate = some true := by
  refine C46_fpq_validate _ ⟨rfl, Or.inr (by simp), ?_, natCmp_lawful, Or.inl rfl⟩
  intro k hk hkn
  have h1 : ¬ k < (k - 1) / 2 := by omega
  simp only [beats, Beats, natCmp, if_neg h1]; split <;> simp

end CCC.Fpq
