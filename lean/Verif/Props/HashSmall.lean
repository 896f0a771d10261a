import Verif.Props.FlatHashMap
/-
C40 at the capacities below six.
-/
namespace CCC.Fhm
open CCC HashMap

variable {α κ : Type} {c : Cfg κ α}

/-- An insertion into an empty home slot. -/
theorem insert_home {s : Fhm α} {x : α} (h2 : 2 ≤ s.sz) (hl : 5 * s.sz ≤ 4 * s.cap)
    (hs : s.sz < s.cap) {i : Nat} (hi : toI c s.cap (filter c (c.key x)) = i) (hi2 : 2 ≤ i) (hic : i < s.cap) (he : (s.mem i).hash = 0) :
    ∃ M, insert c s x none = some ({ s with mem := M, sz := s.sz + 1 }, Stat.vacant, false, x) ∧
      ∀ j, 2 ≤ j → j ≠ i → M j = s.mem j := by
  have hmr : maybeResize c s none = some (s, .ok) := by
    simp only [maybeResize, if_neg (show ¬(s.cap ≠ 0 ∧ s.sz < 2) by omega), if_pos (show s.cap ≠ 0 ∧ 5 * s.sz ≤ 4 * s.cap by omega)]
  refine ⟨upd (upd (upd (upd s.mem 0 ⟨filter c (c.key x), x⟩) i ⟨filter c (c.key x), x⟩) 0 ⟨0, x⟩) 1 ⟨0, (s.mem 1).val⟩, ?_, ?_⟩
  · have h0 : 0 < s.cap := by omega
    have h1 : 1 < s.cap := by omega
    simp only [insert, entry, hmr, Option.bind_eq_bind, Option.bind_some, find]
    rw [if_neg (by omega), if_neg (by omega), findLoop]
    simp only [hi, at_, hic, if_true, he, true_or, Option.bind_eq_bind, Option.bind_some,
      has_vac_occ, has_vac_ins, Bool.false_eq_true, if_false, ne_eq, not_true_eq_false, insertAt, put, h0]
    rw [insertLoop]
    have hi0 : i ≠ 0 := by omega
    have hi1 : i ≠ 1 := by omega
    simp [at_, put, putHash, upd, sizePlus, h0, h1, hic, hi0, he, Ne.symm hi0, Ne.symm hi1]
    omega
  · intro j hj hne
    simp [upd, hne, show j ≠ 0 by omega, show j ≠ 1 by omega]

/-- Once the size has reached the capacity no key is found. -/
theorem full_lost {s : Fhm α} (h0 : s.cap ≠ 0) (hs : s.cap ≤ s.sz) (h2 : 2 ≤ s.sz) (hl : 4 * s.cap < 5 * s.sz) (ha : s.hasAlloc = false)
    (k : κ) : get c s k = some none ∧ (contains c s k none).map Prod.snd = some false := by
  constructor
  · simp only [get, find]
    rw [if_neg h0, if_neg h0, if_pos hs]
    rfl
  · have : maybeResize c s none = some (s, .noAlloc) := by
      simp only [maybeResize, if_neg (show ¬(s.cap ≠ 0 ∧ s.sz < 2) by omega),
        if_neg (show ¬(s.cap ≠ 0 ∧ 5 * s.sz ≤ 4 * s.cap) by omega), ha, Bool.not_false, if_true]
    simp only [contains, entry, Option.bind_eq_bind, this, Option.bind_some, find]
    rw [if_neg h0, if_pos hs]
    simp
    decide

/-- The first call wipes the memory. -/
theorem insert_first (mem : Nat → Cell α) {n : Nat} (hn : 2 ≤ n) (x : α) :
    insert c (init mem n false) x none = insert c { mem := wipe mem, sz := 2, cap := n, hasAlloc := false } x none := by
  have : maybeResize c (init mem n false) none = maybeResize c { mem := wipe mem, sz := 2, cap := n, hasAlloc := false } none := by
    have h0 : n ≠ 0 := by omega
    have h3 : ¬ 2 > n := by omega
    simp [maybeResize, init, sizeSet, h0, h3]
  simp only [insert, entry, this]

/-- C40 fails at capacity 4: two insertions, of keys with different home slots, are reported as successes; then neither element is
found, neither by `get` nor by `contains`. -/
theorem C40_fhm_violated_four (mem : Nat → Cell α) (x y : α) (hx : toI c 4 (filter c (c.key x)) = 2)
    (hy : toI c 4 (filter c (c.key y)) = 3) :
    ∃ s1 s2, insert c (init mem 4 false) x none = some (s1, Stat.vacant, false, x) ∧
      insert c s1 y none = some (s2, Stat.vacant, false, y) ∧
      ∀ k, get c s2 k = some none ∧ (contains c s2 k none).map Prod.snd = some false := by
  obtain ⟨M, h1, h2⟩ := insert_home (c := c) (s := { mem := wipe mem, sz := 2, cap := 4, hasAlloc := false }) (x := x) (i := 2)
    (by simp) (by simp) (by simp) hx (by omega) (by simp) rfl
  obtain ⟨M', h3, h4⟩ := insert_home (c := c) (s := { mem := M, sz := 3, cap := 4, hasAlloc := false }) (x := y) (i := 3)
    (by simp) (by simp) (by simp) hy (by omega) (by simp) (by simp only; rw [h2 3 (by omega) (by omega)]; rfl)
  rw [← insert_first mem (by omega)] at h1
  exact ⟨_, _, h1, h3, fun k => full_lost (by simp) (by simp) (by simp) (by simp) rfl k⟩

/-- C40 fails at capacity 5, with three insertions. -/
theorem C40_fhm_violated_five (mem : Nat → Cell α) (x y z : α) (hx : toI c 5 (filter c (c.key x)) = 2)
    (hy : toI c 5 (filter c (c.key y)) = 3) (hz : toI c 5 (filter c (c.key z)) = 4) :
    ∃ s1 s2 s3, insert c (init mem 5 false) x none = some (s1, Stat.vacant, false, x) ∧
      insert c s1 y none = some (s2, Stat.vacant, false, y) ∧ insert c s2 z none = some (s3, Stat.vacant, false, z) ∧
      ∀ k, get c s3 k = some none ∧ (contains c s3 k none).map Prod.snd = some false := by
  obtain ⟨M, h1, h2⟩ := insert_home (c := c) (s := { mem := wipe mem, sz := 2, cap := 5, hasAlloc := false }) (x := x) (i := 2)
    (by simp) (by simp) (by simp) hx (by omega) (by simp) rfl
  obtain ⟨M', h3, h4⟩ := insert_home (c := c) (s := { mem := M, sz := 3, cap := 5, hasAlloc := false }) (x := y) (i := 3)
    (by simp) (by simp) (by simp) hy (by omega) (by simp) (by simp only; rw [h2 3 (by omega) (by omega)]; rfl)
  obtain ⟨M2, h5, h6⟩ := insert_home (c := c) (s := { mem := M', sz := 4, cap := 5, hasAlloc := false }) (x := z) (i := 4)
    (by simp) (by simp) (by simp) hz (by omega) (by simp)
    (by simp only; rw [h4 4 (by omega) (by omega)]; simp only; rw [h2 4 (by omega) (by omega)]; rfl)
  rw [← insert_first mem (by omega)] at h1
  exact ⟨_, _, _, h1, h3, h5, fun k => full_lost (by simp) (by simp) (by simp) (by simp) rfl k⟩

/-- Such keys: the numbers 2, 3, 4 with themselves as hashes. -/
example : toI natCfg 4 (filter natCfg 2) = 2 ∧ toI natCfg 4 (filter natCfg 3) = 3 ∧
    toI natCfg 5 (filter natCfg 2) = 2 ∧ toI natCfg 5 (filter natCfg 3) = 3 ∧ toI natCfg 5 (filter natCfg 4) = 4 := by decide

/-- C40 holds at the capacities 1 and 2, where the map refuses every insertion. -/
theorem C40_fhm_tiny (mem : Nat → Cell α) (n : Nat) (hn : n = 1 ∨ n = 2) (x : α) :
    ∃ s, insert c (init mem n false) x none = some (s, Stat.insertError, false, x) ∧
      (∀ y, ∃ s', insert c s y none = some (s', Stat.insertError, false, y) ∧ s'.sz = s.sz ∧ s'.cap = s.cap) ∧
      ∀ k, get c s k = some none := by
  have key : ∀ (M : Nat → Cell α) (m : Nat) (y : α), (m = 0 ∨ m = n) →
      ∃ M', insert c { mem := M, sz := m, cap := n, hasAlloc := false } y none =
        some ({ mem := M', sz := n, cap := n, hasAlloc := false }, Stat.insertError, false, y) := by
    intro M m y hm
    have : ∃ M', maybeResize c { mem := M, sz := m, cap := n, hasAlloc := false } none =
        some ({ mem := M', sz := n, cap := n, hasAlloc := false }, .noAlloc) := by
      by_cases h2 : m < 2
      · refine ⟨wipe M, ?_⟩
        have : (if 2 > n then n else 2) = n := by split <;> omega
        simp only [maybeResize, if_pos (show n ≠ 0 ∧ m < 2 by omega), sizeSet, this,
          if_neg (show ¬(n ≠ 0 ∧ 5 * n ≤ 4 * n) by omega), Bool.not_false, if_true]
      · obtain rfl : m = n := by omega
        refine ⟨M, ?_⟩
        simp only [maybeResize, if_neg (show ¬(m ≠ 0 ∧ m < 2) by omega),
          if_neg (show ¬(m ≠ 0 ∧ 5 * m ≤ 4 * m) by omega), Bool.not_false, if_true]
    obtain ⟨M', e⟩ := this
    refine ⟨M', ?_⟩
    simp only [insert, entry, Option.bind_eq_bind, e, Option.bind_some, find]
    rw [if_neg (by omega), if_pos (Nat.le_refl n)]
    have e1 : Stat.has (Stat.inputError ||| Stat.insertError) Stat.occupied = false := by decide
    have e2 : Stat.has (Stat.inputError ||| Stat.insertError) Stat.insertError = true := by decide
    simp [e1, e2]
  obtain ⟨M, h1⟩ := key mem 0 x (.inl rfl)
  refine ⟨_, h1, fun y => ?_, fun k => ?_⟩
  · obtain ⟨M', h2⟩ := key M n y (.inr rfl)
    exact ⟨_, h2, rfl, rfl⟩
  · simp only [get, find]
    rw [if_neg (by omega), if_neg (by omega), if_pos (Nat.le_refl n)]
    rfl

end CCC.Fhm
