import Verif.Proof.FlatHashMapStep
/-
Whole calls and histories of the flat hash map.
-/
namespace CCC.Fhm
open CCC HashMap

variable {α κ : Type} {c : Cfg κ α}

/-- What a correct call does. -/
def Good (c : Cfg κ α) (s : Fhm α) (r : Option (Fhm α × Out α)) (spec : St α × Out α) : Prop :=
  ∃ s', r = some (s', spec.2) ∧ Sim c s' spec.1 ∧ s'.hasAlloc = s.hasAlloc

theorem has_occ {b : Bool} : Stat.has (if b = true then Stat.occupied else Stat.occupied ||| Stat.insertError)
    Stat.occupied = true := by cases b <;> decide
theorem has_vac_occ : Stat.has (Stat.vacant ||| Stat.noUnwrap) Stat.occupied = false := by decide
theorem has_vac_ins : Stat.has (Stat.vacant ||| Stat.noUnwrap) Stat.insertError = false := by decide
theorem has_err {e : Ent} (h : e.stats = Stat.noUnwrap ||| Stat.insertError ∨ e = ⟨none, Stat.insertError⟩) :
    Stat.has e.stats Stat.occupied = false ∧ Stat.has e.stats Stat.insertError = true ∧ e.stats ≠ Stat.occupied := by
  rcases h with h | h <;> rw [h] <;> decide

theorem Sim.room {s : Fhm α} {st : St α} {al ok : Bool} (hc : s.cap = (room al ok st).1.cap) (t : Tbl c s)
    (p : (vals s).Perm st.l) : Sim c s (HashMap.room al ok st).1 := .live hc t (by rw [room_l]; exact p)

theorem view_of {s : Fhm α} {i : Nat} {x : α} (h : (s.mem i).val = x) : view s (some i) = some x := by
  simp [view, h]

theorem insert_good (hl : Lawful c) {s : Fhm α} {st : St α} (h : Sim c s st) (x : α) (ans : AllocAns α) :
    Good c s (step c s (.insert x ans)) (specStep c s.hasAlloc st (.insert x ans)) := by
  obtain ⟨s1, ⟨en, hs⟩, h1, h2, h3, h4, h5⟩ := entry_cases hl h (c.key x) ans
  simp only at h3 h5
  subst h3
  rcases h5 with ⟨i, v, l1, rfl, t, p, H⟩ | ⟨l1, hr, i, rfl, t, p, hsz, P⟩ | ⟨l1, hr, hst, hsim⟩
  · have hge := H.ge
    have hlt := H.lt
    let s2 : Fhm α := { s1 with mem := upd s1.mem 0 (s1.mem i) }
    let s3 : Fhm α := { s1 with mem := upd s2.mem i ⟨filter c (c.key x), x⟩ }
    let s4 : Fhm α := { s1 with mem := upd s3.mem 0 { s3.mem 0 with hash := 0 } }
    have e2 : put s1 0 (s1.mem i) = some s2 := put_eq (by omega)
    have e3 : put s2 i ⟨filter c (c.key x), x⟩ = some s3 := put_eq hlt
    have e4 : putHash s3 0 0 = some s4 := putHash_eq (by exact (by omega : 0 < s1.cap))
    obtain ⟨t', p'⟩ := t.over (s' := s4) (x := x) hl H.ge H.lt H.occ (by rw [H.val]; exact H.key) (hl.refl _) rfl
      (by
        intro q hq
        show upd (upd (upd s1.mem 0 _) i _) 0 _ q = _
        rw [upd_ne _ _ (by omega)]
        by_cases hqi : q = i
        · subst hqi; rw [upd_same, upd_same]
        · rw [upd_ne _ _ hqi, upd_ne _ _ hqi, upd_ne _ _ (by omega)])
      (by
        show (upd s3.mem 0 ⟨0, (s3.mem 0).val⟩ 0).hash = 0
        rw [upd_same]) rfl rfl
    rw [H.val] at p'
    have hv : v ∈ vals s1 := by rw [← H.val]; exact Tbl.mem_vals H.ge H.lt H.occ
    refine ⟨s4, ?_, ?_, h2⟩
    · simp only [step, insert, h1, Option.bind_eq_bind, Option.bind_some, has_occ, if_true, at_eq hlt, e2, e3, e4, H.val]
      simp only [specStep, l1]
    · simp only [specStep, l1]
      exact .live h4 t' (perm_assign hl (t.uniqVals.perm hl p) (p.subset hv) H.key (p'.trans (p.cons x)))
  · obtain ⟨s2, m, k1, k2, _, k3, _⟩ := P.store hl (x := x) t p hsz (hl.refl _) h4
    refine ⟨s2, ?_, ?_, k3.trans h2⟩
    · simp only [step, insert, h1, Option.bind_eq_bind, Option.bind_some, has_vac_occ, has_vac_ins, Bool.false_eq_true,
        if_false, k1]
      simp only [specStep, l1, hr]
    · simp only [specStep, l1, hr]; exact k2
  · obtain ⟨e1, e2, _⟩ := has_err hst
    refine ⟨s1, ?_, ?_, h2⟩
    · simp only [step, insert, h1, Option.bind_eq_bind, Option.bind_some, e1, e2, Bool.false_eq_true,
        if_false, if_true]
      simp only [specStep, l1, hr]
    · simp only [specStep, l1, hr]; exact hsim

theorem shown_vac : shown (Stat.vacant ||| Stat.noUnwrap) = Stat.vacant := rfl
theorem unwrap_occ {i : Nat} : Ent.unwrap (some ⟨some i, Stat.occupied⟩) = some i := by
  simp [Ent.unwrap, Stat.has, Stat.occupied, Stat.vacant, Stat.noUnwrap]
theorem unwrap_vac {i : Nat} : Ent.unwrap (some ⟨some i, Stat.vacant⟩) = some i := by
  simp [Ent.unwrap, Stat.has, Stat.occupied, Stat.vacant, Stat.noUnwrap]

theorem show_err {e : Ent} (h : e.stats = Stat.noUnwrap ||| Stat.insertError ∨ e = ⟨none, Stat.insertError⟩) :
    shown e.stats = Stat.insertError ∧ Ent.unwrap (some e) = none := by
  rcases h with h | h
  · refine ⟨by rw [h]; decide, ?_⟩
    unfold Ent.unwrap
    simp only [h]
    rw [if_pos (by decide)]
  · rw [h]
    refine ⟨by decide, ?_⟩
    unfold Ent.unwrap
    simp

theorem tryInsert_good (hl : Lawful c) {s : Fhm α} {st : St α} (h : Sim c s st) (x : α) (ans : AllocAns α) :
    Good c s (step c s (.tryInsert x ans)) (specStep c s.hasAlloc st (.tryInsert x ans)) := by
  obtain ⟨s1, ⟨en, hs⟩, h1, h2, h3, h4, h5⟩ := entry_cases hl h (c.key x) ans
  simp only at h3 h5
  subst h3
  rcases h5 with ⟨i, v, l1, rfl, t, p, H⟩ | ⟨l1, hr, i, rfl, t, p, hsz, P⟩ | ⟨l1, hr, hst, hsim⟩
  · refine ⟨s1, ?_, ?_, h2⟩
    · simp only [step, tryInsert, h1, Option.bind_eq_bind, Option.bind_some, has_occ, if_true, unwrap_occ, view_of H.val]
      simp only [specStep, l1]; rfl
    · simp only [specStep, l1]; exact Sim.room h4 t p
  · obtain ⟨s2, m, k1, k2, _, k3, _, k5, _⟩ := P.store hl (x := x) t p hsz (hl.refl _) h4
    refine ⟨s2, ?_, ?_, k3.trans h2⟩
    · simp only [step, tryInsert, h1, Option.bind_eq_bind, Option.bind_some, has_vac_occ, has_vac_ins, Bool.false_eq_true,
        if_false, k1, unwrap_vac, view_of (show (s2.mem i).val = x by rw [k5])]
      simp only [specStep, l1, hr]; rfl
    · simp only [specStep, l1, hr]; exact k2
  · obtain ⟨e1, e2, _⟩ := has_err hst
    refine ⟨s1, ?_, ?_, h2⟩
    · simp only [step, tryInsert, h1, Option.bind_eq_bind, Option.bind_some, e1, e2, Bool.false_eq_true,
        if_false, if_true]
      simp only [specStep, l1, hr]; rfl
    · simp only [specStep, l1, hr]; exact hsim

theorem insertOrAssign_good (hl : Lawful c) {s : Fhm α} {st : St α} (h : Sim c s st) (x : α) (ans : AllocAns α) :
    Good c s (step c s (.insertOrAssign x ans)) (specStep c s.hasAlloc st (.insertOrAssign x ans)) := by
  obtain ⟨s1, ⟨en, hs⟩, h1, h2, h3, h4, h5⟩ := entry_cases hl h (c.key x) ans
  simp only at h3 h5
  subst h3
  rcases h5 with ⟨i, v, l1, rfl, t, p, H⟩ | ⟨l1, hr, i, rfl, t, p, hsz, P⟩ | ⟨l1, hr, hst, hsim⟩
  · obtain ⟨s2, k1, k2, k3, k4⟩ := H.store hl (x := x) t p (hl.refl _) h4
    refine ⟨s2, ?_, ?_, k3.trans h2⟩
    · simp only [step, insertOrAssign, h1, Option.bind_eq_bind, Option.bind_some, has_occ, if_true, k1, unwrap_occ,
        view_of k4]
      simp only [specStep, l1]; rfl
    · simp only [specStep, l1]; exact k2
  · obtain ⟨s2, m, k1, k2, _, k3, _, k5, _⟩ := P.store hl (x := x) t p hsz (hl.refl _) h4
    refine ⟨s2, ?_, ?_, k3.trans h2⟩
    · simp only [step, insertOrAssign, h1, Option.bind_eq_bind, Option.bind_some, has_vac_occ, has_vac_ins, Bool.false_eq_true,
        if_false, k1, unwrap_vac, view_of (show (s2.mem i).val = x by rw [k5])]
      simp only [specStep, l1, hr]; rfl
    · simp only [specStep, l1, hr]; exact k2
  · obtain ⟨e1, e2, _⟩ := has_err hst
    refine ⟨s1, ?_, ?_, h2⟩
    · simp only [step, insertOrAssign, h1, Option.bind_eq_bind, Option.bind_some, e1, e2, Bool.false_eq_true,
        if_false, if_true]
      simp only [specStep, l1, hr]; rfl
    · simp only [specStep, l1, hr]; exact hsim

theorem tryInsertW_good (hl : Lawful c) {s : Fhm α} {st : St α} (h : Sim c s st) (k : κ) (x : α) (ans : AllocAns α)
    (hx : c.eq k (c.key x) = true) (hsafe : lookup c k st.l = none ∨ (room s.hasAlloc ans.isSome st).2 = true) :
    Good c s (step c s (.tryInsertW k x ans)) (specStep c s.hasAlloc st (.tryInsertW k x ans)) := by
  obtain ⟨s1, ⟨en, hs⟩, h1, h2, h3, h4, h5⟩ := entry_cases hl h k ans
  simp only at h3 h5
  subst h3
  rcases h5 with ⟨i, v, l1, rfl, t, p, H⟩ | ⟨l1, hr, i, rfl, t, p, hsz, P⟩ | ⟨l1, hr, hst, hsim⟩
  · have hr : (room s.hasAlloc ans.isSome st).2 = true := by simpa [l1] using hsafe
    refine ⟨s1, ?_, ?_, h2⟩
    · simp only [step, tryInsertW, h1, Option.bind_eq_bind, Option.bind_some, hr, if_true, unwrap_occ, view_of H.val,
        show Stat.has Stat.occupied Stat.occupied = true from rfl, Bool.true_or]
      simp only [specStep, l1]; rfl
    · simp only [specStep, l1]; exact Sim.room h4 t p
  · obtain ⟨s2, k1, k2, k3, k5⟩ := P.storeW hl (x := x) (e := ⟨⟨some i, Stat.vacant ||| Stat.noUnwrap⟩, filter c k⟩) t p hsz hx h4
      rfl rfl
    refine ⟨s2, ?_, ?_, k3.trans h2⟩
    · simp only [step, tryInsertW, h1, Option.bind_eq_bind, Option.bind_some, has_vac_occ, has_vac_ins, Bool.false_eq_true,
        if_false, k1, unwrap_vac, view_of (show (s2.mem i).val = x by rw [k5]), Bool.or_self]
      simp only [specStep, l1, hr]; rfl
    · simp only [specStep, l1, hr]; exact k2
  · obtain ⟨e1, e2, _⟩ := has_err hst
    refine ⟨s1, ?_, ?_, h2⟩
    · simp only [step, tryInsertW, h1, Option.bind_eq_bind, Option.bind_some, e1, e2, Bool.or_true, if_true]
      simp only [specStep, l1, hr]
      rw [(show_err hst).1, (show_err hst).2]; rfl
    · simp only [specStep, l1, hr]; exact hsim

theorem insertOrAssignW_good (hl : Lawful c) {s : Fhm α} {st : St α} (h : Sim c s st) (k : κ) (x : α) (ans : AllocAns α)
    (hx : c.eq k (c.key x) = true) (hsafe : lookup c k st.l = none ∨ (room s.hasAlloc ans.isSome st).2 = true) :
    Good c s (step c s (.insertOrAssignW k x ans)) (specStep c s.hasAlloc st (.insertOrAssignW k x ans)) := by
  obtain ⟨s1, ⟨en, hs⟩, h1, h2, h3, h4, h5⟩ := entry_cases hl h k ans
  simp only at h3 h5
  subst h3
  rcases h5 with ⟨i, v, l1, rfl, t, p, H⟩ | ⟨l1, hr, i, rfl, t, p, hsz, P⟩ | ⟨l1, hr, hst, hsim⟩
  · have hr : (room s.hasAlloc ans.isSome st).2 = true := by simpa [l1] using hsafe
    obtain ⟨s2, k1, k2, k3, k4⟩ := H.store hl (x := x) t p hx h4
    refine ⟨s2, ?_, ?_, k3.trans h2⟩
    · simp only [step, insertOrAssignW, h1, Option.bind_eq_bind, Option.bind_some, hr, if_true, unwrap_occ, k1, view_of k4,
        show Stat.has Stat.occupied Stat.occupied = true from rfl]
      simp only [specStep, l1]; rfl
    · simp only [specStep, l1]; exact k2
  · obtain ⟨s2, k1, k2, k3, k5⟩ := P.storeW hl (x := x) (e := ⟨⟨some i, Stat.vacant ||| Stat.noUnwrap⟩, filter c k⟩) t p hsz hx h4
      rfl rfl
    refine ⟨s2, ?_, ?_, k3.trans h2⟩
    · simp only [step, insertOrAssignW, h1, Option.bind_eq_bind, Option.bind_some, has_vac_occ, has_vac_ins, Bool.false_eq_true,
        if_false, k1, unwrap_vac, view_of (show (s2.mem i).val = x by rw [k5])]
      simp only [specStep, l1, hr]; rfl
    · simp only [specStep, l1, hr]; exact k2
  · obtain ⟨e1, e2, _⟩ := has_err hst
    refine ⟨s1, ?_, ?_, h2⟩
    · simp only [step, insertOrAssignW, h1, Option.bind_eq_bind, Option.bind_some, e1, e2, Bool.false_eq_true, if_false, if_true]
      simp only [specStep, l1, hr]; rfl
    · simp only [specStep, l1, hr]; exact hsim

theorem remove_good (hl : Lawful c) {s : Fhm α} {st : St α} (h : Sim c s st) (x : α)
    (hsafe : st.cap = 0 ∨ st.stale = false) :
    Good c s (step c s (.remove x)) (specStep c s.hasAlloc st (.remove x)) := by
  rcases h.body with ⟨t, p⟩ | ⟨hz, hn, hb⟩
  · obtain ⟨e, m, f1, f2⟩ := find_cases hl t p (c.key x)
    rcases f2 with ⟨i, v, l1, rfl, H⟩ | ⟨l1, i, rfl, P⟩
    · obtain ⟨s2, m2, k1, k2, k3⟩ := H.erase (st := st) hl t p h.cap
      refine ⟨s2, ?_, ?_, k2⟩
      · simp only [step, remove, f1, Option.bind_eq_bind, Option.bind_some,
          show Stat.has Stat.occupied Stat.occupied = true from rfl, if_true, at_eq H.lt, k1, H.val]
        simp only [specStep, l1]
      · simp only [specStep, l1]; exact k3
    · refine ⟨s, ?_, ?_, rfl⟩
      · simp only [step, remove, f1, Option.bind_eq_bind, Option.bind_some, has_vac_occ, Bool.false_eq_true, if_false]
        simp only [specStep, l1]
      · simp only [specStep, l1]; exact h
  · have l1 : lookup c (c.key x) st.l = none := by rw [hn]; rfl
    have hspec : specStep c s.hasAlloc st (.remove x) = (st, .insEnt Stat.vacant none x) := by simp only [specStep, l1]
    rw [hspec]
    refine ⟨s, ?_, h, rfl⟩
    rcases hb with hb | ⟨hb, hw⟩
    · simp only [step, remove, find, if_pos hb, Option.bind_eq_bind, Option.bind_some]
      rfl
    · have hw := hw (by have := h.cap; have : st.cap ≠ 0 := by omega
                        simpa [this] using hsafe)
      have hh := toI_range c (cap := s.cap) (by omega) (filter c (c.key x))
      simp only [step, remove, find, if_neg (show ¬ s.cap = 0 by omega), if_neg (show ¬ s.sz ≥ s.cap by omega)]
      rw [findLoop]
      simp only [at_eq hh.2, hw _ hh.2, true_or, if_true, Option.bind_eq_bind, Option.bind_some, has_vac_occ,
        Bool.false_eq_true, if_false]

theorem get_good (hl : Lawful c) {s : Fhm α} {st : St α} (h : Sim c s st) (k : κ) (f : α → α)
    (hf : ∀ v ∈ st.l, c.eq k (c.key v) = true → c.eq k (c.key (f v)) = true)
    (hsafe : st.cap = 0 ∨ st.stale = false) :
    Good c s (step c s (.get k f)) (specStep c s.hasAlloc st (.get k f)) := by
  rcases h.body with ⟨t, p⟩ | ⟨hz, hn, hb⟩
  · have hcap := t.cap
    obtain ⟨e, m, f1, f2⟩ := find_cases hl t p k
    rcases f2 with ⟨i, v, l1, rfl, H⟩ | ⟨l1, i, rfl, P⟩
    · obtain ⟨hv1, hv2⟩ := lookup_mem l1
      obtain ⟨s2, k1, k2, k3, k4⟩ := H.poke (st := st) (f := f) hl t p (hf v hv1 hv2) h.cap
      refine ⟨s2, ?_, ?_, k3⟩
      · simp only [step, get, if_neg (show ¬ s.cap = 0 by omega), f1, Option.bind_eq_bind, Option.bind_some,
          show Stat.has Stat.occupied Stat.occupied = true from rfl, if_true, poke, at_eq H.lt, k1, view_of H.val]
        simp only [specStep, l1]
      · simp only [specStep, l1]; exact k2
    · refine ⟨s, ?_, ?_, rfl⟩
      · simp only [step, get, if_neg (show ¬ s.cap = 0 by omega), f1, Option.bind_eq_bind, Option.bind_some, has_vac_occ,
          Bool.false_eq_true, if_false, poke]
        simp only [specStep, l1]; rfl
      · simp only [specStep, l1]; exact h
  · have l1 : lookup c k st.l = none := by rw [hn]; rfl
    have hspec : specStep c s.hasAlloc st (.get k f) = (st, .ptr none) := by simp only [specStep, l1]
    rw [hspec]
    refine ⟨s, ?_, h, rfl⟩
    rcases hb with hb | ⟨hb, hw⟩
    · simp only [step, get, if_pos hb, Option.bind_eq_bind, Option.bind_some, poke]
      rfl
    · have hw := hw (by have := h.cap; have : st.cap ≠ 0 := by omega
                        simpa [this] using hsafe)
      have hh := toI_range c (cap := s.cap) (by omega) (filter c k)
      simp only [step, get, find, if_neg (show ¬ s.cap = 0 by omega), if_neg (show ¬ s.sz ≥ s.cap by omega)]
      rw [findLoop]
      simp only [at_eq hh.2, hw _ hh.2, true_or, if_true, Option.bind_eq_bind, Option.bind_some, has_vac_occ,
        Bool.false_eq_true, if_false, poke]
      rfl

theorem assign_new {k : κ} {x y : α} {l : List α} (hk : c.eq k (c.key x) = true) (hn : lookup c k l = none) :
    assign c k y (x :: l) = y :: l := by
  have := assign_split (A := []) (x := y) hk (by simp) (lookup_eq_none hn)
  simpa using this

theorem orInsert_good (hl : Lawful c) {s : Fhm α} {st : St α} (h : Sim c s st) (k : κ) (x : α) (f : α → α) (ans : AllocAns α)
    (hx : c.eq k (c.key x) = true) (hfx : c.eq k (c.key (f x)) = true)
    (hf : ∀ v ∈ st.l, c.eq k (c.key v) = true → c.eq k (c.key (f v)) = true) :
    Good c s (step c s (.orInsert k x f ans)) (specStep c s.hasAlloc st (.orInsert k x f ans)) := by
  obtain ⟨s1, ⟨en, hs⟩, h1, h2, h3, h4, h5⟩ := entry_cases hl h k ans
  simp only at h3 h5
  subst h3
  rcases h5 with ⟨i, v, l1, rfl, t, p, H⟩ | ⟨l1, hr, i, rfl, t, p, hsz, P⟩ | ⟨l1, hr, hst, hsim⟩
  · obtain ⟨hv1, hv2⟩ := lookup_mem l1
    obtain ⟨s2, k1, k2, k3, k4⟩ := H.poke (f := f) hl t p (hf v hv1 hv2) h4
    refine ⟨s2, ?_, ?_, k3.trans h2⟩
    · simp only [step, orInsert, h1, Option.bind_eq_bind, Option.bind_some, has_occ, if_true, poke, at_eq H.lt, k1, view_of H.val]
      simp only [specStep, l1]
    · simp only [specStep, l1]; exact k2
  · obtain ⟨s2, m, k1, k2, t2, k3, H2, k5, p2⟩ := P.store (st := (room s.hasAlloc ans.isSome st).1) hl (x := x) t p hsz hx h4
    obtain ⟨s3, j1, j2, j3, j4⟩ := H2.poke (f := f) (st := (room s.hasAlloc ans.isSome st).1) hl t2 p2 hfx k2.cap
    refine ⟨s3, ?_, ?_, j3.trans (k3.trans h2)⟩
    · simp only [step, orInsert, h1, Option.bind_eq_bind, Option.bind_some, has_vac_occ, has_vac_ins, Bool.false_eq_true,
        if_false, k1, poke, at_eq H2.lt, j1, view_of H2.val]
      simp only [specStep, l1, hr]
    · simp only [specStep, l1, hr]
      rw [assign_new hx l1] at j2
      exact j2
  · obtain ⟨e1, e2, _⟩ := has_err hst
    refine ⟨s1, ?_, ?_, h2⟩
    · simp only [step, orInsert, h1, Option.bind_eq_bind, Option.bind_some, e1, e2, Bool.false_eq_true,
        if_false, if_true, poke]
      simp only [specStep, l1, hr]; rfl
    · simp only [specStep, l1, hr]; exact hsim

theorem orInsertW_good (hl : Lawful c) {s : Fhm α} {st : St α} (h : Sim c s st) (k : κ) (x : α) (ans : AllocAns α)
    (hx : c.eq k (c.key x) = true) (hsafe : lookup c k st.l = none ∨ (room s.hasAlloc ans.isSome st).2 = true) :
    Good c s (step c s (.orInsertW k x ans)) (specStep c s.hasAlloc st (.orInsertW k x ans)) := by
  obtain ⟨s1, ⟨en, hs⟩, h1, h2, h3, h4, h5⟩ := entry_cases hl h k ans
  simp only at h3 h5
  subst h3
  rcases h5 with ⟨i, v, l1, rfl, t, p, H⟩ | ⟨l1, hr, i, rfl, t, p, hsz, P⟩ | ⟨l1, hr, hst, hsim⟩
  · have hr : (room s.hasAlloc ans.isSome st).2 = true := by simpa [l1] using hsafe
    refine ⟨s1, ?_, ?_, h2⟩
    · simp only [step, orInsertW, h1, Option.bind_eq_bind, Option.bind_some, hr, if_true, view_of H.val,
        show Stat.has Stat.occupied Stat.occupied = true from rfl,
        show Stat.has Stat.occupied Stat.insertError = false from rfl, Bool.not_false]
      simp only [specStep, l1]
    · simp only [specStep, l1]; exact Sim.room h4 t p
  · obtain ⟨s2, k1, k2, k3, k5⟩ := P.storeW hl (x := x) (e := ⟨⟨some i, Stat.vacant ||| Stat.noUnwrap⟩, filter c k⟩) t p hsz hx h4
      rfl rfl
    refine ⟨s2, ?_, ?_, k3.trans h2⟩
    · simp only [step, orInsertW, h1, Option.bind_eq_bind, Option.bind_some, has_vac_occ, has_vac_ins, Bool.false_eq_true,
        Bool.not_false, if_true, if_false, k1, view_of (show (s2.mem i).val = x by rw [k5])]
      simp only [specStep, l1, hr]
    · simp only [specStep, l1, hr]; exact k2
  · obtain ⟨e1, e2, _⟩ := has_err hst
    refine ⟨s1, ?_, ?_, h2⟩
    · simp only [step, orInsertW, h1, Option.bind_eq_bind, Option.bind_some, e2, Bool.not_true, Bool.false_eq_true, if_false]
      simp only [specStep, l1, hr]; rfl
    · simp only [specStep, l1, hr]; exact hsim

theorem insertEntry_good (hl : Lawful c) {s : Fhm α} {st : St α} (h : Sim c s st) (k : κ) (x : α) (ans : AllocAns α)
    (hx : c.eq k (c.key x) = true) :
    Good c s (step c s (.insertEntry k x ans)) (specStep c s.hasAlloc st (.insertEntry k x ans)) := by
  obtain ⟨s1, ⟨en, hs⟩, h1, h2, h3, h4, h5⟩ := entry_cases hl h k ans
  simp only at h3 h5
  subst h3
  rcases h5 with ⟨i, v, l1, rfl, t, p, H⟩ | ⟨l1, hr, i, rfl, t, p, hsz, P⟩ | ⟨l1, hr, hst, hsim⟩
  · obtain ⟨s2, k1, k2, k3, k4⟩ := H.store hl (x := x) t p hx h4
    refine ⟨s2, ?_, ?_, k3.trans h2⟩
    · simp only [step, insertEntry, h1, Option.bind_eq_bind, Option.bind_some, has_occ, if_true, k1, view_of k4]
      simp only [specStep, l1]
    · simp only [specStep, l1]; exact k2
  · obtain ⟨s2, m, k1, k2, _, k3, _, k5, _⟩ := P.store hl (x := x) t p hsz hx h4
    refine ⟨s2, ?_, ?_, k3.trans h2⟩
    · simp only [step, insertEntry, h1, Option.bind_eq_bind, Option.bind_some, has_vac_occ, has_vac_ins, Bool.false_eq_true,
        if_false, k1, view_of (show (s2.mem i).val = x by rw [k5])]
      simp only [specStep, l1, hr]
    · simp only [specStep, l1, hr]; exact k2
  · obtain ⟨e1, e2, _⟩ := has_err hst
    refine ⟨s1, ?_, ?_, h2⟩
    · simp only [step, insertEntry, h1, Option.bind_eq_bind, Option.bind_some, e1, e2, Bool.false_eq_true,
        if_false, if_true]
      simp only [specStep, l1, hr]; rfl
    · simp only [specStep, l1, hr]; exact hsim

theorem insertEntryW_good (hl : Lawful c) {s : Fhm α} {st : St α} (h : Sim c s st) (k : κ) (x : α) (ans : AllocAns α)
    (hx : c.eq k (c.key x) = true) (hsafe : lookup c k st.l = none ∨ (room s.hasAlloc ans.isSome st).2 = true) :
    Good c s (step c s (.insertEntryW k x ans)) (specStep c s.hasAlloc st (.insertEntryW k x ans)) := by
  obtain ⟨s1, ⟨en, hs⟩, h1, h2, h3, h4, h5⟩ := entry_cases hl h k ans
  simp only at h3 h5
  subst h3
  rcases h5 with ⟨i, v, l1, rfl, t, p, H⟩ | ⟨l1, hr, i, rfl, t, p, hsz, P⟩ | ⟨l1, hr, hst, hsim⟩
  · have hr : (room s.hasAlloc ans.isSome st).2 = true := by simpa [l1] using hsafe
    obtain ⟨s2, k1, k2, k3, k4⟩ := H.store hl (x := x) t p hx h4
    refine ⟨s2, ?_, ?_, k3.trans h2⟩
    · simp only [step, insertEntryW, h1, Option.bind_eq_bind, Option.bind_some, hr, if_true, k1, view_of k4,
        show Stat.has Stat.occupied Stat.occupied = true from rfl,
        show Stat.has Stat.occupied Stat.insertError = false from rfl, Bool.not_false]
      simp only [specStep, l1]
    · simp only [specStep, l1]; exact k2
  · obtain ⟨s2, k1, k2, k3, k5⟩ := P.storeW hl (x := x) (e := ⟨⟨some i, Stat.vacant ||| Stat.noUnwrap⟩, filter c k⟩) t p hsz hx h4
      rfl rfl
    refine ⟨s2, ?_, ?_, k3.trans h2⟩
    · simp only [step, insertEntryW, h1, Option.bind_eq_bind, Option.bind_some, has_vac_occ, has_vac_ins, Bool.false_eq_true,
        Bool.not_false, if_true, if_false, k1, view_of (show (s2.mem i).val = x by rw [k5])]
      simp only [specStep, l1, hr]
    · simp only [specStep, l1, hr]; exact k2
  · obtain ⟨e1, e2, _⟩ := has_err hst
    refine ⟨s1, ?_, ?_, h2⟩
    · simp only [step, insertEntryW, h1, Option.bind_eq_bind, Option.bind_some, e2, Bool.not_true, Bool.false_eq_true, if_false]
      simp only [specStep, l1, hr]; rfl
    · simp only [specStep, l1, hr]; exact hsim

theorem removeEntry_good (hl : Lawful c) {s : Fhm α} {st : St α} (h : Sim c s st) (k : κ) (ans : AllocAns α)
    (hsafe : lookup c k st.l = none ∨ (room s.hasAlloc ans.isSome st).2 = true) :
    Good c s (step c s (.removeEntry k ans)) (specStep c s.hasAlloc st (.removeEntry k ans)) := by
  obtain ⟨s1, ⟨en, hs⟩, h1, h2, h3, h4, h5⟩ := entry_cases hl h k ans
  simp only at h3 h5
  subst h3
  rcases h5 with ⟨i, v, l1, rfl, t, p, H⟩ | ⟨l1, hr, i, rfl, t, p, hsz, P⟩ | ⟨l1, hr, hst, hsim⟩
  · have hr : (room s.hasAlloc ans.isSome st).2 = true := by simpa [l1] using hsafe
    obtain ⟨s2, m, k1, k2, k3⟩ := H.erase hl t p h4
    refine ⟨s2, ?_, ?_, k2.trans h2⟩
    · simp only [step, removeEntry, h1, Option.bind_eq_bind, Option.bind_some, hr, if_true, ne_eq, not_true_eq_false, if_false, k1]
      simp only [specStep, l1]
      rfl
    · simp only [specStep, l1]; exact k3
  · refine ⟨s1, ?_, ?_, h2⟩
    · simp only [step, removeEntry, h1, Option.bind_eq_bind, Option.bind_some,
        if_pos (show (Stat.vacant ||| Stat.noUnwrap) ≠ Stat.occupied by decide)]
      simp only [specStep, l1]
      rfl
    · simp only [specStep, l1]; exact Sim.room h4 t p
  · obtain ⟨e1, e2, e3⟩ := has_err hst
    refine ⟨s1, ?_, ?_, h2⟩
    · simp only [step, removeEntry, h1, Option.bind_eq_bind, Option.bind_some, if_pos e3]
      simp only [specStep, l1]
      rfl
    · simp only [specStep, l1]; exact hsim

theorem andModify_good (hl : Lawful c) {s : Fhm α} {st : St α} (h : Sim c s st) (k : κ) (f : α → α) (ans : AllocAns α)
    (hf : ∀ v ∈ st.l, c.eq k (c.key v) = true → c.eq k (c.key (f v)) = true)
    (hsafe : lookup c k st.l = none ∨ (room s.hasAlloc ans.isSome st).2 = true) :
    Good c s (step c s (.andModify k f ans)) (specStep c s.hasAlloc st (.andModify k f ans)) := by
  obtain ⟨s1, ⟨en, hs⟩, h1, h2, h3, h4, h5⟩ := entry_cases hl h k ans
  simp only at h3 h5
  subst h3
  rcases h5 with ⟨i, v, l1, rfl, t, p, H⟩ | ⟨l1, hr, i, rfl, t, p, hsz, P⟩ | ⟨l1, hr, hst, hsim⟩
  · have hr : (room s.hasAlloc ans.isSome st).2 = true := by simpa [l1] using hsafe
    obtain ⟨hv1, hv2⟩ := lookup_mem l1
    obtain ⟨s2, k1, k2, k3, k4⟩ := H.poke (f := f) hl t p (hf v hv1 hv2) h4
    refine ⟨s2, ?_, ?_, k3.trans h2⟩
    · simp only [step, andModify, h1, Option.bind_eq_bind, Option.bind_some, hr, if_true, at_eq H.lt, k1, unwrap,
        show Stat.has Stat.occupied Stat.occupied = true from rfl, view_of k4]
      simp only [specStep, l1]
    · simp only [specStep, l1]; exact k2
  · refine ⟨s1, ?_, ?_, h2⟩
    · simp only [step, andModify, h1, Option.bind_eq_bind, Option.bind_some,
        if_neg (show ¬ (Stat.vacant ||| Stat.noUnwrap) = Stat.occupied by decide), unwrap, has_vac_occ, Bool.false_eq_true,
        if_false]
      simp only [specStep, l1]; rfl
    · simp only [specStep, l1]; exact Sim.room h4 t p
  · obtain ⟨e1, e2, e3⟩ := has_err hst
    refine ⟨s1, ?_, ?_, h2⟩
    · simp only [step, andModify, h1, Option.bind_eq_bind, Option.bind_some, if_neg e3, unwrap, e1, Bool.false_eq_true,
        if_false]
      simp only [specStep, l1]; rfl
    · simp only [specStep, l1]; exact hsim

/-- Questions about an entry. -/
theorem ask_good (hl : Lawful c) {s : Fhm α} {st : St α} (h : Sim c s st) (k : κ) (ans : AllocAns α) :
    ∃ s1 e, entry c s k ans = some (s1, e) ∧ Sim c s1 (room s.hasAlloc ans.isSome st).1 ∧ s1.hasAlloc = s.hasAlloc ∧
      Stat.has e.ent.stats Stat.occupied = (lookup c k st.l).isSome ∧
      Stat.has e.ent.stats Stat.insertError = !(room s.hasAlloc ans.isSome st).2 := by
  obtain ⟨s1, e, h1, h2, h3, h4, h5⟩ := entry_cases hl h k ans
  refine ⟨s1, e, h1, ?_, h2, ?_⟩
  · rcases h5 with ⟨i, v, l1, e1, t, p, H⟩ | ⟨l1, hr, i, e1, t, p, hsz, P⟩ | ⟨l1, hr, hst, hsim⟩
    · exact Sim.room h4 t p
    · exact Sim.room h4 t p
    · exact hsim
  · rcases h5 with ⟨i, v, l1, e1, t, p, H⟩ | ⟨l1, hr, i, e1, t, p, hsz, P⟩ | ⟨l1, hr, hst, hsim⟩
    · rw [e1, l1]
      refine ⟨has_occ, ?_⟩
      cases (room s.hasAlloc ans.isSome st).2
      · show Stat.has (Stat.occupied ||| Stat.insertError) Stat.insertError = true; decide
      · show Stat.has Stat.occupied Stat.insertError = false; decide
    · rw [e1, l1, hr]; exact ⟨has_vac_occ, has_vac_ins⟩
    · obtain ⟨a, b, _⟩ := has_err hst
      rw [a, b, l1, hr]; exact ⟨rfl, rfl⟩

/-- Every call. -/
theorem step_good (hl : Lawful c) {s : Fhm α} {st : St α} (h : Sim c s st) (op : Op α κ) (hok : okOp c st op)
    (hsafe : safeOp c s.hasAlloc st op) : Good c s (step c s op) (specStep c s.hasAlloc st op) := by
  cases op with
  | insert x ans => exact insert_good hl h x ans
  | tryInsert x ans => exact tryInsert_good hl h x ans
  | insertOrAssign x ans => exact insertOrAssign_good hl h x ans
  | remove x => exact remove_good hl h x hsafe
  | orInsert k x f ans => exact orInsert_good hl h k x f ans hok.1 hok.2.1 hok.2.2
  | insertEntry k x ans => exact insertEntry_good hl h k x ans hok
  | removeEntry k ans => exact removeEntry_good hl h k ans hsafe
  | andModify k f ans => exact andModify_good hl h k f ans hok hsafe
  | occupied k ans =>
    obtain ⟨s1, e, h1, h2, h3, h4, _⟩ := ask_good hl h k ans
    exact ⟨s1, by simp only [step, h1, Option.bind_eq_bind, Option.bind_some, occupied, h4, specStep], h2, h3⟩
  | contains k ans =>
    obtain ⟨s1, e, h1, h2, h3, h4, _⟩ := ask_good hl h k ans
    exact ⟨s1, by simp only [step, contains, h1, Option.bind_eq_bind, Option.bind_some, h4, specStep], h2, h3⟩
  | insertError k ans =>
    obtain ⟨s1, e, h1, h2, h3, _, h4⟩ := ask_good hl h k ans
    exact ⟨s1, by simp only [step, h1, Option.bind_eq_bind, Option.bind_some, insertError, h4, specStep], h2, h3⟩
  | orInsertW k x ans => exact orInsertW_good hl h k x ans hok hsafe
  | insertEntryW k x ans => exact insertEntryW_good hl h k x ans hok hsafe
  | tryInsertW k x ans => exact tryInsertW_good hl h k x ans hok hsafe
  | insertOrAssignW k x ans => exact insertOrAssignW_good hl h k x ans hok hsafe
  | get k f => exact get_good hl h k f hok hsafe
  | size => exact ⟨s, by simp only [step, h.size, specStep], h, rfl⟩
  | isEmpty =>
    refine ⟨s, ?_, h, rfl⟩
    simp only [step, isEmpty, h.size, specStep]
    cases st.l <;> rfl
  | capacity => exact ⟨s, by simp only [step, capacity, h.cap, specStep], h, rfl⟩
  | validate =>
    have hv : validate c s = some true := by
      rcases h.body with ⟨t, p⟩ | ⟨hz, hn, hb⟩
      · exact t.validate
      · refine validate_blank hz ?_
        rcases hb with hb | ⟨hb, hw⟩
        · intro i hi; omega
        · have hsafe : st.cap = 0 ∨ st.stale = false := hsafe
          have := h.cap
          have : st.cap ≠ 0 := by omega
          exact hw (by simpa [this] using hsafe)
    exact ⟨s, by simp only [step, hv, Option.bind_eq_bind, Option.bind_some, specStep], h, rfl⟩
  | clear =>
    refine ⟨{ s with sz := 0 }, by simp [step, clear, specStep], ⟨h.cap, .inr ⟨rfl, rfl, ?_⟩⟩, rfl⟩
    rcases h.body with ⟨t, p⟩ | ⟨hz, hn, hb⟩
    · exact .inr ⟨t.cap, fun e => by simp [specStep] at e⟩
    · rcases hb with hb | ⟨hb, _⟩
      · exact .inl hb
      · exact .inr ⟨hb, fun e => by simp [specStep] at e⟩

/-- Every history. -/
theorem run_spec (hl : Lawful c) : ∀ (ops : List (Op α κ)) {s : Fhm α} {st : St α}, Sim c s st →
    safeRun c s.hasAlloc st ops →
    ∃ s', run c s ops = some (s', (specRun c s.hasAlloc st ops).2) ∧ Sim c s' (specRun c s.hasAlloc st ops).1 ∧
      s'.hasAlloc = s.hasAlloc := by
  intro ops
  induction ops with
  | nil => intro s st h _; exact ⟨s, rfl, h, rfl⟩
  | cons o os ih =>
    intro s st h hs
    obtain ⟨s1, h1, h2, h3⟩ := step_good hl h o hs.1 hs.2.1
    have hs2 : safeRun c s1.hasAlloc (specStep c s.hasAlloc st o).1 os := by rw [h3]; exact hs.2.2
    obtain ⟨s2, k1, k2, k3⟩ := ih h2 hs2
    rw [h3] at k1 k2
    refine ⟨s2, ?_, ?_, k3.trans h3⟩
    · simp only [run, h1, Option.bind_eq_bind, Option.bind_some, k1, specRun]
    · simp only [specRun]; exact k2

end CCC.Fhm

namespace CCC.Fhm
open CCC HashMap
variable {α κ : Type} {c : Cfg κ α}

/-! ### Iteration and destruction -/

/-- The occupied slots from `i` on, as the loops see them. -/
def occ (s : Fhm α) (i n : Nat) : List Nat := (List.range' i n).filter (fun j => decide ((s.mem j).hash ≠ 0))

theorem occ_succ (s : Fhm α) (i n : Nat) :
    occ s i (n + 1) = if (s.mem i).hash = 0 then occ s (i + 1) n else i :: occ s (i + 1) n := by
  unfold occ
  rw [List.range'_succ, List.filter_cons]
  by_cases h : (s.mem i).hash = 0 <;> simp [h]

theorem scan_spec (s : Fhm α) : ∀ n i, i + n = s.cap → scan s i = some (occ s i n).head? := by
  intro n
  induction n with
  | zero => intro i hi; rw [scan, if_pos (by omega)]; rfl
  | succ n ih =>
    intro i hi
    have hlt : i < s.cap := by omega
    rw [scan, if_neg (by omega), occ_succ]
    simp only [at_eq hlt, Option.bind_eq_bind, Option.bind_some]
    split
    · exact ih (i + 1) (by omega)
    · rfl

theorem destroyLoop_spec (s : Fhm α) : ∀ n i, i + n = s.cap →
    destroyLoop s i = some ((occ s i n).map (fun j => (j, (s.mem j).val))) := by
  intro n
  induction n with
  | zero => intro i hi; rw [destroyLoop, if_pos (by omega)]; rfl
  | succ n ih =>
    intro i hi
    have hlt : i < s.cap := by omega
    rw [destroyLoop, if_neg (by omega), occ_succ]
    simp only [at_eq hlt, Option.bind_eq_bind, Option.bind_some, ih (i + 1) (by omega)]
    by_cases h : (s.mem i).hash = 0 <;> simp [h]

theorem Tbl.occ_eq {s : Fhm α} (t : Tbl c s) : occ s 0 s.cap = occ s 2 (s.cap - 2) := by
  have := t.cap
  conv => lhs; rw [show s.cap = (s.cap - 2) + 1 + 1 by omega, occ_succ, if_pos t.z0, occ_succ, if_pos t.z1]

theorem Tbl.occ_vals {s : Fhm α} (t : Tbl c s) : (occ s 0 s.cap).map (fun j => (s.mem j).val) = vals s := by
  rw [t.occ_eq]
  unfold occ vals cells
  rw [List.filter_map, List.map_map]
  rfl

theorem occ_nodup (s : Fhm α) (i n : Nat) : (occ s i n).Nodup := List.Pairwise.filter _ List.nodup_range'

theorem occ_next (s : Fhm α) : ∀ n i, i + n = s.cap → ∀ pre a post, occ s i n = pre ++ a :: post →
    next s a = some post.head? := by
  intro n
  induction n with
  | zero => intro i _ pre a post h; simp [occ] at h
  | succ n ih =>
    intro i hi pre a post h
    rw [occ_succ] at h
    split at h
    · exact ih (i + 1) (by omega) pre a post h
    · cases pre with
      | nil =>
        simp only [List.nil_append, List.cons.injEq] at h
        obtain ⟨rfl, rfl⟩ := h
        exact scan_spec s n (i + 1) (by omega)
      | cons b pre =>
        simp only [List.cons_append, List.cons.injEq] at h
        exact ih (i + 1) (by omega) pre a post h.2

/-- Looking up a key does not depend on the size field, as long as that is below the capacity. -/
theorem findLoop_sz (s : Fhm α) (z : Nat) (k : κ) (hash : UInt64) : ∀ i dist r, findLoop c s k hash i dist = some r →
    findLoop c { s with sz := z } k hash i dist = some r := by
  refine findLoop.partial_correctness c s k hash _ ?_
  intro f hf i dist r h
  rw [findLoop]
  simp only [Option.bind_eq_bind, Option.bind_eq_some_iff] at h ⊢
  obtain ⟨x, h1, h2⟩ := h
  refine ⟨x, h1, ?_⟩
  split at h2
  · next hc => rw [if_pos hc]; exact h2
  · next hc =>
    rw [if_neg hc]
    split at h2
    · next hc2 => rw [if_pos hc2]; exact h2
    · next hc2 => rw [if_neg hc2]; exact hf _ _ _ h2

end CCC.Fhm
