import Verif.Model.FlatOrderedMapWord
import Verif.Props.FlatRealtimeMapWord
import Verif.Props.FlatOrderedMap
/-
C80, flat ordered map: with `size_t` arithmetic the calls do what the model with whole numbers says.
-/
namespace CCC.Fom
open CCC MapSpec Splay CCC.Word FlatMap
open CCC.Frm (Frm Junk inUse setSize growTo bufAllocBack bufAllocBack64 setVal copyLinks copySlot sizeSet destroyLoop asRom view
  recursiveSize64 sampleJunk bufAllocBack_64 recursiveSize_64 setVal_sz)
attribute [local irreducible] Word.add Word.sub Word.mul
variable {α κ : Type} {cmp : κ → κ → Cmp} {key : α → κ}

theorem specStepS_length {J : Type} (al : Bool) (s : St α) (o : Op α κ J) :
    (specStepS cmp key al s o).1.l.length ≤ s.l.length + 1 := by
  have h := specStep_length (cmp := cmp) (key := key) al s o
  cases o <;> simp only [specStepS] <;> try exact h
  · split
    · exact Nat.le_succ_of_le (drop_length_w _ _ _)
    · exact Nat.le_succ _

theorem allocBack_64 (s : Fom α) (ans : Option (Junk α)) (h : s.sz ≤ 2 ^ 62) :
    allocBack64 s ans = allocBack s ans ∧ ∀ s' a, allocBack s ans = (s', some a) → 1 ≤ s'.sz ∧ s'.sz ≤ 2 ^ 62 + 2 := by
  unfold allocBack64 allocBack
  obtain ⟨h1, h2, h3⟩ := bufAllocBack_64 s ans h
  split
  · rename_i hz
    rw [h1]
    generalize hb : bufAllocBack s ans = b at *
    obtain ⟨s1, p⟩ := b
    cases p with
    | none => exact ⟨rfl, fun s' a hh => by cases hh⟩
    | some a =>
      dsimp only at h2 h3 ⊢
      have hs1 := h3 a rfl
      obtain ⟨g1, g2, g3⟩ := bufAllocBack_64 s1 ans (by omega)
      refine ⟨g1, fun s' b hh => ?_⟩
      rw [hh] at g2 g3
      have := g3 b rfl
      dsimp only at *
      omega
  · rw [h1]
    refine ⟨rfl, fun s' a hh => ?_⟩
    rw [hh] at h2 h3
    have := h3 a rfl
    dsimp only at *
    omega

theorem splayTo_sz {s s' : Fom α} {k : κ} {q : Cmp} (h : splayTo cmp key s k = some (s', q)) : s'.sz = s.sz := by
  unfold splayTo at h
  simp only [bind, Option.bind_eq_some_iff] at h
  obtain ⟨⟨t, r⟩, _, c, _, h⟩ := h
  cases h; rfl

theorem find_sz {s s' : Fom α} {k : κ} {p : Slot} (h : find cmp key s k = some (s', p)) : s'.sz = s.sz := by
  unfold find at h
  split at h
  · cases h; rfl
  · simp only [bind, Option.bind_eq_some_iff] at h
    obtain ⟨⟨t, r⟩, h1, h⟩ := h
    cases h; exact splayTo_sz h1

theorem entry_sz {s s' : Fom α} {k : κ} {e : FEnt} (h : entry cmp key s k = some (s', e)) : s'.sz = s.sz := by
  unfold entry at h
  simp only [bind, Option.bind_eq_some_iff] at h
  obtain ⟨⟨t, p⟩, h1, h⟩ := h
  have := find_sz h1
  cases p <;> (cases h; exact this)

theorem maybeAllocInsert_64 (s : Fom α) (x : α) (ans : Option (Junk α)) (h : s.sz ≤ 2 ^ 62) :
    maybeAllocInsert64 cmp key s x ans = maybeAllocInsert cmp key s x ans := by
  obtain ⟨h1, h2⟩ := allocBack_64 s ans h
  unfold maybeAllocInsert64 maybeAllocInsert
  rw [h1]
  generalize ha : allocBack s ans = r at *
  obtain ⟨s', q⟩ := r
  cases q with
  | none => simp only [bind, Option.bind_none]
  | some a =>
    have := h2 _ _ rfl
    simp only
    rw [Word.sub_eq (by omega) (by omega)]

theorem swapAndPop_64 (s : Fom α) (v : Nat) (h : s.sz ≤ 2 ^ 62) (h1 : 1 ≤ s.sz) : swapAndPop64 s v = swapAndPop s v := by
  unfold swapAndPop64 swapAndPop
  rw [Word.sub_eq (by omega) (by omega)]

theorem size_64 (s : Fom α) (h : s.sz ≤ 2 ^ 62) : size64 s = size s := by
  unfold size64 size
  split
  · rfl
  · exact Word.sub_eq (by omega) (by omega)

theorem isEmpty_64 (s : Fom α) (h : s.sz ≤ 2 ^ 62) : isEmpty64 s = isEmpty s := by
  unfold isEmpty64 isEmpty
  rw [size_64 s h]

theorem erase_64 (s : Fom α) (k : κ) (h : s.sz ≤ 2 ^ 62) : erase64 cmp key s k = erase cmp key s k := by
  unfold erase64 erase
  rw [isEmpty_64 s h]
  split
  · rfl
  · rename_i he
    have hp : 1 ≤ s.sz := by
      apply Classical.byContradiction
      intro hq
      apply he
      have h0 : s.sz = 0 := by omega
      simp [isEmpty, size, h0]
    cases splay s.t (cmpAt cmp key s k) s.t.root with
    | none => simp only [bind, Option.bind_none]
    | some r =>
      obtain ⟨t, ret⟩ := r
      simp only [bind, Option.bind_some]
      cases cmpAt cmp key { s with t := t } k ret with
      | none => simp only [bind, Option.bind_none]
      | some q =>
        simp only [Option.bind_some]
        split
        · rfl
        · cases removeFromTree t (cmpAt cmp key { s with t := t } (key (s.val ret))) ret with
          | none => simp only [bind, Option.bind_none]
          | some t2 =>
            simp only [Option.bind_some]
            rw [swapAndPop_64 _ ret (by exact h) (by exact hp)]

theorem insert_64 (s : Fom α) (x : α) (ans : Option (Junk α)) (h : s.sz ≤ 2 ^ 62) :
    insert64 cmp key s x ans = insert cmp key s x ans := by
  unfold insert64 insert
  cases hq : find cmp key s (key x) with
  | none => simp only [bind, Option.bind_none]
  | some r =>
    obtain ⟨s', p⟩ := r
    simp only [bind, Option.bind_some]
    rw [maybeAllocInsert_64 s' x ans (by rw [find_sz hq]; exact h)]
    rfl

theorem tryInsert_64 (s : Fom α) (x : α) (ans : Option (Junk α)) (h : s.sz ≤ 2 ^ 62) :
    tryInsert64 cmp key s x ans = tryInsert cmp key s x ans := by
  unfold tryInsert64 tryInsert
  cases hq : find cmp key s (key x) with
  | none => simp only [bind, Option.bind_none]
  | some r =>
    obtain ⟨s', p⟩ := r
    simp only [bind, Option.bind_some]
    rw [maybeAllocInsert_64 s' x ans (by rw [find_sz hq]; exact h)]
    rfl

theorem insertOrAssign_64 (s : Fom α) (x : α) (ans : Option (Junk α)) (h : s.sz ≤ 2 ^ 62) :
    insertOrAssign64 cmp key s x ans = insertOrAssign cmp key s x ans := by
  unfold insertOrAssign64 insertOrAssign
  cases hq : find cmp key s (key x) with
  | none => simp only [bind, Option.bind_none]
  | some r =>
    obtain ⟨s', p⟩ := r
    simp only [bind, Option.bind_some]
    rw [maybeAllocInsert_64 s' x ans (by rw [find_sz hq]; exact h)]
    rfl

theorem remove_64 (s : Fom α) (x : α) (h : s.sz ≤ 2 ^ 62) : remove64 cmp key s x = remove cmp key s x := by
  unfold remove64 remove
  rw [erase_64 s _ h]
  rfl

theorem removeEntry_64 (s : Fom α) (e : FEnt) (h : s.sz ≤ 2 ^ 62) : removeEntry64 cmp key s e = removeEntry cmp key s e := by
  unfold removeEntry64 removeEntry
  rw [erase_64 s _ h]

theorem insertEntry_64 (s : Fom α) (e : FEnt) (x : α) (ans : Option (Junk α)) (h : s.sz ≤ 2 ^ 62) :
    insertEntry64 cmp key s e x ans = insertEntry cmp key s e x ans := by
  unfold insertEntry64 insertEntry
  rw [maybeAllocInsert_64 s x ans h]

theorem orInsert_64 (s : Fom α) (e : FEnt) (x : α) (ans : Option (Junk α)) (h : s.sz ≤ 2 ^ 62) :
    orInsert64 cmp key s e x ans = orInsert cmp key s e x ans := by
  unfold orInsert64 orInsert
  rw [maybeAllocInsert_64 s x ans h]

theorem orInsertW_64 (s : Fom α) (e : FEnt) (x : α) (ans : Option (Junk α)) (h : s.sz ≤ 2 ^ 62) :
    orInsertW64 cmp key s e x ans = orInsertW cmp key s e x ans := by
  obtain ⟨h1, h2⟩ := allocBack_64 s ans h
  unfold orInsertW64 orInsertW
  rw [h1]
  split
  · rfl
  generalize ha : allocBack s ans = r at *
  obtain ⟨s', q⟩ := r
  cases q with
  | none => simp only [bind, Option.bind_none]
  | some a =>
    have := h2 _ _ rfl
    simp only [bind]
    cases hv : setVal s' a x with
    | none => simp only [bind, Option.bind_none]
    | some s2 =>
      have := setVal_sz hv
      simp only [Option.bind_some]
      rw [Word.sub_eq (by omega) (by omega)]

theorem insertEntryW_64 (s : Fom α) (e : FEnt) (x : α) (ans : Option (Junk α)) (h : s.sz ≤ 2 ^ 62) :
    insertEntryW64 cmp key s e x ans = insertEntryW cmp key s e x ans := by
  obtain ⟨h1, h2⟩ := allocBack_64 s ans h
  unfold insertEntryW64 insertEntryW
  rw [h1]
  split
  rotate_left
  · rfl
  generalize ha : allocBack s ans = r at *
  obtain ⟨s', q⟩ := r
  cases q with
  | none => simp only [bind, Option.bind_none]
  | some a =>
    have := h2 _ _ rfl
    simp only [bind]
    cases hv : setVal s' a x with
    | none => simp only [bind, Option.bind_none]
    | some s2 =>
      have := setVal_sz hv
      simp only [Option.bind_some]
      rw [Word.sub_eq (by omega) (by omega)]

theorem insertVacantW_64 (s : Fom α) (x : α) (ans : Option (Junk α)) (h : s.sz ≤ 2 ^ 62) :
    insertVacantW64 cmp key s x ans = insertVacantW cmp key s x ans := by
  unfold insertVacantW64 insertVacantW
  rw [(allocBack_64 s ans h).1]
  rfl

theorem tryInsertW_64 (s : Fom α) (k : κ) (x : α) (ans : Option (Junk α)) (h : s.sz ≤ 2 ^ 62) :
    tryInsertW64 cmp key s k x ans = tryInsertW cmp key s k x ans := by
  unfold tryInsertW64 tryInsertW
  cases hq : entry cmp key s k with
  | none => simp only [bind, Option.bind_none]
  | some r =>
    obtain ⟨s', p⟩ := r
    simp only [bind, Option.bind_some]
    rw [insertVacantW_64 s' x ans (by rw [entry_sz hq]; exact h)]

theorem insertOrAssignW_64 (s : Fom α) (k : κ) (x : α) (ans : Option (Junk α)) (h : s.sz ≤ 2 ^ 62) :
    insertOrAssignW64 cmp key s k x ans = insertOrAssignW cmp key s k x ans := by
  unfold insertOrAssignW64 insertOrAssignW
  cases hq : entry cmp key s k with
  | none => simp only [bind, Option.bind_none]
  | some r =>
    obtain ⟨s', p⟩ := r
    simp only [bind, Option.bind_some]
    rw [insertVacantW_64 s' x ans (by rw [entry_sz hq]; exact h)]

theorem equalRange_64 (s : Fom α) (b e : κ) (trav : Bool) (h : s.sz ≤ 2 ^ 62) :
    equalRange64 cmp key s b e trav = equalRange cmp key s b e trav := by
  unfold equalRange64 equalRange
  rw [isEmpty_64 s h]

/-- A map the checker accepts with whole numbers is accepted by the checker with 64-bit numbers. -/
theorem validate_64 (s : Fom α) (hsz : s.sz ≤ 2 ^ 62) (h0 : s.sz = 0 → s.t.root = 0) (h : validate cmp key s = some true) :
    validate64 cmp key s = some true := by
  unfold validate at h
  unfold validate64
  simp only [bind, Option.bind_eq_some_iff] at h ⊢
  obtain ⟨a, ha, h⟩ := h
  refine ⟨a, ha, ?_⟩
  split at h
  · cases h
  rename_i h2
  rw [if_neg h2]
  simp only [Option.bind_eq_some_iff] at h ⊢
  obtain ⟨n, hn, h⟩ := h
  split at h
  · cases h
  rename_i h3
  have hr := recursiveSize_64 _ _ _ hn
  have hn64 : n % 2 ^ 64 = n := Nat.mod_eq_of_lt (by omega)
  rw [hn64] at hr
  refine ⟨n, hr, ?_⟩
  rw [if_neg ?_]
  · exact h
  · rintro ⟨g1, g2⟩
    apply h3
    refine ⟨g1, ?_⟩
    by_cases hz : s.sz = 0
    · exfalso
      have := h0 hz
      rw [this, Rom.recursiveSize.eq_def, if_pos rfl] at hn
      cases hn; exact g1 rfl
    · rw [Word.sub_eq (by omega) (by omega)] at g2; exact g2

theorem step_64 (s : Fom α) (h : s.sz ≤ 2 ^ 62) (o : Op α κ (Junk α)) (ho : o ≠ .validate) :
    step64 cmp key s o = step cmp key s o := by
  cases o
  case validate => exact absurd rfl ho
  case orInsert k x ans =>
    simp only [step64, step]
    cases he : entry cmp key s k with
    | none => simp only [bind, Option.bind_none]
    | some e => simp only [bind, Option.bind_some]; rw [orInsert_64 e.1 _ _ _ (by rw [entry_sz he]; exact h)]
  case insertEntry k x ans =>
    simp only [step64, step]
    cases he : entry cmp key s k with
    | none => simp only [bind, Option.bind_none]
    | some e => simp only [bind, Option.bind_some]; rw [insertEntry_64 e.1 _ _ _ (by rw [entry_sz he]; exact h)]
  case removeEntry k =>
    simp only [step64, step]
    cases he : entry cmp key s k with
    | none => simp only [bind, Option.bind_none]
    | some e => simp only [bind, Option.bind_some]; rw [removeEntry_64 e.1 _ (by rw [entry_sz he]; exact h)]
  case orInsertW k x ans =>
    simp only [step64, step]
    cases he : entry cmp key s k with
    | none => simp only [bind, Option.bind_none]
    | some e => simp only [bind, Option.bind_some]; rw [orInsertW_64 e.1 _ _ _ (by rw [entry_sz he]; exact h)]
  case insertEntryW k x ans =>
    simp only [step64, step]
    cases he : entry cmp key s k with
    | none => simp only [bind, Option.bind_none]
    | some e => simp only [bind, Option.bind_some]; rw [insertEntryW_64 e.1 _ _ _ (by rw [entry_sz he]; exact h)]
  all_goals
    simp only [step64, step, insert_64 s _ _ h, tryInsert_64 s _ _ h, insertOrAssign_64 s _ _ h, remove_64 s _ h,
      tryInsertW_64 s _ _ _ h, insertOrAssignW_64 s _ _ _ h, size_64 s h, isEmpty_64 s h, equalRange_64 s _ _ _ h]

theorem Sim.fits {s : Fom α} {st : St α} (h : Sim cmp key s st) (hl : st.l.length < 2 ^ 62) :
    s.sz ≤ 2 ^ 62 ∧ (s.sz = 0 → s.t.root = 0) := by
  obtain ⟨T, _, ⟨_, o⟩ | ⟨_, _, _, o⟩⟩ := h
  · exact ⟨by rw [o.sz]; omega, fun h0 => by have := o.sz; omega⟩
  · exact ⟨by rw [o.sz]; omega, fun _ => o.root⟩

/-- C80, flat ordered map: any history of fewer than 2^62 calls, run with `size_t` arithmetic, gives all answers,
statuses and pointers of the sorted list.  Missing: what is missing in `C28_fom_history_partial`. -/
theorem C80_fom_map_partial (hc : LawfulCmp cmp) (mem : Junk α) (n : Nat) (al : Bool) (ops : List (Op α κ (Junk α)))
    (hok : safeRun cmp key al ⟨[], n, false⟩ ops) (hlen : ops.length < 2 ^ 62) :
    run64 cmp key (init mem n al) ops = run cmp key (init mem n al) ops ∧
    ∃ s, run64 cmp key (init mem n al) ops = some (s, (specRunS cmp key al ⟨[], n, false⟩ ops).2) := by
  have main : ∀ (ops : List (Op α κ (Junk α))) (s : Fom α) (st : St α), Sim cmp key s st → safeRun cmp key s.hasAlloc st ops →
      st.l.length + ops.length < 2 ^ 62 → run64 cmp key s ops = run cmp key s ops := by
    intro ops
    induction ops with
    | nil => intro s st _ _ _; rfl
    | cons o os ih =>
      intro s st h hok hl
      rw [List.length_cons] at hl
      have hf := h.fits (by omega)
      obtain ⟨T, hT⟩ := h
      obtain ⟨s1, r1, m1, a1, _⟩ := step_spec hc hT o hok.1 hok.2.1
      have e1 : step64 cmp key s o = step cmp key s o := by
        by_cases hv : o = .validate
        · subst hv
          simp only [step, specStepS, specStep, bind, Option.bind_eq_some_iff] at r1
          obtain ⟨b, hb, r1⟩ := r1
          simp only [Option.some.injEq, Prod.mk.injEq, Out.flag.injEq] at r1
          rw [r1.2] at hb
          simp only [step64, step, hb, validate_64 s hf.1 hf.2 hb]
        · exact step_64 s hf.1 o hv
      have hl2 := specStepS_length (cmp := cmp) (key := key) s.hasAlloc st o
      simp only [run64, run, e1, r1, bind, Option.bind_some]
      rw [ih s1 _ m1 (by rw [a1]; exact hok.2.2) (by omega)]
  have e := main ops (init mem n al) ⟨[], n, false⟩ ⟨_, init_ok (cmp := cmp) (key := key) mem n al⟩ hok (by simpa using hlen)
  refine ⟨e, ?_⟩
  obtain ⟨s, h⟩ := C28_fom_history_partial hc mem n al ops hok
  exact ⟨s, e.trans h⟩

example : ∃ s, run64 natCmp Prod.fst (init sampleJunk 0 true) sampleOps =
    some (s, (specRunS natCmp Prod.fst true ⟨[], 0, false⟩ sampleOps).2) :=
  (C80_fom_map_partial natCmp_lawful _ _ _ _ sampleOps_ok (by simp [sampleOps])).2

end CCC.Fom
