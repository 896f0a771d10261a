import Verif.Model.FlatRealtimeMapWord
import Verif.Props.FlatDequeWord
import Verif.Props.FlatRealtimeMap
/-
C80, flat realtime ordered map: with `size_t` arithmetic the calls do what the model with whole numbers says.
-/
namespace CCC.FlatMap
open CCC MapSpec
variable {α κ J : Type} {cmp : κ → κ → Cmp} {key : α → κ}

theorem filter_both_le {β : Type} (p q : β → Bool) (h : ∀ x, p x = true → q x = false) (l : List β) :
    (l.filter p).length + (l.filter q).length ≤ l.length := by
  induction l with
  | nil => simp
  | cons a l ih =>
    simp only [List.filter_cons]
    cases hp : p a <;> cases hq : q a <;> simp <;> try omega
    rw [h a hp] at hq; cases hq

theorem place_length_w (e : Nat × α) (l : List (Nat × α)) : (place cmp (ekey key) e l).length ≤ l.length + 1 := by
  unfold place
  rw [List.length_append, List.length_cons]
  have := filter_both_le (fun x => cmp (ekey key e) (ekey key x) == .grt) (fun x => cmp (ekey key e) (ekey key x) == .les)
    (fun x h => by simp at h ⊢; rw [h]; decide) l
  omega

theorem add_length_w (al ok : Bool) (s : St α) (x : α) : (add cmp key al ok s x).1.l.length ≤ s.l.length + 1 := by
  have hr : (room al ok s).1.l = s.l := by
    unfold room
    repeat' split
    all_goals rfl
  unfold add
  split
  · rename_i s' h
    rw [h] at hr
    dsimp only at hr ⊢
    rw [hr]; omega
  · exact place_length_w _ _

theorem drop_length_w (k : κ) (r : Nat) (l : List (Nat × α)) : (drop cmp key k r l).length ≤ l.length := by
  unfold drop erase
  rw [List.length_map]
  exact List.length_filter_le _ _

/-- One call stores at most one more element. -/
theorem specStep_length (al : Bool) (s : St α) (o : Op α κ J) : (specStep cmp key al s o).1.l.length ≤ s.l.length + 1 := by
  have ha := fun ok x => add_length_w (cmp := cmp) (key := key) al ok s x
  have hd := fun k r => drop_length_w (cmp := cmp) (key := key) k r s.l
  have hw : ∀ a x, (write a x s.l).length = s.l.length := fun a x => by simp [write]
  cases o <;> simp only [specStep] <;> (repeat' split) <;> (try simp only [hw]) <;>
    first
    | omega
    | (rename_i h; have h1 := congrArg (fun r => r.1.l.length) h; exact h1 ▸ ha _ _)
    | (exact ha _ _)
    | (exact Nat.le_succ_of_le (hd _ _))
    | simp

end CCC.FlatMap

namespace CCC.Frm
open CCC Wavl CCC.Word FlatMap
attribute [local irreducible] Word.add Word.sub Word.mul
variable {α κ : Type} {cmp : κ → κ → Cmp} {key : α → κ}

/-- At most 2^62 slots in use; nothing in the tree of a map without a slot in use. -/
def Fits62 (s : Frm α) : Prop := s.sz ≤ 2 ^ 62 ∧ (s.sz = 0 → s.t.root = 0)

theorem bufAllocBack_64 (s : Frm α) (ans : Option (Junk α)) (h : s.sz ≤ 2 ^ 62) :
    bufAllocBack64 s ans = bufAllocBack s ans ∧ (bufAllocBack s ans).1.sz ≤ s.sz + 1 ∧
      ∀ a, (bufAllocBack s ans).2 = some a → (bufAllocBack s ans).1.sz = s.sz + 1 := by
  unfold bufAllocBack64 bufAllocBack
  split
  · rename_i hc
    have h1 : s.cap *ʷ 2 = s.cap * 2 := Word.mul_eq (by omega)
    have h2 : ∀ j c, (growTo s c j).sz +ʷ 1 = (growTo s c j).sz + 1 := fun j c => Word.add_eq (by show s.sz + 1 < _; omega)
    rw [h1]
    cases (if s.hasAlloc = true then ans else none) with
    | none => exact ⟨rfl, Nat.le_succ _, fun a ha => by cases ha⟩
    | some j =>
      simp only [h2]
      exact ⟨trivial, Nat.le_refl _, fun _ _ => rfl⟩
  · rw [Word.add_eq (by omega)]
    exact ⟨rfl, Nat.le_refl _, fun _ _ => rfl⟩

theorem allocBack_64 (s : Frm α) (ans : Option (Junk α)) (h : s.sz ≤ 2 ^ 62) :
    allocBack64 s ans = allocBack s ans ∧ ∀ s' a, allocBack s ans = some (s', some a) → 1 ≤ s'.sz ∧ s'.sz ≤ 2 ^ 62 + 2 := by
  unfold allocBack64 allocBack
  obtain ⟨h1, h2, h3⟩ := bufAllocBack_64 s ans h
  split
  · rename_i hz
    rw [h1]
    generalize hb : bufAllocBack s ans = b at *
    obtain ⟨s1, p⟩ := b
    cases p with
    | none => exact ⟨rfl, fun s' a hh => by cases hh⟩
    | some a =>
      dsimp only at h2 h3 ⊢
      have hs1 := h3 a rfl
      constructor
      · cases hp : s1.t.setParity a true with
        | none => rfl
        | some t =>
          simp only [bind, Option.bind_some]
          rw [(bufAllocBack_64 { s1 with t := t } ans (by show s1.sz ≤ _; omega)).1]
      · intro s' b hh
        simp only [bind, Option.bind_eq_some_iff] at hh
        obtain ⟨t, _, hh⟩ := hh
        obtain ⟨_, g2, g3⟩ := bufAllocBack_64 { s1 with t := t } ans (by show s1.sz ≤ _; omega)
        have hh := Option.some.inj hh
        rw [hh] at g2 g3
        have := g3 b rfl
        dsimp only at *
        omega
  · rw [h1]
    refine ⟨rfl, fun s' a hh => ?_⟩
    have hh := Option.some.inj hh
    rw [hh] at h2 h3
    have := h3 a rfl
    dsimp only at *
    omega

theorem maybeAllocInsert_64 (s : Frm α) (p : Nat) (l : Cmp) (x : α) (ans : Option (Junk α)) (h : s.sz ≤ 2 ^ 62) :
    maybeAllocInsert64 s p l x ans = maybeAllocInsert s p l x ans := by
  obtain ⟨h1, h2⟩ := allocBack_64 s ans h
  unfold maybeAllocInsert64 maybeAllocInsert
  rw [h1]
  cases ha : allocBack s ans with
  | none => simp only [bind, Option.bind_none]
  | some r =>
    obtain ⟨s', q⟩ := r
    cases q with
    | none => simp only [bind, Option.bind_some]
    | some a =>
      have := h2 _ _ ha
      simp only [bind, Option.bind_some]
      rw [Word.sub_eq (by omega) (by omega)]

theorem swapAndPop_64 (s : Frm α) (v : Nat) (h : s.sz ≤ 2 ^ 62) (h1 : 1 ≤ s.sz) : swapAndPop64 s v = swapAndPop s v := by
  unfold swapAndPop64 swapAndPop
  rw [Word.sub_eq (by omega) (by omega)]

theorem removeFixup_64 (s : Frm α) (v : Nat) (h : s.sz ≤ 2 ^ 62) (h1 : 1 ≤ s.sz) : removeFixup64 s v = removeFixup s v := by
  unfold removeFixup64 removeFixup
  cases removeLinks s.t v with
  | none => simp only [bind, Option.bind_none]
  | some t => simp only [bind, Option.bind_some]; rw [swapAndPop_64 { s with t := t } v h h1]

theorem find_root0 {s : Frm α} {k : κ} {q : Query} (h : find cmp key s k = some q) (he : q.1 = .eql) : s.t.root ≠ 0 := by
  intro hr
  unfold find Wavl.find at h
  rw [findLoop.eq_def, if_pos hr] at h
  cases h; cases he

theorem find_pos {s : Frm α} (hf : Fits62 s) {k : κ} {q : Query} (h : find cmp key s k = some q) (he : q.1 = .eql) :
    1 ≤ s.sz := by
  have := find_root0 h he
  have := hf.2
  omega

theorem insert_64 (s : Frm α) (hf : Fits62 s) (x : α) (ans : Option (Junk α)) :
    insert64 cmp key s x ans = insert cmp key s x ans := by
  unfold insert64 insert
  simp only [maybeAllocInsert_64 s _ _ _ _ hf.1]
  rfl

theorem tryInsert_64 (s : Frm α) (hf : Fits62 s) (x : α) (ans : Option (Junk α)) :
    tryInsert64 cmp key s x ans = tryInsert cmp key s x ans := by
  unfold tryInsert64 tryInsert
  simp only [maybeAllocInsert_64 s _ _ _ _ hf.1]
  rfl

theorem insertOrAssign_64 (s : Frm α) (hf : Fits62 s) (x : α) (ans : Option (Junk α)) :
    insertOrAssign64 cmp key s x ans = insertOrAssign cmp key s x ans := by
  unfold insertOrAssign64 insertOrAssign
  simp only [maybeAllocInsert_64 s _ _ _ _ hf.1]
  rfl

theorem orInsert_64 (s : Frm α) (hf : Fits62 s) (e : FEnt) (x : α) (ans : Option (Junk α)) :
    orInsert64 s e x ans = orInsert s e x ans := by
  unfold orInsert64 orInsert
  rw [maybeAllocInsert_64 s _ _ _ _ hf.1]

theorem insertEntry_64 (s : Frm α) (hf : Fits62 s) (e : FEnt) (x : α) (ans : Option (Junk α)) :
    insertEntry64 s e x ans = insertEntry s e x ans := by
  unfold insertEntry64 insertEntry
  rw [maybeAllocInsert_64 s _ _ _ _ hf.1]

theorem orInsertW_64 (s : Frm α) (hf : Fits62 s) (e : FEnt) (x : α) (ans : Option (Junk α)) :
    orInsertW64 s e x ans = orInsertW s e x ans := by
  obtain ⟨h1, h2⟩ := allocBack_64 s ans hf.1
  unfold orInsertW64 orInsertW
  rw [h1]
  split
  · rfl
  cases ha : allocBack s ans with
  | none => simp only [bind, Option.bind_none]
  | some r =>
    obtain ⟨s', q⟩ := r
    cases q with
    | none => simp only [bind, Option.bind_some]
    | some a =>
      have := h2 _ _ ha
      simp only [bind, Option.bind_some]
      cases hv : setVal s' a x with
      | none => simp only [Option.bind_none]
      | some s2 =>
        have := setVal_sz hv
        simp only [Option.bind_some]
        rw [Word.sub_eq (by omega) (by omega)]

theorem insertEntryW_64 (s : Frm α) (hf : Fits62 s) (e : FEnt) (x : α) (ans : Option (Junk α)) :
    insertEntryW64 s e x ans = insertEntryW s e x ans := by
  obtain ⟨h1, h2⟩ := allocBack_64 s ans hf.1
  unfold insertEntryW64 insertEntryW
  rw [h1]
  split
  rotate_left
  · rfl
  cases ha : allocBack s ans with
  | none => simp only [bind, Option.bind_none]
  | some r =>
    obtain ⟨s', q⟩ := r
    cases q with
    | none => simp only [bind, Option.bind_some]
    | some a =>
      have := h2 _ _ ha
      simp only [bind, Option.bind_some]
      cases hv : setVal s' a x with
      | none => simp only [Option.bind_none]
      | some s2 =>
        have := setVal_sz hv
        simp only [Option.bind_some]
        rw [Word.sub_eq (by omega) (by omega)]

theorem insertVacantW_64 (s : Frm α) (hf : Fits62 s) (e : FEnt) (x : α) (ans : Option (Junk α)) :
    insertVacantW64 s e x ans = insertVacantW s e x ans := by
  unfold insertVacantW64 insertVacantW
  rw [(allocBack_64 s ans hf.1).1]
  rfl

theorem tryInsertW_64 (s : Frm α) (hf : Fits62 s) (k : κ) (x : α) (ans : Option (Junk α)) :
    tryInsertW64 cmp key s k x ans = tryInsertW cmp key s k x ans := by
  unfold tryInsertW64 tryInsertW
  simp only [insertVacantW_64 s hf]

theorem insertOrAssignW_64 (s : Frm α) (hf : Fits62 s) (k : κ) (x : α) (ans : Option (Junk α)) :
    insertOrAssignW64 cmp key s k x ans = insertOrAssignW cmp key s k x ans := by
  unfold insertOrAssignW64 insertOrAssignW
  simp only [insertVacantW_64 s hf]

theorem remove_64 (s : Frm α) (hf : Fits62 s) (x : α) : remove64 cmp key s x = remove cmp key s x := by
  unfold remove64 remove
  cases hq : find cmp key s (key x) with
  | none => simp only [bind, Option.bind_none]
  | some q =>
    simp only [bind, Option.bind_some]
    split
    · rfl
    · rename_i he
      rw [removeFixup_64 s _ hf.1 (find_pos hf hq (Classical.not_not.1 he))]

theorem removeEntry_64 (s : Frm α) (hf : Fits62 s) (k : κ) {e : FEnt} (he : entry cmp key s k = some e) :
    removeEntry64 s e = removeEntry s e := by
  unfold removeEntry64 removeEntry
  split
  · rename_i ho
    unfold entry at he
    simp only [bind, Option.bind_eq_some_iff] at he
    obtain ⟨q, hq, he⟩ := he
    split at he
    · rename_i h1
      rw [removeFixup_64 s _ hf.1 (find_pos hf hq h1)]
    · cases he; exact absurd (show (Stat.noUnwrap ||| Stat.vacant) = Stat.occupied from ho) (by decide)
  · rfl

theorem size_64 (s : Frm α) (hf : Fits62 s) : size64 s = size s := by
  unfold size64 size
  split
  · rfl
  · exact Word.sub_eq (by omega) (by have := hf.1; omega)

theorem isEmpty_64 (s : Frm α) (hf : Fits62 s) : isEmpty64 s = isEmpty s := by
  unfold isEmpty64 isEmpty
  rw [size_64 s hf]

theorem recursiveSize_64 (t : Links) (r n : Nat) (h : Rom.recursiveSize t r = some n) :
    recursiveSize64 t r = some (n % 2 ^ 64) := by
  revert h
  refine Rom.recursiveSize.partial_correctness t (fun r n => recursiveSize64 t r = some (n % 2 ^ 64)) ?_ r n
  intro f ih r n h
  rw [recursiveSize64.eq_def]
  split at h
  · rename_i h0
    rw [if_pos h0]; cases h; rfl
  · rename_i h0
    rw [if_neg h0]
    simp only [bind, Option.bind_eq_some_iff] at h
    obtain ⟨a, h1, x, h2, b, h3, y, h4, h⟩ := h
    cases h
    simp only [bind, h1, Option.bind_some, ih _ _ h2, h3, ih _ _ h4, Option.some.injEq]
    unfold Word.add
    omega

/-- A map the checker accepts with whole numbers is accepted by the checker with 64-bit numbers. -/
theorem validate_64 (s : Frm α) (hf : Fits62 s) (h : validate cmp key s = some true) : validate64 cmp key s = some true := by
  unfold validate at h
  unfold validate64
  simp only [bind, Option.bind_eq_some_iff] at h ⊢
  obtain ⟨p, hp, h⟩ := h
  refine ⟨p, hp, ?_⟩
  split at h
  · cases h
  rename_i h1
  rw [if_neg h1]
  simp only [Option.bind_eq_some_iff] at h ⊢
  obtain ⟨a, ha, h⟩ := h
  refine ⟨a, ha, ?_⟩
  split at h
  · cases h
  rename_i h2
  rw [if_neg h2]
  simp only [Option.bind_eq_some_iff] at h ⊢
  obtain ⟨n, hn, h⟩ := h
  split at h
  · cases h
  rename_i h3
  have hsz := hf.1
  have hr := recursiveSize_64 _ _ _ hn
  have hn64 : n % 2 ^ 64 = n := Nat.mod_eq_of_lt (by omega)
  rw [hn64] at hr
  refine ⟨n, hr, ?_⟩
  rw [if_neg ?_]
  · exact h
  · rintro ⟨g1, g2⟩
    apply h3
    refine ⟨g1, ?_⟩
    by_cases hz : s.sz = 0
    · exfalso
      have := hf.2 hz
      rw [this, Rom.recursiveSize.eq_def, if_pos rfl] at hn
      cases hn; exact g1 rfl
    · rw [Word.sub_eq (by omega) (by omega)] at g2; exact g2

theorem step_64 (s : Frm α) (hf : Fits62 s) (o : Op α κ (Junk α)) (ho : o ≠ .validate) :
    step64 cmp key s o = step cmp key s o := by
  cases o
  case validate => exact absurd rfl ho
  case removeEntry k =>
    simp only [step64, step]
    cases he : entry cmp key s k with
    | none => simp only [bind, Option.bind_none]
    | some e => simp only [bind, Option.bind_some]; rw [removeEntry_64 s hf k he]
  all_goals
    simp only [step64, step, insert_64 s hf, tryInsert_64 s hf, insertOrAssign_64 s hf, remove_64 s hf, orInsert_64 s hf,
      insertEntry_64 s hf, orInsertW_64 s hf, insertEntryW_64 s hf, tryInsertW_64 s hf, insertOrAssignW_64 s hf,
      size_64 s hf, isEmpty_64 s hf, equalRange64, equalRange]

theorem Sim.fits {s : Frm α} {st : St α} (h : Sim cmp key s st) (hl : st.l.length < 2 ^ 62) : Fits62 s := by
  obtain ⟨T, _, ⟨_, o⟩ | ⟨_, _, _, o⟩⟩ := h
  · exact ⟨by rw [o.sz]; omega, fun h0 => by have := o.sz; omega⟩
  · exact ⟨by rw [o.sz]; omega, fun _ => o.root⟩

/-- C80, flat realtime map: any history of fewer than 2^62 calls, run with `size_t` arithmetic, gives all answers,
statuses and pointers of the sorted list.  Missing: what is missing in `C32_frm_history_partial`. -/
theorem C80_frm_map_partial (hc : LawfulCmp cmp) (mem : Junk α) (n : Nat) (al : Bool) (ops : List (Op α κ (Junk α)))
    (hok : okRun cmp key al ⟨[], n, false⟩ ops) (hlen : ops.length < 2 ^ 62) :
    run64 cmp key (init mem n al) ops = run cmp key (init mem n al) ops ∧
    ∃ s, run64 cmp key (init mem n al) ops = some (s, (specRun cmp key al ⟨[], n, false⟩ ops).2) := by
  have main : ∀ (ops : List (Op α κ (Junk α))) (s : Frm α) (st : St α), Sim cmp key s st → okRun cmp key s.hasAlloc st ops →
      st.l.length + ops.length < 2 ^ 62 → run64 cmp key s ops = run cmp key s ops := by
    intro ops
    induction ops with
    | nil => intro s st _ _ _; rfl
    | cons o os ih =>
      intro s st h hok hl
      rw [List.length_cons] at hl
      have hf := h.fits (by omega)
      obtain ⟨T, hT⟩ := h
      obtain ⟨s1, r1, m1, a1⟩ := step_spec hc hT o hok.1
      have e1 : step64 cmp key s o = step cmp key s o := by
        by_cases hv : o = .validate
        · subst hv
          simp only [step, specStep, bind, Option.bind_eq_some_iff] at r1
          obtain ⟨b, hb, r1⟩ := r1
          simp only [Option.some.injEq, Prod.mk.injEq, Out.flag.injEq] at r1
          rw [r1.2] at hb
          simp only [step64, step, hb, validate_64 s hf hb]
        · exact step_64 s hf o hv
      have hl2 := specStep_length (cmp := cmp) (key := key) s.hasAlloc st o
      simp only [run64, run, e1, r1, bind, Option.bind_some]
      rw [ih s1 _ m1 (by rw [a1]; exact hok.2) (by omega)]
  have e := main ops (init mem n al) ⟨[], n, false⟩ ⟨_, init_ok (cmp := cmp) (key := key) mem n al⟩ hok (by simpa using hlen)
  refine ⟨e, ?_⟩
  obtain ⟨s, h⟩ := C32_frm_history_partial hc mem n al ops hok
  exact ⟨s, e.trans h⟩

example : ∃ s, run64 natCmp Prod.fst (init sampleJunk 0 true) sampleOps =
    some (s, (specRun natCmp Prod.fst true ⟨[], 0, false⟩ sampleOps).2) :=
  (C80_frm_map_partial natCmp_lawful _ _ _ _ sampleOps_ok (by simp [sampleOps])).2

end CCC.Frm
