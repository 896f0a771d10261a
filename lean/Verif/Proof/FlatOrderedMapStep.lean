import Verif.Proof.FlatOrderedMap
import Verif.Proof.FlatRealtimeMapStep
/-
Every call of the flat ordered map answers as specified.
-/
namespace CCC.Fom
open CCC Links Tree Wavl Splay MapSpec FlatMap
open CCC.Rom (elems mem_elems elems_append vac_ne_occ vac_not_occ occ_occ unwrap_occ unwrap_vac unwrap_ie)
open CCC.Frm (Frm Junk inUse setSize growTo bufAllocBack setVal copyLinks copySlot sizeSet destroyLoop asRom view inUse_lt
  Fresh write_length setVal_live view_some view_none view_head view_last view_find view_added)
open CCC.Om (Touch mem_place isVac_ne_occ isVac_not_occ bne_root elems_side)

variable {α κ : Type} {cmp : κ → κ → Cmp} {key : α → κ} {s : Fom α} {st : St α} {l : List (Nat × α)} {T : Tree}

/-- The key a call looks up or inserts. -/
def opKey (key : α → κ) : Op α κ (Junk α) → Option κ
  | .insert x _ | .tryInsert x _ | .insertOrAssign x _ => some (key x)
  | .orInsert k _ _ | .insertEntry k _ _ | .andModify k _ | .occupied k | .orInsertW k _ _ | .insertEntryW k _ _
  | .tryInsertW k _ _ | .insertOrAssignW k _ _ | .contains k | .get k => some k
  | _ => none

/-- The state represents the specified contents. -/
def Sim (cmp : κ → κ → Cmp) (key : α → κ) (s : Fom α) (st : St α) : Prop := ∃ T, Ok cmp key s st T

/-- Goal of the per-call theorem. -/
def StepOk (cmp : κ → κ → Cmp) (key : α → κ) (s : Fom α) (st : St α) (op : Op α κ (Junk α)) : Prop :=
  ∃ s', step cmp key s op = some (s', (specStepS cmp key s.hasAlloc st op).2) ∧
    Sim cmp key s' (specStepS cmp key s.hasAlloc st op).1 ∧ s'.hasAlloc = s.hasAlloc ∧
    Touch cmp key s'.t.root (opKey key op) (specStepS cmp key s.hasAlloc st op).1.l

/-- Overwriting the data of a stored element by data with an equal key. -/
theorem Started.set (h : Started cmp key s l T) (hc : LawfulCmp cmp) {a : Nat} {x : α} (ha : a ∈ T.ids)
    (hx : cmp (key x) (key (s.val a)) = .eql) : Started cmp key { s with val := upd s.val a x } (write a x l) T := by
  obtain ⟨pre, post, e⟩ := List.append_of_mem ha
  obtain ⟨o2, el⟩ := h.ok.set hc (x := x) e hx
  have el' : elems (upd s.val a x) T.ids = elems s.val pre ++ (a, x) :: elems s.val post := el
  have hw : write a x l = elems s.val pre ++ (a, x) :: elems s.val post := by
    rw [← el', h.ok.list]
    simp only [write, elems, List.map_map]
    refine List.map_congr_left (fun b _ => ?_)
    by_cases hb : b = a
    · subst hb; simp
    · simp only [Function.comp, hb, if_false]; rw [upd_ne _ _ hb]; rfl
  have hlen := write_length a x l
  refine ⟨by rw [hw]; exact o2, h.live, by rw [hlen]; exact h.sz, h.le, by rw [hlen]; exact h.slots⟩

/-- Slot 0 may hold anything. -/
theorem Started.slot0 (h : Started cmp key s l T) {t' : Links} {x : α} (hr : t'.root = s.t.root) (hl : t'.live = s.t.live)
    (hs : ∀ a, a ≠ 0 → t'.br a = s.t.br a ∧ t'.par a = s.t.par a) :
    Started cmp key { s with t := t', val := upd s.val 0 x } l T := by
  have h0 : ∀ a ∈ T.ids, a ≠ 0 := fun a ha => h.ok.ne_zero ha
  have h0' : (0 : Nat) ∉ T.ids := fun ha => h0 0 ha rfl
  refine ⟨⟨⟨?_, ?_, h.ok.whole.nodup, ?_⟩, ?_, h.ok.sorted, h.ok.size⟩, ?_, h.sz, h.le, h.slots⟩
  · exact hr.trans h.ok.whole.ctx
  · exact h.ok.whole.tree.congr (fun a _ => by show t'.live a = s.t.live a; rw [hl]) (fun a ha => (hs a (h0 a ha)).1)
      (fun a ha => (hs a (h0 a ha)).2)
  · show t'.live 0 = true; rw [hl]; exact h.ok.whole.live0
  · rw [h.ok.list]; exact (Rom.elems_upd h0').symm
  · exact hl.trans h.live

/-! ### Adding an element, in all its forms -/

/-- What the functions and macros that add an element return, in terms of `add`. -/
theorem vacant_forms (o : Ok cmp key s st T) (hc : LawfulCmp cmp) {x : α}
    (hk : lookup cmp (ekey key) (key x) st.l = none) (ans : Option (Junk α)) :
    ∃ s' T', maybeAllocInsert cmp key s x ans = some (s', (add cmp key s.hasAlloc ans.isSome st x).2) ∧
      Ok cmp key s' (add cmp key s.hasAlloc ans.isSome st x).1 T' ∧ s'.hasAlloc = s.hasAlloc ∧
      (∀ e : FEnt, e.stats ≠ Stat.occupied →
        orInsertW cmp key s e x ans = some (s', (add cmp key s.hasAlloc ans.isSome st x).2)) ∧
      (∀ e : FEnt, Stat.has e.stats Stat.occupied = false →
        insertEntryW cmp key s e x ans = some (s', (add cmp key s.hasAlloc ans.isSome st x).2)) ∧
      insertVacantW cmp key s x ans = some (s', ⟨(add cmp key s.hasAlloc ans.isSome st x).2,
        if (add cmp key s.hasAlloc ans.isSome st x).2.isSome then Stat.vacant else Stat.insertError⟩) ∧
      (∀ n, (add cmp key s.hasAlloc ans.isSome st x).2 = some n → n ≠ 0 ∧ s'.val n = x) ∧
      (∀ n, (add cmp key s.hasAlloc ans.isSome st x).2 = some n → s'.t.root = n ∧
        (n, x) ∈ (add cmp key s.hasAlloc ans.isSome st x).1.l) ∧
      ((add cmp key s.hasAlloc ans.isSome st x).2 = none → (add cmp key s.hasAlloc ans.isSome st x).1.l = st.l) := by
  rcases alloc_steps o hc hk ans with ⟨h1, s', h2, h3, h4⟩ |
    ⟨s1, s2, s3, n, T', h1, h2, h3, h4, h5, h6, h7, h8, h9, h10, h11, h12⟩
  · rw [h1]
    refine ⟨s', T, by simp [maybeAllocInsert, h2], h3, h4, fun e he => by simp [orInsertW, he, h2],
      fun e he => by simp [insertEntryW, he, h2], by simp [insertVacantW, h2], by simp, by simp, fun _ => ?_⟩
    unfold add at h1 ⊢
    cases hh : room s.hasAlloc ans.isSome st with
    | mk st' b =>
      rw [hh] at h1
      cases b with
      | true => simp at h1
      | false =>
        have : st' = (room s.hasAlloc ans.isSome st).1 := by rw [hh]
        show st'.l = st.l
        rw [this]
        unfold room
        split
        · split <;> rfl
        · split
          · rfl
          · split <;> rfl
  · rw [h6]
    refine ⟨s3, T', by simp [maybeAllocInsert, h1, h2, h3, h5], h7, h8, fun e he => by simp [orInsertW, he, h1, h3, h4, h5],
      fun e he => by simp [insertEntryW, he, h1, h3, h4, h5], by simp [insertVacantW, h1, h3, h5], ?_, ?_, by simp⟩
    · intro m hm; cases hm; exact ⟨h9, h10⟩
    · intro m hm; cases hm; exact ⟨h11, h12⟩

/-- After adding, the sought key is at the root if it is stored. -/
theorem touch_added (hc : LawfulCmp cmp) {k : κ} {x : α} {st1 : St α} {q : Option Nat} {r : Nat} (hk : cmp k (key x) = .eql)
    (hlk : lookup cmp (ekey key) k st.l = none) (h1 : ∀ n, q = some n → r = n ∧ (n, x) ∈ st1.l)
    (h2 : q = none → st1.l = st.l) : Touch cmp key r (some k) st1.l := by
  cases q with
  | none => rw [h2 rfl]; exact Touch.miss hlk
  | some n => exact Touch.hit (h1 n rfl).2 (h1 n rfl).1 hk

/-- The element found by a search. -/
theorem found {t : Links} {x m : Nat} {A B : Tree} (h : Started cmp key { s with t := t } l (node x m A B)) :
    x ∈ (node x m A B).ids ∧ x ≠ 0 ∧ t.live x = true ∧ t.live 0 = true ∧ ¬ x ≥ s.cap ∧ (x, s.val x) ∈ l := by
  have ham : x ∈ (node x m A B).ids := by simp [ids]
  refine ⟨ham, h.ok.ne_zero ham, h.live_mem ham, h.ok.whole.live0, ?_, ?_⟩
  · have h1 := (h.mem_iff.1 ham).2
    have h2 : s.sz = l.length + 1 := h.sz
    have h3 : s.sz ≤ s.cap := h.le
    omega
  · rw [h.ok.list, mem_elems]; exact ⟨ham, rfl⟩

theorem entry_occ {k : κ} {s' : Fom α} {a : Nat} (h : find cmp key s k = some (s', some a)) :
    entry cmp key s k = some (s', ⟨a, Stat.occupied⟩) := by simp [entry, h]
theorem entry_vac {k : κ} {s' : Fom α} (h : find cmp key s k = some (s', none)) :
    entry cmp key s k = some (s', ⟨0, Stat.vacant⟩) := by simp [entry, h]

/-- Overwriting the found element. -/
theorem occupied_set (hc : LawfulCmp cmp) {s1 : Fom α} {a m : Nat} {A B : Tree}
    (h : Started cmp key s1 st.l (node a m A B)) (hcap : s1.cap = st.cap) (hst : st.started = true) {k : κ} {x : α}
    (ha : cmp k (key (s1.val a)) = .eql) (hk : cmp k (key x) = .eql) :
    Sim cmp key { s1 with val := upd s1.val a x } { st with l := write a x st.l } ∧ (a, x) ∈ write a x st.l := by
  have ham : a ∈ (node a m A B).ids := by simp [ids]
  have ha' : cmp (key x) (key (s1.val a)) = .eql := by rw [hc.eql_congr_left (hc.symm hk)]; exact ha
  have hs := h.set hc ham ha'
  refine ⟨⟨_, hs.toOk hcap hst rfl⟩, ?_⟩
  have := hs.ok.list
  rw [this, mem_elems]
  exact ⟨ham, by show x = upd s1.val a x a; simp⟩

theorem lookup_of_eql (hc : LawfulCmp cmp) {k k' : κ} (h : cmp k k' = .eql) {l : List (Nat × α)}
    (hlk : lookup cmp (ekey key) k l = none) : lookup cmp (ekey key) k' l = none := by
  rw [← Rom.lookup_congr hc h]; exact hlk

theorem step_insert (hc : LawfulCmp cmp) (o : Ok cmp key s st T) {x : α} {ans : Option (Junk α)} :
    StepOk cmp key s st (.insert x ans) := by
  rcases o.find hc (key x) with ⟨t, a, m, A, B, hst, hf, h, hr, ha, _, _, hlk⟩ | ⟨t, T', hf, o1, hlk⟩
  · obtain ⟨ham, a0, al, l0, ac, _⟩ := found h
    let t1 : Links := { t with
      br := fun b d => if b = 0 then t.br a d else t.br b d
      par := upd t.par 0 (t.par a)
      parity := upd t.parity 0 (t.parity a) }
    have e1 : copyLinks t 0 a = some t1 := by simp [copyLinks, l0, al, t1]
    have s1 := h.slot0 (t' := t1) (x := x) rfl rfl (by
      intro b hb
      refine ⟨?_, ?_⟩
      · funext d; simp [t1, hb]
      · simp [t1, upd_ne _ _ hb])
    have hv : (upd s.val 0 x) a = s.val a := upd_ne _ _ a0
    obtain ⟨sim, mem⟩ := occupied_set hc (k := key x) (x := x) s1 o.1 hst (by show cmp _ (key (upd s.val 0 x a)) = _; rw [hv]; exact ha)
      (hc.refl _)
    refine ⟨{ s with t := t1, val := upd (upd s.val 0 x) a x }, ?_, by simp only [specStepS, specStep, hlk]; exact sim,
      rfl, ?_⟩
    · simp only [step, insert, hf, Option.bind_eq_bind, Option.bind_some, Option.isSome_some, if_true, hr, bne_root a0,
        e1, specStepS, specStep, hlk]
      rw [setVal_live (by exact l0)]
      simp only [Option.bind_some, upd_same, hv]
      rw [setVal_live (by exact al)]
      simp only [Option.bind_some, unwrap_occ, view_some a0, upd_same]
    · simp only [specStepS, specStep, hlk]
      exact Touch.hit mem hr (hc.refl _)
  · obtain ⟨s', T2, run, o', a', _, _, _, hv, ht, hn⟩ := vacant_forms o1 hc hlk ans
    have hspec : specStepS cmp key s.hasAlloc st (.insert x ans) =
        ((add cmp key s.hasAlloc ans.isSome st x).1, .insEnt (if (add cmp key s.hasAlloc ans.isSome st x).2.isSome
          then Stat.vacant else Stat.insertError) .null x) := by
      simp only [specStepS, specStep, hlk]
      cases add cmp key s.hasAlloc ans.isSome st x with
      | mk st' r => cases r <;> rfl
    refine ⟨s', ?_, ⟨T2, by rw [hspec]; exact o'⟩, a', ?_⟩
    · rw [hspec]
      simp only [step, insert, hf, Option.bind_eq_bind, Option.bind_some, Option.isSome_none, Bool.false_eq_true, if_false,
        run]
      cases (add cmp key s.hasAlloc ans.isSome st x).2 <;> simp [unwrap_ie, unwrap_vac, view_none]
    · rw [hspec]
      exact touch_added hc (hc.refl _) hlk ht hn


/-- `try_insert` and `insert_or_assign` for an absent key. -/
theorem spec_vac {x : α} {ans : Option (Junk α)} {st : St α} {al : Bool} {op : Op α κ (Junk α)}
    (h : specStepS cmp key al st op = (match add cmp key al ans.isSome st x with
      | (s', some n) => (s', Out.ent Stat.vacant (.elem n x))
      | (s', none) => (s', .ent Stat.insertError .null))) :
    specStepS cmp key al st op = ((add cmp key al ans.isSome st x).1,
      .ent (if (add cmp key al ans.isSome st x).2.isSome then Stat.vacant else Stat.insertError)
        (added x (add cmp key al ans.isSome st x).2)) := by
  rw [h]
  cases add cmp key al ans.isSome st x with
  | mk st' r => cases r <;> rfl

theorem view_vac {s' : Fom α} {x : α} {q : Option Nat} (h : ∀ n, q = some n → n ≠ 0 ∧ s'.val n = x) :
    view s' (Ent.unwrap (some ⟨q, if q.isSome then Stat.vacant else Stat.insertError⟩)) = added x q := by
  cases q with
  | none => rfl
  | some n => obtain ⟨n0, hn⟩ := h n rfl; simp [unwrap_vac, view_some n0, hn, added]

theorem step_tryInsert (hc : LawfulCmp cmp) (o : Ok cmp key s st T) {x : α} {ans : Option (Junk α)} :
    StepOk cmp key s st (.tryInsert x ans) := by
  rcases o.find hc (key x) with ⟨t, a, m, A, B, hst, hf, h, hr, ha, _, _, hlk⟩ | ⟨t, T', hf, o1, hlk⟩
  · obtain ⟨ham, a0, al, l0, ac, hm⟩ := found h
    refine ⟨{ s with t := t }, ?_, by simp only [specStepS, specStep, hlk]; exact ⟨_, h.toOk o.1 hst rfl⟩, rfl, ?_⟩
    · simp only [step, tryInsert, hf, Option.bind_eq_bind, Option.bind_some, hr, bne_root a0, specStepS, specStep, hlk,
        unwrap_occ, view_some a0]
    · simp only [specStepS, specStep, hlk]
      exact Touch.hit hm hr ha
  · obtain ⟨s', T2, run, o', a', _, _, _, hv, ht, hn⟩ := vacant_forms o1 hc hlk ans
    have hspec := spec_vac (cmp := cmp) (key := key) (x := x) (ans := ans) (st := st) (al := s.hasAlloc)
      (op := .tryInsert x ans) (by simp only [specStepS, specStep, hlk]; rfl)
    refine ⟨s', ?_, ⟨T2, by rw [hspec]; exact o'⟩, a', ?_⟩
    · rw [hspec, ← view_vac hv]
      simp only [step, tryInsert, hf, Option.bind_eq_bind, Option.bind_some, run]
      cases (add cmp key s.hasAlloc ans.isSome st x).2 <;> simp
    · rw [hspec]
      exact touch_added hc (hc.refl _) hlk ht hn

theorem step_insertOrAssign (hc : LawfulCmp cmp) (o : Ok cmp key s st T) {x : α} {ans : Option (Junk α)} :
    StepOk cmp key s st (.insertOrAssign x ans) := by
  rcases o.find hc (key x) with ⟨t, a, m, A, B, hst, hf, h, hr, ha, _, _, hlk⟩ | ⟨t, T', hf, o1, hlk⟩
  · obtain ⟨ham, a0, al, l0, ac, hm⟩ := found h
    obtain ⟨sim, mem⟩ := occupied_set hc (k := key x) (x := x) h o.1 hst ha (hc.refl _)
    refine ⟨{ s with t := t, val := upd s.val a x }, ?_, by simp only [specStepS, specStep, hlk]; exact sim, rfl, ?_⟩
    · simp only [step, insertOrAssign, hf, Option.bind_eq_bind, Option.bind_some, hr, bne_root a0, specStepS, specStep,
        hlk]
      rw [setVal_live (by exact al)]
      simp only [Option.bind_some, unwrap_occ, view_some a0, upd_same]
    · simp only [specStepS, specStep, hlk]
      exact Touch.hit mem hr (hc.refl _)
  · obtain ⟨s', T2, run, o', a', _, _, _, hv, ht, hn⟩ := vacant_forms o1 hc hlk ans
    have hspec := spec_vac (cmp := cmp) (key := key) (x := x) (ans := ans) (st := st) (al := s.hasAlloc)
      (op := .insertOrAssign x ans) (by simp only [specStepS, specStep, hlk]; rfl)
    refine ⟨s', ?_, ⟨T2, by rw [hspec]; exact o'⟩, a', ?_⟩
    · rw [hspec, ← view_vac hv]
      simp only [step, insertOrAssign, hf, Option.bind_eq_bind, Option.bind_some, run]
      cases (add cmp key s.hasAlloc ans.isSome st x).2 <;> simp
    · rw [hspec]
      exact touch_added hc (hc.refl _) hlk ht hn

theorem step_orInsert (hc : LawfulCmp cmp) (o : Ok cmp key s st T) {k : κ} {x : α} {ans : Option (Junk α)}
    (hk : cmp k (key x) = .eql) : StepOk cmp key s st (.orInsert k x ans) ∧ StepOk cmp key s st (.orInsertW k x ans) := by
  rcases o.find hc k with ⟨t, a, m, A, B, hst, hf, h, hr, ha, _, _, hlk⟩ | ⟨t, T', hf, o1, hlk⟩
  · obtain ⟨ham, a0, al, l0, ac, hm⟩ := found h
    have o2 := h.toOk (st := st) o.1 hst rfl
    refine ⟨⟨{ s with t := t }, ?_, by simp only [specStepS, specStep, hlk]; exact ⟨_, o2⟩, rfl, ?_⟩,
      ⟨{ s with t := t }, ?_, by simp only [specStepS, specStep, hlk]; exact ⟨_, o2⟩, rfl, ?_⟩⟩
    · simp only [step, entry_occ hf, orInsert, specStepS, specStep, hlk, Option.bind_eq_bind, Option.bind_some, occ_occ,
        if_true, view_some a0]
    · simp only [specStepS, specStep, hlk]
      exact Touch.hit hm hr ha
    · simp only [step, entry_occ hf, orInsertW, specStepS, specStep, hlk, Option.bind_eq_bind, Option.bind_some, if_true,
        if_neg ac, view_some a0]
    · simp only [specStepS, specStep, hlk]
      exact Touch.hit hm hr ha
  · obtain ⟨s', T2, run, o', a', f1, f2, f3, hv, ht, hn⟩ := vacant_forms o1 hc (lookup_of_eql hc hk hlk) ans
    have tc := touch_added hc hk hlk ht hn
    refine ⟨⟨s', ?_, ⟨T2, by simp only [specStepS, specStep, hlk]; exact o'⟩, a', by simp only [specStepS, specStep, hlk]; exact tc⟩,
      ⟨s', ?_, ⟨T2, by simp only [specStepS, specStep, hlk]; exact o'⟩, a', by simp only [specStepS, specStep, hlk]; exact tc⟩⟩
    · simp only [step, entry_vac hf, orInsert, specStepS, specStep, hlk, Option.bind_eq_bind, Option.bind_some,
        isVac_not_occ, Bool.false_eq_true, if_false, run, view_added hv]
    · simp only [step, entry_vac hf, specStepS, specStep, hlk, Option.bind_eq_bind, Option.bind_some,
        f1 ⟨0, Stat.vacant⟩ isVac_ne_occ, view_added hv]

theorem step_insertEntry (hc : LawfulCmp cmp) (o : Ok cmp key s st T) {k : κ} {x : α} {ans : Option (Junk α)}
    (hk : cmp k (key x) = .eql) :
    StepOk cmp key s st (.insertEntry k x ans) ∧ StepOk cmp key s st (.insertEntryW k x ans) := by
  rcases o.find hc k with ⟨t, a, m, A, B, hst, hf, h, hr, ha, _, _, hlk⟩ | ⟨t, T', hf, o1, hlk⟩
  · obtain ⟨ham, a0, al, l0, ac, hm⟩ := found h
    obtain ⟨sim, mem⟩ := occupied_set hc (k := k) (x := x) h o.1 hst ha hk
    refine ⟨⟨{ s with t := t, val := upd s.val a x }, ?_, by simp only [specStepS, specStep, hlk]; exact sim, rfl, ?_⟩,
      ⟨{ s with t := t, val := upd s.val a x }, ?_, by simp only [specStepS, specStep, hlk]; exact sim, rfl, ?_⟩⟩
    · simp only [step, entry_occ hf, insertEntry, specStepS, specStep, hlk, Option.bind_eq_bind, Option.bind_some, if_true]
      rw [setVal_live (by exact al)]
      simp only [Option.bind_some, view_some a0, upd_same]
    · simp only [specStepS, specStep, hlk]
      exact Touch.hit mem hr hk
    · simp only [step, entry_occ hf, insertEntryW, specStepS, specStep, hlk, Option.bind_eq_bind, Option.bind_some, if_true,
        occ_occ, Bool.not_true, Bool.false_eq_true, if_false]
      rw [setVal_live (by exact al)]
      simp only [Option.bind_some, view_some a0, upd_same]
    · simp only [specStepS, specStep, hlk]
      exact Touch.hit mem hr hk
  · obtain ⟨s', T2, run, o', a', f1, f2, f3, hv, ht, hn⟩ := vacant_forms o1 hc (lookup_of_eql hc hk hlk) ans
    have tc := touch_added hc hk hlk ht hn
    refine ⟨⟨s', ?_, ⟨T2, by simp only [specStepS, specStep, hlk]; exact o'⟩, a', by simp only [specStepS, specStep, hlk]; exact tc⟩,
      ⟨s', ?_, ⟨T2, by simp only [specStepS, specStep, hlk]; exact o'⟩, a', by simp only [specStepS, specStep, hlk]; exact tc⟩⟩
    · simp only [step, entry_vac hf, insertEntry, specStepS, specStep, hlk, Option.bind_eq_bind, Option.bind_some,
        if_neg isVac_ne_occ, run, view_added hv]
    · simp only [step, entry_vac hf, specStepS, specStep, hlk, Option.bind_eq_bind, Option.bind_some,
        f2 ⟨0, Stat.vacant⟩ isVac_not_occ, view_added hv]

theorem step_tryInsertW (hc : LawfulCmp cmp) (o : Ok cmp key s st T) {k : κ} {x : α} {ans : Option (Junk α)}
    (hk : cmp k (key x) = .eql) : StepOk cmp key s st (.tryInsertW k x ans) := by
  rcases o.find hc k with ⟨t, a, m, A, B, hst, hf, h, hr, ha, _, _, hlk⟩ | ⟨t, T', hf, o1, hlk⟩
  · obtain ⟨ham, a0, al, l0, ac, hm⟩ := found h
    refine ⟨{ s with t := t }, ?_, by simp only [specStepS, specStep, hlk]; exact ⟨_, h.toOk o.1 hst rfl⟩, rfl, ?_⟩
    · simp only [step, tryInsertW, entry_occ hf, specStepS, specStep, hlk, Option.bind_eq_bind, Option.bind_some, if_true,
        occ_occ, Bool.not_true, Bool.false_eq_true, if_false, if_neg ac, unwrap_occ, view_some a0]
    · simp only [specStepS, specStep, hlk]
      exact Touch.hit hm hr ha
  · obtain ⟨s', T2, run, o', a', f1, f2, f3, hv, ht, hn⟩ := vacant_forms o1 hc (lookup_of_eql hc hk hlk) ans
    have hspec := spec_vac (cmp := cmp) (key := key) (x := x) (ans := ans) (st := st) (al := s.hasAlloc)
      (op := .tryInsertW k x ans) (by simp only [specStepS, specStep, hlk]; rfl)
    refine ⟨s', ?_, ⟨T2, by rw [hspec]; exact o'⟩, a', by rw [hspec]; exact touch_added hc hk hlk ht hn⟩
    rw [hspec, ← view_vac hv]
    simp only [step, tryInsertW, entry_vac hf, Option.bind_eq_bind, Option.bind_some, isVac_not_occ, Bool.not_false, if_true,
      f3]

theorem step_insertOrAssignW (hc : LawfulCmp cmp) (o : Ok cmp key s st T) {k : κ} {x : α} {ans : Option (Junk α)}
    (hk : cmp k (key x) = .eql) : StepOk cmp key s st (.insertOrAssignW k x ans) := by
  rcases o.find hc k with ⟨t, a, m, A, B, hst, hf, h, hr, ha, _, _, hlk⟩ | ⟨t, T', hf, o1, hlk⟩
  · obtain ⟨ham, a0, al, l0, ac, hm⟩ := found h
    obtain ⟨sim, mem⟩ := occupied_set hc (k := k) (x := x) h o.1 hst ha hk
    refine ⟨{ s with t := t, val := upd s.val a x }, ?_, by simp only [specStepS, specStep, hlk]; exact sim, rfl, ?_⟩
    · simp only [step, insertOrAssignW, entry_occ hf, specStepS, specStep, hlk, Option.bind_eq_bind, Option.bind_some,
        if_true, occ_occ, Bool.not_true, Bool.false_eq_true, if_false]
      rw [setVal_live (by exact al)]
      simp only [Option.bind_some, unwrap_occ, view_some a0, upd_same]
    · simp only [specStepS, specStep, hlk]
      exact Touch.hit mem hr hk
  · obtain ⟨s', T2, run, o', a', f1, f2, f3, hv, ht, hn⟩ := vacant_forms o1 hc (lookup_of_eql hc hk hlk) ans
    have hspec := spec_vac (cmp := cmp) (key := key) (x := x) (ans := ans) (st := st) (al := s.hasAlloc)
      (op := .insertOrAssignW k x ans) (by simp only [specStepS, specStep, hlk]; rfl)
    refine ⟨s', ?_, ⟨T2, by rw [hspec]; exact o'⟩, a', by rw [hspec]; exact touch_added hc hk hlk ht hn⟩
    rw [hspec, ← view_vac hv]
    simp only [step, insertOrAssignW, entry_vac hf, Option.bind_eq_bind, Option.bind_some, isVac_not_occ, Bool.not_false,
      if_true, f3]

/-! Removal, modification. -/

theorem step_remove (hc : LawfulCmp cmp) (o : Ok cmp key s st T) {x : α} : StepOk cmp key s st (.remove x) := by
  rcases erase_spec o hc (key x) with ⟨r, s', T', run, hlk, o', a', v', n0, _⟩ | ⟨t, T', run, o', hlk⟩
  · refine ⟨s', ?_, by simp only [specStepS, hlk]; exact ⟨_, o'⟩, a', Touch.no⟩
    simp only [step, remove, run, specStepS, hlk, Option.bind_eq_bind, Option.bind_some, unwrap_occ, view_some n0, v']
  · refine ⟨{ s with t := t }, ?_, by simp only [specStepS, hlk]; exact ⟨_, o'⟩, rfl, Touch.no⟩
    simp only [step, remove, run, specStepS, hlk, Option.bind_eq_bind, Option.bind_some, unwrap_vac, view_none]

theorem drop_congr (hc : LawfulCmp cmp) {k k' : κ} (h : cmp k k' = .eql) (r : Nat) (l : List (Nat × α)) :
    drop cmp key k' r l = drop cmp key k r l := by
  unfold drop MapSpec.erase
  congr 1
  refine List.filter_congr (fun e _ => ?_)
  rw [hc.eql_congr_left h]

theorem step_removeEntry (hc : LawfulCmp cmp) (o : Ok cmp key s st T) {k : κ} :
    StepOk cmp key s st (.removeEntry k) := by
  rcases o.find hc k with ⟨t, a, m, A, B, hst, hf, h, hr, ha, _, _, hlk⟩ | ⟨t, T', hf, o1, hlk⟩
  · have o1 := h.toOk (st := st) o.1 hst rfl
    have hlk' : lookup cmp (ekey key) (key (s.val a)) st.l = some (a, s.val a) := by
      rw [← Rom.lookup_congr hc ha]; exact hlk
    rcases erase_spec o1 hc (key (s.val a)) with ⟨r, s', T', run, hlk2, o', a', v', n0, _⟩ | ⟨t2, T', run, o', hlk2⟩
    · have hra : r = a := by
        rw [hlk'] at hlk2
        simp only [Option.some.injEq, Prod.mk.injEq] at hlk2
        exact hlk2.1.symm
      subst hra
      have hd : drop cmp key (key (s.val r)) r st.l = drop cmp key k r st.l := drop_congr hc ha _ _
      rw [hd] at o'
      refine ⟨s', ?_, by simp only [specStepS, specStep, hlk]; exact ⟨_, o'⟩, a', Touch.no⟩
      simp only [step, entry_occ hf, removeEntry, specStepS, specStep, hlk, Option.bind_eq_bind, Option.bind_some, if_true,
        run, unwrap_occ, view_some n0, v']
    · rw [hlk'] at hlk2; cases hlk2
  · refine ⟨{ s with t := t }, ?_, by simp only [specStepS, specStep, hlk]; exact ⟨_, o1⟩, rfl, Touch.no⟩
    simp only [step, entry_vac hf, removeEntry, specStepS, specStep, hlk, Option.bind_eq_bind, Option.bind_some,
      if_neg isVac_ne_occ, unwrap_vac, view_none]

theorem step_andModify (hc : LawfulCmp cmp) (o : Ok cmp key s st T) {k : κ} {f : α → α}
    (ok : okOpS cmp key st (.andModify k f : Op α κ (Junk α))) : StepOk cmp key s st (.andModify k f) := by
  rcases o.find hc k with ⟨t, a, m, A, B, hst, hf, h, hr, ha, _, _, hlk⟩ | ⟨t, T', hf, o1, hlk⟩
  · obtain ⟨ham, a0, al, l0, ac, hm⟩ := found h
    have hk := ok (a, s.val a) hm ha
    have hk2 : cmp k (key (f (s.val a))) = .eql := by rw [hc.eql_congr_left ha]; exact hc.symm hk
    obtain ⟨sim, mem⟩ := occupied_set hc (k := k) (x := f (s.val a)) h o.1 hst ha hk2
    refine ⟨{ s with t := t, val := upd s.val a (f (s.val a)) }, ?_, by simp only [specStepS, specStep, hlk]; exact sim, rfl, ?_⟩
    · simp only [step, entry_occ hf, andModify, specStepS, specStep, hlk, Option.bind_eq_bind, Option.bind_some, if_true,
        occ_occ]
      rw [setVal_live (by exact al)]
      simp only [Option.bind_some, unwrap, if_true, if_neg ac, view_some a0, upd_same]
    · simp only [specStepS, specStep, hlk]
      exact Touch.hit mem hr hk2
  · refine ⟨{ s with t := t }, ?_, by simp only [specStepS, specStep, hlk]; exact ⟨_, o1⟩, rfl, ?_⟩
    · simp only [step, entry_vac hf, andModify, specStepS, specStep, hlk, Option.bind_eq_bind, Option.bind_some,
        isVac_not_occ, Bool.false_eq_true, if_false, unwrap, if_neg isVac_ne_occ, view_none]
    · simp only [specStepS, specStep, hlk]
      exact Touch.miss hlk

/-! Queries. -/

theorem step_query (hc : LawfulCmp cmp) (o : Ok cmp key s st T) {k : κ} :
    StepOk cmp key s st (.occupied k) ∧ StepOk cmp key s st (.get k) := by
  rcases o.find hc k with ⟨t, a, m, A, B, hst, hf, h, hr, ha, _, _, hlk⟩ | ⟨t, T', hf, o1, hlk⟩
  · obtain ⟨ham, a0, al, l0, ac, hm⟩ := found h
    have o2 := h.toOk (st := st) o.1 hst rfl
    have tc : Touch cmp key t.root (some k) st.l := Touch.hit hm hr ha
    refine ⟨⟨{ s with t := t }, ?_, ⟨_, o2⟩, rfl, tc⟩, ⟨{ s with t := t }, ?_, ⟨_, o2⟩, rfl, tc⟩⟩
    · simp only [step, entry_occ hf, specStepS, specStep, hlk, Option.bind_eq_bind, Option.bind_some, occupied, occ_occ,
        Option.isSome_some]
    · simp only [step, get, hf, specStepS, specStep, hlk, Option.bind_eq_bind, Option.bind_some, view_some a0, look]
  · have tc : Touch cmp key t.root (some k) st.l := Touch.miss hlk
    refine ⟨⟨{ s with t := t }, ?_, ⟨_, o1⟩, rfl, tc⟩, ⟨{ s with t := t }, ?_, ⟨_, o1⟩, rfl, tc⟩⟩
    · simp only [step, entry_vac hf, specStepS, specStep, hlk, Option.bind_eq_bind, Option.bind_some, occupied,
        isVac_not_occ, Option.isSome_none]
    · simp only [step, get, hf, specStepS, specStep, hlk, Option.bind_eq_bind, Option.bind_some, view_none, look]

theorem Ok.startd (o : Ok cmp key s st T) (hne : st.l ≠ []) : st.started = true ∧ Started cmp key s st.l T ∧ T ≠ nil := by
  obtain ⟨_, ⟨hst, h⟩ | ⟨_, hl, _, _⟩⟩ := o
  · exact ⟨hst, h, fun hh => hne (h.nil_iff.2 hh)⟩
  · exact absurd hl hne

theorem step_contains (hc : LawfulCmp cmp) (o : Ok cmp key s st T) {k : κ} (hne : st.l ≠ []) :
    StepOk cmp key s st (.contains k) := by
  obtain ⟨hst, h, hT⟩ := o.startd hne
  obtain ⟨t, i, m, A, B, _, o', hr, hi, hA, hB, run⟩ := h.splay hc hT k
  have hlk := Om.lookup_after o'.ok.list hc hA hB
  by_cases he : cmp k (key (s.val i)) = .eql
  · refine ⟨{ s with t := t }, ?_, ⟨_, o'.toOk o.1 hst rfl⟩, rfl, Touch.hit (found o').2.2.2.2.2 hr he⟩
    simp only [step, contains, run, specStepS, specStep, hlk.1 he, he, Option.bind_eq_bind, Option.bind_some,
      Option.isSome_some, beq_self_eq_true]
  · have hq : (cmp k (key (s.val i)) == Cmp.eql) = false := by simpa using he
    refine ⟨{ s with t := t }, ?_, ⟨_, o'.toOk o.1 hst rfl⟩, rfl, Touch.miss (hlk.2 he)⟩
    simp only [step, contains, run, specStepS, specStep, hlk.2 he, hq, Option.bind_eq_bind, Option.bind_some,
      Option.isSome_none]

theorem Started.sz_ne (hs : Started cmp key s l T) : s.sz ≠ 0 := by rw [hs.sz]; omega

theorem step_begin (o : Ok cmp key s st T) : StepOk cmp key s st .begin := by
  refine ⟨s, ?_, ⟨T, o⟩, rfl, Touch.no⟩
  obtain ⟨_, ⟨hst, h⟩ | ⟨hst, hl, rfl, h⟩⟩ := o
  · have hm : minMaxFrom s.t s.t.root false = some (endOf false T.ids) := minMaxFrom_whole h.ok.whole false
    simp only [step, begin_, if_neg h.sz_ne, hm, Option.bind_eq_bind, Option.bind_some, specStepS, specStep, endOf,
      Bool.false_eq_true, if_false, St.fin, hst, if_true]
    rw [view_head (fun a ha => h.ok.ne_zero ha), h.ok.list]; rfl
  · simp [step, begin_, h.sz, specStepS, specStep, St.fin, hst, hl, look, view]

theorem step_rbegin (o : Ok cmp key s st T) : StepOk cmp key s st .rbegin := by
  refine ⟨s, ?_, ⟨T, o⟩, rfl, Touch.no⟩
  obtain ⟨_, ⟨hst, h⟩ | ⟨hst, hl, rfl, h⟩⟩ := o
  · have hm : minMaxFrom s.t s.t.root true = some (endOf true T.ids) := minMaxFrom_whole h.ok.whole true
    simp only [step, begin_, if_neg h.sz_ne, hm, Option.bind_eq_bind, Option.bind_some, specStepS, specStep, endOf,
      St.fin, hst, if_true]
    rw [view_last (fun a ha => h.ok.ne_zero ha), h.ok.list]; rfl
  · simp [step, begin_, h.sz, specStepS, specStep, St.fin, hst, hl, look, view]

theorem started_of_mem (o : Ok cmp key s st T) {a : Nat} (h : ∃ e ∈ st.l, e.1 = a) :
    st.started = true ∧ Started cmp key s st.l T := by
  obtain ⟨h1, h2, _⟩ := o.startd (fun hh => by obtain ⟨e, he, _⟩ := h; rw [hh] at he; simp at he)
  exact ⟨h1, h2⟩

theorem step_next (o : Ok cmp key s st T) {a : Nat} (ok : okOpS cmp key st (.next a : Op α κ (Junk α))) :
    StepOk cmp key s st (.next a) := by
  obtain ⟨hst, h⟩ := started_of_mem o ok
  obtain ⟨pre, post, e, h1, h2⟩ := h.ok.split ok
  refine ⟨s, ?_, ⟨T, o⟩, rfl, Touch.no⟩
  have hn : Wavl.next s.t a true = some (post.headD 0) := next_whole h.ok.whole e true
  simp only [step, next, if_neg h.sz_ne, hn, Option.bind_eq_bind, Option.bind_some, specStepS, specStep, St.fin, hst, if_true]
  rw [view_head (fun b hb => h.ok.ne_zero (by rw [e]; simp [hb])), h.ok.list, e, Rom.dropWhile_split h1]; rfl

theorem step_rnext (o : Ok cmp key s st T) {a : Nat} (ok : okOpS cmp key st (.rnext a : Op α κ (Junk α))) :
    StepOk cmp key s st (.rnext a) := by
  obtain ⟨hst, h⟩ := started_of_mem o ok
  obtain ⟨pre, post, e, h1, h2⟩ := h.ok.split ok
  refine ⟨s, ?_, ⟨T, o⟩, rfl, Touch.no⟩
  have hn : Wavl.next s.t a false = some (pre.getLastD 0) := next_whole h.ok.whole e false
  simp only [step, next, if_neg h.sz_ne, hn, Option.bind_eq_bind, Option.bind_some, specStepS, specStep, St.fin, hst, if_true]
  have hl : st.l = elems s.val (pre ++ a :: post) := by rw [h.ok.list, e]; rfl
  rw [view_last (fun b hb => h.ok.ne_zero (by rw [e]; simp [hb])), hl]
  have : (elems s.val (pre ++ a :: post)).reverse = elems s.val (post.reverse ++ a :: pre.reverse) := by
    simp [elems]
  rw [this, Rom.dropWhile_split (by simpa using h2)]
  simp [elems]

theorem size_eq (o : Ok cmp key s st T) : size s = st.l.length := by
  obtain ⟨_, ⟨hst, h⟩ | ⟨hst, hl, rfl, h⟩⟩ := o
  · rw [size, if_neg h.sz_ne, h.sz]; rfl
  · rw [size, if_pos h.sz, h.sz, hl]; rfl

theorem isEmpty_eq (o : Ok cmp key s st T) : isEmpty s = st.l.isEmpty := by
  rw [isEmpty, size_eq o]; cases st.l <;> simp

theorem step_range (hc : LawfulCmp cmp) (o : Ok cmp key s st T) {b e : κ} :
    StepOk cmp key s st (.equalRange b e) ∧ StepOk cmp key s st (.equalRrange b e) := by
  have he := isEmpty_eq o
  by_cases hne : st.l = []
  · have hemp : st.l.isEmpty = true := by rw [hne]; rfl
    rw [hemp] at he
    refine ⟨⟨s, ?_, ⟨T, by simp only [specStepS, specStep, hemp, if_true]; exact o⟩, rfl, Touch.no⟩,
      ⟨s, ?_, ⟨T, by simp only [specStepS, specStep, hemp, if_true]; exact o⟩, rfl, Touch.no⟩⟩ <;>
      simp [step, equalRange, he, specStepS, specStep, hemp, view_none]
  · have hemp : st.l.isEmpty = false := by cases hh : st.l with
      | nil => exact absurd hh hne
      | cons => rfl
    rw [hemp] at he
    obtain ⟨hst, hs, hT⟩ := o.startd hne
    have h0 : ∀ a ∈ T.ids, a ≠ 0 := fun a ha => hs.ok.ne_zero ha
    have h0' : ∀ a ∈ T.ids.reverse, a ≠ 0 := by simpa using h0
    have er : (elems s.val T.ids).reverse = elems s.val T.ids.reverse := by simp [elems]
    have hlist : st.l = elems s.val T.ids := hs.ok.list
    constructor
    · obtain ⟨t, T', run, w, hi, hsame⟩ := Splay.equalRange_spec hs.ok.whole hT (cb := Fom.cmpAt cmp key s b)
        (ce := Fom.cmpAt cmp key s e) (hs.cmpAt b) (hs.cmpAt e) (hs.ok.mono hc b) (hs.ok.mono hc e) true
      have run' : Splay.equalRange s.t (Fom.cmpAt cmp key s b) (Fom.cmpAt cmp key s e) true = _ := run
      refine ⟨{ s with t := t }, ?_, ⟨T', ?_⟩, rfl, Touch.no⟩
      · simp only [step, equalRange, he, Bool.false_eq_true, if_false, run', if_true, Option.bind_eq_bind,
          Option.bind_some, specStepS, specStep, hemp, firstNotLess, firstGreater]
        rw [hlist, ← view_find h0, ← view_find h0]
        rfl
      · simp only [specStepS, specStep, hemp, Bool.false_eq_true, if_false]
        exact (hs.reshape w hi hsame).toOk o.1 hst rfl
    · obtain ⟨t, T', run, w, hi, hsame⟩ := Splay.equalRange_spec hs.ok.whole hT (cb := Fom.cmpAt cmp key s b)
        (ce := Fom.cmpAt cmp key s e) (hs.cmpAt b) (hs.cmpAt e) (hs.ok.mono hc b) (hs.ok.mono hc e) false
      have run' : Splay.equalRange s.t (Fom.cmpAt cmp key s b) (Fom.cmpAt cmp key s e) false = _ := run
      refine ⟨{ s with t := t }, ?_, ⟨T', ?_⟩, rfl, Touch.no⟩
      · simp only [step, equalRange, he, Bool.false_eq_true, if_false, run', Option.bind_eq_bind,
          Option.bind_some, specStepS, specStep, hemp, lastNotGreater, lastLess]
        rw [hlist, er, ← view_find h0', ← view_find h0']
        rfl
      · simp only [specStepS, specStep, hemp, Bool.false_eq_true, if_false]
        exact (hs.reshape w hi hsame).toOk o.1 hst rfl

theorem validate_spec (hc : LawfulCmp cmp) (o : Ok cmp key s st T) : validate cmp key s = some true := by
  obtain ⟨_, ⟨hst, h⟩ | ⟨hst, hl, rfl, h⟩⟩ := o
  · have hroot : s.t.root = T.rootId := h.ok.whole.ctx
    have hs : T.ids.Pairwise (fun a b => cmp (key (s.val a)) (key (s.val b)) = .les) := by
      have := h.ok.sorted
      rw [h.ok.list] at this
      unfold Sorted elems at this
      rw [List.pairwise_map] at this
      exact this
    have hsz : T.ids.length = s.sz - 1 := by
      have := h.ok.size
      rw [h.ok.list] at this
      simp only [elems, List.length_map] at this
      exact this.symm
    have e1 := Rom.areSubtreesValid_spec hc (asRom s) (low := 0) (high := 0) h.ok.whole.tree hs (by simp) (by simp)
    have e2 : Rom.recursiveSize s.t T.rootId = some T.ids.length := Rom.recursiveSize_spec h.ok.whole.tree
    have e3 : Rom.isStoringParent s.t 0 T.rootId = some true := Rom.isStoringParent_spec (t := T) h.ok.whole.tree
    rw [validate]
    simp only [Option.bind_eq_bind, Option.bind_some, hroot, e1, e2,
      Bool.not_true, Bool.false_eq_true, if_false, hsz, ne_eq, not_true_eq_false, and_false]
    exact e3
  · rw [validate]
    simp only [h.sz, h.root]
    rw [Rom.areSubtreesValid, Rom.recursiveSize, Rom.isStoringParent]
    simp

theorem cleared (hc1 : 1 ≤ s.cap) : Started cmp key { setSize s 1 with t := (setSize s 1).t.setRoot 0 } [] nil := by
  refine ⟨⟨⟨rfl, trivial, by simp [ids], ?_⟩, rfl, List.Pairwise.nil, rfl⟩, rfl, rfl, hc1, ?_⟩
  · show inUse 1 s.cap 0 = true
    rw [inUse_lt hc1]; omega
  · intro a h1 h2; simp at h2; omega

theorem step_clear (o : Ok cmp key s st T) : StepOk cmp key s st .clear := by
  by_cases h0 : st.cap = 0
  · have hs0 : s.cap = 0 := by rw [o.1, h0]
    have hc1 : 1 > s.cap := by omega
    refine ⟨{ setSize s s.cap with t := (setSize s s.cap).t.setRoot 0 }, ?_, ⟨nil, ?_⟩, rfl, Touch.no⟩
    · simp [step, clear, sizeSet, hc1, specStepS]
    · refine ⟨o.1, Or.inr ⟨?_, rfl, rfl, ⟨?_, ?_, rfl⟩⟩⟩
      · simp [specStepS, h0]
      · rfl
      · exact hs0
  · have hc1 : 1 ≤ s.cap := by rw [o.1]; omega
    have hc2 : ¬ (1 > s.cap) := by omega
    refine ⟨{ setSize s 1 with t := (setSize s 1).t.setRoot 0 }, ?_, ⟨nil, ?_⟩, rfl, Touch.no⟩
    · simp [step, clear, sizeSet, hc2, specStepS]
    · exact (cleared hc1).toOk (by exact o.1) (by simp [specStepS, h0]) rfl

/-- The call does not run into the missing emptiness test of `contains`. -/
def safeOp (st : St α) : Op α κ (Junk α) → Prop
  | .contains _ => st.l ≠ []
  | _ => True

/-- Every call, from every state that represents a specification state, answers as specified and leads to a state that
represents the specified one. -/
theorem step_spec (hc : LawfulCmp cmp) (o : Ok cmp key s st T) (op : Op α κ (Junk α)) (ok : okOpS cmp key st op)
    (sf : safeOp st op) : StepOk cmp key s st op := by
  cases op with
  | insert x ans => exact step_insert hc o
  | tryInsert x ans => exact step_tryInsert hc o
  | insertOrAssign x ans => exact step_insertOrAssign hc o
  | remove x => exact step_remove hc o
  | orInsert k x ans => exact (step_orInsert hc o ok).1
  | insertEntry k x ans => exact (step_insertEntry hc o ok).1
  | removeEntry k => exact step_removeEntry hc o
  | andModify k f => exact step_andModify hc o ok
  | occupied k => exact (step_query hc o).1
  | orInsertW k x ans => exact (step_orInsert hc o ok).2
  | insertEntryW k x ans => exact (step_insertEntry hc o ok).2
  | tryInsertW k x ans => exact step_tryInsertW hc o ok
  | insertOrAssignW k x ans => exact step_insertOrAssignW hc o ok
  | contains k => exact step_contains hc o sf
  | get k => exact (step_query hc o).2
  | begin => exact step_begin o
  | rbegin => exact step_rbegin o
  | next a => exact step_next o ok
  | rnext a => exact step_rnext o ok
  | end_ =>
    refine ⟨s, ?_, ⟨T, o⟩, rfl, Touch.no⟩
    obtain ⟨_, ⟨hst, h⟩ | ⟨hst, hl, rfl, h⟩⟩ := o
    · simp only [step, end_, if_neg h.sz_ne, specStepS, specStep, St.fin, hst, if_true, view]
    · simp [step, end_, h.sz, specStepS, specStep, St.fin, hst, view]
  | equalRange b e => exact (step_range hc o).1
  | equalRrange b e => exact (step_range hc o).2
  | size => exact ⟨s, by simp only [step, size_eq o, specStepS, specStep], ⟨T, o⟩, rfl, Touch.no⟩
  | isEmpty => exact ⟨s, by simp only [step, isEmpty_eq o, specStepS, specStep], ⟨T, o⟩, rfl, Touch.no⟩
  | capacity => exact ⟨s, by simp only [step, capacity, o.1, specStepS, specStep], ⟨T, o⟩, rfl, Touch.no⟩
  | validate =>
    refine ⟨s, ?_, ⟨T, o⟩, rfl, Touch.no⟩
    simp only [step, validate_spec hc o, specStepS, specStep, Option.bind_eq_bind, Option.bind_some]
  | clear => exact step_clear o

theorem init_ok (mem : Junk α) (n : Nat) (al : Bool) : Ok cmp key (init mem n al) ⟨[], n, false⟩ nil :=
  ⟨rfl, Or.inr ⟨rfl, rfl, rfl, ⟨rfl, rfl, rfl⟩⟩⟩

/-- What is asked of the caller of a history: what the documentation says (`okOpS`) and no `contains` on an empty
map. -/
def safeRun (cmp : κ → κ → Cmp) (key : α → κ) (al : Bool) : St α → List (Op α κ (Junk α)) → Prop
  | _, [] => True
  | st, o :: os => okOpS cmp key st o ∧ safeOp st o ∧ safeRun cmp key al (specStepS cmp key al st o).1 os

theorem run_spec (hc : LawfulCmp cmp) (ops : List (Op α κ (Junk α))) : ∀ {s : Fom α} {st : St α},
    Sim cmp key s st → safeRun cmp key s.hasAlloc st ops →
    ∃ s', run cmp key s ops = some (s', (specRunS cmp key s.hasAlloc st ops).2) ∧
      Sim cmp key s' (specRunS cmp key s.hasAlloc st ops).1 ∧ s'.hasAlloc = s.hasAlloc := by
  induction ops with
  | nil => intro s l h _; exact ⟨s, rfl, h, rfl⟩
  | cons o os ih =>
    intro s l ⟨T, h⟩ hok
    obtain ⟨s1, r1, m1, a1, _⟩ := step_spec hc h o hok.1 hok.2.1
    obtain ⟨s2, r2, m2, a2⟩ := ih m1 (by rw [a1]; exact hok.2.2)
    rw [a1] at r2 m2
    refine ⟨s2, ?_, m2, by rw [a2, a1]⟩
    simp only [run, r1, r2, Option.bind_eq_bind, Option.bind_some, specRunS]

theorem specRunS_append (al : Bool) (ops ops' : List (Op α κ (Junk α))) : ∀ {st : St α},
    (specRunS cmp key al st (ops ++ ops')).1 = (specRunS cmp key al (specRunS cmp key al st ops).1 ops').1 := by
  induction ops with
  | nil => intro l; rfl
  | cons o os ih => intro l; simp only [List.cons_append, specRunS]; exact ih

theorem safeRun_append (al : Bool) (ops ops' : List (Op α κ (Junk α))) : ∀ {st : St α},
    safeRun cmp key al st (ops ++ ops') ↔
      safeRun cmp key al st ops ∧ safeRun cmp key al (specRunS cmp key al st ops).1 ops' := by
  induction ops with
  | nil => intro l; simp [safeRun, specRunS]
  | cons o os ih => intro l; simp only [List.cons_append, safeRun, specRunS, ih, and_assoc]

end CCC.Fom
