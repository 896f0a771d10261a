import Verif.Proof.FlatRealtimeMap
import Verif.Proof.RealtimeMapStep
/-
Every call of the flat realtime ordered map answers as specified.
-/
namespace CCC.Frm
open CCC Links Tree Wavl MapSpec FlatMap
open CCC.Rom (elems Gap vac_ne_occ vac_not_occ occ_occ unwrap_occ unwrap_vac unwrap_ie)

variable {α κ : Type} {cmp : κ → κ → Cmp} {key : α → κ} {s : Frm α} {st : St α} {l : List (Nat × α)} {T : Tree}

/-! ### Changing a stored element -/

theorem Started.live_mem (h : Started cmp key s l T) {a : Nat} (ha : a ∈ T.ids) : s.t.live a = true :=
  h.ok.wv.whole.tree.live a ha

theorem Started.live_zero (h : Started cmp key s l T) : s.t.live 0 = true := h.ok.wv.whole.live0

theorem write_length (a : Nat) (x : α) (l : List (Nat × α)) : (write a x l).length = l.length := by simp [write]

/-- Overwriting the data of a stored element by data with an equal key. -/
theorem Started.set (h : Started cmp key s l T) (hc : LawfulCmp cmp) {a : Nat} {x : α} (ha : a ∈ T.ids)
    (hx : cmp (key x) (key (s.val a)) = .eql) : Started cmp key { s with val := upd s.val a x } (write a x l) T := by
  obtain ⟨pre, post, e⟩ := List.append_of_mem ha
  obtain ⟨o2, el⟩ := h.ok.set hc (x := x) e hx
  have el' : elems (upd s.val a x) T.ids = elems s.val pre ++ (a, x) :: elems s.val post := el
  have hw : write a x l = elems s.val pre ++ (a, x) :: elems s.val post := by
    rw [← el', h.ok.list]
    simp only [write, elems, List.map_map]
    refine List.map_congr_left (fun b _ => ?_)
    by_cases hb : b = a
    · subst hb; simp
    · simp only [Function.comp, hb, if_false]; rw [upd_ne _ _ hb]; rfl
  have hlen := write_length a x l
  refine ⟨by rw [hw]; exact o2, h.live, by rw [hlen]; exact h.sz, h.le, by rw [hlen]; exact h.slots⟩

/-- Slot 0 may hold anything but an odd parity, and its data do not matter. -/
theorem Started.slot0 (h : Started cmp key s l T) {t' : Links} {x : α} (hr : t'.root = s.t.root) (hl : t'.live = s.t.live)
    (hs : ∀ a, a ≠ 0 → t'.br a = s.t.br a ∧ t'.par a = s.t.par a ∧ t'.parity a = s.t.parity a)
    (hp : t'.parity 0 = true) : Started cmp key { s with t := t', val := upd s.val 0 x } l T := by
  have h0 : ∀ a ∈ T.ids, a ≠ 0 := fun a ha => h.ok.ne_zero ha
  have h0' : (0 : Nat) ∉ T.ids := fun ha => h0 0 ha rfl
  refine ⟨⟨⟨⟨?_, ?_, h.ok.wv.whole.nodup, ?_⟩, ?_, trivial, hp⟩, h.ok.valid, ?_, h.ok.sorted, h.ok.size⟩, ?_, h.sz, h.le,
    h.slots⟩
  · exact hr.trans h.ok.wv.whole.ctx
  · exact h.ok.wv.whole.tree.congr (fun a _ => by show t'.live a = s.t.live a; rw [hl]) (fun a ha => (hs a (h0 a ha)).1)
      (fun a ha => (hs a (h0 a ha)).2.1)
  · show t'.live 0 = true; rw [hl]; exact h.live_zero
  · exact h.ok.wv.rp.congr (fun a ha => (hs a (h0 a ha)).2.2)
  · rw [h.ok.list]; exact (Rom.elems_upd h0').symm
  · exact hl.trans h.live

theorem setVal_live {a : Nat} {x : α} (h : s.t.live a = true) : setVal s a x = some { s with val := upd s.val a x } := by
  rw [setVal, if_pos h]

/-! ### The lazily evaluating macros do what the functions do -/

theorem bufAllocBack_slot {ans : Option (Junk α)} {s' : Frm α} {a : Nat} (h : bufAllocBack s ans = (s', some a)) :
    s'.sz - 1 = a := by
  rw [bufAllocBack] at h
  split at h
  · split at h
    · simp at h
    · simp only [Prod.mk.injEq, Option.some.injEq] at h
      obtain ⟨rfl, rfl⟩ := h; rfl
  · simp only [Prod.mk.injEq, Option.some.injEq] at h
    obtain ⟨rfl, rfl⟩ := h; rfl

theorem allocBack_slot {ans : Option (Junk α)} {s' : Frm α} {a : Nat} (h : allocBack s ans = some (s', some a)) :
    s'.sz - 1 = a := by
  rw [allocBack] at h
  split at h
  · split at h
    · simp at h
    · simp only [Option.bind_eq_bind, Option.bind_eq_some_iff] at h
      obtain ⟨t, _, h⟩ := h
      exact bufAllocBack_slot (Option.some.inj h)
  · exact bufAllocBack_slot (Option.some.inj h)

theorem setVal_sz {a : Nat} {x : α} {s' : Frm α} (h : setVal s a x = some s') : s'.sz = s.sz := by
  rw [setVal] at h
  split at h
  · rw [← Option.some.inj h]
  · cases h

theorem orInsertW_vac {e : FEnt} (h : e.stats ≠ Stat.occupied) (x : α) (ans : Option (Junk α)) :
    orInsertW s e x ans = maybeAllocInsert s e.i e.last x ans := by
  rw [orInsertW, if_neg h, maybeAllocInsert]
  cases h : allocBack s ans with
  | none => rfl
  | some r =>
    obtain ⟨s1, q⟩ := r
    cases q with
    | none => rfl
    | some a =>
      have hs := allocBack_slot h
      simp only [Option.bind_eq_bind, Option.bind_some, hs]
      cases h2 : setVal s1 a x with
      | none => rfl
      | some s2 => simp only [Option.bind_some, setVal_sz h2, hs]

theorem insertEntryW_vac {e : FEnt} (h : Stat.has e.stats Stat.occupied = false) (x : α) (ans : Option (Junk α)) :
    insertEntryW s e x ans = maybeAllocInsert s e.i e.last x ans := by
  rw [insertEntryW, if_pos (by rw [h]; rfl), maybeAllocInsert]
  cases h : allocBack s ans with
  | none => rfl
  | some r =>
    obtain ⟨s1, q⟩ := r
    cases q with
    | none => rfl
    | some a =>
      have hs := allocBack_slot h
      simp only [Option.bind_eq_bind, Option.bind_some, hs]
      cases h2 : setVal s1 a x with
      | none => rfl
      | some s2 => simp only [Option.bind_some, setVal_sz h2, hs]

theorem insertVacantW_eq (s : Frm α) (e : FEnt) (x : α) (ans : Option (Junk α)) :
    insertVacantW s e x ans = (maybeAllocInsert s e.i e.last x ans).map (fun r =>
      (r.1, ⟨r.2, if r.2.isSome then Stat.vacant else Stat.insertError⟩)) := by
  rw [maybeAllocInsert, insertVacantW]
  cases h : allocBack s ans with
  | none => rfl
  | some r =>
    obtain ⟨s1, q⟩ := r
    cases q with
    | none => rfl
    | some a =>
      have hs := allocBack_slot h
      simp only [Option.bind_eq_bind, Option.bind_some, hs]
      cases setVal s1 a x with
      | none => rfl
      | some s2 =>
        simp only [Option.bind_some]
        cases insertNode s2 e.i e.last a <;> rfl

/-! ### What the user sees through returned pointers -/

theorem view_some {a : Nat} (h : a ≠ 0) : view s (some a) = .elem a (s.val a) := by
  cases a with
  | zero => exact absurd rfl h
  | succ a => rfl

theorem view_none : view s none = .null := rfl

theorem view_head {is : List Nat} (h0 : ∀ a ∈ is, a ≠ 0) :
    view s (some (is.headD 0)) = look .fin (elems s.val is).head? := by
  cases is with
  | nil => rfl
  | cons a is => simpa [elems, look] using view_some (h0 a (by simp))

theorem view_last {is : List Nat} (h0 : ∀ a ∈ is, a ≠ 0) :
    view s (some (is.getLastD 0)) = look .fin (elems s.val is).getLast? := by
  rw [← List.head?_reverse, elems, ← List.map_reverse]
  have := view_head (s := s) (is := is.reverse) (by simpa using h0)
  rw [elems] at this
  rw [← this]; simp

theorem view_find {is : List Nat} (h0 : ∀ a ∈ is, a ≠ 0) (p : Nat × α → Bool) :
    view s (some ((is.find? (fun a => p (a, s.val a))).getD 0)) = look .fin ((elems s.val is).find? p) := by
  rw [elems, List.find?_map]
  cases h : is.find? (fun a => p (a, s.val a)) with
  | none =>
    have : is.find? (p ∘ fun a => (a, s.val a)) = none := h
    simp [this, view, look]
  | some a =>
    have h' : is.find? (p ∘ fun a => (a, s.val a)) = some a := h
    have := h0 a (List.mem_of_find?_eq_some h)
    simp [h', look, view_some this]

/-! ### One call -/

/-- The state after a call represents the specified contents. -/
def Sim (cmp : κ → κ → Cmp) (key : α → κ) (s : Frm α) (st : St α) : Prop := ∃ T, Ok cmp key s st T

/-- Goal of the per-call theorem. -/
def StepOk (cmp : κ → κ → Cmp) (key : α → κ) (s : Frm α) (st : St α) (op : Op α κ (Junk α)) : Prop :=
  ∃ s', step cmp key s op = some (s', (specStep cmp key s.hasAlloc st op).2) ∧
    Sim cmp key s' (specStep cmp key s.hasAlloc st op).1 ∧ s'.hasAlloc = s.hasAlloc

theorem entry_eq {k : κ} {q : Query} (h : find cmp key s k = some q) : entry cmp key s k =
    some ⟨q.1, q.2, if q.1 = .eql then Stat.occupied else Stat.vacant ||| Stat.noUnwrap⟩ := by
  simp only [entry, h, Option.bind_eq_bind, Option.bind_some]
  have : Stat.noUnwrap ||| Stat.vacant = Stat.vacant ||| Stat.noUnwrap := by decide
  rw [this]
  split <;> simp_all

/-- The element found. -/
theorem Ok.found (_ : Ok cmp key s st T) (hs : Started cmp key s st.l T) {pre post : List Nat} {a : Nat}
    (e : T.ids = pre ++ a :: post) : a ∈ T.ids ∧ a ≠ 0 ∧ s.t.live a = true ∧ ¬ a ≥ s.cap := by
  have ham : a ∈ T.ids := by rw [e]; simp
  refine ⟨ham, hs.ok.ne_zero ham, hs.live_mem ham, ?_⟩
  have := hs.mem_iff.1 ham
  have := hs.sz
  have := hs.le
  omega

/-- Overwriting the found element. -/
theorem occupied_set (hc : LawfulCmp cmp) (o : Ok cmp key s st T) (hst : st.started = true)
    (hs : Started cmp key s st.l T) {k : κ} {x : α} {pre post : List Nat}
    {a : Nat} (e : T.ids = pre ++ a :: post) (ha : cmp k (key (s.val a)) = .eql) (hk : cmp k (key x) = .eql) :
    Sim cmp key { s with val := upd s.val a x } { st with l := write a x st.l } := by
  obtain ⟨ham, _, _, _⟩ := o.found hs e
  have ha' : cmp (key x) (key (s.val a)) = .eql := by rw [hc.eql_congr_left (hc.symm hk)]; exact ha
  exact ⟨T, (hs.set hc ham ha').toOk o.1 hst rfl⟩

theorem insert_occupied (hc : LawfulCmp cmp) (o : Ok cmp key s st T) (hst : st.started = true)
    (hs : Started cmp key s st.l T) {x : α} {ans : Option (Junk α)} {pre post : List Nat} {a : Nat} (e : T.ids = pre ++ a :: post)
    (ha : cmp (key x) (key (s.val a)) = .eql) (hf : find cmp key s (key x) = some (.eql, a)) :
    ∃ s', insert cmp key s x ans = some (s', ⟨some a, Stat.occupied⟩, s.val a) ∧
      Sim cmp key s' { st with l := write a x st.l } ∧ s'.hasAlloc = s.hasAlloc ∧ s'.val a = x := by
  obtain ⟨ham, a0, al, _⟩ := o.found hs e
  have l0 := hs.live_zero
  let t1 : Links := { s.t with
      br := fun b d => if b = 0 then s.t.br a d else s.t.br b d
      par := upd s.t.par 0 (s.t.par a)
      parity := upd s.t.parity 0 (s.t.parity a) }
  let t2 : Links := { t1 with parity := upd t1.parity 0 true }
  have e1 : copyLinks s.t 0 a = some t1 := by simp [copyLinks, l0, al, t1]
  have run : insert cmp key s x ans =
      some ({ s with t := t2, val := upd (upd s.val 0 x) a x }, ⟨some a, Stat.occupied⟩, s.val a) := by
    rw [insert]
    simp only [hf, Option.bind_eq_bind, Option.bind_some, if_true, e1]
    rw [setVal_live (by exact l0)]
    simp only [Option.bind_some, upd_same, upd_ne _ _ a0]
    rw [setVal_live (by exact al)]
    simp only [Option.bind_some]
    rw [setParity_live (by exact l0)]
    rfl
  have s1 := hs.slot0 (t' := t2) (x := x) rfl rfl (by
    intro b hb
    refine ⟨?_, ?_, ?_⟩
    · funext d; simp [t2, t1, hb]
    · simp [t2, t1, upd_ne _ _ hb]
    · simp [t2, t1, upd_ne _ _ hb]) (by simp [t2])
  have s2 := s1.set hc (x := x) ham (by show cmp (key x) (key (upd s.val 0 x a)) = _; rw [upd_ne _ _ a0]; exact ha)
  exact ⟨_, run, ⟨T, s2.toOk o.1 hst rfl⟩, rfl, by show upd (upd s.val 0 x) a x a = x; simp⟩

theorem step_insert (hc : LawfulCmp cmp) (o : Ok cmp key s st T) {x : α} {ans : Option (Junk α)} :
    StepOk cmp key s st (.insert x ans) := by
  rcases o.find hc (key x) with ⟨pre, a, post, hst, hs, e, ha, h1, h2, hf, hlk⟩ | ⟨q, hf, hq, g, hlk⟩
  · obtain ⟨s', run, sim, al, hv⟩ := insert_occupied hc o hst hs (ans := ans) e ha hf
    obtain ⟨_, a0, _, _⟩ := o.found hs e
    refine ⟨s', ?_, by simp only [specStep, hlk]; exact sim, al⟩
    simp only [step, run, specStep, hlk, Option.bind_eq_bind, Option.bind_some, unwrap_occ, view_some a0, hv]
  · obtain ⟨s', T', run, o', a', hv⟩ := maybeAllocInsert_spec o hc g (x := x) (hc.refl _) ans
    refine ⟨s', ?_, ⟨T', ?_⟩, a'⟩
    · simp only [step, insert, hf, specStep, hlk, Option.bind_eq_bind, Option.bind_some, if_neg hq, run]
      cases hadd : add cmp key s.hasAlloc ans.isSome st x with
      | mk st' r =>
        cases r <;> simp only [Option.bind_some, unwrap_ie, unwrap_vac, view_none]
    · simp only [specStep, hlk]
      cases hadd : add cmp key s.hasAlloc ans.isSome st x with
      | mk st' r =>
        rw [hadd] at o'
        cases r <;> exact o'

theorem step_tryInsert (hc : LawfulCmp cmp) (o : Ok cmp key s st T) {x : α} {ans : Option (Junk α)} :
    StepOk cmp key s st (.tryInsert x ans) := by
  rcases o.find hc (key x) with ⟨pre, a, post, hst, hs, e, ha, h1, h2, hf, hlk⟩ | ⟨q, hf, hq, g, hlk⟩
  · obtain ⟨_, a0, _, _⟩ := o.found hs e
    refine ⟨s, ?_, by simp only [specStep, hlk]; exact ⟨T, o⟩, rfl⟩
    simp only [step, tryInsert, hf, specStep, hlk, Option.bind_eq_bind, Option.bind_some, if_true, unwrap_occ,
      view_some a0]
  · obtain ⟨s', T', run, o', a', hv⟩ := maybeAllocInsert_spec o hc g (x := x) (hc.refl _) ans
    refine ⟨s', ?_, ⟨T', ?_⟩, a'⟩
    · simp only [step, tryInsert, hf, specStep, hlk, Option.bind_eq_bind, Option.bind_some, if_neg hq, run]
      cases hadd : add cmp key s.hasAlloc ans.isSome st x with
      | mk st' r =>
        rw [hadd] at hv
        cases r with
        | none => simp only [Option.bind_some, unwrap_ie, view_none]
        | some n =>
          obtain ⟨n0, hn⟩ := hv n rfl
          simp only [Option.bind_some, unwrap_vac, view_some n0, hn]
    · simp only [specStep, hlk]
      cases hadd : add cmp key s.hasAlloc ans.isSome st x with
      | mk st' r =>
        rw [hadd] at o'
        cases r <;> exact o'

theorem step_insertOrAssign (hc : LawfulCmp cmp) (o : Ok cmp key s st T) {x : α} {ans : Option (Junk α)} :
    StepOk cmp key s st (.insertOrAssign x ans) := by
  rcases o.find hc (key x) with ⟨pre, a, post, hst, hs, e, ha, h1, h2, hf, hlk⟩ | ⟨q, hf, hq, g, hlk⟩
  · obtain ⟨_, a0, al, _⟩ := o.found hs e
    refine ⟨{ s with val := upd s.val a x }, ?_, by simp only [specStep, hlk]; exact occupied_set hc o hst hs e ha (hc.refl _), rfl⟩
    simp only [step, insertOrAssign, hf, specStep, hlk, Option.bind_eq_bind, Option.bind_some, if_true, unwrap_occ,
      view_some a0, setVal_live al, upd_same]
  · obtain ⟨s', T', run, o', a', hv⟩ := maybeAllocInsert_spec o hc g (x := x) (hc.refl _) ans
    refine ⟨s', ?_, ⟨T', ?_⟩, a'⟩
    · simp only [step, insertOrAssign, hf, specStep, hlk, Option.bind_eq_bind, Option.bind_some, if_neg hq, run]
      cases hadd : add cmp key s.hasAlloc ans.isSome st x with
      | mk st' r =>
        rw [hadd] at hv
        cases r with
        | none => simp only [Option.bind_some, unwrap_ie, view_none]
        | some n =>
          obtain ⟨n0, hn⟩ := hv n rfl
          simp only [Option.bind_some, unwrap_vac, view_some n0, hn]
    · simp only [specStep, hlk]
      cases hadd : add cmp key s.hasAlloc ans.isSome st x with
      | mk st' r =>
        rw [hadd] at o'
        cases r <;> exact o'

theorem view_added {s' : Frm α} {x : α} {r : Option Nat} (h : ∀ n, r = some n → n ≠ 0 ∧ s'.val n = x) :
    view s' r = added x r := by
  cases r with
  | none => rfl
  | some n => obtain ⟨n0, hn⟩ := h n rfl; rw [view_some n0, hn]; rfl

theorem step_orInsert (hc : LawfulCmp cmp) (o : Ok cmp key s st T) {k : κ} {x : α} {ans : Option (Junk α)}
    (hk : cmp k (key x) = .eql) : StepOk cmp key s st (.orInsert k x ans) ∧ StepOk cmp key s st (.orInsertW k x ans) := by
  rcases o.find hc k with ⟨pre, a, post, hst, hs, e, ha, h1, h2, hf, hlk⟩ | ⟨q, hf, hq, g, hlk⟩
  · obtain ⟨_, a0, al, ac⟩ := o.found hs e
    refine ⟨⟨s, ?_, by simp only [specStep, hlk]; exact ⟨T, o⟩, rfl⟩, ⟨s, ?_, by simp only [specStep, hlk]; exact ⟨T, o⟩, rfl⟩⟩
    · simp only [step, entry_eq hf, orInsert, specStep, hlk, Option.bind_eq_bind, Option.bind_some, if_true, view_some a0]
    · simp only [step, entry_eq hf, orInsertW, specStep, hlk, Option.bind_eq_bind, Option.bind_some, if_true, if_neg ac,
        view_some a0]
  · obtain ⟨s', T', run, o', a', hv⟩ := maybeAllocInsert_spec o hc g (x := x) hk ans
    refine ⟨⟨s', ?_, by simp only [specStep, hlk]; exact ⟨T', o'⟩, a'⟩, ⟨s', ?_, by simp only [specStep, hlk]; exact ⟨T', o'⟩, a'⟩⟩
    · simp only [step, entry_eq hf, orInsert, specStep, hlk, Option.bind_eq_bind, Option.bind_some, if_neg hq,
        if_neg vac_ne_occ, run, view_added hv]
    · simp only [step, entry_eq hf, specStep, hlk, Option.bind_eq_bind, Option.bind_some, if_neg hq]
      rw [orInsertW_vac vac_ne_occ, run]
      simp only [Option.bind_some, view_added hv]

theorem step_insertEntry (hc : LawfulCmp cmp) (o : Ok cmp key s st T) {k : κ} {x : α} {ans : Option (Junk α)}
    (hk : cmp k (key x) = .eql) :
    StepOk cmp key s st (.insertEntry k x ans) ∧ StepOk cmp key s st (.insertEntryW k x ans) := by
  rcases o.find hc k with ⟨pre, a, post, hst, hs, e, ha, h1, h2, hf, hlk⟩ | ⟨q, hf, hq, g, hlk⟩
  · obtain ⟨_, a0, al, ac⟩ := o.found hs e
    have sim := occupied_set hc o hst hs e ha hk
    refine ⟨⟨{ s with val := upd s.val a x }, ?_, by simp only [specStep, hlk]; exact sim, rfl⟩,
      ⟨{ s with val := upd s.val a x }, ?_, by simp only [specStep, hlk]; exact sim, rfl⟩⟩
    · simp only [step, entry_eq hf, insertEntry, specStep, hlk, Option.bind_eq_bind, Option.bind_some, if_true,
        view_some a0, setVal_live al, upd_same]
    · simp only [step, entry_eq hf, insertEntryW, specStep, hlk, Option.bind_eq_bind, Option.bind_some, if_true, occ_occ,
        Bool.not_true, Bool.false_eq_true, if_false, view_some a0, setVal_live al, upd_same]
  · obtain ⟨s', T', run, o', a', hv⟩ := maybeAllocInsert_spec o hc g (x := x) hk ans
    refine ⟨⟨s', ?_, by simp only [specStep, hlk]; exact ⟨T', o'⟩, a'⟩, ⟨s', ?_, by simp only [specStep, hlk]; exact ⟨T', o'⟩, a'⟩⟩
    · simp only [step, entry_eq hf, insertEntry, specStep, hlk, Option.bind_eq_bind, Option.bind_some, if_neg hq,
        if_neg vac_ne_occ, run, view_added hv]
    · simp only [step, entry_eq hf, specStep, hlk, Option.bind_eq_bind, Option.bind_some, if_neg hq]
      rw [insertEntryW_vac vac_not_occ, run]
      simp only [Option.bind_some, view_added hv]

theorem step_tryInsertW (hc : LawfulCmp cmp) (o : Ok cmp key s st T) {k : κ} {x : α} {ans : Option (Junk α)}
    (hk : cmp k (key x) = .eql) : StepOk cmp key s st (.tryInsertW k x ans) := by
  rcases o.find hc k with ⟨pre, a, post, hst, hs, e, ha, h1, h2, hf, hlk⟩ | ⟨q, hf, hq, g, hlk⟩
  · obtain ⟨_, a0, _, ac⟩ := o.found hs e
    refine ⟨s, ?_, by simp only [specStep, hlk]; exact ⟨T, o⟩, rfl⟩
    simp only [step, tryInsertW, entry_eq hf, specStep, hlk, Option.bind_eq_bind, Option.bind_some, if_true, occ_occ,
      Bool.not_true, Bool.false_eq_true, if_false, if_neg ac, unwrap_occ, view_some a0]
  · obtain ⟨s', T', run, o', a', hv⟩ := maybeAllocInsert_spec o hc g (x := x) hk ans
    refine ⟨s', ?_, ⟨T', ?_⟩, a'⟩
    · simp only [step, tryInsertW, entry_eq hf, specStep, hlk, Option.bind_eq_bind, Option.bind_some, if_neg hq,
        vac_not_occ, Bool.not_false, if_true, insertVacantW_eq, run]
      cases hadd : add cmp key s.hasAlloc ans.isSome st x with
      | mk st' r =>
        rw [hadd] at hv
        cases r with
        | none => simp [unwrap_ie, view_none]
        | some n =>
          obtain ⟨n0, hn⟩ := hv n rfl
          simp [unwrap_vac, view_some n0, hn]
    · simp only [specStep, hlk]
      cases hadd : add cmp key s.hasAlloc ans.isSome st x with
      | mk st' r =>
        rw [hadd] at o'
        cases r <;> exact o'

theorem step_insertOrAssignW (hc : LawfulCmp cmp) (o : Ok cmp key s st T) {k : κ} {x : α} {ans : Option (Junk α)}
    (hk : cmp k (key x) = .eql) : StepOk cmp key s st (.insertOrAssignW k x ans) := by
  rcases o.find hc k with ⟨pre, a, post, hst, hs, e, ha, h1, h2, hf, hlk⟩ | ⟨q, hf, hq, g, hlk⟩
  · obtain ⟨_, a0, al, ac⟩ := o.found hs e
    have sim := occupied_set hc o hst hs e ha hk
    refine ⟨{ s with val := upd s.val a x }, ?_, by simp only [specStep, hlk]; exact sim, rfl⟩
    simp only [step, insertOrAssignW, entry_eq hf, specStep, hlk, Option.bind_eq_bind, Option.bind_some, if_true, occ_occ,
      Bool.not_true, Bool.false_eq_true, if_false, unwrap_occ, view_some a0, setVal_live al, upd_same]
  · obtain ⟨s', T', run, o', a', hv⟩ := maybeAllocInsert_spec o hc g (x := x) hk ans
    refine ⟨s', ?_, ⟨T', ?_⟩, a'⟩
    · simp only [step, insertOrAssignW, entry_eq hf, specStep, hlk, Option.bind_eq_bind, Option.bind_some, if_neg hq,
        vac_not_occ, Bool.not_false, if_true, insertVacantW_eq, run]
      cases hadd : add cmp key s.hasAlloc ans.isSome st x with
      | mk st' r =>
        rw [hadd] at hv
        cases r with
        | none => simp [unwrap_ie, view_none]
        | some n =>
          obtain ⟨n0, hn⟩ := hv n rfl
          simp [unwrap_vac, view_some n0, hn]
    · simp only [specStep, hlk]
      cases hadd : add cmp key s.hasAlloc ans.isSome st x with
      | mk st' r =>
        rw [hadd] at o'
        cases r <;> exact o'

/-! Removal, modification. -/

theorem removed (o : Ok cmp key s st T) (hst : st.started = true) (hs : Started cmp key s st.l T)
    {k : κ} {pre post : List Nat} {a : Nat} (e : T.ids = pre ++ a :: post) (ha : cmp k (key (s.val a)) = .eql)
    (h1 : ∀ e ∈ elems s.val pre, cmp k (ekey key e) = .grt) (h2 : ∀ e ∈ elems s.val post, cmp k (ekey key e) = .les) :
    ∃ s', removeFixup s a = some (s', st.l.length) ∧ Sim cmp key s' { st with l := drop cmp key k a st.l } ∧
      s'.hasAlloc = s.hasAlloc ∧ s'.val st.l.length = s.val a ∧ st.l.length ≠ 0 := by
  obtain ⟨s', T', run, s2, c2, a2, v2⟩ := removeFixup_spec hs e
  have hl : erase cmp (ekey key) k st.l = elems s.val (pre ++ post) := by
    rw [hs.ok.list, e]; exact Rom.remove_list h1 ha h2
  refine ⟨s', run, ⟨T', s2.toOk (by rw [c2]; exact o.1) hst ?_⟩, a2, v2, ?_⟩
  · show drop cmp key k a st.l = _; rw [drop, hl]
  · have := hs.mem_iff.1 (o.found hs e).1; omega

theorem step_remove (hc : LawfulCmp cmp) (o : Ok cmp key s st T) {x : α} : StepOk cmp key s st (.remove x) := by
  rcases o.find hc (key x) with ⟨pre, a, post, hst, hs, e, ha, h1, h2, hf, hlk⟩ | ⟨q, hf, hq, g, hlk⟩
  · obtain ⟨s', run, sim, a', v', _⟩ := removed o hst hs e ha h1 h2
    refine ⟨s', ?_, by simp only [specStep, hlk]; exact sim, a'⟩
    simp only [step, remove, hf, specStep, hlk, Option.bind_eq_bind, Option.bind_some, ne_eq, not_true_eq_false, if_false,
      run, v']
  · refine ⟨s, ?_, by simp only [specStep, hlk]; exact ⟨T, o⟩, rfl⟩
    simp only [step, remove, hf, specStep, hlk, Option.bind_eq_bind, Option.bind_some, ne_eq, hq, not_false_eq_true,
      if_true]

theorem step_removeEntry (hc : LawfulCmp cmp) (o : Ok cmp key s st T) {k : κ} :
    StepOk cmp key s st (.removeEntry k) := by
  rcases o.find hc k with ⟨pre, a, post, hst, hs, e, ha, h1, h2, hf, hlk⟩ | ⟨q, hf, hq, g, hlk⟩
  · obtain ⟨s', run, sim, a', v', n0⟩ := removed o hst hs e ha h1 h2
    refine ⟨s', ?_, by simp only [specStep, hlk]; exact sim, a'⟩
    simp only [step, entry_eq hf, removeEntry, specStep, hlk, Option.bind_eq_bind, Option.bind_some, if_true, run, v',
      unwrap_occ, view_some n0]
  · refine ⟨s, ?_, by simp only [specStep, hlk]; exact ⟨T, o⟩, rfl⟩
    simp only [step, entry_eq hf, removeEntry, specStep, hlk, Option.bind_eq_bind, Option.bind_some, if_neg hq,
      if_neg vac_ne_occ, unwrap_vac, view_none]

theorem step_andModify (hc : LawfulCmp cmp) (o : Ok cmp key s st T) {k : κ} {f : α → α}
    (ok : okOp cmp key st (.andModify k f : Op α κ (Junk α))) : StepOk cmp key s st (.andModify k f) := by
  rcases o.find hc k with ⟨pre, a, post, hst, hs, e, ha, h1, h2, hf, hlk⟩ | ⟨q, hf, hq, g, hlk⟩
  · obtain ⟨ham, a0, al, ac⟩ := o.found hs e
    have hm : (a, s.val a) ∈ st.l := by rw [hs.ok.list, Rom.mem_elems]; exact ⟨ham, rfl⟩
    have hk := ok (a, s.val a) hm ha
    refine ⟨{ s with val := upd s.val a (f (s.val a)) }, ?_, ⟨T, ?_⟩, rfl⟩
    · simp only [step, entry_eq hf, andModify, specStep, hlk, Option.bind_eq_bind, Option.bind_some, if_true, occ_occ,
        setVal_live al, unwrap, if_neg ac, view_some a0, upd_same]
    · simp only [specStep, hlk]
      exact (hs.set hc ham hk).toOk o.1 hst rfl
  · refine ⟨s, ?_, by simp only [specStep, hlk]; exact ⟨T, o⟩, rfl⟩
    simp only [step, entry_eq hf, andModify, specStep, hlk, Option.bind_eq_bind, Option.bind_some, if_neg hq,
      vac_not_occ, Bool.false_eq_true, if_false, unwrap, view_none]

/-! Queries. -/

theorem step_query (hc : LawfulCmp cmp) (o : Ok cmp key s st T) {k : κ} :
    StepOk cmp key s st (.occupied k) ∧ StepOk cmp key s st (.contains k) ∧ StepOk cmp key s st (.get k) := by
  rcases o.find hc k with ⟨pre, a, post, hst, hs, e, ha, h1, h2, hf, hlk⟩ | ⟨q, hf, hq, g, hlk⟩
  · obtain ⟨ham, a0, al, ac⟩ := o.found hs e
    refine ⟨⟨s, ?_, ⟨T, o⟩, rfl⟩, ⟨s, ?_, ⟨T, o⟩, rfl⟩, ⟨s, ?_, ⟨T, o⟩, rfl⟩⟩
    · simp only [step, entry_eq hf, specStep, hlk, Option.bind_eq_bind, Option.bind_some, occupied, if_true, occ_occ,
        Option.isSome_some]
    · simp only [step, contains, hf, specStep, hlk, Option.bind_eq_bind, Option.bind_some, Option.isSome_some,
        beq_self_eq_true]
    · simp only [step, get, hf, specStep, hlk, Option.bind_eq_bind, Option.bind_some, beq_self_eq_true, if_true,
        view_some a0, look]
  · have hq' : (q.1 == Cmp.eql) = false := by simpa using hq
    refine ⟨⟨s, ?_, ⟨T, o⟩, rfl⟩, ⟨s, ?_, ⟨T, o⟩, rfl⟩, ⟨s, ?_, ⟨T, o⟩, rfl⟩⟩
    · simp only [step, entry_eq hf, specStep, hlk, Option.bind_eq_bind, Option.bind_some, occupied, if_neg hq,
        vac_not_occ, Option.isSome_none]
    · simp only [step, contains, hf, specStep, hlk, Option.bind_eq_bind, Option.bind_some, Option.isSome_none, hq']
    · simp only [step, get, hf, specStep, hlk, Option.bind_eq_bind, Option.bind_some, hq', Bool.false_eq_true, if_false,
        view_none, look]

theorem Ok.sz_ne (hs : Started cmp key s l T) : s.sz ≠ 0 := by rw [hs.sz]; omega

theorem step_begin (o : Ok cmp key s st T) : StepOk cmp key s st .begin := by
  refine ⟨s, ?_, ⟨T, o⟩, rfl⟩
  obtain ⟨_, ⟨hst, h⟩ | ⟨hst, hl, rfl, h⟩⟩ := o
  · have hm : minMaxFrom s.t s.t.root false = some (endOf false T.ids) := minMaxFrom_spec h.ok.wv false
    simp only [step, begin_, if_neg (Ok.sz_ne h), hm, Option.bind_eq_bind, Option.bind_some, specStep, endOf,
      Bool.false_eq_true, if_false, St.fin, hst, if_true]
    rw [view_head (fun a ha => h.ok.ne_zero ha), h.ok.list]; rfl
  · simp [step, begin_, h.sz, specStep, St.fin, hst, hl, look, view]

theorem step_rbegin (o : Ok cmp key s st T) : StepOk cmp key s st .rbegin := by
  refine ⟨s, ?_, ⟨T, o⟩, rfl⟩
  obtain ⟨_, ⟨hst, h⟩ | ⟨hst, hl, rfl, h⟩⟩ := o
  · have hm : minMaxFrom s.t s.t.root true = some (endOf true T.ids) := minMaxFrom_spec h.ok.wv true
    simp only [step, begin_, if_neg (Ok.sz_ne h), hm, Option.bind_eq_bind, Option.bind_some, specStep, endOf,
      St.fin, hst, if_true]
    rw [view_last (fun a ha => h.ok.ne_zero ha), h.ok.list]; rfl
  · simp [step, begin_, h.sz, specStep, St.fin, hst, hl, look, view]

theorem started_of_mem (o : Ok cmp key s st T) {a : Nat} (h : ∃ e ∈ st.l, e.1 = a) :
    st.started = true ∧ Started cmp key s st.l T := by
  obtain ⟨_, ⟨hst, h'⟩ | ⟨hst, hl, rfl, h'⟩⟩ := o
  · exact ⟨hst, h'⟩
  · obtain ⟨e, he, _⟩ := h; rw [hl] at he; simp at he

theorem step_next (o : Ok cmp key s st T) {a : Nat} (ok : okOp cmp key st (.next a : Op α κ (Junk α))) :
    StepOk cmp key s st (.next a) := by
  obtain ⟨hst, h⟩ := started_of_mem o ok
  obtain ⟨pre, post, e, h1, h2⟩ := h.ok.split ok
  refine ⟨s, ?_, ⟨T, o⟩, rfl⟩
  have hn : Wavl.next s.t a true = some (post.headD 0) := next_spec h.ok.wv e true
  simp only [step, next, if_neg (Ok.sz_ne h), hn, Option.bind_eq_bind, Option.bind_some, specStep, St.fin, hst, if_true]
  rw [view_head (fun b hb => h.ok.ne_zero (by rw [e]; simp [hb])), h.ok.list, e, Rom.dropWhile_split h1]; rfl

theorem step_rnext (o : Ok cmp key s st T) {a : Nat} (ok : okOp cmp key st (.rnext a : Op α κ (Junk α))) :
    StepOk cmp key s st (.rnext a) := by
  obtain ⟨hst, h⟩ := started_of_mem o ok
  obtain ⟨pre, post, e, h1, h2⟩ := h.ok.split ok
  refine ⟨s, ?_, ⟨T, o⟩, rfl⟩
  have hn : Wavl.next s.t a false = some (pre.getLastD 0) := next_spec h.ok.wv e false
  simp only [step, next, if_neg (Ok.sz_ne h), hn, Option.bind_eq_bind, Option.bind_some, specStep, St.fin, hst, if_true]
  have hl : st.l = elems s.val (pre ++ a :: post) := by rw [h.ok.list, e]; rfl
  rw [view_last (fun b hb => h.ok.ne_zero (by rw [e]; simp [hb])), hl]
  have : (elems s.val (pre ++ a :: post)).reverse = elems s.val (post.reverse ++ a :: pre.reverse) := by
    simp [elems]
  rw [this, Rom.dropWhile_split (by simpa using h2)]
  simp [elems]

theorem size_eq (o : Ok cmp key s st T) : size s = st.l.length := by
  obtain ⟨_, ⟨hst, h⟩ | ⟨hst, hl, rfl, h⟩⟩ := o
  · rw [size, if_neg (Ok.sz_ne h), h.sz]; rfl
  · rw [size, if_pos h.sz, h.sz, hl]; rfl

theorem isEmpty_eq (o : Ok cmp key s st T) : isEmpty s = st.l.isEmpty := by
  rw [isEmpty, size_eq o]; cases st.l <;> simp

theorem step_range (hc : LawfulCmp cmp) (o : Ok cmp key s st T) {b e : κ} :
    StepOk cmp key s st (.equalRange b e) ∧ StepOk cmp key s st (.equalRrange b e) := by
  have he := isEmpty_eq o
  cases hl : st.l with
  | nil =>
    rw [hl] at he
    refine ⟨⟨s, ?_, ⟨T, by simp [specStep, hl]; exact o⟩, rfl⟩, ⟨s, ?_, ⟨T, by simp [specStep, hl]; exact o⟩, rfl⟩⟩ <;>
      simp [step, equalRange, he, specStep, hl, view_none]
  | cons y ys =>
    have hne : st.l ≠ [] := by rw [hl]; simp
    have hemp : st.l.isEmpty = false := by rw [hl]; rfl
    rw [hemp] at he
    have hs : Started cmp key s st.l T := by
      obtain ⟨_, ⟨_, h⟩ | ⟨_, hl', _, _⟩⟩ := o
      · exact h
      · exact absurd hl' hne
    have hT : T ≠ nil := by
      intro hh; apply hne; rw [hs.ok.list, hh]; rfl
    have h0 : ∀ a ∈ T.ids, a ≠ 0 := fun a ha => hs.ok.ne_zero ha
    have h0' : ∀ a ∈ T.ids.reverse, a ≠ 0 := by simpa using h0
    have er : (elems s.val T.ids).reverse = elems s.val T.ids.reverse := by simp [elems]
    have eq1 : ∀ trav, Wavl.equalRange s.t (at_ cmp key s b) (at_ cmp key s e) trav = _ :=
      equalRange_spec hs.ok.wv hT (hs.ok.mono hc b) (hs.ok.mono hc e)
    have hlist : st.l = elems s.val T.ids := hs.ok.list
    refine ⟨⟨s, ?_, ⟨T, by simp [specStep, hemp]; exact o⟩, rfl⟩, ⟨s, ?_, ⟨T, by simp [specStep, hemp]; exact o⟩, rfl⟩⟩
    · simp only [step, equalRange, he, Bool.false_eq_true, if_false, eq1, if_true, Option.bind_eq_bind, Option.bind_some,
        specStep, hemp, firstNotLess, firstGreater]
      rw [hlist, ← view_find h0, ← view_find h0]
      rfl
    · simp only [step, equalRange, he, Bool.false_eq_true, if_false, eq1, Option.bind_eq_bind, Option.bind_some,
        specStep, hemp, lastNotGreater, lastLess]
      rw [hlist, er, ← view_find h0', ← view_find h0']
      rfl

theorem validate_spec (hc : LawfulCmp cmp) (o : Ok cmp key s st T) : validate cmp key s = some true := by
  obtain ⟨_, ⟨hst, h⟩ | ⟨hst, hl, rfl, h⟩⟩ := o
  · have hroot : s.t.root = T.rootId := h.ok.wv.whole.ctx
    have hs : T.ids.Pairwise (fun a b => cmp (key (s.val a)) (key (s.val b)) = .les) := by
      have := h.ok.sorted
      rw [h.ok.list] at this
      unfold Sorted elems at this
      rw [List.pairwise_map] at this
      exact this
    have hsz : T.ids.length = s.sz - 1 := by
      have := h.ok.size
      rw [h.ok.list] at this
      simp only [elems, List.length_map] at this
      exact this.symm
    have e1 := Rom.areSubtreesValid_spec hc (asRom s) (low := 0) (high := 0) h.ok.wv.whole.tree hs (by simp) (by simp)
    have e2 : Rom.recursiveSize s.t T.rootId = some T.ids.length := Rom.recursiveSize_spec h.ok.wv.whole.tree
    have e3 : Rom.isStoringParent s.t 0 T.rootId = some true := Rom.isStoringParent_spec (t := T) h.ok.wv.whole.tree
    have p0 : s.t.parity 0 = true := h.ok.wv.par0
    rw [validate]
    simp only [if_pos (Ok.sz_ne h), getParity_live h.live_zero, p0, Option.bind_eq_bind, Option.bind_some, hroot, e1, e2,
      Bool.not_true, Bool.false_eq_true, if_false, hsz, ne_eq, not_true_eq_false, and_false]
    exact e3
  · rw [validate]
    simp only [h.sz, h.root]
    rw [Rom.areSubtreesValid, Rom.recursiveSize, Rom.isStoringParent]
    simp

theorem step_clear (o : Ok cmp key s st T) (ok : okOp cmp key st (.clear : Op α κ (Junk α))) :
    StepOk cmp key s st .clear := by
  obtain ⟨hcap, ⟨hst, h⟩ | ⟨hst, hl, rfl, h⟩⟩ := o
  · have h1 := h.sz
    have h2 := h.le
    have hc1 : ¬ (1 > s.cap) := by omega
    have hc0 : st.cap ≠ 0 := by omega
    refine ⟨setSize { s with t := s.t.setRoot 0 } 1, ?_, ⟨nil, hcap, Or.inl ⟨hst, ?_⟩⟩, rfl⟩
    · simp only [step, clear, sizeSet, hc1, if_false, Bool.not_false, if_true, Option.bind_eq_bind, Option.bind_some,
        specStep, hc0]
    · refine ⟨⟨⟨⟨rfl, trivial, by simp [ids], ?_⟩, trivial, trivial, h.ok.wv.par0⟩, trivial, rfl, List.Pairwise.nil, rfl⟩,
        rfl, rfl, by show 1 ≤ s.cap; omega, ?_⟩
      · show inUse 1 s.cap 0 = true
        rw [inUse_lt (by omega)]; omega
      · intro a h1 h2; simp [specStep] at h2; omega
  · have h0 : st.cap = 0 := by
      rcases ok with h' | h'
      · rw [hst] at h'; cases h'
      · exact h'
    have hs0 : s.cap = 0 := by rw [hcap, h0]
    have hc1 : 1 > s.cap := by omega
    refine ⟨setSize { s with t := s.t.setRoot 0 } s.cap, ?_, ⟨nil, hcap, Or.inr ⟨hst, rfl, rfl, ?_⟩⟩, rfl⟩
    · simp only [step, clear, sizeSet, hc1, Bool.not_false, if_true, Option.bind_eq_bind, Option.bind_some,
        specStep, h0]
    · exact ⟨rfl, hs0, rfl⟩

/-- Every call, from every state that represents a specification state, answers as specified and leads to a state that
represents the specified one. -/
theorem step_spec (hc : LawfulCmp cmp) (o : Ok cmp key s st T) (op : Op α κ (Junk α)) (ok : okOp cmp key st op) :
    StepOk cmp key s st op := by
  cases op with
  | insert x ans => exact step_insert hc o
  | tryInsert x ans => exact step_tryInsert hc o
  | insertOrAssign x ans => exact step_insertOrAssign hc o
  | remove x => exact step_remove hc o
  | orInsert k x ans => exact (step_orInsert hc o ok).1
  | insertEntry k x ans => exact (step_insertEntry hc o ok).1
  | removeEntry k => exact step_removeEntry hc o
  | andModify k f => exact step_andModify hc o ok
  | occupied k => exact (step_query hc o).1
  | orInsertW k x ans => exact (step_orInsert hc o ok).2
  | insertEntryW k x ans => exact (step_insertEntry hc o ok).2
  | tryInsertW k x ans => exact step_tryInsertW hc o ok
  | insertOrAssignW k x ans => exact step_insertOrAssignW hc o ok
  | contains k => exact (step_query hc o).2.1
  | get k => exact (step_query hc o).2.2
  | begin => exact step_begin o
  | rbegin => exact step_rbegin o
  | next a => exact step_next o ok
  | rnext a => exact step_rnext o ok
  | end_ =>
    refine ⟨s, ?_, ⟨T, o⟩, rfl⟩
    obtain ⟨_, ⟨hst, h⟩ | ⟨hst, hl, rfl, h⟩⟩ := o
    · simp only [step, end_, if_neg (Ok.sz_ne h), specStep, St.fin, hst, if_true, view]
    · simp [step, end_, h.sz, specStep, St.fin, hst, view]
  | equalRange b e => exact (step_range hc o).1
  | equalRrange b e => exact (step_range hc o).2
  | size => exact ⟨s, by simp only [step, size_eq o, specStep], ⟨T, o⟩, rfl⟩
  | isEmpty => exact ⟨s, by simp only [step, isEmpty_eq o, specStep], ⟨T, o⟩, rfl⟩
  | capacity => exact ⟨s, by simp only [step, capacity, o.1, specStep], ⟨T, o⟩, rfl⟩
  | validate =>
    refine ⟨s, ?_, ⟨T, o⟩, rfl⟩
    simp only [step, validate_spec hc o, specStep, Option.bind_eq_bind, Option.bind_some]
  | clear => exact step_clear o ok

theorem init_ok (mem : Junk α) (n : Nat) (al : Bool) : Ok cmp key (init mem n al) ⟨[], n, false⟩ nil :=
  ⟨rfl, Or.inr ⟨rfl, rfl, rfl, ⟨rfl, rfl, rfl⟩⟩⟩

theorem run_spec (hc : LawfulCmp cmp) (ops : List (Op α κ (Junk α))) : ∀ {s : Frm α} {st : St α},
    Sim cmp key s st → okRun cmp key s.hasAlloc st ops →
    ∃ s', run cmp key s ops = some (s', (specRun cmp key s.hasAlloc st ops).2) ∧
      Sim cmp key s' (specRun cmp key s.hasAlloc st ops).1 ∧ s'.hasAlloc = s.hasAlloc := by
  induction ops with
  | nil => intro s l h _; exact ⟨s, rfl, h, rfl⟩
  | cons o os ih =>
    intro s l ⟨T, h⟩ hok
    obtain ⟨s1, r1, m1, a1⟩ := step_spec hc h o hok.1
    obtain ⟨s2, r2, m2, a2⟩ := ih m1 (by rw [a1]; exact hok.2)
    rw [a1] at r2 m2
    refine ⟨s2, ?_, m2, by rw [a2, a1]⟩
    simp only [run, r1, r2, Option.bind_eq_bind, Option.bind_some, specRun]

theorem specRun_append (al : Bool) (ops ops' : List (Op α κ (Junk α))) : ∀ {st : St α},
    (specRun cmp key al st (ops ++ ops')).1 = (specRun cmp key al (specRun cmp key al st ops).1 ops').1 := by
  induction ops with
  | nil => intro l; rfl
  | cons o os ih => intro l; simp only [List.cons_append, specRun]; exact ih

theorem okRun_append (al : Bool) (ops ops' : List (Op α κ (Junk α))) : ∀ {st : St α},
    okRun cmp key al st (ops ++ ops') ↔
      okRun cmp key al st ops ∧ okRun cmp key al (specRun cmp key al st ops).1 ops' := by
  induction ops with
  | nil => intro l; simp [okRun, specRun]
  | cons o os ih => intro l; simp only [List.cons_append, okRun, specRun, ih, and_assoc]

end CCC.Frm
