import Verif.Proof.FlatRealtimeMapStep
import Verif.Proof.RealtimeMapAny
import Verif.Spec.FlatMapAny
/-
The flat realtime ordered map with a comparison function that obeys no rule.  What does not depend on the order of the
elements was proved for every comparison function, so it holds in particular for one that calls everything less: under
that one every list is in order.
-/
namespace CCC.Frm
open CCC Links Tree Wavl MapSpec FlatMap
open CCC.Rom (toSlot elems vac_ne_occ vac_not_occ occ_occ unwrap_occ unwrap_vac unwrap_ie Hole)
open CCC.PtrMap (Choice putAt dropAt)

/-- Calls everything less. -/
def lt : Unit → Unit → Cmp := fun _ _ => .les
/-- Sees nothing of an element. -/
def blind {α : Type} : α → Unit := fun _ => ()

theorem sorted_lt {α : Type} (l : List (Nat × α)) : Sorted lt (ekey blind) l := by
  unfold Sorted
  rw [List.pairwise_iff_getElem]
  intros; rfl

/-- A map that took its slot 0, storing `l`, in whatever order. -/
abbrev StartedAny {α : Type} (s : Frm α) (l : List (Nat × α)) (T : Tree) : Prop := Started lt blind s l T
/-- `s` represents the specification state `st`, its elements in whatever order. -/
abbrev Any {α : Type} (s : Frm α) (st : St α) (T : Tree) : Prop := Ok lt blind s st T

variable {α κ : Type} {cmp : κ → κ → Cmp} {key : α → κ} {s : Frm α} {st : St α} {l : List (Nat × α)} {T : Tree}

theorem shape_ok {r : Rom.Rom α} (h : Rom.Kept r l T) : Rom.Ok lt blind r l T :=
  ⟨h.wv, h.valid, h.list, sorted_lt l, h.size⟩

/-- What a search answers. -/
theorem Any.find (o : Any s st T) (hne : ∀ a b, cmp a b ≠ .err) (k : κ) :
    (∃ pre x post, st.started = true ∧ StartedAny s st.l T ∧ T.ids = pre ++ x :: post ∧
      cmp k (key (s.val x)) = .eql ∧ (x, s.val x) ∈ st.l ∧ find cmp key s k = some (.eql, x)) ∨
    (∃ q, find cmp key s k = some q ∧ q.1 ≠ .eql ∧ Hole T q) := by
  obtain ⟨_, ⟨hs, h⟩ | ⟨hs, hl, rfl, h⟩⟩ := o
  · rcases h.ok.shape.find (key := key) hne k with ⟨pre, x, post, e, hx, hf⟩ | h'
    · exact Or.inl ⟨pre, x, post, hs, h, e, hx, h.ok.shape.mem (by rw [e]; simp), hf⟩
    · exact Or.inr h'
  · refine Or.inr ⟨(.err, 0), ?_, by simp, Or.inl rfl⟩
    rw [Frm.find, Wavl.find, findLoop, h.root]; rfl

theorem maybeAllocInsert_any (o : Any s st T) {q : Query} (g : Hole T q) (x : α) (ans : Option (Junk α)) :
    ∃ s' T' i, maybeAllocInsert s q.2 q.1 x ans = some (s', (addAny i s.hasAlloc ans.isSome st x).2) ∧
      Any s' (addAny i s.hasAlloc ans.isSome st x).1 T' ∧ s'.hasAlloc = s.hasAlloc ∧
      (∀ n, (addAny i s.hasAlloc ans.isSome st x).2 = some n → n ≠ 0 ∧ s'.val n = x) := by
  rcases allocBack_spec o ans with ⟨hr, s', run, o', a'⟩ | ⟨hr, s', run, hcap, hst, al, a', hval⟩
  · have hadd : addAny 0 s.hasAlloc ans.isSome st x = ((room s.hasAlloc ans.isSome st).1, none) := by
      rw [addAny]
      cases h : room s.hasAlloc ans.isSome st with
      | mk s1 b => rw [h] at hr; simp only at hr; subst hr; rfl
    refine ⟨s', T, 0, ?_⟩
    rw [hadd]
    refine ⟨?_, o', a', by simp⟩
    simp only [maybeAllocInsert, run, Option.bind_eq_bind, Option.bind_some]
  · have hadd : ∀ i, addAny i s.hasAlloc ans.isSome st x = ({ (room s.hasAlloc ans.isSome st).1 with
        l := putAt i (st.l.length + 1, x) st.l }, some (st.l.length + 1)) := by
      intro i
      rw [addAny]
      cases h : room s.hasAlloc ans.isSome st with
      | mk s1 b => rw [h] at hr; simp only at hr; subst hr; rfl
    let n := st.l.length + 1
    have hn : s'.sz - 1 = n := by rw [al.sz]; rfl
    have nl : s'.t.live n = true := by rw [al.live, inUse_lt al.le, al.sz]; omega
    have nT : n ∉ T.ids := by rw [al.slots]; omega
    have hset : setVal s' n x = some { s' with val := upd s'.val n x } := by rw [setVal, if_pos nl]
    have ok1 := al.ok.shape.put (h := n) (x := x) nT
    obtain ⟨r, T', i, run', okr, vr, _, lr, pr⟩ := Rom.insertNode_any ok1 g (e := n) (by omega) nT
    have hvn : (Rom.put (shrink s' st.l.length) n x).val n = x := by simp [Rom.put]
    rw [hvn] at okr
    have hlive : r.t.live = inUse s'.sz s'.cap := by
      rw [lr]
      show upd (inUse (st.l.length + 1) s'.cap) n true = inUse s'.sz s'.cap
      funext a
      simp only [upd, inUse]
      have hle := al.le
      have hsz := al.sz
      by_cases ha : a = n
      · subst ha; simp [n]; omega
      · simp only [ha, if_false]
        have : decide (a < st.l.length + 1) = decide (a < s'.sz) := by
          rw [decide_eq_decide]; omega
        rw [this]
    let sf : Frm α := { s' with val := upd s'.val n x, t := r.t }
    have hlen : (putAt i (n, x) st.l).length = st.l.length + 1 := by
      simp only [putAt, List.length_append, List.length_cons, List.length_take, List.length_drop]; omega
    refine ⟨sf, T', i, ?_⟩
    rw [hadd]
    refine ⟨?_, Started.toOk (l := putAt i (n, x) st.l) (s := sf) ?_ hcap hst rfl, a', ?_⟩
    · simp only [maybeAllocInsert, run, Option.bind_eq_bind, Option.bind_some, hn, hset]
      rw [insertNode_eq (s := { s' with val := upd s'.val n x }) (l := st.l) al.sz al.le al.live]
      have run2 : Rom.insertNode (shrink { s' with val := upd s'.val n x } st.l.length) q.2 q.1 (st.l.length + 1) =
        some r := run'
      rw [run2]
      rfl
    · refine ⟨⟨okr.wv, okr.valid, ?_, sorted_lt _, ?_⟩, hlive, ?_, al.le, ?_⟩
      · rw [okr.list, vr]; rfl
      · show s'.sz - 1 = _; rw [hn, hlen]
      · show s'.sz = _; rw [hlen, al.sz]
      · intro a h1 h2
        rw [hlen] at h2
        rw [pr.mem_iff, List.mem_cons, al.slots]
        omega
    · intro m hm
      simp only [Option.some.injEq] at hm
      subst hm
      exact ⟨by omega, by show upd s'.val n x n = x; simp⟩

/-- Overwriting the data of a stored element. -/
theorem StartedAny.set (h : StartedAny s l T) (a : Nat) (x : α) :
    StartedAny { s with val := upd s.val a x } (write a x l) T := by
  have hlen := write_length a x l
  refine ⟨shape_ok (h.ok.shape.set a x), h.live, by rw [hlen]; exact h.sz, h.le, by rw [hlen]; exact h.slots⟩

/-- Goal of the per-call theorem. -/
def StepAny (cmp : κ → κ → Cmp) (key : α → κ) (s : Frm α) (st : St α) (op : Op α κ (Junk α)) : Prop :=
  ∃ s' c T', choiceOk cmp key st.l op c ∧ step cmp key s op = some (s', (specAny c s.hasAlloc st op).2) ∧
    Any s' (specAny c s.hasAlloc st op).1 T' ∧ s'.hasAlloc = s.hasAlloc

theorem fnd_ok {l : List (Nat × α)} {op : Op α κ (Junk α)} {k : κ} (hk : keyOf key op = some k) {a : Nat} {v : α}
    (hm : (a, v) ∈ l) (he : cmp k (key v) = .eql) : choiceOk cmp key l op (Rom.fnd (a, v)) := by
  refine ⟨?_, ?_, ?_⟩
  · intro e h; simp only [Rom.fnd, Option.some.injEq] at h; subst h; exact ⟨hm, k, hk, he⟩
  · intro e h; simp [Rom.fnd] at h
  · intro e h; simp [Rom.fnd] at h

theorem gap_ok {l : List (Nat × α)} {op : Op α κ (Junk α)} {i : Nat} : choiceOk cmp key l op (Rom.gap i) :=
  ⟨fun e h => by simp [Rom.gap] at h, fun e h => by simp [Rom.gap] at h, fun e h => by simp [Rom.gap] at h⟩

theorem Any.set (o : Any s st T) (hst : st.started = true) (hs : StartedAny s st.l T) (a : Nat) (x : α) :
    Any { s with val := upd s.val a x } { st with l := write a x st.l } T := (hs.set a x).toOk o.1 hst rfl

theorem any_insert (hne : ∀ a b, cmp a b ≠ .err) (o : Any s st T) {x : α} {ans : Option (Junk α)} :
    StepAny cmp key s st (.insert x ans) := by
  rcases o.find (key := key) hne (key x) with ⟨pre, a, post, hst, hs, e, ha, hm, hf⟩ | ⟨q, hf, hq, g⟩
  · obtain ⟨ham, a0, al, _⟩ := o.found hs e
    have l0 := hs.live_zero
    let t1 : Links := { s.t with
        br := fun b d => if b = 0 then s.t.br a d else s.t.br b d
        par := upd s.t.par 0 (s.t.par a)
        parity := upd s.t.parity 0 (s.t.parity a) }
    let t2 : Links := { t1 with parity := upd t1.parity 0 true }
    have e1 : copyLinks s.t 0 a = some t1 := by simp [copyLinks, l0, al, t1]
    have run : insert cmp key s x ans =
        some ({ s with t := t2, val := upd (upd s.val 0 x) a x }, ⟨some a, Stat.occupied⟩, s.val a) := by
      rw [insert]
      simp only [hf, Option.bind_eq_bind, Option.bind_some, if_true, e1]
      rw [setVal_live (by exact l0)]
      simp only [Option.bind_some, upd_same, upd_ne _ _ a0]
      rw [setVal_live (by exact al)]
      simp only [Option.bind_some]
      rw [setParity_live (by exact l0)]
      rfl
    have s1 := hs.slot0 (t' := t2) (x := x) rfl rfl (by
      intro b hb
      refine ⟨?_, ?_, ?_⟩
      · funext d; simp [t2, t1, hb]
      · simp [t2, t1, upd_ne _ _ hb]
      · simp [t2, t1, upd_ne _ _ hb]) (by simp [t2])
    have s2 := StartedAny.set s1 a x
    refine ⟨_, Rom.fnd (a, s.val a), T, fnd_ok rfl hm ha, ?_, s2.toOk o.1 hst rfl, rfl⟩
    simp only [step, run, specAny, Rom.fnd, Option.bind_eq_bind, Option.bind_some, unwrap_occ, view_some a0, upd_same]
  · obtain ⟨s', T', i, run, o', a', hv⟩ := maybeAllocInsert_any o g x ans
    refine ⟨s', Rom.gap i, T', gap_ok, ?_, ?_, a'⟩
    · simp only [step, insert, hf, specAny, Rom.gap, Option.bind_eq_bind, Option.bind_some, if_neg hq, run]
      cases hadd : addAny i s.hasAlloc ans.isSome st x with
      | mk st' r => cases r <;> simp only [Option.bind_some, unwrap_ie, unwrap_vac, view_none]
    · simp only [specAny, Rom.gap]
      cases hadd : addAny i s.hasAlloc ans.isSome st x with
      | mk st' r =>
        rw [hadd] at o'
        cases r <;> exact o'

theorem any_tryInsert (hne : ∀ a b, cmp a b ≠ .err) (o : Any s st T) {x : α} {ans : Option (Junk α)} :
    StepAny cmp key s st (.tryInsert x ans) := by
  rcases o.find (key := key) hne (key x) with ⟨pre, a, post, hst, hs, e, ha, hm, hf⟩ | ⟨q, hf, hq, g⟩
  · obtain ⟨_, a0, _, _⟩ := o.found hs e
    refine ⟨s, Rom.fnd (a, s.val a), T, fnd_ok rfl hm ha, ?_, o, rfl⟩
    simp only [step, tryInsert, hf, specAny, Rom.fnd, Option.bind_eq_bind, Option.bind_some, if_true, unwrap_occ,
      view_some a0]
  · obtain ⟨s', T', i, run, o', a', hv⟩ := maybeAllocInsert_any o g x ans
    refine ⟨s', Rom.gap i, T', gap_ok, ?_, ?_, a'⟩
    · simp only [step, tryInsert, hf, specAny, Rom.gap, Option.bind_eq_bind, Option.bind_some, if_neg hq, run]
      cases hadd : addAny i s.hasAlloc ans.isSome st x with
      | mk st' r =>
        rw [hadd] at hv
        cases r with
        | none => simp only [Option.bind_some, unwrap_ie, view_none]
        | some n =>
          obtain ⟨n0, hn⟩ := hv n rfl
          simp only [Option.bind_some, unwrap_vac, view_some n0, hn]
    · simp only [specAny, Rom.gap]
      cases hadd : addAny i s.hasAlloc ans.isSome st x with
      | mk st' r =>
        rw [hadd] at o'
        cases r <;> exact o'

theorem any_insertOrAssign (hne : ∀ a b, cmp a b ≠ .err) (o : Any s st T) {x : α} {ans : Option (Junk α)} :
    StepAny cmp key s st (.insertOrAssign x ans) := by
  rcases o.find (key := key) hne (key x) with ⟨pre, a, post, hst, hs, e, ha, hm, hf⟩ | ⟨q, hf, hq, g⟩
  · obtain ⟨_, a0, al, _⟩ := o.found hs e
    refine ⟨{ s with val := upd s.val a x }, Rom.fnd (a, s.val a), T, fnd_ok rfl hm ha, ?_, o.set hst hs a x, rfl⟩
    simp only [step, insertOrAssign, hf, specAny, Rom.fnd, Option.bind_eq_bind, Option.bind_some, if_true, unwrap_occ,
      view_some a0, setVal_live al, upd_same]
  · obtain ⟨s', T', i, run, o', a', hv⟩ := maybeAllocInsert_any o g x ans
    refine ⟨s', Rom.gap i, T', gap_ok, ?_, ?_, a'⟩
    · simp only [step, insertOrAssign, hf, specAny, Rom.gap, Option.bind_eq_bind, Option.bind_some, if_neg hq, run]
      cases hadd : addAny i s.hasAlloc ans.isSome st x with
      | mk st' r =>
        rw [hadd] at hv
        cases r with
        | none => simp only [Option.bind_some, unwrap_ie, view_none]
        | some n =>
          obtain ⟨n0, hn⟩ := hv n rfl
          simp only [Option.bind_some, unwrap_vac, view_some n0, hn]
    · simp only [specAny, Rom.gap]
      cases hadd : addAny i s.hasAlloc ans.isSome st x with
      | mk st' r =>
        rw [hadd] at o'
        cases r <;> exact o'

theorem any_orInsert (hne : ∀ a b, cmp a b ≠ .err) (o : Any s st T) {k : κ} {x : α} {ans : Option (Junk α)} :
    StepAny cmp key s st (.orInsert k x ans) ∧ StepAny cmp key s st (.orInsertW k x ans) := by
  rcases o.find (key := key) hne k with ⟨pre, a, post, hst, hs, e, ha, hm, hf⟩ | ⟨q, hf, hq, g⟩
  · obtain ⟨_, a0, al, ac⟩ := o.found hs e
    refine ⟨⟨s, Rom.fnd (a, s.val a), T, fnd_ok rfl hm ha, ?_, o, rfl⟩,
      ⟨s, Rom.fnd (a, s.val a), T, fnd_ok rfl hm ha, ?_, o, rfl⟩⟩
    · simp only [step, entry_eq hf, orInsert, specAny, Rom.fnd, Option.bind_eq_bind, Option.bind_some, if_true,
        view_some a0]
    · simp only [step, entry_eq hf, orInsertW, specAny, Rom.fnd, Option.bind_eq_bind, Option.bind_some, if_true,
        if_neg ac, view_some a0]
  · obtain ⟨s', T', i, run, o', a', hv⟩ := maybeAllocInsert_any o g x ans
    refine ⟨⟨s', Rom.gap i, T', gap_ok, ?_, o', a'⟩, ⟨s', Rom.gap i, T', gap_ok, ?_, o', a'⟩⟩
    · simp only [step, entry_eq hf, orInsert, specAny, Rom.gap, Option.bind_eq_bind, Option.bind_some, if_neg hq,
        if_neg vac_ne_occ, run, view_added hv]
    · simp only [step, entry_eq hf, specAny, Rom.gap, Option.bind_eq_bind, Option.bind_some, if_neg hq]
      rw [orInsertW_vac vac_ne_occ, run]
      simp only [Option.bind_some, view_added hv]

theorem any_insertEntry (hne : ∀ a b, cmp a b ≠ .err) (o : Any s st T) {k : κ} {x : α} {ans : Option (Junk α)} :
    StepAny cmp key s st (.insertEntry k x ans) ∧ StepAny cmp key s st (.insertEntryW k x ans) := by
  rcases o.find (key := key) hne k with ⟨pre, a, post, hst, hs, e, ha, hm, hf⟩ | ⟨q, hf, hq, g⟩
  · obtain ⟨_, a0, al, ac⟩ := o.found hs e
    refine ⟨⟨_, Rom.fnd (a, s.val a), T, fnd_ok rfl hm ha, ?_, o.set hst hs a x, rfl⟩,
      ⟨_, Rom.fnd (a, s.val a), T, fnd_ok rfl hm ha, ?_, o.set hst hs a x, rfl⟩⟩
    · simp only [step, entry_eq hf, insertEntry, specAny, Rom.fnd, Option.bind_eq_bind, Option.bind_some, if_true,
        view_some a0, setVal_live al, upd_same]
    · simp only [step, entry_eq hf, insertEntryW, specAny, Rom.fnd, Option.bind_eq_bind, Option.bind_some, if_true,
        occ_occ, Bool.not_true, Bool.false_eq_true, if_false, view_some a0, setVal_live al, upd_same]
  · obtain ⟨s', T', i, run, o', a', hv⟩ := maybeAllocInsert_any o g x ans
    refine ⟨⟨s', Rom.gap i, T', gap_ok, ?_, o', a'⟩, ⟨s', Rom.gap i, T', gap_ok, ?_, o', a'⟩⟩
    · simp only [step, entry_eq hf, insertEntry, specAny, Rom.gap, Option.bind_eq_bind, Option.bind_some, if_neg hq,
        if_neg vac_ne_occ, run, view_added hv]
    · simp only [step, entry_eq hf, specAny, Rom.gap, Option.bind_eq_bind, Option.bind_some, if_neg hq]
      rw [insertEntryW_vac vac_not_occ, run]
      simp only [Option.bind_some, view_added hv]

theorem any_tryInsertW (hne : ∀ a b, cmp a b ≠ .err) (o : Any s st T) {k : κ} {x : α} {ans : Option (Junk α)} :
    StepAny cmp key s st (.tryInsertW k x ans) := by
  rcases o.find (key := key) hne k with ⟨pre, a, post, hst, hs, e, ha, hm, hf⟩ | ⟨q, hf, hq, g⟩
  · obtain ⟨_, a0, _, ac⟩ := o.found hs e
    refine ⟨s, Rom.fnd (a, s.val a), T, fnd_ok rfl hm ha, ?_, o, rfl⟩
    simp only [step, tryInsertW, entry_eq hf, specAny, Rom.fnd, Option.bind_eq_bind, Option.bind_some, if_true, occ_occ,
      Bool.not_true, Bool.false_eq_true, if_false, if_neg ac, unwrap_occ, view_some a0]
  · obtain ⟨s', T', i, run, o', a', hv⟩ := maybeAllocInsert_any o g x ans
    refine ⟨s', Rom.gap i, T', gap_ok, ?_, ?_, a'⟩
    · simp only [step, tryInsertW, entry_eq hf, specAny, Rom.gap, Option.bind_eq_bind, Option.bind_some, if_neg hq,
        vac_not_occ, Bool.not_false, if_true, insertVacantW_eq, run]
      cases hadd : addAny i s.hasAlloc ans.isSome st x with
      | mk st' r =>
        rw [hadd] at hv
        cases r with
        | none => simp [unwrap_ie, view_none]
        | some n =>
          obtain ⟨n0, hn⟩ := hv n rfl
          simp [unwrap_vac, view_some n0, hn]
    · simp only [specAny, Rom.gap]
      cases hadd : addAny i s.hasAlloc ans.isSome st x with
      | mk st' r =>
        rw [hadd] at o'
        cases r <;> exact o'

theorem any_insertOrAssignW (hne : ∀ a b, cmp a b ≠ .err) (o : Any s st T) {k : κ} {x : α} {ans : Option (Junk α)} :
    StepAny cmp key s st (.insertOrAssignW k x ans) := by
  rcases o.find (key := key) hne k with ⟨pre, a, post, hst, hs, e, ha, hm, hf⟩ | ⟨q, hf, hq, g⟩
  · obtain ⟨_, a0, al, ac⟩ := o.found hs e
    refine ⟨_, Rom.fnd (a, s.val a), T, fnd_ok rfl hm ha, ?_, o.set hst hs a x, rfl⟩
    simp only [step, insertOrAssignW, entry_eq hf, specAny, Rom.fnd, Option.bind_eq_bind, Option.bind_some, if_true,
      occ_occ, Bool.not_true, Bool.false_eq_true, if_false, unwrap_occ, view_some a0, setVal_live al, upd_same]
  · obtain ⟨s', T', i, run, o', a', hv⟩ := maybeAllocInsert_any o g x ans
    refine ⟨s', Rom.gap i, T', gap_ok, ?_, ?_, a'⟩
    · simp only [step, insertOrAssignW, entry_eq hf, specAny, Rom.gap, Option.bind_eq_bind, Option.bind_some, if_neg hq,
        vac_not_occ, Bool.not_false, if_true, insertVacantW_eq, run]
      cases hadd : addAny i s.hasAlloc ans.isSome st x with
      | mk st' r =>
        rw [hadd] at hv
        cases r with
        | none => simp [unwrap_ie, view_none]
        | some n =>
          obtain ⟨n0, hn⟩ := hv n rfl
          simp [unwrap_vac, view_some n0, hn]
    · simp only [specAny, Rom.gap]
      cases hadd : addAny i s.hasAlloc ans.isSome st x with
      | mk st' r =>
        rw [hadd] at o'
        cases r <;> exact o'

theorem removed_any (o : Any s st T) (hst : st.started = true) (hs : StartedAny s st.l T)
    {pre post : List Nat} {a : Nat} (e : T.ids = pre ++ a :: post) :
    ∃ s' T', removeFixup s a = some (s', st.l.length) ∧ Any s' { st with l := dropAny a st.l } T' ∧
      s'.hasAlloc = s.hasAlloc ∧ s'.val st.l.length = s.val a ∧ st.l.length ≠ 0 := by
  obtain ⟨s', T', run, s2, c2, a2, v2⟩ := removeFixup_spec hs e
  have hn := hs.ok.nodup
  rw [e] at hn
  have hl : dropAt a st.l = elems s.val (pre ++ post) := by rw [hs.ok.list, e]; exact Rom.dropAt_elems hn
  refine ⟨s', T', run, s2.toOk (by rw [c2]; exact o.1) hst ?_, a2, v2, ?_⟩
  · show dropAny a st.l = _; rw [dropAny, hl]
  · have := hs.mem_iff.1 (o.found hs e).1; omega

theorem any_remove (hne : ∀ a b, cmp a b ≠ .err) (o : Any s st T) {x : α} : StepAny cmp key s st (.remove x) := by
  rcases o.find (key := key) hne (key x) with ⟨pre, a, post, hst, hs, e, ha, hm, hf⟩ | ⟨q, hf, hq, g⟩
  · obtain ⟨s', T', run, sim, a', v', _⟩ := removed_any o hst hs e
    refine ⟨s', Rom.fnd (a, s.val a), T', fnd_ok rfl hm ha, ?_, sim, a'⟩
    simp only [step, remove, hf, specAny, Rom.fnd, Option.bind_eq_bind, Option.bind_some, ne_eq, not_true_eq_false,
      if_false, run, v']
  · refine ⟨s, Rom.gap 0, T, gap_ok, ?_, o, rfl⟩
    simp only [step, remove, hf, specAny, Rom.gap, Option.bind_eq_bind, Option.bind_some, ne_eq, hq, not_false_eq_true,
      if_true]

theorem any_removeEntry (hne : ∀ a b, cmp a b ≠ .err) (o : Any s st T) {k : κ} :
    StepAny cmp key s st (.removeEntry k) := by
  rcases o.find (key := key) hne k with ⟨pre, a, post, hst, hs, e, ha, hm, hf⟩ | ⟨q, hf, hq, g⟩
  · obtain ⟨s', T', run, sim, a', v', n0⟩ := removed_any o hst hs e
    refine ⟨s', Rom.fnd (a, s.val a), T', fnd_ok rfl hm ha, ?_, sim, a'⟩
    simp only [step, entry_eq hf, removeEntry, specAny, Rom.fnd, Option.bind_eq_bind, Option.bind_some, if_true, run, v',
      unwrap_occ, view_some n0]
  · refine ⟨s, Rom.gap 0, T, gap_ok, ?_, o, rfl⟩
    simp only [step, entry_eq hf, removeEntry, specAny, Rom.gap, Option.bind_eq_bind, Option.bind_some, if_neg hq,
      if_neg vac_ne_occ, unwrap_vac, view_none]

theorem any_andModify (hne : ∀ a b, cmp a b ≠ .err) (o : Any s st T) {k : κ} {f : α → α} :
    StepAny cmp key s st (.andModify k f) := by
  rcases o.find (key := key) hne k with ⟨pre, a, post, hst, hs, e, ha, hm, hf⟩ | ⟨q, hf, hq, g⟩
  · obtain ⟨ham, a0, al, ac⟩ := o.found hs e
    refine ⟨_, Rom.fnd (a, s.val a), T, fnd_ok rfl hm ha, ?_, o.set hst hs a (f (s.val a)), rfl⟩
    simp only [step, entry_eq hf, andModify, specAny, Rom.fnd, Option.bind_eq_bind, Option.bind_some, if_true, occ_occ,
      setVal_live al, unwrap, if_neg ac, view_some a0, upd_same]
  · refine ⟨s, Rom.gap 0, T, gap_ok, ?_, o, rfl⟩
    simp only [step, entry_eq hf, andModify, specAny, Rom.gap, Option.bind_eq_bind, Option.bind_some, if_neg hq,
      vac_not_occ, Bool.false_eq_true, if_false, unwrap, view_none]

theorem any_query (hne : ∀ a b, cmp a b ≠ .err) (o : Any s st T) {k : κ} :
    StepAny cmp key s st (.occupied k) ∧ StepAny cmp key s st (.contains k) ∧ StepAny cmp key s st (.get k) := by
  rcases o.find (key := key) hne k with ⟨pre, a, post, hst, hs, e, ha, hm, hf⟩ | ⟨q, hf, hq, g⟩
  · obtain ⟨ham, a0, al, ac⟩ := o.found hs e
    refine ⟨⟨s, Rom.fnd (a, s.val a), T, fnd_ok rfl hm ha, ?_, o, rfl⟩,
      ⟨s, Rom.fnd (a, s.val a), T, fnd_ok rfl hm ha, ?_, o, rfl⟩,
      ⟨s, Rom.fnd (a, s.val a), T, fnd_ok rfl hm ha, ?_, o, rfl⟩⟩
    · simp only [step, entry_eq hf, specAny, Rom.fnd, Option.bind_eq_bind, Option.bind_some, occupied, if_true, occ_occ,
        Option.isSome_some]
    · simp only [step, contains, hf, specAny, Rom.fnd, Option.bind_eq_bind, Option.bind_some, Option.isSome_some,
        beq_self_eq_true]
    · simp only [step, get, hf, specAny, Rom.fnd, Option.bind_eq_bind, Option.bind_some, beq_self_eq_true, if_true,
        view_some a0, look]
  · have hq' : (q.1 == Cmp.eql) = false := by simpa using hq
    refine ⟨⟨s, Rom.gap 0, T, gap_ok, ?_, o, rfl⟩, ⟨s, Rom.gap 0, T, gap_ok, ?_, o, rfl⟩,
      ⟨s, Rom.gap 0, T, gap_ok, ?_, o, rfl⟩⟩
    · simp only [step, entry_eq hf, specAny, Rom.gap, Option.bind_eq_bind, Option.bind_some, occupied, if_neg hq,
        vac_not_occ, Option.isSome_none]
    · simp only [step, contains, hf, specAny, Rom.gap, Option.bind_eq_bind, Option.bind_some, Option.isSome_none, hq']
    · simp only [step, get, hf, specAny, Rom.gap, Option.bind_eq_bind, Option.bind_some, hq', Bool.false_eq_true,
        if_false, view_none, look]

theorem view_slot (s : Frm α) (b : Nat) : view s (some b) = look .fin (Rom.view (asRom s) (toSlot b)) := by
  cases b with
  | zero => rfl
  | succ b => rfl

theorem any_range (hne : ∀ a b, cmp a b ≠ .err) (o : Any s st T) {b e : κ} :
    StepAny cmp key s st (.equalRange b e) ∧ StepAny cmp key s st (.equalRrange b e) := by
  have he := isEmpty_eq o
  cases hl : st.l with
  | nil =>
    rw [hl] at he
    refine ⟨⟨s, Rom.gap 0, T, gap_ok, ?_, by simp [specAny, hl]; exact o, rfl⟩,
      ⟨s, Rom.gap 0, T, gap_ok, ?_, by simp [specAny, hl]; exact o, rfl⟩⟩ <;>
      simp [step, equalRange, he, specAny, hl, view_none]
  | cons y ys =>
    have hne' : st.l ≠ [] := by rw [hl]; simp
    have hemp : st.l.isEmpty = false := by rw [hl]; rfl
    rw [hemp] at he
    have hs : StartedAny s st.l T := by
      obtain ⟨_, ⟨_, h⟩ | ⟨_, hl', _, _⟩⟩ := o
      · exact h
      · exact absurd hl' hne'
    have hsz : (asRom s).sz ≠ 0 := by rw [hs.ok.size]; simpa using hne'
    have main : ∀ trav, ∃ r, Wavl.equalRange s.t (at_ cmp key s b) (at_ cmp key s e) trav = some r ∧
        (∀ e, Rom.view (asRom s) (toSlot r.1) = some e → e ∈ st.l) ∧
        (∀ e, Rom.view (asRom s) (toSlot r.2) = some e → e ∈ st.l) := by
      intro trav
      obtain ⟨r, hr, m1, m2⟩ := Rom.range_any (key := key) hne hs.ok.shape b e trav
      rw [Rom.equalRange, if_neg hsz] at hr
      simp only [Option.bind_eq_bind, Option.bind_eq_some_iff] at hr
      obtain ⟨r', h1, h2⟩ := hr
      simp only [Option.some.injEq] at h2
      subst h2
      exact ⟨r', h1, m1, m2⟩
    obtain ⟨r, hr, m1, m2⟩ := main true
    obtain ⟨r', hr', m1', m2'⟩ := main false
    refine ⟨⟨s, ⟨none, 0, Rom.view (asRom s) (toSlot r.1), Rom.view (asRom s) (toSlot r.2), true⟩, T,
        ⟨fun _ h => (by cases h), m1, m2⟩, ?_, by simp [specAny, hemp]; exact o, rfl⟩,
      ⟨s, ⟨none, 0, Rom.view (asRom s) (toSlot r'.1), Rom.view (asRom s) (toSlot r'.2), true⟩, T,
        ⟨fun _ h => (by cases h), m1', m2'⟩, ?_, by simp [specAny, hemp]; exact o, rfl⟩⟩
    · simp only [step, equalRange, he, Bool.false_eq_true, if_false, hr, Option.bind_eq_bind, Option.bind_some, specAny,
        hemp, view_slot]
    · simp only [step, equalRange, he, Bool.false_eq_true, if_false, hr', Option.bind_eq_bind, Option.bind_some, specAny,
        hemp, view_slot]

theorem validate_any (cmp : κ → κ → Cmp) (key : α → κ) (o : Any s st T) : ∃ b, validate cmp key s = some b := by
  obtain ⟨_, ⟨hst, h⟩ | ⟨hst, hl, rfl, h⟩⟩ := o
  · have hroot : s.t.root = T.rootId := h.ok.wv.whole.ctx
    have hsz : T.ids.length = s.sz - 1 := by
      have := h.ok.size
      rw [h.ok.list] at this
      simp only [elems, List.length_map] at this
      exact this.symm
    obtain ⟨b, e1⟩ := Rom.areSubtreesValid_any cmp key (asRom s) (low := 0) (high := 0) h.ok.wv.whole.tree
    have e2 : Rom.recursiveSize s.t T.rootId = some T.ids.length := Rom.recursiveSize_spec h.ok.wv.whole.tree
    have e3 : Rom.isStoringParent s.t 0 T.rootId = some true := Rom.isStoringParent_spec (t := T) h.ok.wv.whole.tree
    have p0 : s.t.parity 0 = true := h.ok.wv.par0
    rw [validate]
    simp only [if_pos (Ok.sz_ne h), getParity_live h.live_zero, p0, Option.bind_eq_bind, Option.bind_some, hroot, e1, e2,
      Bool.not_true, Bool.false_eq_true, if_false, hsz, ne_eq, not_true_eq_false, and_false]
    cases b
    · exact ⟨_, rfl⟩
    · exact ⟨_, e3⟩
  · refine ⟨true, ?_⟩
    rw [validate]
    simp only [h.sz, h.root]
    rw [Rom.areSubtreesValid, Rom.recursiveSize, Rom.isStoringParent]
    simp

/-- A call whose specification does not mention the order. -/
theorem orderless {op : Op α κ (Junk α)} {op' : Op α Unit (Junk α)} (h : StepOk lt blind s st op')
    (h1 : step cmp key s op = step lt blind s op')
    (h2 : specAny (Rom.gap 0) s.hasAlloc st op = specStep lt blind s.hasAlloc st op') : StepAny cmp key s st op := by
  obtain ⟨s', run, ⟨T', o'⟩, a'⟩ := h
  exact ⟨s', Rom.gap 0, T', gap_ok, by rw [h1, h2]; exact run, by rw [h2]; exact o', a'⟩

/-- Every call, from every state that represents a specification state, whatever the comparison function. -/
theorem step_any (hne : ∀ a b, cmp a b ≠ .err) (o : Any s st T) (op : Op α κ (Junk α)) (ok : okAny st op) :
    StepAny cmp key s st op := by
  cases op with
  | insert x ans => exact any_insert hne o
  | tryInsert x ans => exact any_tryInsert hne o
  | insertOrAssign x ans => exact any_insertOrAssign hne o
  | remove x => exact any_remove hne o
  | orInsert k x ans => exact (any_orInsert hne o).1
  | insertEntry k x ans => exact (any_insertEntry hne o).1
  | removeEntry k => exact any_removeEntry hne o
  | andModify k f => exact any_andModify hne o
  | occupied k => exact (any_query hne o).1
  | orInsertW k x ans => exact (any_orInsert hne o).2
  | insertEntryW k x ans => exact (any_insertEntry hne o).2
  | tryInsertW k x ans => exact any_tryInsertW hne o
  | insertOrAssignW k x ans => exact any_insertOrAssignW hne o
  | contains k => exact (any_query hne o).2.1
  | get k => exact (any_query hne o).2.2
  | begin => exact orderless (op' := .begin) (step_begin o) rfl rfl
  | rbegin => exact orderless (op' := .rbegin) (step_rbegin o) rfl rfl
  | next a => exact orderless (op' := .next a) (step_next o ok) rfl rfl
  | rnext a => exact orderless (op' := .rnext a) (step_rnext o ok) rfl rfl
  | end_ =>
    refine ⟨s, Rom.gap 0, T, gap_ok, ?_, o, rfl⟩
    obtain ⟨_, ⟨hst, h⟩ | ⟨hst, hl, rfl, h⟩⟩ := o
    · simp only [step, end_, if_neg (Ok.sz_ne h), specAny, St.fin, hst, if_true, view]
    · simp [step, end_, h.sz, specAny, St.fin, hst, view]
  | equalRange b e => exact (any_range hne o).1
  | equalRrange b e => exact (any_range hne o).2
  | size => exact ⟨s, Rom.gap 0, T, gap_ok, by simp only [step, size_eq o, specAny], o, rfl⟩
  | isEmpty => exact ⟨s, Rom.gap 0, T, gap_ok, by simp only [step, isEmpty_eq o, specAny], o, rfl⟩
  | capacity => exact ⟨s, Rom.gap 0, T, gap_ok, by simp only [step, capacity, o.1, specAny], o, rfl⟩
  | validate =>
    obtain ⟨b, hb⟩ := validate_any cmp key o
    refine ⟨s, ⟨none, 0, none, none, b⟩, T, ⟨fun _ h => (by cases h), fun _ h => (by cases h), fun _ h => (by cases h)⟩,
      ?_, o, rfl⟩
    simp only [step, hb, specAny, Option.bind_eq_bind, Option.bind_some]
  | clear => exact orderless (op' := .clear) (step_clear o ok) rfl rfl

end CCC.Frm
