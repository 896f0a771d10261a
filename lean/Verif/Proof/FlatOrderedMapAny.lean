import Verif.Proof.FlatOrderedMapStep
import Verif.Proof.OrderedMapAny
import Verif.Spec.FlatMapAny
/-
The flat ordered map with a comparison function that obeys no rule, as `Verif/Proof/OrderedMapAny.lean` does it for the
pointer based one.
-/
namespace CCC.Fom
open CCC Links Tree Wavl Splay MapSpec FlatMap
open CCC.Rom (elems mem_elems elems_append elems_upd toSlot vac_ne_occ vac_not_occ occ_occ unwrap_occ unwrap_vac unwrap_ie)
open CCC.Frm (Frm Junk inUse setSize bufAllocBack setVal copyLinks asRom view inUse_lt Fresh write_length setVal_live
  view_some view_none view_added lt blind sorted_lt fnd_ok gap_ok)
open CCC.Om (isVac_ne_occ isVac_not_occ bne_root setRoot_self Kept Miss)
open CCC.PtrMap (Choice putAt)

/-- A map that took its slot 0, storing `l`, in whatever order. -/
abbrev StartedAny {α : Type} (s : Fom α) (l : List (Nat × α)) (T : Tree) : Prop := Started lt blind s l T
/-- `s` represents the specification state `st`, its elements in whatever order. -/
abbrev Any {α : Type} (s : Fom α) (st : St α) (T : Tree) : Prop := Ok lt blind s st T

variable {α κ : Type} {cmp : κ → κ → Cmp} {key : α → κ} {s : Fom α} {st : St α} {l : List (Nat × α)} {T : Tree}

theorem cmpAt_kept {n : Nat} {b : Bool} (o : Kept ⟨s.t, n, s.val, b⟩ l T) (cmp : κ → κ → Cmp) (key : α → κ) (k : κ) {a : Nat}
    (ha : a ∈ T.ids) : Fom.cmpAt cmp key s k a = some (cmp k (key (s.val a))) := if_pos (o.whole.tree.live a ha)

theorem along_kept {n : Nat} {b : Bool} (o : Kept ⟨s.t, n, s.val, b⟩ l T) (hne : ∀ a b, cmp a b ≠ .err) (k : κ) :
    ∃ c', Along (Fom.cmpAt cmp key s k) c' T ∧ Mono c' T.ids :=
  exists_along o.nodup (fun _ ha => ⟨_, cmpAt_kept o cmp key k ha, hne _ _⟩)

theorem cmpAt_live {t : Links} (h : t.live = s.t.live) (k : κ) :
    Fom.cmpAt cmp key { s with t := t } k = Fom.cmpAt cmp key s k := by
  funext a; simp only [Fom.cmpAt, h]

theorem splay_kept {n : Nat} {b : Bool} (o : Kept ⟨s.t, n, s.val, b⟩ l T) (hT : T ≠ nil) (k : κ) {c' : Nat → Cmp}
    (al : Along (Fom.cmpAt cmp key s k) c' T) (mo : Mono c' T.ids) :
    ∃ t i m A B, splay s.t (Fom.cmpAt cmp key s k) s.t.root = some (t, i) ∧ Whole t [] (node i m A B) ∧
      t.root = i ∧ (node i m A B).ids = T.ids ∧ (∀ a ∈ A.ids, c' a = .grt) ∧ (∀ a ∈ B.ids, c' a = .les) ∧
      t.live = s.t.live ∧ c' i = cmp k (key (s.val i)) ∧ Along (Fom.cmpAt cmp key s k) c' (node i m A B) ∧
      splayTo cmp key s k = some ({ s with t := t }, cmp k (key (s.val i))) := by
  obtain ⟨t, i, m, A, B, e, w, hi, hA, hB, hs, P, _, hsp, rfl, rfl, _⟩ :=
    splay_specA o.whole.tree o.nodup o.whole.live0 hT al mo
  have hr : t.root = i := w.ctx
  have hr0 : s.t.root = T.rootId := o.root
  have e' : splay s.t (Fom.cmpAt cmp key s k) s.t.root = some (t, i) := by rw [hr0]; exact e
  have mi : i ∈ T.ids := by rw [← hi]; simp [ids]
  have hal := hsp.along al
  have hci : c' i = cmp k (key (s.val i)) := by
    have := hal.1
    rw [cmpAt_kept o cmp key k mi] at this
    simpa using this.symm
  refine ⟨t, i, m, _, _, e', w, hr, hi, hA, hB, hs.live, hci, hal, ?_⟩
  have hq : Fom.cmpAt cmp key { s with t := t } k i = some (cmp k (key (s.val i))) :=
    if_pos (w.tree.live i (by simp [ids]))
  simp only [splayTo, e', Option.bind_eq_bind, Option.bind_some, setRoot_self hr, hr, hq]

theorem miss_nil (c : Nat → Option Cmp) : Miss c nil :=
  ⟨fun _ => .eql, trivial, ⟨by simp [ids], by simp [ids]⟩, by simp [ids]⟩

/-- What a search answers. -/
theorem Any.find (o : Any s st T) (hne : ∀ a b, cmp a b ≠ .err) (k : κ) :
    (∃ t x m A B, st.started = true ∧ find cmp key s k = some ({ s with t := t }, some x) ∧
      StartedAny { s with t := t } st.l (node x m A B) ∧ t.root = x ∧ cmp k (key (s.val x)) = .eql ∧
      (x, s.val x) ∈ st.l) ∨
    (∃ t T', find cmp key s k = some ({ s with t := t }, none) ∧ Any { s with t := t } st T' ∧
      Miss (Fom.cmpAt cmp key { s with t := t } k) T') := by
  obtain ⟨hcap, ⟨hs, h⟩ | ⟨hs, hl, rfl, h⟩⟩ := o
  · by_cases hT : T = nil
    · subst hT
      have hr : s.t.root = 0 := h.ok.root
      exact Or.inr ⟨s.t, nil, by simp [Fom.find, hr], ⟨hcap, Or.inl ⟨hs, h⟩⟩, miss_nil _⟩
    · obtain ⟨c', al, mo⟩ := along_kept (s := s) (cmp := cmp) (key := key) h.ok hne k
      obtain ⟨t, i, m, A, B, _, w, hr, hi, hA, hB, hlv, hci, hal, run⟩ := splay_kept (s := s) h.ok hT k al mo
      have o' := h.reshape w hi hlv
      have hz := h.root_ne hT
      by_cases he : cmp k (key (s.val i)) = .eql
      · left
        refine ⟨t, i, m, A, B, hs, ?_, o', hr, he, (found o').2.2.2.2.2⟩
        simp only [Fom.find, if_neg hz, run, Option.bind_eq_bind, Option.bind_some, if_pos he, hr]
      · right
        refine ⟨t, _, ?_, ⟨hcap, Or.inl ⟨hs, o'⟩⟩, ⟨c', by rw [cmpAt_live hlv]; exact hal, by rw [hi]; exact mo, ?_⟩⟩
        · simp only [Fom.find, if_neg hz, run, Option.bind_eq_bind, Option.bind_some, if_neg he]
        · intro a ha
          simp only [ids, List.mem_append, List.mem_cons] at ha
          rcases ha with ha | rfl | ha
          · rw [hA a ha]; simp
          · rw [hci]; exact he
          · rw [hB a ha]; simp
  · exact Or.inr ⟨s.t, nil, by simp [Fom.find, h.root], ⟨hcap, Or.inr ⟨hs, hl, rfl, h⟩⟩, miss_nil _⟩

theorem mem_putAt {p : Nat} {x : Nat × α} {l : List (Nat × α)} {e : Nat × α} : e ∈ putAt p x l ↔ e = x ∨ e ∈ l := by
  have : e ∈ l ↔ e ∈ l.take p ∨ e ∈ l.drop p := by
    rw [← List.mem_append, List.take_append_drop]
  rw [this]
  simp only [putAt, List.mem_append, List.mem_cons]
  constructor
  · rintro (h | h | h)
    · exact Or.inr (Or.inl h)
    · exact Or.inl h
    · exact Or.inr (Or.inr h)
  · rintro (h | h | h)
    · exact Or.inr (Or.inl h)
    · exact Or.inl h
    · exact Or.inr (Or.inr h)

/-- The struct in the newly obtained slot becomes an element. -/
theorem insertNode_any (hne : ∀ a b, cmp a b ≠ .err) (al : Alloced lt blind s l T)
    (hk : Miss (Fom.cmpAt cmp key s (key (s.val (l.length + 1)))) T) :
    ∃ t T' p, insertNode cmp key s (l.length + 1) = some ({ s with t := t }, some (l.length + 1)) ∧
      StartedAny { s with t := t } (putAt p (l.length + 1, s.val (l.length + 1)) l) T' := by
  have nl : s.t.live (l.length + 1) = true := by rw [al.live, inUse_lt al.le, al.sz]; omega
  have nT : l.length + 1 ∉ T.ids := by rw [al.slots]; omega
  have n0 : l.length + 1 ≠ 0 := by omega
  generalize hn : l.length + 1 = n at *
  obtain ⟨t, run, l1, r1, b1, p1, f1⟩ := Om.initNode_spec (t := s.t) (e := n) nl
  have w : Whole t [] T := by
    have w0 := al.ok.whole
    refine ⟨?_, ?_, w0.nodup, ?_⟩
    · exact r1.trans w0.ctx
    · exact w0.tree.congr (fun a _ => by rw [l1]) (fun a ha => (f1 a (fun h => nT (h ▸ ha))).1)
        (fun a ha => (f1 a (fun h => nT (h ▸ ha))).2)
    · rw [l1]; exact w0.live0
  have o1 : Kept ⟨t, l.length, s.val, false⟩ l T := al.ok.reshape w rfl
  have fin : ∀ (t' : Links) (T' : Tree) (p : Nat), t'.live = s.t.live →
      Kept ⟨t', l.length + 1, s.val, false⟩ (putAt p (n, s.val n) l) T' →
      StartedAny { s with t := t' } (putAt p (n, s.val n) l) T' := by
    intro t' T' p hlv o'
    have hsz : (putAt p (n, s.val n) l).length = l.length + 1 := o'.size.symm
    refine ⟨⟨o'.whole, o'.list, o'.sorted, ?_⟩, hlv.trans al.live, ?_, al.le, ?_⟩
    · show s.sz - 1 = _; rw [al.sz, hsz]; omega
    · show s.sz = _; rw [al.sz, hsz]
    · intro a h1 h2
      have hm : (a, s.val a) ∈ putAt p (n, s.val n) l := by
        rw [mem_putAt]
        by_cases ha : a = n
        · left; rw [ha]
        · right
          rw [al.ok.list, mem_elems]
          exact ⟨(al.slots a).2 (by omega), rfl⟩
      rw [o'.list, mem_elems] at hm
      exact hm.1
  have h2 : (s.sz = 2) ↔ l = [] := by
    rw [al.sz, ← List.length_eq_zero_iff]; omega
  simp only [insertNode, run, Option.bind_eq_bind, Option.bind_some]
  by_cases hT : T = nil
  · subst hT
    have hl : l = [] := al.ok.nil_iff.2 rfl
    rw [if_pos (h2.2 hl)]
    refine ⟨_, node n 0 nil nil, 0, rfl, fin _ _ _ ?_ ?_⟩
    · exact l1
    · have := Om.Kept.first o1 n0 w.live0 (by rw [l1]; exact nl) b1 p1
      have hz : l.length + 1 = 1 := by rw [hl]; rfl
      rw [hz]; exact this
  · have hl : l ≠ [] := fun hh => hT (al.ok.nil_iff.1 hh)
    rw [if_neg (fun hh => hl (h2.1 hh))]
    obtain ⟨c', al', mo, hno⟩ := hk
    rw [← cmpAt_live (s := s) (t := t) l1] at al'
    obtain ⟨t2, i, m, A, B, _, w2, hr2, hi, hA, hB, hlv2, hci, _, run2⟩ :=
      splay_kept (s := { s with t := t }) o1 hT (key (s.val n)) al' mo
    have o2 : Kept ⟨t2, l.length, s.val, false⟩ l (node i m A B) := o1.reshape w2 hi
    have hq : cmp (key (s.val n)) (key (s.val i)) ≠ .eql := by
      have := hno i (by rw [← hi]; simp [ids])
      rw [hci] at this; exact this
    have hlv2' : t2.live = t.live := hlv2
    obtain ⟨t3, T', p, run3, hr3, o3, hlv3⟩ := Om.Kept.connect o2 n0 (by rw [hi]; exact nT)
      (by show t2.live n = true; rw [hlv2', l1]; exact nl) hq (hne _ _)
    simp only at run3
    refine ⟨t3, T', p, ?_, ?_⟩
    · simp only [run2, Option.bind_some, if_neg hq]
      rw [run3]; rfl
    · refine fin _ _ _ ?_ o3
      rw [hlv3]; exact hlv2'.trans l1

/-- Adding an element whose key a search has just missed: the functions and the macros. -/
theorem vacant_any (o : Any s st T) (hne : ∀ a b, cmp a b ≠ .err) {x : α}
    (hk : Miss (Fom.cmpAt cmp key s (key x)) T) (ans : Option (Junk α)) :
    ∃ s' T' i, maybeAllocInsert cmp key s x ans = some (s', (addAny i s.hasAlloc ans.isSome st x).2) ∧
      Any s' (addAny i s.hasAlloc ans.isSome st x).1 T' ∧ s'.hasAlloc = s.hasAlloc ∧
      (∀ e : FEnt, e.stats ≠ Stat.occupied →
        orInsertW cmp key s e x ans = some (s', (addAny i s.hasAlloc ans.isSome st x).2)) ∧
      (∀ e : FEnt, Stat.has e.stats Stat.occupied = false →
        insertEntryW cmp key s e x ans = some (s', (addAny i s.hasAlloc ans.isSome st x).2)) ∧
      insertVacantW cmp key s x ans = some (s', ⟨(addAny i s.hasAlloc ans.isSome st x).2,
        if (addAny i s.hasAlloc ans.isSome st x).2.isSome then Stat.vacant else Stat.insertError⟩) ∧
      (∀ n, (addAny i s.hasAlloc ans.isSome st x).2 = some n → n ≠ 0 ∧ s'.val n = x) := by
  rcases allocBack_spec o ans with ⟨hr, s', run, o', a'⟩ | ⟨hr, s', run, hcap, hst, al, a', hval⟩
  · have hadd : addAny 0 s.hasAlloc ans.isSome st x = ((room s.hasAlloc ans.isSome st).1, none) := by
      rw [addAny]
      cases h : room s.hasAlloc ans.isSome st with
      | mk s1 b => rw [h] at hr; simp only at hr; subst hr; rfl
    refine ⟨s', T, 0, ?_⟩
    rw [hadd]
    exact ⟨by simp [maybeAllocInsert, run], o', a', fun e he => by simp [orInsertW, he, run],
      fun e he => by simp [insertEntryW, he, run], by simp [insertVacantW, run], by simp⟩
  · have hadd : ∀ i, addAny i s.hasAlloc ans.isSome st x = ({ (room s.hasAlloc ans.isSome st).1 with
        l := putAt i (st.l.length + 1, x) st.l }, some (st.l.length + 1)) := by
      intro i
      rw [addAny]
      cases h : room s.hasAlloc ans.isSome st with
      | mk s1 b => rw [h] at hr; simp only at hr; subst hr; rfl
    have nl : s'.t.live (st.l.length + 1) = true := by rw [al.live, inUse_lt al.le, al.sz]; omega
    have nT : st.l.length + 1 ∉ T.ids := by rw [al.slots]; omega
    have hset : setVal s' (st.l.length + 1) x = some { s' with val := upd s'.val (st.l.length + 1) x } := by
      rw [setVal, if_pos nl]
    have ok1 : Kept (shrink { s' with val := upd s'.val (st.l.length + 1) x } st.l.length) st.l T :=
      ⟨al.ok.whole, al.ok.list.trans (elems_upd nT).symm, sorted_lt _, rfl⟩
    have al2 : Alloced lt blind { s' with val := upd s'.val (st.l.length + 1) x } st.l T :=
      ⟨al.sz, al.le, al.live, ok1, al.slots⟩
    have hv : ({ s' with val := upd s'.val (st.l.length + 1) x } : Fom α).val (st.l.length + 1) = x := by simp
    have hk2 : Miss (Fom.cmpAt cmp key { s' with val := upd s'.val (st.l.length + 1) x } (key x)) T := by
      refine hk.congr (fun a ha => ?_)
      have h1 : Fom.cmpAt cmp key { s' with val := upd s'.val (st.l.length + 1) x } (key x) a = _ :=
        cmpAt_kept (s := { s' with val := upd s'.val (st.l.length + 1) x }) ok1 cmp key (key x) ha
      have h2 : Fom.cmpAt cmp key s (key x) a = some (cmp (key x) (key (s.val a))) := by
        obtain ⟨_, ⟨_, h⟩ | ⟨_, _, rfl, _⟩⟩ := o
        · exact cmpAt_kept (s := s) h.ok cmp key _ ha
        · simp [ids] at ha
      rw [h1, h2]
      have : a ≠ st.l.length + 1 := fun h => nT (h ▸ ha)
      simp only [upd_ne _ _ this, hval a ha]
    obtain ⟨t, T', p, run2, st2⟩ := insertNode_any hne al2 (by rw [hv]; exact hk2)
    rw [hv] at st2
    have e1 : s'.sz - 1 = st.l.length + 1 := by rw [al.sz]; rfl
    refine ⟨{ s' with val := upd s'.val (st.l.length + 1) x, t := t }, T', p, ?_⟩
    rw [hadd]
    refine ⟨by simp [maybeAllocInsert, run, e1, hset, run2], st2.toOk hcap hst rfl, a',
      fun e he => by simp [orInsertW, he, run, e1, hset, run2],
      fun e he => by simp [insertEntryW, he, run, e1, hset, run2], by simp [insertVacantW, run, hset, run2], ?_⟩
    intro m hm
    simp only [Option.some.injEq] at hm
    subst hm
    exact ⟨by omega, hv⟩

/-- Overwriting the data of a stored element. -/
theorem StartedAny.set (h : StartedAny s l T) (a : Nat) (x : α) :
    StartedAny { s with val := upd s.val a x } (write a x l) T := by
  have hlen := write_length a x l
  exact ⟨Om.Kept.set h.ok a x, h.live, by rw [hlen]; exact h.sz, h.le, by rw [hlen]; exact h.slots⟩

/-- Goal of the per-call theorem. -/
def StepAny (cmp : κ → κ → Cmp) (key : α → κ) (s : Fom α) (st : St α) (op : Op α κ (Junk α)) : Prop :=
  ∃ s' c T', choiceOk cmp key st.l op c ∧ step cmp key s op = some (s', (specAny c s.hasAlloc st op).2) ∧
    Any s' (specAny c s.hasAlloc st op).1 T' ∧ s'.hasAlloc = s.hasAlloc

theorem any_insert (hne : ∀ a b, cmp a b ≠ .err) (o : Any s st T) {x : α} {ans : Option (Junk α)} :
    StepAny cmp key s st (.insert x ans) := by
  rcases Any.find (key := key) o hne (key x) with ⟨t, a, m, A, B, hst, hf, h, hr, ha, hm⟩ | ⟨t, T', hf, o1, ms⟩
  · obtain ⟨ham, a0, al, l0, ac, _⟩ := found h
    let t1 : Links := { t with
      br := fun b d => if b = 0 then t.br a d else t.br b d
      par := upd t.par 0 (t.par a)
      parity := upd t.parity 0 (t.parity a) }
    have e1 : copyLinks t 0 a = some t1 := by simp [copyLinks, l0, al, t1]
    have s1 := h.slot0 (t' := t1) (x := x) rfl rfl (by
      intro b hb
      refine ⟨?_, ?_⟩
      · funext d; simp [t1, hb]
      · simp [t1, upd_ne _ _ hb])
    have hv : (upd s.val 0 x) a = s.val a := upd_ne _ _ a0
    refine ⟨{ s with t := t1, val := upd (upd s.val 0 x) a x }, Rom.fnd (a, s.val a), _, fnd_ok rfl hm ha, ?_,
      (StartedAny.set s1 a x).toOk o.1 hst rfl, rfl⟩
    simp only [step, insert, hf, Option.bind_eq_bind, Option.bind_some, Option.isSome_some, if_true, hr, bne_root a0,
      e1, specAny, Rom.fnd]
    rw [setVal_live (by exact l0)]
    simp only [Option.bind_some, upd_same, hv]
    rw [setVal_live (by exact al)]
    simp only [Option.bind_some, unwrap_occ, view_some a0, upd_same]
  · obtain ⟨s', T2, i, run, o', a', _, _, _, hv⟩ := vacant_any o1 hne ms ans
    simp only at run o' a'
    refine ⟨s', Rom.gap i, T2, gap_ok, ?_, ?_, a'⟩
    · simp only [step, insert, hf, Option.bind_eq_bind, Option.bind_some, Option.isSome_none, Bool.false_eq_true, if_false,
        run, specAny, Rom.gap]
      cases hadd : addAny i s.hasAlloc ans.isSome st x with
      | mk st' r => cases r <;> simp [unwrap_ie, unwrap_vac, view_none]
    · simp only [specAny, Rom.gap]
      cases hadd : addAny i s.hasAlloc ans.isSome st x with
      | mk st' r =>
        rw [hadd] at o'
        cases r <;> exact o'

theorem any_tryInsert (hne : ∀ a b, cmp a b ≠ .err) (o : Any s st T) {x : α} {ans : Option (Junk α)} :
    StepAny cmp key s st (.tryInsert x ans) := by
  rcases Any.find (key := key) o hne (key x) with ⟨t, a, m, A, B, hst, hf, h, hr, ha, hm⟩ | ⟨t, T', hf, o1, ms⟩
  · obtain ⟨ham, a0, al, l0, ac, _⟩ := found h
    refine ⟨{ s with t := t }, Rom.fnd (a, s.val a), _, fnd_ok rfl hm ha, ?_, h.toOk o.1 hst rfl, rfl⟩
    simp only [step, tryInsert, hf, Option.bind_eq_bind, Option.bind_some, hr, bne_root a0, specAny, Rom.fnd,
      unwrap_occ, view_some a0]
  · obtain ⟨s', T2, i, run, o', a', _, _, _, hv⟩ := vacant_any o1 hne ms ans
    simp only at run o' a' hv
    refine ⟨s', Rom.gap i, T2, gap_ok, ?_, ?_, a'⟩
    · simp only [step, tryInsert, hf, Option.bind_eq_bind, Option.bind_some, run, specAny, Rom.gap]
      cases hadd : addAny i s.hasAlloc ans.isSome st x with
      | mk st' r =>
        rw [hadd] at hv
        cases r with
        | none => simp [unwrap_ie, view_none]
        | some n => obtain ⟨n0, hn⟩ := hv n rfl; simp [unwrap_vac, view_some n0, hn]
    · simp only [specAny, Rom.gap]
      cases hadd : addAny i s.hasAlloc ans.isSome st x with
      | mk st' r =>
        rw [hadd] at o'
        cases r <;> exact o'

theorem any_insertOrAssign (hne : ∀ a b, cmp a b ≠ .err) (o : Any s st T) {x : α} {ans : Option (Junk α)} :
    StepAny cmp key s st (.insertOrAssign x ans) := by
  rcases Any.find (key := key) o hne (key x) with ⟨t, a, m, A, B, hst, hf, h, hr, ha, hm⟩ | ⟨t, T', hf, o1, ms⟩
  · obtain ⟨ham, a0, al, l0, ac, _⟩ := found h
    refine ⟨{ s with t := t, val := upd s.val a x }, Rom.fnd (a, s.val a), _, fnd_ok rfl hm ha, ?_,
      (StartedAny.set h a x).toOk o.1 hst rfl, rfl⟩
    simp only [step, insertOrAssign, hf, Option.bind_eq_bind, Option.bind_some, hr, bne_root a0, specAny, Rom.fnd]
    rw [setVal_live (by exact al)]
    simp only [Option.bind_some, unwrap_occ, view_some a0, upd_same]
  · obtain ⟨s', T2, i, run, o', a', _, _, _, hv⟩ := vacant_any o1 hne ms ans
    simp only at run o' a' hv
    refine ⟨s', Rom.gap i, T2, gap_ok, ?_, ?_, a'⟩
    · simp only [step, insertOrAssign, hf, Option.bind_eq_bind, Option.bind_some, run, specAny, Rom.gap]
      cases hadd : addAny i s.hasAlloc ans.isSome st x with
      | mk st' r =>
        rw [hadd] at hv
        cases r with
        | none => simp [unwrap_ie, view_none]
        | some n => obtain ⟨n0, hn⟩ := hv n rfl; simp [unwrap_vac, view_some n0, hn]
    · simp only [specAny, Rom.gap]
      cases hadd : addAny i s.hasAlloc ans.isSome st x with
      | mk st' r =>
        rw [hadd] at o'
        cases r <;> exact o'

theorem any_orInsert (hne : ∀ a b, cmp a b ≠ .err) (o : Any s st T) {x : α} {ans : Option (Junk α)} :
    StepAny cmp key s st (.orInsert (key x) x ans) ∧ StepAny cmp key s st (.orInsertW (key x) x ans) := by
  rcases Any.find (key := key) o hne (key x) with ⟨t, a, m, A, B, hst, hf, h, hr, ha, hm⟩ | ⟨t, T', hf, o1, ms⟩
  · obtain ⟨ham, a0, al, l0, ac, _⟩ := found h
    have o2 := h.toOk (st := st) o.1 hst rfl
    refine ⟨⟨{ s with t := t }, Rom.fnd (a, s.val a), _, fnd_ok rfl hm ha, ?_, o2, rfl⟩,
      ⟨{ s with t := t }, Rom.fnd (a, s.val a), _, fnd_ok rfl hm ha, ?_, o2, rfl⟩⟩
    · simp only [step, entry_occ hf, orInsert, specAny, Rom.fnd, Option.bind_eq_bind, Option.bind_some, occ_occ,
        if_true, view_some a0]
    · simp only [step, entry_occ hf, orInsertW, specAny, Rom.fnd, Option.bind_eq_bind, Option.bind_some, if_true,
        if_neg ac, view_some a0]
  · obtain ⟨s', T2, i, run, o', a', f1, f2, f3, hv⟩ := vacant_any o1 hne ms ans
    simp only at run o' a' hv f1
    refine ⟨⟨s', Rom.gap i, T2, gap_ok, ?_, o', a'⟩, ⟨s', Rom.gap i, T2, gap_ok, ?_, o', a'⟩⟩
    · simp only [step, entry_vac hf, orInsert, specAny, Rom.gap, Option.bind_eq_bind, Option.bind_some,
        isVac_not_occ, Bool.false_eq_true, if_false, run, view_added hv]
    · simp only [step, entry_vac hf, specAny, Rom.gap, Option.bind_eq_bind, Option.bind_some,
        f1 ⟨0, Stat.vacant⟩ isVac_ne_occ, view_added hv]

theorem any_insertEntry (hne : ∀ a b, cmp a b ≠ .err) (o : Any s st T) {x : α} {ans : Option (Junk α)} :
    StepAny cmp key s st (.insertEntry (key x) x ans) ∧ StepAny cmp key s st (.insertEntryW (key x) x ans) := by
  rcases Any.find (key := key) o hne (key x) with ⟨t, a, m, A, B, hst, hf, h, hr, ha, hm⟩ | ⟨t, T', hf, o1, ms⟩
  · obtain ⟨ham, a0, al, l0, ac, _⟩ := found h
    have o2 := (StartedAny.set h a x).toOk (st := { st with l := write a x st.l }) o.1 hst rfl
    refine ⟨⟨{ s with t := t, val := upd s.val a x }, Rom.fnd (a, s.val a), _, fnd_ok rfl hm ha, ?_, o2, rfl⟩,
      ⟨{ s with t := t, val := upd s.val a x }, Rom.fnd (a, s.val a), _, fnd_ok rfl hm ha, ?_, o2, rfl⟩⟩
    · simp only [step, entry_occ hf, insertEntry, specAny, Rom.fnd, Option.bind_eq_bind, Option.bind_some, if_true]
      rw [setVal_live (by exact al)]
      simp only [Option.bind_some, view_some a0, upd_same]
    · simp only [step, entry_occ hf, insertEntryW, specAny, Rom.fnd, Option.bind_eq_bind, Option.bind_some, if_true,
        occ_occ, Bool.not_true, Bool.false_eq_true, if_false]
      rw [setVal_live (by exact al)]
      simp only [Option.bind_some, view_some a0, upd_same]
  · obtain ⟨s', T2, i, run, o', a', f1, f2, f3, hv⟩ := vacant_any o1 hne ms ans
    simp only at run o' a' hv f2
    refine ⟨⟨s', Rom.gap i, T2, gap_ok, ?_, o', a'⟩, ⟨s', Rom.gap i, T2, gap_ok, ?_, o', a'⟩⟩
    · simp only [step, entry_vac hf, insertEntry, specAny, Rom.gap, Option.bind_eq_bind, Option.bind_some,
        if_neg isVac_ne_occ, run, view_added hv]
    · simp only [step, entry_vac hf, specAny, Rom.gap, Option.bind_eq_bind, Option.bind_some,
        f2 ⟨0, Stat.vacant⟩ isVac_not_occ, view_added hv]

theorem any_tryInsertW (hne : ∀ a b, cmp a b ≠ .err) (o : Any s st T) {x : α} {ans : Option (Junk α)} :
    StepAny cmp key s st (.tryInsertW (key x) x ans) := by
  rcases Any.find (key := key) o hne (key x) with ⟨t, a, m, A, B, hst, hf, h, hr, ha, hm⟩ | ⟨t, T', hf, o1, ms⟩
  · obtain ⟨ham, a0, al, l0, ac, _⟩ := found h
    refine ⟨{ s with t := t }, Rom.fnd (a, s.val a), _, fnd_ok rfl hm ha, ?_, h.toOk o.1 hst rfl, rfl⟩
    simp only [step, tryInsertW, entry_occ hf, specAny, Rom.fnd, Option.bind_eq_bind, Option.bind_some, if_true,
      occ_occ, Bool.not_true, Bool.false_eq_true, if_false, if_neg ac, unwrap_occ, view_some a0]
  · obtain ⟨s', T2, i, run, o', a', f1, f2, f3, hv⟩ := vacant_any o1 hne ms ans
    simp only at o' a' hv f3
    refine ⟨s', Rom.gap i, T2, gap_ok, ?_, ?_, a'⟩
    · simp only [step, tryInsertW, entry_vac hf, Option.bind_eq_bind, Option.bind_some, isVac_not_occ, Bool.not_false,
        if_true, f3, view_vac hv, specAny, Rom.gap]
      cases hadd : addAny i s.hasAlloc ans.isSome st x with
      | mk st' r => cases r <;> simp [added]
    · simp only [specAny, Rom.gap]
      cases hadd : addAny i s.hasAlloc ans.isSome st x with
      | mk st' r =>
        rw [hadd] at o'
        cases r <;> exact o'

theorem any_insertOrAssignW (hne : ∀ a b, cmp a b ≠ .err) (o : Any s st T) {x : α} {ans : Option (Junk α)} :
    StepAny cmp key s st (.insertOrAssignW (key x) x ans) := by
  rcases Any.find (key := key) o hne (key x) with ⟨t, a, m, A, B, hst, hf, h, hr, ha, hm⟩ | ⟨t, T', hf, o1, ms⟩
  · obtain ⟨ham, a0, al, l0, ac, _⟩ := found h
    refine ⟨{ s with t := t, val := upd s.val a x }, Rom.fnd (a, s.val a), _, fnd_ok rfl hm ha, ?_,
      (StartedAny.set h a x).toOk o.1 hst rfl, rfl⟩
    simp only [step, insertOrAssignW, entry_occ hf, specAny, Rom.fnd, Option.bind_eq_bind, Option.bind_some,
      if_true, occ_occ, Bool.not_true, Bool.false_eq_true, if_false]
    rw [setVal_live (by exact al)]
    simp only [Option.bind_some, unwrap_occ, view_some a0, upd_same]
  · obtain ⟨s', T2, i, run, o', a', f1, f2, f3, hv⟩ := vacant_any o1 hne ms ans
    simp only at o' a' hv f3
    refine ⟨s', Rom.gap i, T2, gap_ok, ?_, ?_, a'⟩
    · simp only [step, insertOrAssignW, entry_vac hf, Option.bind_eq_bind, Option.bind_some, isVac_not_occ,
        Bool.not_false, if_true, f3, view_vac hv, specAny, Rom.gap]
      cases hadd : addAny i s.hasAlloc ans.isSome st x with
      | mk st' r => cases r <;> simp [added]
    · simp only [specAny, Rom.gap]
      cases hadd : addAny i s.hasAlloc ans.isSome st x with
      | mk st' r =>
        rw [hadd] at o'
        cases r <;> exact o'

theorem any_andModify (hne : ∀ a b, cmp a b ≠ .err) (o : Any s st T) {k : κ} {f : α → α} :
    StepAny cmp key s st (.andModify k f) := by
  rcases Any.find (key := key) o hne k with ⟨t, a, m, A, B, hst, hf, h, hr, ha, hm⟩ | ⟨t, T', hf, o1, ms⟩
  · obtain ⟨ham, a0, al, l0, ac, _⟩ := found h
    refine ⟨{ s with t := t, val := upd s.val a (f (s.val a)) }, Rom.fnd (a, s.val a), _, fnd_ok rfl hm ha, ?_,
      (StartedAny.set h a (f (s.val a))).toOk o.1 hst rfl, rfl⟩
    simp only [step, entry_occ hf, andModify, specAny, Rom.fnd, Option.bind_eq_bind, Option.bind_some, if_true, occ_occ]
    rw [setVal_live (by exact al)]
    simp only [Option.bind_some, unwrap, if_true, if_neg ac, view_some a0, upd_same]
  · refine ⟨{ s with t := t }, Rom.gap 0, _, gap_ok, ?_, o1, rfl⟩
    simp only [step, entry_vac hf, andModify, specAny, Rom.gap, Option.bind_eq_bind, Option.bind_some, isVac_not_occ,
      Bool.false_eq_true, if_false, unwrap, if_neg isVac_ne_occ, view_none]

theorem any_query (hne : ∀ a b, cmp a b ≠ .err) (o : Any s st T) {k : κ} :
    StepAny cmp key s st (.occupied k) ∧ StepAny cmp key s st (.get k) := by
  rcases Any.find (key := key) o hne k with ⟨t, a, m, A, B, hst, hf, h, hr, ha, hm⟩ | ⟨t, T', hf, o1, ms⟩
  · obtain ⟨ham, a0, al, l0, ac, _⟩ := found h
    have o2 := h.toOk (st := st) o.1 hst rfl
    refine ⟨⟨{ s with t := t }, Rom.fnd (a, s.val a), _, fnd_ok rfl hm ha, ?_, o2, rfl⟩,
      ⟨{ s with t := t }, Rom.fnd (a, s.val a), _, fnd_ok rfl hm ha, ?_, o2, rfl⟩⟩
    · simp only [step, entry_occ hf, specAny, Rom.fnd, Option.bind_eq_bind, Option.bind_some, occupied, occ_occ,
        Option.isSome_some]
    · simp only [step, get, hf, specAny, Rom.fnd, Option.bind_eq_bind, Option.bind_some, view_some a0, look]
  · refine ⟨⟨{ s with t := t }, Rom.gap 0, _, gap_ok, ?_, o1, rfl⟩, ⟨{ s with t := t }, Rom.gap 0, _, gap_ok, ?_, o1, rfl⟩⟩
    · simp only [step, entry_vac hf, specAny, Rom.gap, Option.bind_eq_bind, Option.bind_some, occupied, isVac_not_occ,
        Option.isSome_none]
    · simp only [step, get, hf, specAny, Rom.gap, Option.bind_eq_bind, Option.bind_some, view_none, look]

theorem any_contains (hne : ∀ a b, cmp a b ≠ .err) (o : Any s st T) {k : κ} (hl : st.l ≠ []) :
    StepAny cmp key s st (.contains k) := by
  obtain ⟨hst, h, hT⟩ := o.startd hl
  obtain ⟨c', al, mo⟩ := along_kept (s := s) (cmp := cmp) (key := key) h.ok hne k
  obtain ⟨t, i, m, A, B, _, w, hr, hi, hA, hB, hlv, hci, hal, run⟩ := splay_kept (s := s) h.ok hT k al mo
  have o' := h.reshape w hi hlv
  by_cases he : cmp k (key (s.val i)) = .eql
  · refine ⟨{ s with t := t }, Rom.fnd (i, s.val i), _, fnd_ok rfl (found o').2.2.2.2.2 he, ?_, o'.toOk o.1 hst rfl, rfl⟩
    simp only [step, contains, run, specAny, Rom.fnd, he, Option.bind_eq_bind, Option.bind_some, Option.isSome_some,
      beq_self_eq_true]
  · have hq : (cmp k (key (s.val i)) == Cmp.eql) = false := by simpa using he
    refine ⟨{ s with t := t }, Rom.gap 0, _, gap_ok, ?_, o'.toOk o.1 hst rfl, rfl⟩
    simp only [step, contains, run, specAny, Rom.gap, hq, Option.bind_eq_bind, Option.bind_some, Option.isSome_none]

theorem view_slot (s : Fom α) (b : Nat) : view s (some b) = look .fin (Rom.view (asRom s) (toSlot b)) :=
  Frm.view_slot s b

theorem any_range (hne : ∀ a b, cmp a b ≠ .err) (o : Any s st T) {b e : κ} :
    StepAny cmp key s st (.equalRange b e) ∧ StepAny cmp key s st (.equalRrange b e) := by
  have he := isEmpty_eq o
  cases hl : st.l with
  | nil =>
    rw [hl] at he
    refine ⟨⟨s, Rom.gap 0, T, gap_ok, ?_, by simp [specAny, hl]; exact o, rfl⟩,
      ⟨s, Rom.gap 0, T, gap_ok, ?_, by simp [specAny, hl]; exact o, rfl⟩⟩ <;>
      simp [step, equalRange, he, specAny, hl, view_none]
  | cons y ys =>
    have hne' : st.l ≠ [] := by rw [hl]; simp
    have hemp : st.l.isEmpty = false := by rw [hl]; rfl
    rw [hemp] at he
    obtain ⟨hst, hs, hT⟩ := o.startd hne'
    have main : ∀ trav, ∃ t T' p r, Splay.equalRange s.t (Fom.cmpAt cmp key s b) (Fom.cmpAt cmp key s e) trav =
          some (t, p, r) ∧ StartedAny { s with t := t } st.l T' ∧
        (∀ e, Rom.view (asRom s) (toSlot p) = some e → e ∈ st.l) ∧
        (∀ e, Rom.view (asRom s) (toSlot r) = some e → e ∈ st.l) := by
      intro trav
      obtain ⟨c1, al1, mo1⟩ := along_kept (s := s) (cmp := cmp) (key := key) hs.ok hne b
      obtain ⟨t1, i, m, A, B, run1, w1, hr1, hi1, _, _, hlv1, _, _, _⟩ := splay_kept (s := s) hs.ok hT b al1 mo1
      have o1 := hs.reshape w1 hi1 hlv1
      obtain ⟨c2, al2, mo2⟩ := along_kept (s := { s with t := t1 }) (cmp := cmp) (key := key) o1.ok hne e
      obtain ⟨t2, j, n, C, D, run2, w2, hr2, hi2, _, _, hlv2, _, _, _⟩ :=
        splay_kept (s := { s with t := t1 }) o1.ok (by simp) e al2 mo2
      have o2 := o1.reshape w2 hi2 hlv2
      rw [cmpAt_live hlv1] at run2
      obtain ⟨p, hp, mp⟩ := Om.half_any o1.ok (cmp b (key (s.val i)) = (if trav then Cmp.grt else Cmp.les)) trav
      obtain ⟨r, hr, mr⟩ := Om.half_any o2.ok (cmp e (key (s.val j)) ≠ (if trav then Cmp.les else Cmp.grt)) trav
      have q1 : Fom.cmpAt cmp key s b i = some (cmp b (key (s.val i))) :=
        cmpAt_kept (s := s) hs.ok cmp key b (by rw [← hi1]; simp [ids])
      have q2 : Fom.cmpAt cmp key s e j = some (cmp e (key (s.val j))) :=
        cmpAt_kept (s := s) hs.ok cmp key e (by rw [← hi1, ← hi2]; simp [ids])
      refine ⟨t2, _, p, r, ?_, o2, mp, mr⟩
      simp only [asRom] at run2 hp hr
      simp only [Splay.equalRange, Option.bind_eq_bind, run1, Option.bind_some, q1, hp, run2, q2, hr]
    obtain ⟨t, T1, p, r, hr, o1, m1, m2⟩ := main true
    obtain ⟨t', T2, p', r', hr', o2, m1', m2'⟩ := main false
    refine ⟨⟨{ s with t := t }, ⟨none, 0, Rom.view (asRom s) (toSlot p), Rom.view (asRom s) (toSlot r), true⟩, T1,
        ⟨fun _ h => (by cases h), m1, m2⟩, ?_, by simp [specAny, hemp]; exact o1.toOk o.1 hst rfl, rfl⟩,
      ⟨{ s with t := t' }, ⟨none, 0, Rom.view (asRom s) (toSlot p'), Rom.view (asRom s) (toSlot r'), true⟩, T2,
        ⟨fun _ h => (by cases h), m1', m2'⟩, ?_, by simp [specAny, hemp]; exact o2.toOk o.1 hst rfl, rfl⟩⟩
    · simp only [step, equalRange, he, Bool.false_eq_true, if_false, hr, Option.bind_eq_bind, Option.bind_some, specAny,
        hemp, view_slot]
      rfl
    · simp only [step, equalRange, he, Bool.false_eq_true, if_false, hr', Option.bind_eq_bind, Option.bind_some, specAny,
        hemp, view_slot]
      rfl

theorem validate_any (cmp : κ → κ → Cmp) (key : α → κ) (o : Any s st T) : ∃ b, validate cmp key s = some b := by
  obtain ⟨_, ⟨hst, h⟩ | ⟨hst, hl, rfl, h⟩⟩ := o
  · have hroot : s.t.root = T.rootId := h.ok.whole.ctx
    have hsz : T.ids.length = s.sz - 1 := by
      have := h.ok.size
      rw [h.ok.list] at this
      simp only [elems, List.length_map] at this
      exact this.symm
    obtain ⟨b, e1⟩ := Rom.areSubtreesValid_any cmp key (asRom s) (low := 0) (high := 0) h.ok.whole.tree
    have e2 : Rom.recursiveSize s.t T.rootId = some T.ids.length := Rom.recursiveSize_spec h.ok.whole.tree
    have e3 : Rom.isStoringParent s.t 0 T.rootId = some true := Rom.isStoringParent_spec (t := T) h.ok.whole.tree
    rw [validate]
    simp only [Option.bind_eq_bind, Option.bind_some, hroot, e1, e2,
      Bool.not_true, Bool.false_eq_true, if_false, hsz, ne_eq, not_true_eq_false, and_false]
    cases b
    · exact ⟨_, rfl⟩
    · exact ⟨_, e3⟩
  · refine ⟨true, ?_⟩
    rw [validate]
    simp only [h.sz, h.root]
    rw [Rom.areSubtreesValid, Rom.recursiveSize, Rom.isStoringParent]
    simp

/-- A call whose specification does not mention the order. -/
theorem orderless {op : Op α κ (Junk α)} {op' : Op α Unit (Junk α)} (h : StepOk lt blind s st op')
    (h1 : step cmp key s op = step lt blind s op')
    (h2 : specAny (Rom.gap 0) s.hasAlloc st op = specStepS lt blind s.hasAlloc st op') : StepAny cmp key s st op := by
  obtain ⟨s', run, ⟨T', o'⟩, a', _⟩ := h
  exact ⟨s', Rom.gap 0, T', gap_ok, by rw [h1, h2]; exact run, by rw [h2]; exact o', a'⟩

/-- Every call but those that take single elements out, from every state that represents a specification state, whatever
the comparison function. -/
theorem step_any (hne : ∀ a b, cmp a b ≠ .err) (o : Any s st T) (op : Op α κ (Junk α)) (ok : okAny st op)
    (ca : calm key st op) : StepAny cmp key s st op := by
  cases op with
  | insert x ans => exact any_insert hne o
  | tryInsert x ans => exact any_tryInsert hne o
  | insertOrAssign x ans => exact any_insertOrAssign hne o
  | remove x => exact ca.elim
  | orInsert k x ans => cases ca; exact (any_orInsert hne o).1
  | insertEntry k x ans => cases ca; exact (any_insertEntry hne o).1
  | removeEntry k => exact ca.elim
  | andModify k f => exact any_andModify hne o
  | occupied k => exact (any_query hne o).1
  | orInsertW k x ans => cases ca; exact (any_orInsert hne o).2
  | insertEntryW k x ans => cases ca; exact (any_insertEntry hne o).2
  | tryInsertW k x ans => cases ca; exact any_tryInsertW hne o
  | insertOrAssignW k x ans => cases ca; exact any_insertOrAssignW hne o
  | contains k => exact any_contains hne o ca
  | get k => exact (any_query hne o).2
  | begin => exact orderless (op' := .begin) (step_begin o) rfl rfl
  | rbegin => exact orderless (op' := .rbegin) (step_rbegin o) rfl rfl
  | next a => exact orderless (op' := .next a) (step_next o ok) rfl rfl
  | rnext a => exact orderless (op' := .rnext a) (step_rnext o ok) rfl rfl
  | end_ =>
    refine ⟨s, Rom.gap 0, T, gap_ok, ?_, o, rfl⟩
    obtain ⟨_, ⟨hst, h⟩ | ⟨hst, hl, rfl, h⟩⟩ := o
    · simp only [step, end_, if_neg h.sz_ne, specAny, St.fin, hst, if_true, view]
    · simp [step, end_, h.sz, specAny, St.fin, hst, view]
  | equalRange b e => exact (any_range hne o).1
  | equalRrange b e => exact (any_range hne o).2
  | size => exact ⟨s, Rom.gap 0, T, gap_ok, by simp only [step, size_eq o, specAny], o, rfl⟩
  | isEmpty => exact ⟨s, Rom.gap 0, T, gap_ok, by simp only [step, isEmpty_eq o, specAny], o, rfl⟩
  | capacity => exact ⟨s, Rom.gap 0, T, gap_ok, by simp only [step, capacity, o.1, specAny], o, rfl⟩
  | validate =>
    obtain ⟨b, hb⟩ := validate_any cmp key o
    refine ⟨s, ⟨none, 0, none, none, b⟩, T, ⟨fun _ h => (by cases h), fun _ h => (by cases h), fun _ h => (by cases h)⟩,
      ?_, o, rfl⟩
    simp only [step, hb, specAny, Option.bind_eq_bind, Option.bind_some]
  | clear =>
    refine orderless (op' := .clear) (step_clear o) rfl ?_
    have hst : st.started = true := ca
    have hcap : st.cap ≠ 0 := by
      obtain ⟨h0, ⟨_, h⟩ | ⟨h1, _⟩⟩ := o
      · have := h.sz; have := h.le; omega
      · rw [hst] at h1; cases h1
    simp [specAny, specStepS, hcap, hst]

end CCC.Fom
