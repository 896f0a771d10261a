import Verif.Model.FlatOrderedMap
import Verif.Proof.FlatRealtimeMap
import Verif.Proof.OrderedMapStep
/-
The flat ordered map represents a sorted list of elements.
-/
namespace CCC.Fom
open CCC Links Tree Wavl Splay MapSpec FlatMap
open CCC.Rom (elems mem_elems elems_append elems_congr elems_upd)
open CCC.Frm (Frm Junk inUse setSize growTo bufAllocBack setVal copyLinks copySlot sizeSet destroyLoop asRom view inUse_lt
  Fresh bufAllocBack_spec Same ren copySlot_live swap_links)
open CCC.Om (setRoot_self lookup_after elems_side)

variable {α κ : Type} {cmp : κ → κ → Cmp} {key : α → κ}

/-- A map that took its slot 0, storing `l` in a tree of shape `T`. -/
structure Started (cmp : κ → κ → Cmp) (key : α → κ) (s : Fom α) (l : List (Nat × α)) (T : Tree) : Prop where
  ok : Om.Ok cmp key (asRom s) l T
  live : s.t.live = inUse s.sz s.cap
  sz : s.sz = l.length + 1
  le : s.sz ≤ s.cap
  slots : ∀ a, 1 ≤ a → a ≤ l.length → a ∈ T.ids

/-- `s` represents the specification state `st`. -/
def Ok (cmp : κ → κ → Cmp) (key : α → κ) (s : Fom α) (st : St α) (T : Tree) : Prop :=
  s.cap = st.cap ∧ ((st.started = true ∧ Started cmp key s st.l T) ∨
    (st.started = false ∧ st.l = [] ∧ T = nil ∧ Fresh s))

variable {s : Fom α} {st : St α} {l : List (Nat × α)} {T : Tree}

theorem Started.toOk (h : Started cmp key s l T) {st : St α} (hc : s.cap = st.cap) (hs : st.started = true) (hl : st.l = l) :
    Ok cmp key s st T := ⟨hc, Or.inl ⟨hs, hl ▸ h⟩⟩

theorem Started.live_iff (h : Started cmp key s l T) {a : Nat} : s.t.live a = true ↔ a ≤ l.length := by
  rw [h.live, inUse_lt h.le, h.sz]; omega

theorem Started.live_mem (h : Started cmp key s l T) {a : Nat} (ha : a ∈ T.ids) : s.t.live a = true :=
  h.ok.whole.tree.live a ha

theorem Started.mem_iff (h : Started cmp key s l T) {a : Nat} : a ∈ T.ids ↔ 1 ≤ a ∧ a ≤ l.length := by
  constructor
  · intro ha
    have h0 := h.ok.ne_zero ha
    have h1 := h.live_mem ha
    rw [h.live_iff] at h1
    omega
  · rintro ⟨h1, h2⟩; exact h.slots a h1 h2

theorem Started.nil_iff (h : Started cmp key s l T) : l = [] ↔ T = nil := h.ok.nil_iff

theorem Started.cmpAt (h : Started cmp key s l T) (k : κ) :
    ∀ a ∈ T.ids, cmpAt cmp key s k a = some (cmp k (key (s.val a))) := fun _ ha => if_pos (h.live_mem ha)

/-- The tree may change shape. -/
theorem Started.reshape (h : Started cmp key s l T) {t : Links} {T' : Tree} (w : Whole t [] T') (hi : T'.ids = T.ids)
    (hl : t.live = s.t.live) : Started cmp key { s with t := t } l T' :=
  ⟨h.ok.reshape w hi, hl.trans h.live, h.sz, h.le, fun a h1 h2 => by rw [hi]; exact h.slots a h1 h2⟩

/-- Splaying: the same elements, smaller keys left of the new root and greater keys right of it. -/
theorem splay_ok {s : Fom α} {n : Nat} {b : Bool} (o : Om.Ok cmp key ⟨s.t, n, s.val, b⟩ l T) (hc : LawfulCmp cmp)
    (hne : T ≠ nil) (k : κ) :
    ∃ t i m A B, splay s.t (Fom.cmpAt cmp key s k) s.t.root = some (t, i) ∧ Whole t [] (node i m A B) ∧
      t.root = i ∧ (node i m A B).ids = T.ids ∧ (∀ a ∈ A.ids, cmp k (key (s.val a)) = .grt) ∧
      (∀ a ∈ B.ids, cmp k (key (s.val a)) = .les) ∧ t.live = s.t.live ∧
      splayTo cmp key s k = some ({ s with t := t }, cmp k (key (s.val i))) := by
  obtain ⟨t, i, m, A, B, e, w, hi, hA, hB, hs⟩ := splay_spec (c := Fom.cmpAt cmp key s k) o.whole.tree o.nodup o.whole.live0 hne
    (fun a ha => if_pos (o.whole.tree.live a ha)) (o.mono hc k)
  have hr : t.root = i := w.ctx
  have hr0 : s.t.root = T.rootId := o.root
  have e' : splay s.t (Fom.cmpAt cmp key s k) s.t.root = some (t, i) := by rw [hr0]; exact e
  refine ⟨t, i, m, A, B, e', w, hr, hi, hA, hB, hs.live, ?_⟩
  have hq : Fom.cmpAt cmp key { s with t := t } k i = some (cmp k (key (s.val i))) :=
    if_pos (w.tree.live i (by simp [ids]))
  simp only [splayTo, e', Option.bind_eq_bind, Option.bind_some, setRoot_self hr, hr, hq]

theorem Started.splay (h : Started cmp key s l T) (hc : LawfulCmp cmp) (hne : T ≠ nil) (k : κ) :
    ∃ t i m A B, splay s.t (Fom.cmpAt cmp key s k) s.t.root = some (t, i) ∧
      Started cmp key { s with t := t } l (node i m A B) ∧
      t.root = i ∧ (node i m A B).ids = T.ids ∧ (∀ a ∈ A.ids, cmp k (key (s.val a)) = .grt) ∧
      (∀ a ∈ B.ids, cmp k (key (s.val a)) = .les) ∧
      splayTo cmp key s k = some ({ s with t := t }, cmp k (key (s.val i))) := by
  obtain ⟨t, i, m, A, B, e, w, hr, hi, hA, hB, hl, e'⟩ := splay_ok (s := s) h.ok hc hne k
  exact ⟨t, i, m, A, B, e, h.reshape w hi hl, hr, hi, hA, hB, e'⟩

theorem Started.root_ne (h : Started cmp key s l T) (hne : T ≠ nil) : s.t.root ≠ 0 := by
  have hr : s.t.root = T.rootId := h.ok.root
  rw [hr]
  intro hh
  exact hne ((Splay.rootId_ne h.ok.whole.tree).1 hh)

/-- What a search answers, in terms of the stored list, and that the element found is the new root. -/
theorem Ok.find (o : Ok cmp key s st T) (hc : LawfulCmp cmp) (k : κ) :
    (∃ t x m A B, st.started = true ∧ find cmp key s k = some ({ s with t := t }, some x) ∧
      Started cmp key { s with t := t } st.l (node x m A B) ∧
      t.root = x ∧ cmp k (key (s.val x)) = .eql ∧
      (∀ e ∈ elems s.val A.ids, cmp k (ekey key e) = .grt) ∧ (∀ e ∈ elems s.val B.ids, cmp k (ekey key e) = .les) ∧
      lookup cmp (ekey key) k st.l = some (x, s.val x)) ∨
    (∃ t T', find cmp key s k = some ({ s with t := t }, none) ∧ Ok cmp key { s with t := t } st T' ∧
      lookup cmp (ekey key) k st.l = none) := by
  obtain ⟨hcap, ⟨hs, h⟩ | ⟨hs, hl, rfl, h⟩⟩ := o
  · by_cases hne : T = nil
    · right
      subst hne
      have hr : s.t.root = 0 := h.ok.root
      refine ⟨s.t, nil, by simp [Fom.find, hr], ⟨hcap, Or.inl ⟨hs, h⟩⟩, ?_⟩
      rw [h.nil_iff.2 rfl]; rfl
    · obtain ⟨t, i, m, A, B, _, o', hr, hi, hA, hB, run⟩ := h.splay hc hne k
      have hz := h.root_ne hne
      have hlk := lookup_after o'.ok.list hc hA hB
      by_cases he : cmp k (key (s.val i)) = .eql
      · left
        refine ⟨t, i, m, A, B, hs, ?_, o', hr, he, elems_side hA, elems_side hB, hlk.1 he⟩
        simp only [Fom.find, if_neg hz, run, Option.bind_eq_bind, Option.bind_some, if_pos he, hr]
      · right
        refine ⟨t, _, ?_, ⟨hcap, Or.inl ⟨hs, o'⟩⟩, hlk.2 he⟩
        simp only [Fom.find, if_neg hz, run, Option.bind_eq_bind, Option.bind_some, if_neg he]
  · right
    refine ⟨s.t, nil, by simp [Fom.find, h.root], ⟨hcap, Or.inr ⟨hs, hl, rfl, h⟩⟩, by rw [hl]; rfl⟩

/-! ### Allocation -/

/-- The map seen without the slots behind the `n`-th. -/
abbrev shrink (s : Fom α) (n : Nat) : Rom.Rom α := ⟨s.t, n, s.val, false⟩

theorem Started.transfer (h : Started cmp key s l T) {s' : Fom α} (hr : s'.t.root = s.t.root) (hs : Same s.sz s s')
    (hlv : ∀ a, a < s.sz → s'.t.live a = true) : Om.Ok cmp key (shrink s' l.length) l T := by
  have hm : ∀ a ∈ T.ids, a < s.sz := fun a ha => by have := (h.mem_iff.1 ha).2; rw [h.sz]; omega
  have h0 : 0 < s.sz := by rw [h.sz]; omega
  have w := h.ok.whole
  refine ⟨⟨?_, ?_, w.nodup, hlv 0 h0⟩, ?_, h.ok.sorted, rfl⟩
  · exact hr.trans w.ctx
  · refine w.tree.congr (fun a ha => ?_) (fun a ha => (hs a (hm a ha)).1) (fun a ha => (hs a (hm a ha)).2.1)
    rw [w.tree.live a ha]; exact hlv a (hm a ha)
  · rw [h.ok.list]
    exact (elems_congr (fun a ha => (hs a (hm a ha)).2.2.2)).symm

/-- After a slot for a new element was obtained. -/
structure Alloced (cmp : κ → κ → Cmp) (key : α → κ) (s : Fom α) (l : List (Nat × α)) (T : Tree) : Prop where
  sz : s.sz = l.length + 2
  le : s.sz ≤ s.cap
  live : s.t.live = inUse s.sz s.cap
  ok : Om.Ok cmp key (shrink s l.length) l T
  slots : ∀ a, a ∈ T.ids ↔ 1 ≤ a ∧ a ≤ l.length

theorem allocBack_spec (o : Ok cmp key s st T) (ans : Option (Junk α)) :
    ((room s.hasAlloc ans.isSome st).2 = false ∧ ∃ s', allocBack s ans = (s', none) ∧
      Ok cmp key s' (room s.hasAlloc ans.isSome st).1 T ∧ s'.hasAlloc = s.hasAlloc) ∨
    ((room s.hasAlloc ans.isSome st).2 = true ∧ ∃ s', allocBack s ans = (s', some (st.l.length + 1)) ∧
      s'.cap = (room s.hasAlloc ans.isSome st).1.cap ∧ (room s.hasAlloc ans.isSome st).1.started = true ∧
      Alloced cmp key s' st.l T ∧ s'.hasAlloc = s.hasAlloc ∧ ∀ a ∈ T.ids, s'.val a = s.val a) := by
  obtain ⟨hcap, ⟨hs, h⟩ | ⟨hs, hl, rfl, h⟩⟩ := o
  · have hsz0 : s.sz ≠ 0 := by rw [h.sz]; omega
    rcases bufAllocBack_spec s h.le ans with ⟨g, e⟩ | ⟨c, s', g, e, e1, e2, e3, e4, e5, e6, e7⟩
    · left
      rw [hcap, h.sz] at g
      have hr : room s.hasAlloc ans.isSome st = (st, false) := by simp [room, hs, g]
      rw [hr]
      exact ⟨rfl, s, by rw [allocBack, if_neg hsz0, e], ⟨hcap, Or.inl ⟨hs, h⟩⟩, rfl⟩
    · right
      rw [hcap, h.sz] at g
      have hr : room s.hasAlloc ans.isSome st = ({ st with cap := c }, true) := by simp [room, hs, g]
      rw [hr]
      refine ⟨rfl, s', by rw [allocBack, if_neg hsz0, e, h.sz], e2, hs, ⟨?_, by rw [e2]; exact e3, e5, ?_, fun a => h.mem_iff⟩, e4, ?_⟩
      · rw [e1, h.sz]
      · exact h.transfer e6 e7 (fun a ha => by rw [e5, inUse_lt (by rw [e2]; exact e3)]; omega)
      · intro a ha; exact (e7 a (by have := (h.mem_iff.1 ha).2; rw [h.sz]; omega)).2.2.2
  · rcases bufAllocBack_spec s (by rw [h.sz]; omega) ans with ⟨g, e⟩ | ⟨c, s', g, e, e1, e2, e3, e4, e5, e6, e7⟩
    · left
      rw [hcap, h.sz] at g
      have hr : room s.hasAlloc ans.isSome st = (st, false) := by simp [room, hs, g]
      rw [hr]
      refine ⟨rfl, s, by rw [allocBack, if_pos h.sz, e], ⟨hcap, Or.inr ⟨hs, hl, rfl, h⟩⟩, rfl⟩
    · rw [hcap, h.sz] at g
      rw [h.sz] at e e1
      have l0 : s'.t.live 0 = true := by rw [e5, inUse_lt (by rw [e2]; exact e3), e1]; omega
      have hrun : allocBack s ans = bufAllocBack s' ans := by
        rw [allocBack, if_pos h.sz, e]
      have st1 : Started cmp key s' [] nil := by
        refine ⟨⟨⟨?_, trivial, by simp [ids], l0⟩, rfl, List.Pairwise.nil, ?_⟩, e5, e1,
          by rw [e2]; exact e3, ?_⟩
        · exact e6.trans h.root
        · show s'.sz - 1 = 0; rw [e1]
        · intro a h1 h2; simp at h2; omega
      have hsz1 : s'.sz = 1 := e1
      rcases bufAllocBack_spec s' st1.le ans with ⟨g', e'⟩ | ⟨c', s2, g', e', f1, f2, f3, f4, f5, f6, f7⟩
      · left
        rw [e4, hsz1, e2] at g'
        have hr : room s.hasAlloc ans.isSome st = ({ st with cap := c, started := true }, false) := by
          simp [room, hs, g, g']
        rw [hr]
        exact ⟨rfl, s', by rw [hrun, e'], st1.toOk e2 rfl hl, e4⟩
      · right
        rw [e4, hsz1, e2] at g'
        have hr : room s.hasAlloc ans.isSome st = ({ st with cap := c', started := true }, true) := by
          simp [room, hs, g, g']
        rw [hr, hl]
        refine ⟨rfl, s2, by rw [hrun, e', hsz1]; rfl, f2, rfl, ⟨by rw [f1, hsz1]; rfl, by rw [f2]; exact f3, f5, ?_, fun a => st1.mem_iff⟩,
          by rw [f4, e4], by simp [ids]⟩
        exact st1.transfer f6 f7 (fun a ha => by rw [f5, inUse_lt (by rw [f2]; exact f3)]; omega)

/-- The struct in the newly obtained slot becomes an element. -/
theorem insertNode_spec (hc : LawfulCmp cmp) (al : Alloced cmp key s l T)
    (hk : lookup cmp (ekey key) (key (s.val (l.length + 1))) l = none) :
    ∃ t T', insertNode cmp key s (l.length + 1) = some ({ s with t := t }, some (l.length + 1)) ∧
      Started cmp key { s with t := t } (place cmp (ekey key) (l.length + 1, s.val (l.length + 1)) l) T' ∧
      t.root = l.length + 1 := by
  have nl : s.t.live (l.length + 1) = true := by rw [al.live, inUse_lt al.le, al.sz]; omega
  have nT : l.length + 1 ∉ T.ids := by rw [al.slots]; omega
  have n0 : l.length + 1 ≠ 0 := by omega
  generalize hn : l.length + 1 = n at *
  obtain ⟨t, run, l1, r1, b1, p1, f1⟩ := Om.initNode_spec (t := s.t) (e := n) nl
  have w : Whole t [] T := by
    have w0 := al.ok.whole
    refine ⟨?_, ?_, w0.nodup, ?_⟩
    · exact r1.trans w0.ctx
    · exact w0.tree.congr (fun a _ => by rw [l1]) (fun a ha => (f1 a (fun h => nT (h ▸ ha))).1)
        (fun a ha => (f1 a (fun h => nT (h ▸ ha))).2)
    · rw [l1]; exact w0.live0
  have o1 : Om.Ok cmp key ⟨t, l.length, s.val, false⟩ l T := al.ok.reshape w rfl
  have fin : ∀ (t' : Links) (T' : Tree) (l' : List (Nat × α)), t'.live = s.t.live →
      Om.Ok cmp key ⟨t', l.length + 1, s.val, false⟩ l' T' → (∀ a, a ∈ T'.ids ↔ a = n ∨ a ∈ T.ids) →
      Started cmp key { s with t := t' } l' T' := by
    intro t' T' l' hlv o' hm
    have hsz : l'.length = l.length + 1 := o'.size.symm
    refine ⟨⟨o'.whole, o'.list, o'.sorted, ?_⟩, hlv.trans al.live, ?_, al.le, ?_⟩
    · show s.sz - 1 = _; rw [al.sz, hsz]; omega
    · show s.sz = _; rw [al.sz, hsz]
    · intro a h1 h2
      rw [hm, al.slots]
      omega
  have h2 : (s.sz = 2) ↔ l = [] := by
    rw [al.sz, ← List.length_eq_zero_iff]; omega
  simp only [insertNode, run, Option.bind_eq_bind, Option.bind_some]
  by_cases hne : T = nil
  · subst hne
    have hl : l = [] := al.ok.nil_iff.2 rfl
    rw [if_pos (h2.2 hl)]
    refine ⟨_, node n 0 nil nil, rfl, fin _ _ _ ?_ ?_ ?_, rfl⟩
    · exact l1
    · have := o1.first n0 w.live0 (by rw [l1]; exact nl) b1 p1
      have hz : l.length + 1 = 1 := by rw [hl]; rfl
      rw [hz]; exact this
    · intro a; simp [ids]
  · have hl : l ≠ [] := fun hh => hne (al.ok.nil_iff.1 hh)
    rw [if_neg (fun hh => hl (h2.1 hh))]
    obtain ⟨t2, i, m, A, B, _, w2, hr2, hi, hA, hB, hlv2, run2⟩ := splay_ok (s := { s with t := t }) o1 hc hne (key (s.val n))
    have o2 : Om.Ok cmp key ⟨t2, l.length, s.val, false⟩ l (node i m A B) := o1.reshape w2 hi
    have hq : cmp (key (s.val n)) (key (s.val i)) ≠ .eql := by
      intro hh
      have := (lookup_after o2.list hc hA hB).1 hh
      rw [hk] at this; cases this
    have hlv2' : t2.live = t.live := hlv2
    obtain ⟨t3, T', run3, hr3, _, o3, hlv3, hm3⟩ := o2.connect hc n0 (by rw [hi]; exact nT)
      (by show t2.live n = true; rw [hlv2', l1]; exact nl) hA hB hq
    simp only at run3
    refine ⟨t3, T', ?_, ?_, hr3⟩
    · simp only [run2, Option.bind_some, if_neg hq]
      rw [run3]; rfl
    · refine fin _ _ _ ?_ o3 ?_
      · rw [hlv3]; exact hlv2'.trans l1
      · intro a; rw [hm3, hi]

/-- Obtaining a slot for `x`, writing it there and linking it in: the steps common to the functions and the macros. -/
theorem alloc_steps (o : Ok cmp key s st T) (hc : LawfulCmp cmp) {x : α}
    (hk : lookup cmp (ekey key) (key x) st.l = none) (ans : Option (Junk α)) :
    ((add cmp key s.hasAlloc ans.isSome st x).2 = none ∧ ∃ s', allocBack s ans = (s', none) ∧
      Ok cmp key s' (add cmp key s.hasAlloc ans.isSome st x).1 T ∧ s'.hasAlloc = s.hasAlloc) ∨
    (∃ s1 s2 s3 n T', allocBack s ans = (s1, some n) ∧ s1.sz - 1 = n ∧ setVal s1 n x = some s2 ∧ s2.sz - 1 = n ∧
      insertNode cmp key s2 n = some (s3, some n) ∧ (add cmp key s.hasAlloc ans.isSome st x).2 = some n ∧
      Ok cmp key s3 (add cmp key s.hasAlloc ans.isSome st x).1 T' ∧ s3.hasAlloc = s.hasAlloc ∧ n ≠ 0 ∧ s3.val n = x ∧
      s3.t.root = n ∧ (n, x) ∈ (add cmp key s.hasAlloc ans.isSome st x).1.l) := by
  rcases allocBack_spec o ans with ⟨hr, s', run, o', a'⟩ | ⟨hr, s', run, hcap, hst, al, a', hval⟩
  · left
    have hadd : add cmp key s.hasAlloc ans.isSome st x = ((room s.hasAlloc ans.isSome st).1, none) := by
      unfold add
      cases h : room s.hasAlloc ans.isSome st with
      | mk s1 b => rw [h] at hr; simp only at hr; subst hr; rfl
    rw [hadd]
    exact ⟨rfl, s', run, o', a'⟩
  · right
    have hadd : add cmp key s.hasAlloc ans.isSome st x =
        ({ (room s.hasAlloc ans.isSome st).1 with l := place cmp (ekey key) (st.l.length + 1, x) st.l },
          some (st.l.length + 1)) := by
      unfold add
      cases h : room s.hasAlloc ans.isSome st with
      | mk s1 b => rw [h] at hr; simp only at hr; subst hr; rfl
    rw [hadd]
    have nl : s'.t.live (st.l.length + 1) = true := by rw [al.live, inUse_lt al.le, al.sz]; omega
    have nT : st.l.length + 1 ∉ T.ids := by rw [al.slots]; omega
    have hset : setVal s' (st.l.length + 1) x = some { s' with val := upd s'.val (st.l.length + 1) x } := by
      rw [setVal, if_pos nl]
    have ok1 : Om.Ok cmp key (shrink { s' with val := upd s'.val (st.l.length + 1) x } st.l.length) st.l T :=
      ⟨al.ok.whole, al.ok.list.trans (elems_upd nT).symm, al.ok.sorted, rfl⟩
    have al2 : Alloced cmp key { s' with val := upd s'.val (st.l.length + 1) x } st.l T :=
      ⟨al.sz, al.le, al.live, ok1, al.slots⟩
    have hv : ({ s' with val := upd s'.val (st.l.length + 1) x } : Fom α).val (st.l.length + 1) = x := by simp
    obtain ⟨t, T', run2, st2, hroot⟩ := insertNode_spec hc al2 (by rw [hv]; exact hk)
    rw [hv] at st2
    refine ⟨s', _, _, _, T', run, by rw [al.sz]; rfl, hset, by show s'.sz - 1 = _; rw [al.sz]; rfl, run2, rfl,
      st2.toOk hcap hst rfl, a', by omega, hv, hroot, Om.mem_place⟩

theorem swapAndPop_spec {s : Fom α} {n r : Nat} (hsz : s.sz = n + 1) (hle : s.sz ≤ s.cap)
    (hlive : s.t.live = inUse s.sz s.cap) (w : Whole s.t [] T) (hr : 1 ≤ r ∧ r ≤ n) (rt : r ∉ T.ids)
    (hm : ∀ a, 1 ≤ a → a ≤ n → a ≠ r → a ∈ T.ids) :
    ∃ s' T', swapAndPop s r = some s' ∧ Whole s'.t [] T' ∧ T'.ids = T.ids.map (ren n r) ∧ s'.sz = n ∧
      s'.cap = s.cap ∧ s'.hasAlloc = s.hasAlloc ∧ s'.t.live = inUse n s.cap ∧ s'.val n = s.val r ∧
      (∀ a ∈ T.ids, s'.val (ren n r a) = s.val a) ∧ s'.val 0 = (if r = n then s.val 0 else s.val r) ∧
      (T' = T ∨ ∃ c k L R, T = plug c (node n k L R) ∧ T' = plug c (node r k L R)) := by
  have hx : s.sz - 1 = n := by omega
  have hlt : ∀ a ∈ T.ids, a ≤ n := by
    intro a ha
    have := w.tree.live a ha
    rw [hlive, inUse_lt hle] at this
    omega
  have h0 : ∀ a ∈ T.ids, a ≠ 0 := fun a ha hh => w.tree.ne_zero (hh ▸ ha)
  have lv : ∀ a, a ≤ n → s.t.live a = true := by
    intro a ha; rw [hlive, inUse_lt hle]; omega
  have lv' : ∀ a, a < n → inUse n s.cap a = true := by
    intro a ha; rw [inUse_lt (by omega)]; exact ha
  by_cases hrn : r = n
  · subst hrn
    have hT : ∀ a ∈ T.ids, a ≠ r := fun a ha hh => rt (hh ▸ ha)
    have hlt' : ∀ a ∈ T.ids, a < r := fun a ha => by have := hlt a ha; have := hT a ha; omega
    refine ⟨setSize s r, T, ?_, ⟨w.ctx, ?_, w.nodup, lv' 0 (by omega)⟩, ?_,
      rfl, rfl, rfl, rfl, rfl, ?_, by simp [setSize], Or.inl rfl⟩
    · rw [swapAndPop]; simp [hx]
    · refine w.tree.congr (fun a ha => ?_) (fun _ _ => rfl) (fun _ _ => rfl)
      rw [w.tree.live a ha]; exact lv' a (hlt' a ha)
    · symm
      rw [List.map_congr_left (g := id) (fun a ha => by simp [ren, hT a ha])]
      simp
    · intro a ha; simp [ren, hT a ha, setSize]
  · have hnT : n ∈ T.ids := hm n (by omega) (Nat.le_refl _) (fun hh => hrn hh.symm)
    obtain ⟨c, k, L, R, rfl⟩ := mem_split hnT
    have wc := Whole.plug.2 w
    have hmem : ∀ a, a ∈ (plug c (node n k L R)).ids ↔ (a = n ∨ a ∈ L.ids ∨ a ∈ R.ids) ∨ a ∈ cids c := by
      intro a
      rw [(plug_ids_perm _ _).mem_iff, List.mem_append]
      change a ∈ (nd false n k L R).ids ∨ _ ↔ _
      rw [mem_nd]
    have rt' : r ∉ (node n k L R).ids := by
      intro hh; apply rt; rw [(plug_ids_perm _ _).mem_iff]; exact List.mem_append_left _ hh
    have rc : r ∉ cids c := fun hh => rt ((hmem r).2 (Or.inr hh))
    obtain ⟨n0, nl, nb0, nb1, np, repL, repR⟩ := wc.tree
    have wn := wc.ids_nodup
    change (nd false n k L R).ids.Nodup at wn
    rw [nd_nodup] at wn
    obtain ⟨nL, nR, ndL, ndR, LR⟩ := wn
    have nc : n ∉ cids c := wc.disj (by simp [ids])
    obtain ⟨t2, e2, c2, l2, p2, q2, b2⟩ := swap_links wc (r := r)
    have lv2 : ∀ a, a ≤ n → t2.live a = true := by rw [l2]; exact lv
    have Lr : L.rootId ≤ n := by
      rcases rootId_mem_or L with h | h
      · rw [h]; omega
      · exact hlt _ ((hmem _).2 (Or.inl (Or.inr (Or.inl h))))
    have Rr : R.rootId ≤ n := by
      rcases rootId_mem_or R with h | h
      · rw [h]; omega
      · exact hlt _ ((hmem _).2 (Or.inl (Or.inr (Or.inr h))))
    have rootne : ∀ t : Tree, n ∉ t.ids → r ∉ t.ids → n ≠ t.rootId ∧ r ≠ t.rootId := by
      intro t h1 h2
      exact ⟨Ne.symm (rootId_ne_of_not_mem n0 h1), Ne.symm (rootId_ne_of_not_mem (by omega) h2)⟩
    have rL : r ∉ L.ids := fun hh => rt ((hmem r).2 (Or.inl (Or.inr (Or.inl hh))))
    have rR : r ∉ R.ids := fun hh => rt ((hmem r).2 (Or.inl (Or.inr (Or.inr hh))))
    obtain ⟨nLr, rLr⟩ := rootne L nL rL
    obtain ⟨nRr, rRr⟩ := rootne R nR rR
    have nr : n ≠ r := Ne.symm hrn
    have r0 : r ≠ 0 := by omega
    have br1 : t2.br n true = R.rootId := by rw [b2 n nc]; exact nb1
    have br0 : t2.br n false = L.rootId := by rw [b2 n nc]; exact nb0
    let par2 := upd (upd t2.par R.rootId r) L.rootId r
    let t3 : Links := { t2 with
      br := fun b e => if b = n ∧ e = false then 0 else if b = n ∧ e = true then 0 else
        if b = n then (if b = 0 then 0 else t2.br r e) else if b = r then t2.br n e else if b = 0 then t2.br r e
          else t2.br b e
      par := upd (upd (upd (upd par2 0 (par2 r)) r (par2 n)) n (par2 r)) n 0
      parity := upd (upd (upd t2.parity 0 (t2.parity r)) r (t2.parity n)) n (t2.parity r) }
    let val3 := upd (upd (upd s.val 0 (s.val r)) r (s.val n)) n (s.val r)
    have run : swapAndPop s r = some (setSize { s with t := t3, val := val3 } n) := by
      have ra : (r != 0) = true := bne_zero r0
      have na : (n != 0) = true := bne_zero n0
      rw [swapAndPop]
      simp only [hx, hrn, if_false, req, ra, na, if_true, Option.bind_eq_bind, Option.bind_some]
      have e2' := e2
      simp only [Option.bind_eq_bind] at e2'
      rw [e2']
      simp only [Option.bind_some, getBr_live (lv2 n (Nat.le_refl _)), br1, setPar_live (lv2 _ Rr)]
      rw [getBr_live (by exact lv2 n (Nat.le_refl _))]
      simp only [Option.bind_some, br0]
      rw [setPar_live (by exact lv2 _ Lr)]
      simp only [Option.bind_some]
      rw [copySlot_live (by exact lv2 0 (by omega)) (by exact lv2 r hr.2)]
      simp only [Option.bind_some]
      rw [copySlot_live (by exact lv2 r hr.2) (by exact lv2 n (Nat.le_refl _))]
      simp only [Option.bind_some]
      rw [copySlot_live (by exact lv2 n (Nat.le_refl _)) (by exact lv2 0 (by omega))]
      simp only [Option.bind_some]
      rw [setPar_live (by exact lv2 n (Nat.le_refl _))]
      simp only [Option.bind_some]
      rw [setBr_live (by exact lv2 n (Nat.le_refl _))]
      simp only [Option.bind_some]
      rw [setBr_live (by exact lv2 n (Nat.le_refl _))]
      simp only [Option.bind_some]
      congr 1
      congr 1
      simp only [t3, par2, upd_same, upd_ne _ _ n0, upd_ne _ _ (Ne.symm r0), Ne.symm r0, if_true, if_false,
        n0]
      simp only [Frm.mk.injEq, Links.mk.injEq, and_true]
      refine ⟨?_, rfl⟩
      funext b e
      by_cases hb : b = n
      · subst hb; cases e <;> simp
      · simp [hb]
    have fbr : ∀ a, a ≠ 0 → a ≠ r → a ≠ n → t3.br a = t2.br a := by
      intro a h1 h2 h3; funext e; simp [t3, h1, h2, h3]
    have fpar : ∀ a, a ≠ 0 → a ≠ r → a ≠ n → t3.par a = if a = L.rootId ∨ a = R.rootId then r else t2.par a := by
      intro a h1 h2 h3
      simp only [t3, par2, upd_ne _ _ h1, upd_ne _ _ h2, upd_ne _ _ h3]
      by_cases c1 : a = L.rootId
      · simp [c1]
      · by_cases c2 : a = R.rootId
        · subst c2; simp [upd_ne _ _ c1]
        · simp [upd_ne _ _ c1, upd_ne _ _ c2, c1, c2]
    have w3 := move_spec (h3 := { t3 with live := inUse n s.cap }) wc r0 rt' rc c2 b2 p2 rfl (by
        intro a ha
        apply lv'
        rcases ha with ha | ha | ha | rfl | rfl
        · have h1 := hlt a ((hmem a).2 (Or.inr ha))
          have : a ≠ n := fun hh => nc (hh ▸ ha)
          omega
        · have h1 := hlt a ((hmem a).2 (Or.inl (Or.inr (Or.inl ha))))
          have : a ≠ n := fun hh => nL (hh ▸ ha)
          omega
        · have h1 := hlt a ((hmem a).2 (Or.inl (Or.inr (Or.inr ha))))
          have : a ≠ n := fun hh => nR (hh ▸ ha)
          omega
        · omega
        · omega) fbr (by funext e; simp [t3, hrn]) fpar (by
        simp [t3, par2, upd_ne _ _ hrn, upd_ne _ _ nLr, upd_ne _ _ nRr])
    refine ⟨_, plug c (node r k L R), run, Whole.plug.1 w3, ?_, rfl, rfl, rfl, rfl, ?_, ?_, ?_,
      Or.inr ⟨c, k, L, R, rfl, rfl⟩⟩
    · rw [plug_ids, plug_ids]
      have hid : ∀ is : List Nat, (∀ a ∈ is, a ≠ n) → is.map (ren n r) = is := by
        intro is h
        rw [List.map_congr_left (g := id) (fun a ha => by simp [ren, h a ha])]; simp
      have hbf : ∀ a ∈ before c, a ≠ n := by
        intro a ha hh
        subst hh
        have h1 := w.nodup
        simp only [cids_nil, List.append_nil] at h1
        rw [plug_ids] at h1
        simp only [ids, List.append_assoc, List.cons_append] at h1
        rw [List.nodup_append] at h1
        exact h1.2.2 a ha a (by simp) rfl
      have haf : ∀ a ∈ after c, a ≠ n := by
        intro a ha hh
        subst hh
        have h1 := w.nodup
        simp only [cids_nil, List.append_nil] at h1
        rw [plug_ids] at h1
        rw [List.nodup_append] at h1
        exact h1.2.2 a (by simp [ids]) a ha rfl
      simp only [ids, List.map_append, List.map_cons, hid _ hbf, hid _ haf, hid _ (fun a ha hh => nL (hh ▸ ha)),
        hid _ (fun a ha hh => nR (hh ▸ ha))]
      simp [ren]
    · show upd (upd (upd s.val 0 (s.val r)) r (s.val n)) n (s.val r) n = s.val r
      simp
    · intro a ha
      show upd (upd (upd s.val 0 (s.val r)) r (s.val n)) n (s.val r) (ren n r a) = s.val a
      have a0 := h0 a ha
      have ar : a ≠ r := fun hh => rt (hh ▸ ha)
      by_cases han : a = n
      · subst han; simp [ren, upd_ne _ _ hrn]
      · simp only [ren, han, if_false]
        rw [upd_ne _ _ han, upd_ne _ _ ar, upd_ne _ _ a0]
    · show upd (upd (upd s.val 0 (s.val r)) r (s.val n)) n (s.val r) 0 = _
      rw [upd_ne _ _ (Ne.symm n0), upd_ne _ _ (Ne.symm r0), upd_same, if_neg hrn]


/-- `erase`: removing the element with key `k`. -/
theorem erase_spec (o : Ok cmp key s st T) (hc : LawfulCmp cmp) (k : κ) :
    (∃ r s' T', erase cmp key s k = some (s', some st.l.length) ∧ lookup cmp (ekey key) k st.l = some (r, s.val r) ∧
      Ok cmp key s' { st with l := drop cmp key k r st.l } T' ∧ s'.hasAlloc = s.hasAlloc ∧
      s'.val st.l.length = s.val r ∧ st.l.length ≠ 0 ∧ s'.val 0 = (if r = st.l.length then s.val 0 else s.val r)) ∨
    (∃ t T', erase cmp key s k = some ({ s with t := t }, none) ∧ Ok cmp key { s with t := t } st T' ∧
      lookup cmp (ekey key) k st.l = none) := by
  obtain ⟨hcap, ⟨hs, h⟩ | ⟨hs, hl, rfl, h⟩⟩ := o
  · have hz : s.sz ≠ 0 := by rw [h.sz]; omega
    have hsize : size s = st.l.length := by rw [size, if_neg hz, h.sz]; rfl
    by_cases hne : T = nil
    · right
      have hl := h.nil_iff.2 hne
      refine ⟨s.t, T, ?_, ⟨hcap, Or.inl ⟨hs, h⟩⟩, by rw [hl]; rfl⟩
      rw [erase, if_pos (by rw [isEmpty, hsize, hl]; rfl)]
    · have hem : isEmpty s = false := by
        rw [isEmpty, hsize]
        cases hh : st.l with
        | nil => exact absurd (h.nil_iff.1 hh) hne
        | cons a b => rfl
      obtain ⟨t, i, m, A, B, run, o', hr, hi, hA, hB, _⟩ := h.splay hc hne k
      have hlk := lookup_after o'.ok.list hc hA hB
      have hq := o'.cmpAt k i (by simp [ids])
      by_cases he : cmp k (key (s.val i)) = .eql
      · left
        have hi0 : i ≠ 0 := o'.ok.ne_zero (by simp [ids])
        have hsub : A.ids.Sublist (node i m A B).ids := by simp only [ids]; exact List.sublist_append_left _ _
        obtain ⟨t2, T2, run2, w2, hi2, hlv2⟩ := remove_spec (c := Fom.cmpAt cmp key { s with t := t } (key (s.val i)))
          (c' := fun a => cmp (key (s.val i)) (key (s.val a))) o'.ok.whole
          (fun a ha => o'.cmpAt (key (s.val i)) a (hsub.subset ha))
          ((o'.ok.mono hc (key (s.val i))).sub hsub)
          (fun a ha => by rw [hc.eql_congr_left (hc.symm he)]; exact hA a ha)
        have hnd := o'.ok.nodup
        simp only [ids] at hnd
        rw [List.nodup_append, List.nodup_cons] at hnd
        have hiT : i ∉ T2.ids := by
          rw [hi2]
          simp only [List.mem_append, not_or]
          exact ⟨fun h => hnd.2.2 i h i (by simp) rfl, hnd.2.1.1⟩
        have hrr := o'.mem_iff.1 (show i ∈ (node i m A B).ids by simp [ids])
        have hmT : ∀ a, 1 ≤ a → a ≤ st.l.length → a ≠ i → a ∈ T2.ids := by
          intro a h1 h2 h3
          have := o'.slots a h1 h2
          rw [hi2]
          simp only [ids, List.mem_append, List.mem_cons] at this ⊢
          rcases this with h | h | h
          · exact Or.inl h
          · exact absurd h h3
          · exact Or.inr h
        have hl2 : t2.live = inUse s.sz s.cap := hlv2.trans o'.live
        obtain ⟨s', T3, run3, w3, i3, z3, c3, a3, l3, y3, x3, u3, _⟩ := swapAndPop_spec (s := { s with t := t2 })
          (n := st.l.length) (r := i) h.sz h.le hl2 w2 hrr hiT hmT
        have hl : st.l = elems s.val A.ids ++ (i, s.val i) :: elems s.val B.ids := by
          rw [o'.ok.list]; simp only [ids]; exact elems_append _ _ _
        have her : MapSpec.erase cmp (ekey key) k st.l = elems s.val (A.ids ++ B.ids) := by
          rw [hl]
          exact (congrArg _ (elems_append s.val A.ids (i :: B.ids)).symm).trans
            (Rom.remove_list (elems_side hA) he (elems_side hB))
        have hdrop : drop cmp key k i st.l = elems s'.val T3.ids := by
          rw [drop, her, i3, ← hi2]
          simp only [elems, List.map_map]
          refine List.map_congr_left (fun a ha => ?_)
          have := x3 a ha
          simp only [Function.comp, this]
          by_cases hh : a = st.l.length <;> simp [ren, hh]
        have hlen : (elems s'.val T3.ids).length + 1 = st.l.length := by
          rw [← hdrop, drop, List.length_map, her, elems_append]
          have := congrArg List.length hl
          rw [this]; simp; omega
        have hsrt : Sorted cmp (ekey key) (elems s'.val T3.ids) := by
          rw [← hdrop, drop, her]
          have h1 := h.ok.sorted
          rw [hl] at h1
          have h2 := h1.erase
          rw [← elems_append] at h2
          unfold Sorted at *
          rw [List.pairwise_map]
          refine h2.imp (fun {a b} hab => ?_)
          have : ∀ a : Nat × α, ekey key (if a.1 = st.l.length then (i, a.2) else a) = ekey key a := by
            intro a; by_cases hh : a.1 = st.l.length <;> simp [hh, ekey]
          rw [this, this]; exact hab
        refine ⟨i, s', T3, ?_, hlk.1 he, Started.toOk (l := elems s'.val T3.ids) ⟨⟨w3, rfl, hsrt, ?_⟩, ?_, ?_, ?_, ?_⟩
          (c3.trans hcap) hs hdrop, a3, y3, by omega, u3⟩
        · have run2' : removeFromTree t (Fom.cmpAt cmp key { s with t := t } (key (s.val i))) i = some t2 := run2
          simp only at run2' hq
          simp only [erase, hem, Bool.false_eq_true, if_false, Option.bind_eq_bind, run, Option.bind_some, hq, he, ne_eq,
            not_true_eq_false, run2', run3, z3]
        · show s'.sz - 1 = _; rw [z3]; omega
        · rw [l3, z3, c3]
        · rw [z3]; exact hlen.symm
        · rw [z3, c3]; have := h.sz; have := h.le; show _ ≤ s.cap; omega
        · intro a h1 h2
          rw [i3, List.mem_map]
          by_cases har : a = i
          · subst har
            exact ⟨st.l.length, hmT _ (by omega) (Nat.le_refl _) (by omega), by simp [ren]⟩
          · exact ⟨a, hmT a h1 (by omega) har, by simp [ren]; omega⟩
      · right
        refine ⟨t, _, ?_, ⟨hcap, Or.inl ⟨hs, o'⟩⟩, hlk.2 he⟩
        simp only at hq
        simp only [erase, hem, Bool.false_eq_true, if_false, Option.bind_eq_bind, run, Option.bind_some, hq, ne_eq, he,
          not_false_eq_true, if_true]
  · right
    refine ⟨s.t, nil, ?_, ⟨hcap, Or.inr ⟨hs, hl, rfl, h⟩⟩, by rw [hl]; rfl⟩
    rw [erase, if_pos (by rw [isEmpty, size, if_pos h.sz, h.sz]; rfl)]

end CCC.Fom
