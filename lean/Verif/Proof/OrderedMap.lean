import Verif.Model.OrderedMap
import Verif.Proof.Splay
import Verif.Proof.RealtimeMapStep
/-
The splay tree ordered map represents a sorted list of elements.
-/
namespace CCC.Om
open CCC Links Tree Wavl Splay MapSpec PtrMap
open _root_.CCC.Rom (put view toSlot elems mem_elems elems_congr elems_upd elems_append)

variable {α κ : Type} {cmp : κ → κ → Cmp} {key : α → κ}

/-- `s` stores the elements `l`, in a tree of shape `T`. -/
structure Ok (cmp : κ → κ → Cmp) (key : α → κ) (s : Om α) (l : List (Nat × α)) (T : Tree) : Prop where
  whole : Whole s.t [] T
  list : l = elems s.val T.ids
  sorted : Sorted cmp (ekey key) l
  size : s.sz = l.length

variable {s : Om α} {l : List (Nat × α)} {T : Tree}

theorem Ok.fresh (o : Ok cmp key s l T) {a : Nat} : fresh l a ↔ (a ≠ 0 ∧ a ∉ T.ids) := by
  unfold PtrMap.fresh
  rw [o.list]
  constructor
  · rintro ⟨h0, h⟩; exact ⟨h0, fun hm => h (a, s.val a) (mem_elems.2 ⟨hm, rfl⟩) rfl⟩
  · rintro ⟨h0, h⟩; exact ⟨h0, fun e he hh => h (hh ▸ (mem_elems.1 he).1)⟩

theorem Ok.nodup (o : Ok cmp key s l T) : T.ids.Nodup := by simpa using o.whole.nodup
theorem Ok.ne_zero (o : Ok cmp key s l T) {a : Nat} (h : a ∈ T.ids) : a ≠ 0 := by
  rintro rfl; exact o.whole.tree.ne_zero h
theorem Ok.root (o : Ok cmp key s l T) : s.t.root = T.rootId := o.whole.ctx

theorem Ok.mono (o : Ok cmp key s l T) (hc : LawfulCmp cmp) (k : κ) :
    Mono (fun a => cmp k (key (s.val a))) T.ids := by
  have := o.sorted
  rw [o.list] at this
  exact Mono.of_sorted hc this k

theorem Ok.cmpAt (o : Ok cmp key s l T) (k : κ) : ∀ a ∈ T.ids, cmpAt cmp key s k a = some (cmp k (key (s.val a))) :=
  fun a ha => if_pos ⟨o.ne_zero ha, o.whole.tree.live a ha⟩

theorem Ok.put (o : Ok cmp key s l T) {h : Nat} {x : α} (hf : h ∉ T.ids) : Ok cmp key (put s h x) l T :=
  ⟨o.whole, by rw [o.list]; exact (elems_upd hf).symm, o.sorted, o.size⟩

theorem Ok.set (o : Ok cmp key s l T) (hc : LawfulCmp cmp) {a : Nat} {x : α} {pre post : List Nat}
    (e : T.ids = pre ++ a :: post) (hx : cmp (key x) (key (s.val a)) = .eql) :
    Ok cmp key { s with val := upd s.val a x } (elems s.val pre ++ (a, x) :: elems s.val post) T ∧
    elems (upd s.val a x) T.ids = elems s.val pre ++ (a, x) :: elems s.val post := by
  have hn := o.nodup
  rw [e, List.nodup_append, List.nodup_cons] at hn
  have h1 : a ∉ pre := fun hh => hn.2.2 a hh a (by simp) rfl
  have h2 := hn.2.1.1
  have el : elems (upd s.val a x) T.ids = elems s.val pre ++ (a, x) :: elems s.val post := by
    rw [e, elems_append, elems_upd h1, show elems (upd s.val a x) (a :: post) =
      (a, upd s.val a x a) :: elems (upd s.val a x) post from rfl, elems_upd h2, upd_same]
  have hl : l = elems s.val pre ++ (a, s.val a) :: elems s.val post := by
    rw [o.list, e, elems_append]; rfl
  refine ⟨⟨o.whole, el.symm, ?_, ?_⟩, el⟩
  · have := o.sorted
    rw [hl] at this
    exact this.replace hc (by simpa [ekey] using hx)
  · rw [o.size, hl]; simp

/-- The tree may change shape. -/
theorem Ok.reshape (o : Ok cmp key s l T) {t : Links} {T' : Tree} (w : Whole t [] T') (hi : T'.ids = T.ids) :
    Ok cmp key { s with t := t } l T' := ⟨w, by rw [hi]; exact o.list, o.sorted, o.size⟩

theorem setRoot_self {t : Links} {r : Nat} (h : t.root = r) : t.setRoot r = t := by cases t; cases h; rfl

theorem Ok.empty_iff (o : Ok cmp key s l T) : empty s = true ↔ T = nil := by
  cases T with
  | nil => simp [empty, o.root]
  | node i k a b =>
    have : s.sz ≠ 0 := by rw [o.size, o.list]; simp [elems, ids]
    have hi : i ≠ 0 := o.ne_zero (by simp [ids])
    simp [empty, this, o.root, hi]

theorem Ok.not_empty (o : Ok cmp key s l T) (h : T ≠ nil) : empty s = false := by
  cases he : empty s with
  | true => exact absurd (o.empty_iff.1 he) h
  | false => rfl

/-- Splaying: the same elements, smaller keys left of the new root and greater keys right of it. -/
theorem Ok.splay (o : Ok cmp key s l T) (hc : LawfulCmp cmp) (hne : T ≠ nil) (k : κ) :
    ∃ t i m A B, splay s.t (Om.cmpAt cmp key s k) s.t.root = some (t, i) ∧ Ok cmp key { s with t := t } l (node i m A B) ∧
      t.root = i ∧ (node i m A B).ids = T.ids ∧ (∀ a ∈ A.ids, cmp k (key (s.val a)) = .grt) ∧
      (∀ a ∈ B.ids, cmp k (key (s.val a)) = .les) ∧ t.live = s.t.live ∧
      splayTo cmp key s k = some ({ s with t := t }, cmp k (key (s.val i))) := by
  obtain ⟨t, i, m, A, B, e, w, hi, hA, hB, hs⟩ := splay_spec o.whole.tree o.nodup o.whole.live0 hne (o.cmpAt k)
    (o.mono hc k)
  have o' := o.reshape w hi
  have hr : t.root = i := o'.root
  rw [← o.root] at e
  refine ⟨t, i, m, A, B, e, o', hr, hi, hA, hB, hs.live, ?_⟩
  have hq := o'.cmpAt k i (by simp [ids])
  simp only [splayTo, e, Option.bind_eq_bind, Option.bind_some, setRoot_self hr, hr, hq]

/-- Where the key is among the elements, from the shape after splaying. -/
theorem elems_side {val : Nat → α} {k : κ} {is : List Nat} {c : Cmp} (h : ∀ a ∈ is, cmp k (key (val a)) = c) :
    ∀ e ∈ elems val is, cmp k (ekey key e) = c := by
  intro e he
  obtain ⟨m, v⟩ := mem_elems.1 he
  simp only [ekey, v]; exact h _ m

theorem lookup_after {val : Nat → α} {k : κ} {i m : Nat} {A B : Tree} (hl : l = elems val (node i m A B).ids)
    (hc : LawfulCmp cmp)
    (hA : ∀ a ∈ A.ids, cmp k (key (val a)) = .grt) (hB : ∀ a ∈ B.ids, cmp k (key (val a)) = .les) :
    (cmp k (key (val i)) = .eql → lookup cmp (ekey key) k l = some (i, val i)) ∧
    (cmp k (key (val i)) ≠ .eql → lookup cmp (ekey key) k l = none) := by
  constructor
  · intro h
    rw [hl]
    simp only [ids, elems_append]
    exact lookup_split (elems_side hA) h
  · intro h
    rw [hl]
    cases hi : cmp k (key (val i)) with
    | eql => exact absurd hi h
    | err => exact absurd hi (hc.noErr _ _)
    | les =>
      simp only [ids, elems_append]
      refine lookup_none (elems_side hA) ?_
      intro e he
      rcases List.mem_cons.1 he with rfl | he
      · exact hi
      · exact elems_side hB e he
    | grt =>
      simp only [ids]
      rw [show A.ids ++ i :: B.ids = (A.ids ++ [i]) ++ B.ids by simp, elems_append]
      refine lookup_none (elems_side ?_) (elems_side hB)
      intro a ha
      rcases List.mem_append.1 ha with ha | ha
      · exact hA a ha
      · rw [List.mem_singleton.1 ha]; exact hi

/-- What a search answers, in terms of the stored list, and that the element found is the new root. -/
theorem Ok.find (o : Ok cmp key s l T) (hc : LawfulCmp cmp) (k : κ) :
    (∃ t x m A B, find cmp key s k = some ({ s with t := t }, some x) ∧ Ok cmp key { s with t := t } l (node x m A B) ∧
      t.root = x ∧ t.live = s.t.live ∧ cmp k (key (s.val x)) = .eql ∧
      (∀ e ∈ elems s.val A.ids, cmp k (ekey key e) = .grt) ∧ (∀ e ∈ elems s.val B.ids, cmp k (ekey key e) = .les) ∧
      lookup cmp (ekey key) k l = some (x, s.val x)) ∨
    (∃ t T', find cmp key s k = some ({ s with t := t }, none) ∧ Ok cmp key { s with t := t } l T' ∧ T'.ids = T.ids ∧
      t.live = s.t.live ∧ lookup cmp (ekey key) k l = none) := by
  by_cases hne : T = nil
  · subst hne
    right
    have hr : s.t.root = 0 := o.root
    refine ⟨s.t, nil, by simp [Om.find, hr], o, rfl, rfl, ?_⟩
    rw [o.list]; rfl
  · obtain ⟨t, i, m, A, B, _, o', hr, hi, hA, hB, hlv, run⟩ := o.splay hc hne k
    have hz : s.t.root ≠ 0 := by
      intro hh
      have := o.not_empty hne
      simp [empty, hh] at this
    have hlk := lookup_after o'.list hc hA hB
    by_cases he : cmp k (key (s.val i)) = .eql
    · left
      refine ⟨t, i, m, A, B, ?_, o', hr, hlv, he, elems_side hA, elems_side hB, hlk.1 he⟩
      simp only [Om.find, if_neg hz, run, Option.bind_eq_bind, Option.bind_some, if_pos he, hr]
    · right
      refine ⟨t, _, ?_, o', hi, hlv, hlk.2 he⟩
      simp only [Om.find, if_neg hz, run, Option.bind_eq_bind, Option.bind_some, if_neg he]

/-! ### Insertion -/

theorem initNode_spec {t : Links} {e : Nat} (hl : t.live e = true) : ∃ t', Splay.initNode t e = some t' ∧
    t'.live = t.live ∧ t'.root = t.root ∧ (∀ d, t'.br e d = 0) ∧ t'.par e = 0 ∧
    (∀ a, a ≠ e → t'.br a = t.br a ∧ t'.par a = t.par a) := by
  have run : ∃ t', Splay.initNode t e = some t' ∧ t' = { t with
      br := fun b d => if b = e ∧ d = true then 0 else if b = e ∧ d = false then 0 else t.br b d
      par := upd t.par e 0 } := by
    refine ⟨_, ?_, rfl⟩
    simp only [Splay.initNode, Option.bind_eq_bind]
    rw [setBr_live hl, Option.bind_some, setBr_live (by exact hl), Option.bind_some, setPar_live (by exact hl)]
  obtain ⟨t', run, rfl⟩ := run
  refine ⟨_, run, rfl, rfl, ?_, ?_, ?_⟩
  · intro d; cases d <;> simp
  · simp
  · intro a ha
    refine ⟨?_, upd_ne _ _ ha⟩
    funext d; simp [ha]

theorem init_whole {t : Links} {e : Nat} (w : Whole t [] T) (e0 : e ≠ 0) (he : e ∉ T.ids) :
    ∃ t', Splay.initNode { t with live := upd t.live e true } e = some t' ∧ Whole t' [] T ∧ t'.live = upd t.live e true ∧
      (∀ d, t'.br e d = 0) ∧ t'.par e = 0 ∧ t'.root = t.root := by
  obtain ⟨t', run, l1, r1, b1, p1, f1⟩ := initNode_spec (t := { t with live := upd t.live e true }) (e := e) (by simp)
  refine ⟨t', run, ⟨?_, ?_, w.nodup, ?_⟩, l1, b1, p1, r1⟩
  · have : t.root = T.rootId := w.ctx
    exact r1.trans this
  · refine w.tree.congr (fun a ha => ?_) (fun a ha => (f1 a (fun h => he (h ▸ ha))).1)
      (fun a ha => (f1 a (fun h => he (h ▸ ha))).2)
    rw [l1]; exact upd_ne _ _ (fun h => he (h ▸ ha))
  · rw [l1]; show upd t.live e true 0 = true; rw [upd_ne _ _ (Ne.symm e0)]; exact w.live0

/-- A new element in its place. -/
theorem Ok.place (o : Ok cmp key s l T) (hc : LawfulCmp cmp) {e : Nat} {t : Links} {T' : Tree} {pre post : List Nat}
    (w : Whole t [] T') (ei : T.ids = pre ++ post) (ei' : T'.ids = pre ++ e :: post)
    (h1 : ∀ a ∈ pre, cmp (key (s.val e)) (key (s.val a)) = .grt)
    (h2 : ∀ a ∈ post, cmp (key (s.val e)) (key (s.val a)) = .les) :
    Ok cmp key { s with t := t, sz := s.sz + 1 } (place cmp (ekey key) (e, s.val e) l) T' := by
  have h1' : ∀ x ∈ elems s.val pre, cmp (ekey key (e, s.val e)) (ekey key x) = .grt := elems_side (key := key) h1
  have h2' : ∀ x ∈ elems s.val post, cmp (ekey key (e, s.val e)) (ekey key x) = .les := elems_side (key := key) h2
  have hl : l = elems s.val pre ++ elems s.val post := by rw [o.list, ei, elems_append]
  have hplace : MapSpec.place cmp (ekey key) (e, s.val e) l = elems s.val (pre ++ e :: post) := by
    rw [hl, place_split h1' h2', elems_append]; rfl
  refine ⟨w, by rw [hplace, ei'], ?_, ?_⟩
  · rw [hplace, elems_append]
    have := o.sorted
    rw [hl] at this
    exact this.place hc h1' h2'
  · rw [hplace]; show s.sz + 1 = _; rw [o.size, hl]; simp [elems]; omega

/-- Connecting a new root to a splayed tree. -/
theorem Ok.connect (o : Ok cmp key s l (node i m A B)) (hc : LawfulCmp cmp) {e : Nat} (e0 : e ≠ 0)
    (he : e ∉ (node i m A B).ids) (hlv : s.t.live e = true)
    (hA : ∀ a ∈ A.ids, cmp (key (s.val e)) (key (s.val a)) = .grt)
    (hB : ∀ a ∈ B.ids, cmp (key (s.val e)) (key (s.val a)) = .les)
    (hi : cmp (key (s.val e)) (key (s.val i)) ≠ .eql) :
    ∃ t T', connectNewRoot s.t e (cmp (key (s.val e)) (key (s.val i))) = some t ∧ t.root = e ∧ T'.rootId = e ∧
      Ok cmp key { s with t := t, sz := s.sz + 1 } (MapSpec.place cmp (ekey key) (e, s.val e) l) T' ∧
      t.live = s.t.live ∧ ∀ a, a ∈ T'.ids ↔ a = e ∨ a ∈ (node i m A B).ids := by
  cases hres : cmp (key (s.val e)) (key (s.val i)) with
  | eql => exact absurd hres hi
  | err => exact absurd hres (hc.noErr _ _)
  | les =>
    obtain ⟨t, run, w, hl⟩ := connect_spec (h := s.t) (i := i) (k := m) (e := e) (Y := A) (C := B) (res := .les)
      (by exact o.whole) e0 hlv he
    refine ⟨t, _, run, w.ctx, rfl, o.place hc w (pre := A.ids) (post := i :: B.ids) rfl (by simp [ids, nd]) hA ?_, hl,
      fun a => by simp [ids, nd]; grind⟩
    intro a ha
    rcases List.mem_cons.1 ha with rfl | ha
    · exact hres
    · exact hB a ha
  | grt =>
    obtain ⟨t, run, w, hl⟩ := connect_spec (h := s.t) (i := i) (k := m) (e := e) (Y := B) (C := A) (res := .grt)
      (by exact o.whole) e0 hlv he
    refine ⟨t, _, run, w.ctx, rfl, o.place hc w (pre := A.ids ++ [i]) (post := B.ids) (by simp [ids])
      (by simp [ids, nd]) ?_ hB, hl, fun a => by simp [ids, nd]; grind⟩
    intro a ha
    rcases List.mem_append.1 ha with ha | ha
    · exact hA a ha
    · rw [List.mem_singleton.1 ha]; exact hres

/-- The first element. -/
theorem Ok.first (o : Ok cmp key s l nil) {e : Nat} (e0 : e ≠ 0) {t : Links}
    (h0 : t.live 0 = true) (hlv : t.live e = true) (hb : ∀ d, t.br e d = 0) (hp : t.par e = 0) :
    Ok cmp key { s with t := t.setRoot e, sz := 1 } (MapSpec.place cmp (ekey key) (e, s.val e) l) (node e 0 nil nil) := by
  have hl : l = [] := o.list
  subst hl
  exact ⟨⟨rfl, ⟨e0, hlv, hb _, hb _, hp, trivial, trivial⟩, by simp [ids], h0⟩, rfl, List.pairwise_singleton _ _, rfl⟩

/-- `insert`: a struct with a key the map does not have becomes an element and the root. -/
theorem insertNode_spec (o : Ok cmp key s l T) (hc : LawfulCmp cmp) {e : Nat} (e0 : e ≠ 0) (he : e ∉ T.ids)
    (hk : lookup cmp (ekey key) (key (s.val e)) l = none) :
    ∃ s' T', insertNode cmp key s e = some (s', some e) ∧
      Ok cmp key s' (MapSpec.place cmp (ekey key) (e, s.val e) l) T' ∧
      s'.val = s.val ∧ s'.alloc = s.alloc ∧ s'.t.root = e := by
  obtain ⟨t, run, w, hlv, hb, hp, hr⟩ := init_whole o.whole e0 he
  have o1 := o.reshape w rfl
  simp only [insertNode, run, Option.bind_eq_bind, Option.bind_some]
  by_cases hne : T = nil
  · subst hne
    rw [if_pos (o1.empty_iff.2 rfl)]
    exact ⟨_, _, rfl, o1.first e0 w.live0 (by rw [hlv]; simp) hb hp, rfl, rfl, rfl⟩
  · obtain ⟨t2, i, m, A, B, _, o2, hr2, hi, hA, hB, hlv2, run2⟩ := o1.splay hc hne (key (s.val e))
    have hq : cmp (key (s.val e)) (key (s.val i)) ≠ .eql := by
      intro hh
      have := (lookup_after o2.list hc hA hB).1 hh
      rw [hk] at this; cases this
    obtain ⟨t3, T', run3, hr3, _, o3, _⟩ := o2.connect hc e0 (by rw [hi]; exact he)
      (by rw [hlv2]; show t.live e = true; rw [hlv]; simp) hA hB hq
    refine ⟨_, T', ?_, o3, rfl, rfl, hr3⟩
    simp only [o1.not_empty hne, Bool.false_eq_true, if_false, run2, Option.bind_some, if_neg hq]
    simp only at run3
    rw [run3]; rfl

theorem allocInsert_spec (o : Ok cmp key s l T) (hc : LawfulCmp cmp) {h : Nat} (h0 : h ≠ 0) (hh : h ∉ T.ids)
    {ans : Option Nat} (ha : goodAns l ans h) (hk : lookup cmp (ekey key) (key (s.val h)) l = none) :
    (addAt s.alloc (some h) ans = none ∧ ∃ t T', allocInsert cmp key s h ans = some ({ s with t := t }, none) ∧
      Ok cmp key { s with t := t } l T') ∨
    (∃ n s' T', addAt s.alloc (some h) ans = some n ∧ allocInsert cmp key s h ans = some (s', some n) ∧
      Ok cmp key s' (MapSpec.place cmp (ekey key) (n, s.val h) l) T' ∧ s'.val = upd s.val n (s.val h) ∧
      s'.alloc = s.alloc ∧ (n = h ∨ ans = some n) ∧ s'.t.root = n) := by
  have hadd : addAt s.alloc (some h) ans = (if s.alloc then ans else some h) := rfl
  cases hn : addAt s.alloc (some h) ans with
  | none =>
    left
    refine ⟨rfl, ?_⟩
    rw [hadd] at hn
    by_cases hne : T = nil
    · refine ⟨s.t, T, ?_, o⟩
      simp only [allocInsert, o.empty_iff.2 hne, Bool.not_true, Bool.false_eq_true, if_false, Option.bind_eq_bind,
        Option.bind_some, hn]
      rfl
    · obtain ⟨t, i, m, A, B, _, o', hr, hi, hA, hB, hlv, run⟩ := o.splay hc hne (key (s.val h))
      refine ⟨t, _, ?_, o'⟩
      simp only [allocInsert, o.not_empty hne, Bool.not_false, if_true, Option.bind_eq_bind, run, Option.bind_some, hn]
      split <;> rfl
  | some n =>
    right
    have hnf : n ≠ 0 ∧ n ∉ T.ids ∧ (n = h ∨ ans = some n) ∧
        (if s.alloc then upd s.val n (s.val h) else s.val) = upd s.val n (s.val h) := by
      rw [hadd] at hn
      cases hal : s.alloc with
      | true =>
        rw [hal, if_pos rfl] at hn
        have := o.fresh.1 (ha n hn).1
        exact ⟨this.1, this.2, Or.inr hn, rfl⟩
      | false =>
        rw [hal] at hn
        simp only [Bool.false_eq_true, if_false, Option.some.injEq] at hn
        subst hn
        refine ⟨h0, hh, Or.inl rfl, ?_⟩
        simp only [Bool.false_eq_true, if_false]
        funext a; by_cases e : a = h <;> simp [upd, e]
    obtain ⟨n0, hnT, hor, hval⟩ := hnf
    have on : Ok cmp key (put s n (s.val h)) l T := o.put hnT
    have hvn : (put s n (s.val h)).val n = s.val h := by simp [put]
    rw [hadd] at hn
    by_cases hne : T = nil
    · subst hne
      obtain ⟨t, run, w, hlv, hb, hp, hr⟩ := init_whole o.whole n0 hnT
      have o2 := on.first n0 w.live0 (by rw [hlv]; simp) hb hp
      rw [hvn] at o2
      refine ⟨n, _, _, rfl, ?_, o2, rfl, rfl, hor, rfl⟩
      simp only [allocInsert, o.empty_iff.2 rfl, Bool.not_true, Bool.false_eq_true, if_false, Option.bind_eq_bind,
        Option.bind_some, hn, run, if_true, hval]
      rfl
    · obtain ⟨t, i, m, A, B, _, o', hr, hi, hA, hB, hlv, run⟩ := o.splay hc hne (key (s.val h))
      have hq : cmp (key (s.val h)) (key (s.val i)) ≠ .eql := by
        intro hh
        have := (lookup_after o'.list hc hA hB).1 hh
        rw [hk] at this; cases this
      have hni : n ∉ (node i m A B).ids := by rw [hi]; exact hnT
      obtain ⟨t2, run2, w2, hlv2, hb, hp, hr2⟩ := init_whole o'.whole n0 hni
      have o2 : Ok cmp key { put s n (s.val h) with t := t2 } l (node i m A B) := on.reshape w2 hi
      have hv : ∀ a ∈ (node i m A B).ids, (put s n (s.val h)).val a = s.val a :=
        fun a ha => upd_ne _ _ (fun e => hni (e ▸ ha))
      have hvi := hv i (by simp [ids])
      obtain ⟨t3, T', run3, hr3, _, o3, _⟩ := o2.connect hc (e := n) n0 hni
        (by show t2.live n = true; rw [hlv2]; simp)
        (fun a ha => by
          show cmp (key ((put s n (s.val h)).val n)) (key ((put s n (s.val h)).val a)) = _
          rw [hvn, hv a (by simp [ids, ha])]; exact hA a ha)
        (fun a ha => by
          show cmp (key ((put s n (s.val h)).val n)) (key ((put s n (s.val h)).val a)) = _
          rw [hvn, hv a (by simp [ids, ha])]; exact hB a ha)
        (by show cmp (key ((put s n (s.val h)).val n)) (key ((put s n (s.val h)).val i)) ≠ _
            rw [hvn, hvi]; exact hq)
      simp only [hvn, hvi] at run3 o3
      refine ⟨n, _, T', rfl, ?_, o3, rfl, rfl, hor, hr3⟩
      have he2 : (cmp (key (s.val h)) (key (s.val i)) != .err) = true := by simpa using hc.noErr _ _
      have hem : empty ({ s with t := t } : Om α) = false := o'.not_empty (by simp)
      simp only [allocInsert, o.not_empty hne, Bool.not_false, if_true, Option.bind_eq_bind, run, Option.bind_some, hn,
        if_neg hq, run2, hval, hem, Bool.false_eq_true, if_false, req, he2, run3]
      rfl

/-! ### Removal -/

theorem erase_spec (o : Ok cmp key s l T) (hc : LawfulCmp cmp) (k : κ) :
    (∃ pre x post s' T', T.ids = pre ++ x :: post ∧ cmp k (key (s.val x)) = .eql ∧
      (∀ e ∈ elems s.val pre, cmp k (ekey key e) = .grt) ∧ (∀ e ∈ elems s.val post, cmp k (ekey key e) = .les) ∧
      erase cmp key s k = some (s', some x) ∧ Ok cmp key s' (elems s.val (pre ++ post)) T' ∧ T'.ids = pre ++ post ∧
      s'.val = s.val ∧ s'.alloc = s.alloc ∧ lookup cmp (ekey key) k l = some (x, s.val x)) ∨
    (∃ t T', erase cmp key s k = some ({ s with t := t }, none) ∧ Ok cmp key { s with t := t } l T' ∧
      lookup cmp (ekey key) k l = none) := by
  by_cases hne : T = nil
  · right
    refine ⟨s.t, T, by rw [erase, if_pos (o.empty_iff.2 hne)], o, ?_⟩
    rw [o.list, hne]; rfl
  · obtain ⟨t, i, m, A, B, run, o', hr, hi, hA, hB, hlv, _⟩ := o.splay hc hne k
    have hlk := lookup_after o'.list hc hA hB
    have hq := o'.cmpAt k i (by simp [ids])
    have hem := o.not_empty hne
    by_cases he : cmp k (key (s.val i)) = .eql
    · left
      have hi0 : i ≠ 0 := o'.ne_zero (by simp [ids])
      have hsub : A.ids.Sublist (node i m A B).ids := by simp only [ids]; exact List.sublist_append_left _ _
      obtain ⟨t2, T', run2, w2, hi2, hlv2⟩ := remove_spec (c := Om.cmpAt cmp key { s with t := t } (key (s.val i)))
        (c' := fun a => cmp (key (s.val i)) (key (s.val a))) o'.whole
        (fun a ha => o'.cmpAt (key (s.val i)) a (hsub.subset ha))
        ((o'.mono hc (key (s.val i))).sub hsub)
        (fun a ha => by rw [hc.eql_congr_left (hc.symm he)]; exact hA a ha)
      have hnd := o'.nodup
      simp only [ids] at hnd
      rw [List.nodup_append, List.nodup_cons] at hnd
      have hiT : i ∉ T'.ids := by
        rw [hi2]
        simp only [List.mem_append, not_or]
        exact ⟨fun h => hnd.2.2 i h i (by simp) rfl, hnd.2.1.1⟩
      have hl : l = elems s.val A.ids ++ (i, s.val i) :: elems s.val B.ids := by
        have := o'.list
        rw [this]; simp only [ids, elems_append]; rfl
      refine ⟨A.ids, i, B.ids, { s with t := { t2 with live := upd t2.live i false }, sz := s.sz - 1 }, T', hi.symm, he,
        elems_side hA, elems_side hB, ?_, ⟨⟨?_, ?_, w2.nodup, ?_⟩, ?_, ?_, ?_⟩, hi2, rfl, rfl, hlk.1 he⟩
      · simp only at run2 hq
        simp only [erase, hem, Bool.false_eq_true, if_false, Option.bind_eq_bind, run, Option.bind_some, hq, he, ne_eq,
          not_true_eq_false, run2]
      · exact w2.ctx
      · exact w2.tree.congr (fun a ha => upd_ne _ _ (fun h => hiT (h ▸ ha))) (fun _ _ => rfl) (fun _ _ => rfl)
      · show upd t2.live i false 0 = true
        rw [upd_ne _ _ (Ne.symm hi0)]; exact w2.live0
      · rw [hi2]
      · rw [elems_append]
        have := o.sorted
        rw [hl] at this
        exact this.erase
      · show s.sz - 1 = _
        rw [o.size, hl]; simp [elems]
    · right
      refine ⟨t, _, ?_, o', hlk.2 he⟩
      simp only at hq
      simp only [erase, hem, Bool.false_eq_true, if_false, Option.bind_eq_bind, run, Option.bind_some, hq, ne_eq, he,
        not_false_eq_true, if_true]

end CCC.Om
