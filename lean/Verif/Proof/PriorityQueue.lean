import Verif.Model.PriorityQueue
/-
Proofs about the pairing heap: what the links look like, and what the helpers do to them.
-/
namespace CCC.Pq
open CCC PrioQ

variable {α : Type}

/-- The fields of all structs, one function for each. -/
structure View (α : Type) where
  nx : Nat → Slot
  pv : Nat → Slot
  lf : Nat → Slot
  pr : Nat → Slot
  vl : Nat → Option α

/-- The fields of the memory. -/
def Pq.v (s : Pq α) : View α where
  nx := fun a => (s.mem a).bind Elem.next
  pv := fun a => (s.mem a).bind Elem.prev
  lf := fun a => (s.mem a).bind Elem.left
  pr := fun a => (s.mem a).bind Elem.par
  vl := fun a => (s.mem a).map Elem.val

theorem live_of {s : Pq α} {a : Nat} (h : s.v.vl a ≠ none) : ∃ e, s.mem a = some e := by
  cases he : s.mem a with
  | none => simp [Pq.v, he] at h
  | some e => exact ⟨e, rfl⟩

theorem view_mem {s : Pq α} {a : Nat} {e : Elem α} (h : s.mem a = some e) :
    s.v.nx a = e.next ∧ s.v.pv a = e.prev ∧ s.v.lf a = e.left ∧ s.v.pr a = e.par ∧ s.v.vl a = some e.val := by
  simp [Pq.v, h]

/-- A write through a pointer. -/
theorem mod_view {s : Pq α} {a : Nat} (h : s.v.vl a ≠ none) (f : Elem α → Elem α) :
    ∃ s' e, s.mem a = some e ∧ s.mod (some a) f = some s' ∧ s'.root = s.root ∧ s'.sz = s.sz ∧
      s'.v = ⟨upd s.v.nx a (f e).next, upd s.v.pv a (f e).prev, upd s.v.lf a (f e).left, upd s.v.pr a (f e).par,
        upd s.v.vl a (some (f e).val)⟩ := by
  obtain ⟨e, he⟩ := live_of h
  refine ⟨{ s with mem := upd s.mem a (some (f e)) }, e, he, by simp [Pq.mod, he], rfl, rfl, ?_⟩
  simp only [Pq.v, View.mk.injEq]
  refine ⟨?_, ?_, ?_, ?_, ?_⟩ <;>
    (funext x; by_cases hx : x = a
     · subst hx; simp
     · simp [upd_ne _ _ hx])

theorem upd_id {β : Type} (f : Nat → β) (a : Nat) : upd f a (f a) = f := by
  funext x
  by_cases h : x = a
  · subst h; simp
  · rw [upd_ne _ _ h]

theorem upd_id' {β : Type} {f : Nat → β} {a : Nat} {y : β} (h : y = f a) : upd f a y = f := by rw [h, upd_id]

theorem mod_next {s : Pq α} {a : Nat} (h : s.v.vl a ≠ none) (y : Slot) :
    ∃ s', s.mod (some a) (fun x => { x with next := y }) = some s' ∧ s'.root = s.root ∧ s'.sz = s.sz ∧
      s'.v = { s.v with nx := upd s.v.nx a y } := by
  obtain ⟨s', e, he, h1, h2, h3, h4⟩ := mod_view h (fun x => { x with next := y })
  obtain ⟨e1, e2, e3, e4, e5⟩ := view_mem he
  refine ⟨s', h1, h2, h3, ?_⟩
  rw [h4, upd_id' e2.symm, upd_id' e3.symm, upd_id' e4.symm, upd_id' e5.symm]

theorem mod_prev {s : Pq α} {a : Nat} (h : s.v.vl a ≠ none) (y : Slot) :
    ∃ s', s.mod (some a) (fun x => { x with prev := y }) = some s' ∧ s'.root = s.root ∧ s'.sz = s.sz ∧
      s'.v = { s.v with pv := upd s.v.pv a y } := by
  obtain ⟨s', e, he, h1, h2, h3, h4⟩ := mod_view h (fun x => { x with prev := y })
  obtain ⟨e1, e2, e3, e4, e5⟩ := view_mem he
  refine ⟨s', h1, h2, h3, ?_⟩
  rw [h4, upd_id' e1.symm, upd_id' e3.symm, upd_id' e4.symm, upd_id' e5.symm]

theorem mod_left {s : Pq α} {a : Nat} (h : s.v.vl a ≠ none) (y : Slot) :
    ∃ s', s.mod (some a) (fun x => { x with left := y }) = some s' ∧ s'.root = s.root ∧ s'.sz = s.sz ∧
      s'.v = { s.v with lf := upd s.v.lf a y } := by
  obtain ⟨s', e, he, h1, h2, h3, h4⟩ := mod_view h (fun x => { x with left := y })
  obtain ⟨e1, e2, e3, e4, e5⟩ := view_mem he
  refine ⟨s', h1, h2, h3, ?_⟩
  rw [h4, upd_id' e1.symm, upd_id' e2.symm, upd_id' e4.symm, upd_id' e5.symm]

theorem mod_par {s : Pq α} {a : Nat} (h : s.v.vl a ≠ none) (y : Slot) :
    ∃ s', s.mod (some a) (fun x => { x with par := y }) = some s' ∧ s'.root = s.root ∧ s'.sz = s.sz ∧
      s'.v = { s.v with pr := upd s.v.pr a y } := by
  obtain ⟨s', e, he, h1, h2, h3, h4⟩ := mod_view h (fun x => { x with par := y })
  obtain ⟨e1, e2, e3, e4, e5⟩ := view_mem he
  refine ⟨s', h1, h2, h3, ?_⟩
  rw [h4, upd_id' e1.symm, upd_id' e2.symm, upd_id' e3.symm, upd_id' e5.symm]

theorem mod_sibs {s : Pq α} {a : Nat} (h : s.v.vl a ≠ none) (y z : Slot) :
    ∃ s', s.mod (some a) (fun x => { x with prev := y, next := z }) = some s' ∧ s'.root = s.root ∧ s'.sz = s.sz ∧
      s'.v = { s.v with pv := upd s.v.pv a y, nx := upd s.v.nx a z } := by
  obtain ⟨s', e, he, h1, h2, h3, h4⟩ := mod_view h (fun x => { x with prev := y, next := z })
  obtain ⟨e1, e2, e3, e4, e5⟩ := view_mem he
  refine ⟨s', h1, h2, h3, ?_⟩
  rw [h4, upd_id' e3.symm, upd_id' e4.symm, upd_id' e5.symm]

theorem initNode_view {s : Pq α} {a : Nat} (h : s.v.vl a ≠ none) :
    ∃ s', initNode s a = some s' ∧ s'.root = s.root ∧ s'.sz = s.sz ∧
      s'.v = ⟨upd s.v.nx a (some a), upd s.v.pv a (some a), upd s.v.lf a none, upd s.v.pr a none, s.v.vl⟩ := by
  obtain ⟨s', e, he, h1, h2, h3, h4⟩ :=
    mod_view h (fun x => { x with left := none, par := none, next := some a, prev := some a })
  obtain ⟨e1, e2, e3, e4, e5⟩ := view_mem he
  refine ⟨s', h1, h2, h3, ?_⟩
  rw [h4, upd_id' e5.symm]

theorem clearNode_view {s : Pq α} {a : Nat} (h : s.v.vl a ≠ none) :
    ∃ s', clearNode s a = some s' ∧ s'.root = s.root ∧ s'.sz = s.sz ∧
      s'.v = ⟨upd s.v.nx a none, upd s.v.pv a none, upd s.v.lf a none, upd s.v.pr a none, s.v.vl⟩ := by
  obtain ⟨s', e, he, h1, h2, h3, h4⟩ :=
    mod_view h (fun x => { x with left := none, next := none, prev := none, par := none })
  obtain ⟨e1, e2, e3, e4, e5⟩ := view_mem he
  refine ⟨s', h1, h2, h3, ?_⟩
  rw [h4, upd_id' e5.symm]

theorem mod_val {s : Pq α} {a : Nat} (h : s.v.vl a ≠ none) (f : α → α) :
    ∃ s', s.mod (some a) (fun x => { x with val := f x.val }) = some s' ∧ s'.root = s.root ∧ s'.sz = s.sz ∧
      s'.v = { s.v with vl := upd s.v.vl a ((s.v.vl a).map f) } := by
  obtain ⟨s', e, he, h1, h2, h3, h4⟩ := mod_view h (fun x => { x with val := f x.val })
  obtain ⟨e1, e2, e3, e4, e5⟩ := view_mem he
  refine ⟨s', h1, h2, h3, ?_⟩
  rw [h4, upd_id' e1.symm, upd_id' e2.symm, upd_id' e3.symm, upd_id' e4.symm, e5]
  rfl

/-! ### Rings of siblings -/

def Adj (v : View α) (a b : Nat) : Prop := v.nx a = some b ∧ v.pv b = some a

def Link (v : View α) : List Nat → Prop
  | a :: b :: l => Adj v a b ∧ Link v (b :: l)
  | _ => True

/-- The siblings in the order of `next_sibling_`, oldest first. -/
def Ring (v : View α) : List Nat → Prop
  | [] => True
  | a :: l => Link v (a :: l ++ [a])

theorem link_split {v : View α} : ∀ (l : List Nat) (a : Nat) (r : List Nat),
    Link v (l ++ a :: r) ↔ Link v (l ++ [a]) ∧ Link v (a :: r)
  | [], a, r => by simp [Link]
  | [x], a, r => by simp [Link]
  | x :: y :: l, a, r => by
    have := link_split (v := v) (y :: l) a r
    simp only [List.cons_append, Link] at this ⊢
    rw [this, and_assoc]

theorem ring_rotate {v : View α} (a : Nat) (l : List Nat) : Ring v (a :: l) ↔ Ring v (l ++ [a]) := by
  cases l with
  | nil => rfl
  | cons b l =>
    show Adj v a b ∧ Link v (b :: l ++ [a]) ↔ Link v ((b :: l ++ [a]) ++ [b])
    rw [List.append_assoc]
    refine Iff.trans ?_ (link_split (v := v) (b :: l) a [b]).symm
    refine and_comm.trans (and_congr_right fun _ => ?_)
    simp [Link]

theorem ring_rot {v : View α} : ∀ (A B : List Nat), Ring v (A ++ B) ↔ Ring v (B ++ A)
  | [], B => by simp
  | a :: A, B => by
    rw [List.cons_append, ring_rotate, List.append_assoc, ring_rot A (B ++ [a])]
    simp

theorem link_congr {v v' : View α} : ∀ (l : List Nat), (∀ x ∈ l.dropLast, v'.nx x = v.nx x) →
    (∀ x ∈ l.tail, v'.pv x = v.pv x) → Link v l → Link v' l
  | [], _, _, _ => trivial
  | [_], _, _, _ => trivial
  | a :: b :: l, h1, h2, h => by
    refine ⟨⟨?_, ?_⟩, link_congr (b :: l) (fun x hx => h1 x ?_) (fun x hx => h2 x ?_) h.2⟩
    · rw [h1 a (by simp [List.dropLast])]; exact h.1.1
    · rw [h2 b (by simp)]; exact h.1.2
    · simp only [List.dropLast_cons₂, List.mem_cons]; exact .inr hx
    · simp only [List.tail_cons] at hx ⊢; exact List.mem_cons_of_mem _ hx

theorem dropLast_append_one {β : Type} (q : List β) (p : β) : (q ++ [p]).dropLast = q := by simp

theorem ring_congr {v v' : View α} {l : List Nat} (h1 : ∀ x ∈ l, v'.nx x = v.nx x) (h2 : ∀ x ∈ l, v'.pv x = v.pv x)
    (h : Ring v l) : Ring v' l := by
  cases l with
  | nil => trivial
  | cons a l =>
    refine link_congr _ (fun x hx => h1 x ?_) (fun x hx => h2 x ?_) h
    · have : ((a :: l) ++ [a]).dropLast = a :: l := dropLast_append_one (a :: l) a
      rw [this] at hx; exact hx
    · simp only [List.cons_append, List.tail_cons, List.mem_append, List.mem_singleton] at hx
      rcases hx with hx | rfl
      · exact List.mem_cons_of_mem _ hx
      · exact List.mem_cons_self

/-- Taking an element out of a ring. -/
theorem ring_remove {v v' : View α} {e n p : Nat} {l t q : List Nat} (hnd : (e :: l).Nodup) (ht : l = n :: t)
    (hq : l = q ++ [p]) (h : Ring v (e :: l)) (hn : v'.nx = upd v.nx p (some n)) (hp : v'.pv = upd v.pv n (some p)) :
    Ring v' l ∧ v.nx e = some n ∧ v.pv e = some p := by
  have h1 : Link v (e :: (l ++ [e])) := h
  have hn' := hnd
  rw [ht] at h1
  obtain ⟨ha, h2⟩ := h1
  have h2 : Link v (q ++ p :: [e]) := by
    have h3 : Link v (n :: t ++ [e]) := h2
    rw [← ht, hq, List.append_assoc] at h3; exact h3
  have h2 := (link_split q p [e]).1 h2
  refine ⟨?_, ha.1, h2.2.1.2⟩
  have hl : Link v' l := by
    rw [hq] at hnd ⊢
    refine link_congr _ (fun x hx => ?_) (fun x hx => ?_) h2.1
    · rw [hn, upd_ne]
      rintro rfl
      rw [dropLast_append_one] at hx
      have := (List.nodup_append.1 (List.nodup_cons.1 hnd).2).2.2 _ hx _ (List.mem_singleton.2 rfl)
      exact this rfl
    · rw [hp, upd_ne]
      rintro rfl
      rw [← hq, ht] at hx hnd
      exact (List.nodup_cons.1 (List.nodup_cons.1 hnd).2).1 hx
  show Ring v' l
  have : Link v' (l ++ [n]) := by
    rw [hq, List.append_assoc]
    refine (link_split q p [n]).2 ⟨by rw [← hq]; exact hl, ⟨?_, ?_⟩, trivial⟩
    · rw [hn, upd_same]
    · rw [hp, upd_same]
  rw [ht] at this ⊢
  exact this

/-- Putting an element at the end of a ring. -/
theorem ring_insert {v v' : View α} {c f z : Nat} {l t q : List Nat} (hnd : (c :: l).Nodup) (ht : l = f :: t)
    (hq : l = q ++ [z]) (h : Ring v l) (hn : v'.nx = upd (upd v.nx c (some f)) z (some c))
    (hp : v'.pv = upd (upd v.pv c (some z)) f (some c)) : Ring v' (l ++ [c]) := by
  have h1 : Link v (l ++ [f]) := by rw [ht] at h ⊢; exact h
  rw [hq, List.append_assoc] at h1
  have h2 := ((link_split q z [f]).1 h1).1
  have hc : c ∉ l := (List.nodup_cons.1 hnd).1
  have hl : l.Nodup := (List.nodup_cons.1 hnd).2
  have hcz : c ≠ z := by rintro rfl; exact hc (by rw [hq]; simp)
  have hcf : c ≠ f := by rintro rfl; exact hc (by rw [ht]; simp)
  have h3 : Link v' (q ++ [z]) := by
    refine link_congr _ (fun x hx => ?_) (fun x hx => ?_) h2
    · rw [hn, upd_ne, upd_ne]
      · rintro rfl
        rw [dropLast_append_one] at hx
        exact hc (by rw [hq]; exact List.mem_append_left _ hx)
      · rintro rfl
        rw [dropLast_append_one] at hx
        rw [hq] at hl
        exact (List.nodup_append.1 hl).2.2 _ hx _ (List.mem_singleton.2 rfl) rfl
    · rw [← hq] at hx
      rw [hp, upd_ne, upd_ne]
      · rintro rfl
        exact hc (List.mem_of_mem_tail hx)
      · rintro rfl
        rw [ht] at hx hl
        exact (List.nodup_cons.1 hl).1 hx
  have : Link v' (l ++ [c] ++ [f]) := by
    rw [hq]
    simp only [List.append_assoc, List.cons_append, List.nil_append]
    refine (link_split q z [c, f]).2 ⟨h3, ⟨?_, ?_⟩, ⟨?_, ?_⟩, trivial⟩
    · rw [hn, upd_same]
    · rw [hp, upd_ne _ _ hcf, upd_same]
    · rw [hn, upd_ne _ _ hcz, upd_same]
    · rw [hp, upd_same]
  rw [ht] at this ⊢
  exact this

/-! ### The shape of a set of heaps -/

/-- `S` are the elements of some heaps with roots `R`; `kids` are the children of an element, oldest first. -/
structure Shape (v : View α) (S R : List Nat) (kids : Nat → List Nat) : Prop where
  nodup : S.Nodup
  perm : S.Perm (R ++ S.flatMap kids)
  live : ∀ a ∈ S, v.vl a ≠ none
  left : ∀ a ∈ S, v.lf a = (kids a).getLast?
  ring : ∀ a ∈ S, Ring v (kids a)
  par : ∀ a ∈ S, ∀ k ∈ kids a, v.pr k = some a
  rank : ∃ rk : Nat → Nat, ∀ a ∈ S, ∀ k ∈ kids a, rk k < rk a

variable {v v' : View α} {S R : List Nat} {kids : Nat → List Nat}

theorem Shape.perm_roots {R' : List Nat} (h : Shape v S R kids) (hp : R.Perm R') : Shape v S R' kids :=
  ⟨h.nodup, h.perm.trans (hp.append_right _), h.live, h.left, h.ring, h.par, h.rank⟩

theorem Shape.nodup_all (h : Shape v S R kids) : (R ++ S.flatMap kids).Nodup := h.perm.nodup h.nodup
theorem Shape.root_mem (h : Shape v S R kids) {a : Nat} (ha : a ∈ R) : a ∈ S :=
  h.perm.symm.subset (List.mem_append_left _ ha)
theorem Shape.kid_mem (h : Shape v S R kids) {a k : Nat} (ha : a ∈ S) (hk : k ∈ kids a) : k ∈ S :=
  h.perm.symm.subset (List.mem_append_right _ (List.mem_flatMap.2 ⟨a, ha, hk⟩))
theorem Shape.root_not_kid (h : Shape v S R kids) {a r : Nat} (hr : r ∈ R) (ha : a ∈ S) : r ∉ kids a := by
  intro hk
  exact (List.nodup_append.1 h.nodup_all).2.2 _ hr _ (List.mem_flatMap.2 ⟨a, ha, hk⟩) rfl
theorem Shape.kid_not_self (h : Shape v S R kids) {a : Nat} (ha : a ∈ S) : a ∉ kids a := by
  intro hk
  obtain ⟨rk, hr⟩ := h.rank
  exact absurd (hr a ha a hk) (by omega)
theorem Shape.root_or_kid (h : Shape v S R kids) {a : Nat} (ha : a ∈ S) : a ∈ R ∨ ∃ b ∈ S, a ∈ kids b := by
  rcases List.mem_append.1 (h.perm.subset ha) with h1 | h1
  · exact .inl h1
  · obtain ⟨b, hb, hk⟩ := List.mem_flatMap.1 h1
    exact .inr ⟨b, hb, hk⟩

theorem nodup_flatMap {β : Type} {f : Nat → List β} : ∀ {S : List Nat}, (S.flatMap f).Nodup → ∀ a ∈ S, (f a).Nodup
  | x :: S, h, a, ha => by
    rw [List.flatMap_cons] at h
    rcases List.mem_cons.1 ha with rfl | ha
    · exact (List.nodup_append.1 h).1
    · exact nodup_flatMap (List.nodup_append.1 h).2.1 a ha

theorem Shape.kids_nodup (h : Shape v S R kids) {a : Nat} (ha : a ∈ S) : (kids a).Nodup :=
  nodup_flatMap (List.nodup_append.1 h.nodup_all).2.1 a ha

theorem flatMap_two {β : Type} {f : Nat → List β} : ∀ {S : List Nat}, (S.flatMap f).Nodup → S.Nodup → ∀ {a b : Nat} {x : β},
    a ∈ S → b ∈ S → x ∈ f a → x ∈ f b → a = b
  | y :: S, h, hs, a, b, x, ha, hb, hxa, hxb => by
    rw [List.flatMap_cons] at h
    have h' := List.nodup_append.1 h
    rcases List.mem_cons.1 ha with ha' | ha'
    · subst ha'
      rcases List.mem_cons.1 hb with hb' | hb'
      · exact hb'.symm
      · exact absurd rfl (h'.2.2 x hxa x (List.mem_flatMap.2 ⟨b, hb', hxb⟩))
    · rcases List.mem_cons.1 hb with hb' | hb'
      · subst hb'
        exact absurd rfl (h'.2.2 x hxb x (List.mem_flatMap.2 ⟨a, ha', hxa⟩))
      · exact flatMap_two h'.2.1 (List.nodup_cons.1 hs).2 ha' hb' hxa hxb

theorem Shape.one_parent (h : Shape v S R kids) {a b k : Nat} (ha : a ∈ S) (hb : b ∈ S) (h1 : k ∈ kids a)
    (h2 : k ∈ kids b) : a = b :=
  flatMap_two (List.nodup_append.1 h.nodup_all).2.1 h.nodup ha hb h1 h2

theorem flatMap_congr' {β : Type} {f g : Nat → List β} {S : List Nat} (h : ∀ a ∈ S, f a = g a) :
    S.flatMap f = S.flatMap g := by
  induction S with
  | nil => rfl
  | cons a S ih =>
    rw [List.flatMap_cons, List.flatMap_cons, h a (by simp), ih (fun x hx => h x (List.mem_cons_of_mem _ hx))]

/-- Giving an element one child more. -/
theorem flatMap_upd {p c : Nat} {X Y : List Nat} : ∀ {S : List Nat}, S.Nodup → p ∈ S → X.Perm (c :: Y) →
    (S.flatMap (upd kids p X)).Perm (c :: S.flatMap (upd kids p Y))
  | y :: S, hnd, hp, hxy => by
    rw [List.flatMap_cons, List.flatMap_cons]
    have hnd' := List.nodup_cons.1 hnd
    by_cases hy : y = p
    · subst hy
      have : S.flatMap (upd kids y X) = S.flatMap (upd kids y Y) :=
        flatMap_congr' (fun a ha => by
          have : a ≠ y := by rintro rfl; exact hnd'.1 ha
          rw [upd_ne _ _ this, upd_ne _ _ this])
      rw [this, upd_same, upd_same]
      exact hxy.append_right _
    · have hp' : p ∈ S := by
        rcases List.mem_cons.1 hp with h | h
        · exact absurd h.symm hy
        · exact h
      rw [upd_ne _ _ hy, upd_ne _ _ hy]
      exact ((flatMap_upd hnd'.2 hp' hxy).append_left _).trans List.perm_middle

/-- The links of roots do not matter. -/
theorem Shape.roots_free (h : Shape v S R kids) (hlf : ∀ a ∈ S, v'.lf a = v.lf a) (hvl : ∀ a ∈ S, v'.vl a ≠ none)
    (hnx : ∀ a ∈ S, a ∉ R → v'.nx a = v.nx a) (hpv : ∀ a ∈ S, a ∉ R → v'.pv a = v.pv a)
    (hpr : ∀ a ∈ S, a ∉ R → v'.pr a = v.pr a) : Shape v' S R kids := by
  have nr : ∀ {a k}, a ∈ S → k ∈ kids a → k ∉ R := fun ha hk hr => h.root_not_kid hr ha hk
  refine ⟨h.nodup, h.perm, hvl, fun a ha => by rw [hlf a ha]; exact h.left a ha, fun a ha => ?_, fun a ha k hk => ?_,
    h.rank⟩
  · exact ring_congr (fun x hx => hnx x (h.kid_mem ha hx) (nr ha hx)) (fun x hx => hpv x (h.kid_mem ha hx) (nr ha hx))
      (h.ring a ha)
  · rw [hpr k (h.kid_mem ha hk) (nr ha hk)]; exact h.par a ha k hk

/-- Taking away a root. -/
theorem Shape.delete {r : Nat} (h : Shape v S (r :: R) kids) : Shape v (S.erase r) (kids r ++ R) kids := by
  have hr : r ∈ S := h.root_mem (by simp)
  have hp : S.Perm (r :: S.erase r) := List.perm_cons_erase hr
  have sub : ∀ a ∈ S.erase r, a ∈ S := fun a ha => List.mem_of_mem_erase ha
  refine ⟨h.nodup.erase _, ?_, fun a ha => h.live a (sub a ha), fun a ha => h.left a (sub a ha),
    fun a ha => h.ring a (sub a ha), fun a ha => h.par a (sub a ha), ?_⟩
  · have h1 := h.perm
    have h2 : (S.flatMap kids).Perm (kids r ++ (S.erase r).flatMap kids) := by
      have := List.Perm.flatMap_right kids hp
      rw [List.flatMap_cons] at this; exact this
    have h3 : (r :: S.erase r).Perm (r :: (R ++ (kids r ++ (S.erase r).flatMap kids))) :=
      hp.symm.trans (h1.trans (by rw [List.cons_append]; exact ((h2.append_left R).cons r)))
    have h4 := (List.perm_cons r).1 h3
    refine h4.trans ?_
    rw [← List.append_assoc]
    exact List.perm_append_comm.append_right _
  · obtain ⟨rk, hrk⟩ := h.rank
    exact ⟨rk, fun a ha => hrk a (sub a ha)⟩

/-- Making a root the youngest child of another. -/
theorem Shape.link {p ch : Nat} (h : Shape v S (p :: ch :: R) kids) (hvl : v'.vl = v.vl)
    (hlf : v'.lf = upd v.lf p (some ch)) (hpr : v'.pr = upd v.pr ch (some p))
    (hring : Ring v' (kids p ++ [ch])) (hnx : ∀ x, x ≠ ch → x ∉ kids p → v'.nx x = v.nx x)
    (hpv : ∀ x, x ≠ ch → x ∉ kids p → v'.pv x = v.pv x) : Shape v' S (p :: R) (upd kids p (kids p ++ [ch])) := by
  have hp : p ∈ S := h.root_mem (by simp)
  have hc : ch ∈ S := h.root_mem (by simp)
  have hpc : p ≠ ch := by
    have := h.nodup_all
    simp only [List.cons_append, List.nodup_cons, List.mem_cons] at this
    exact fun e => this.1 (.inl e)
  have nk : ∀ {a k}, a ∈ S → k ∈ kids a → k ≠ ch := fun ha hk e => h.root_not_kid (r := ch) (by simp) ha (e ▸ hk)
  refine ⟨h.nodup, ?_, by rw [hvl]; exact h.live, fun a ha => ?_, fun a ha => ?_, fun a ha k hk => ?_, ?_⟩
  · have h1 := flatMap_upd (kids := kids) (X := kids p ++ [ch]) (Y := kids p) (c := ch) h.nodup hp
      (List.perm_append_comm)
    rw [upd_id] at h1
    refine h.perm.trans ?_
    simp only [List.cons_append]
    refine List.Perm.cons p ?_
    exact (List.perm_middle.symm).trans (h1.symm.append_left R)
  · by_cases hap : a = p
    · subst hap; rw [hlf, upd_same, upd_same]; simp
    · rw [hlf, upd_ne _ _ hap, upd_ne _ _ hap]; exact h.left a ha
  · by_cases hap : a = p
    · subst hap; rw [upd_same]; exact hring
    · rw [upd_ne _ _ hap]
      have hk : ∀ x ∈ kids a, x ∉ kids p := fun x hx hx' => hap (h.one_parent ha hp hx hx')
      exact ring_congr (fun x hx => hnx x (nk ha hx) (hk x hx)) (fun x hx => hpv x (nk ha hx) (hk x hx)) (h.ring a ha)
  · by_cases hap : a = p
    · subst hap
      rw [upd_same] at hk
      rw [hpr]
      rcases List.mem_append.1 hk with hk | hk
      · rw [upd_ne _ _ (nk ha hk)]; exact h.par a ha k hk
      · rw [List.mem_singleton.1 hk, upd_same]
    · rw [upd_ne _ _ hap] at hk
      rw [hpr, upd_ne _ _ (nk ha hk)]; exact h.par a ha k hk
  · obtain ⟨rk, hrk⟩ := h.rank
    refine ⟨upd rk p (rk p + rk ch + 1), fun a ha k hk => ?_⟩
    have kp : ∀ {a k}, a ∈ S → k ∈ kids a → k ≠ p := fun ha hk e => h.root_not_kid (r := p) (by simp) ha (e ▸ hk)
    by_cases hap : a = p
    · subst hap
      rw [upd_same] at hk
      rw [upd_same]
      rcases List.mem_append.1 hk with hk | hk
      · rw [upd_ne _ _ (kp ha hk)]; have := hrk a ha k hk; omega
      · rw [List.mem_singleton.1 hk, upd_ne _ _ hpc.symm]; omega
    · rw [upd_ne _ _ hap] at hk ⊢
      rw [upd_ne _ _ (kp ha hk)]; exact hrk a ha k hk

/-- Making a child a root. -/
theorem Shape.cut {p e : Nat} {K : List Nat} (h : Shape v S R kids) (hp : p ∈ S) (hk : (kids p).Perm (e :: K))
    (hvl : v'.vl = v.vl) (hlf : v'.lf = upd v.lf p K.getLast?) (hpr : ∀ x, x ≠ e → v'.pr x = v.pr x)
    (hring : Ring v' K) (hnx : ∀ x, x ∉ K → x ≠ e → v'.nx x = v.nx x) (hpv : ∀ x, x ∉ K → x ≠ e → v'.pv x = v.pv x) :
    Shape v' S (e :: R) (upd kids p K) := by
  have he : e ∈ kids p := hk.symm.subset (by simp)
  have hKk : ∀ x ∈ K, x ∈ kids p := fun x hx => hk.symm.subset (List.mem_cons_of_mem _ hx)
  have heK : e ∉ K := (List.nodup_cons.1 (hk.nodup (h.kids_nodup hp))).1
  refine ⟨h.nodup, ?_, by rw [hvl]; exact h.live, fun a ha => ?_, fun a ha => ?_, fun a ha k hk' => ?_, ?_⟩
  · have h1 := flatMap_upd (kids := kids) (X := kids p) (Y := K) (c := e) h.nodup hp hk
    rw [upd_id] at h1
    exact h.perm.trans ((h1.append_left R).trans (by rw [List.cons_append]; exact List.perm_middle))
  · by_cases hap : a = p
    · subst hap; rw [hlf, upd_same, upd_same]
    · rw [hlf, upd_ne _ _ hap, upd_ne _ _ hap]; exact h.left a ha
  · by_cases hap : a = p
    · subst hap; rw [upd_same]; exact hring
    · rw [upd_ne _ _ hap]
      have hne : ∀ x ∈ kids a, x ∉ K ∧ x ≠ e := fun x hx =>
        ⟨fun hx' => hap (h.one_parent ha hp hx (hKk x hx')), fun e' => hap (h.one_parent ha hp hx (e' ▸ he))⟩
      exact ring_congr (fun x hx => hnx x (hne x hx).1 (hne x hx).2) (fun x hx => hpv x (hne x hx).1 (hne x hx).2)
        (h.ring a ha)
  · by_cases hap : a = p
    · subst hap
      rw [upd_same] at hk'
      rw [hpr k (by rintro rfl; exact heK hk')]
      exact h.par a ha k (hKk k hk')
    · rw [upd_ne _ _ hap] at hk'
      rw [hpr k (by rintro rfl; exact hap (h.one_parent ha hp hk' he))]
      exact h.par a ha k hk'
  · obtain ⟨rk, hrk⟩ := h.rank
    refine ⟨rk, fun a ha k hk' => ?_⟩
    by_cases hap : a = p
    · subst hap; rw [upd_same] at hk'; exact hrk a ha k (hKk k hk')
    · rw [upd_ne _ _ hap] at hk'; exact hrk a ha k hk'

end CCC.Pq
