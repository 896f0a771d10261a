import Verif.Model.SinglyLinkedList
import Verif.Proof.Lists
/-
The singly linked list: links and sequences.
-/
namespace CCC.Sll
open CCC Seq SllSpec

variable {α : Type} {c : Cfg} {s : Sll α} {st : St α}

/-- `a` links to `b`. -/
def Lk (s : Sll α) (a b : Nat) : Prop := s.lnk a = some (some b)

/-- The program holds the sequences of the specification; sizes are left out. -/
structure Core (c : Cfg) (s : Sll α) (st : St α) : Prop where
  val : s.val = st.val
  live : ∀ a, st.val a ≠ none → s.lnk a ≠ none
  shape : Shape c.lists st.seq
  ring : ∀ l ∈ c.lists, Seg (Lk s) l (st.seq l) l
  own : ∀ l ∈ c.lists, ∀ a ∈ st.seq l, st.val a ≠ none
  nolist : ∀ l ∈ c.lists, st.val l = none

/-- … and the sizes. -/
structure Sim (c : Cfg) (s : Sll α) (st : St α) : Prop extends Core c s st where
  sz : ∀ l ∈ c.lists, s.sz l = (st.seq l).length

theorem setN_eq {a : Nat} {x : Slot} (h : s.lnk a = some x) (n : Slot) :
    s.setN a n = some { s with lnk := upd s.lnk a (some n) } := by
  simp [Sll.setN, h]

theorem setN_eq' {a : Nat} (h : s.lnk a ≠ none) (n : Slot) : s.setN a n = some { s with lnk := upd s.lnk a (some n) } := by
  obtain ⟨x, hx⟩ := Option.ne_none_iff_exists'.1 h
  exact setN_eq hx n

theorem Core.head (h : Core c s st) {l : Nat} (hl : l ∈ c.lists) : s.lnk l = some (some ((st.seq l).headD l)) :=
  (h.ring l hl).head

theorem Core.at_ (h : Core c s st) {l : Nat} (hl : l ∈ c.lists) {A B : List Nat} {e : Nat} (hs : st.seq l = A ++ e :: B) :
    s.lnk e = some (some (B.headD l)) := by
  have := h.ring l hl
  rw [hs] at this
  exact ((seg_append.1 this).2.2).head

theorem Core.last (h : Core c s st) {l : Nat} (hl : l ∈ c.lists) {P Q : List Nat} (hs : st.seq l = P ++ Q) :
    s.lnk (P.getLastD l) = some (some (Q.headD l)) := by
  have := h.ring l hl
  rw [hs] at this
  exact (seg_append.1 this).1.last

theorem before_spec {e : Nat} : ∀ {A : List Nat} {p : Nat}, Seg (Lk s) p A e → e ∉ A → beforeLoop s e p = some (A.getLastD p)
  | [], p, h, _ => by
    rw [beforeLoop]
    have : s.lnk p = some (some e) := h
    simp [this]
  | a :: A, p, h, he => by
    rw [beforeLoop, getLastD_cons']
    have h1 : s.lnk p = some (some a) := h.1
    simp only [List.mem_cons, not_or] at he
    have h2 : some a ≠ some e := fun h => he.1 (Option.some.inj h).symm
    simp only [h1, if_neg h2, Option.bind_eq_bind, Option.bind_some]
    exact before_spec h.2 he.2

theorem Core.before (h : Core c s st) {l : Nat} (hl : l ∈ c.lists) {A C : List Nat} {b : Nat} (hs : st.seq l = A ++ C)
    (hb : C.headD l = b) (hbA : b ∉ A) : Sll.before s l b = some (A.getLastD l) := by
  have := h.ring l hl
  rw [hs] at this
  have h1 := (seg_append.1 this).1
  rw [hb] at h1
  exact before_spec h1 hbA

theorem len_spec {l e : Nat} : ∀ {M : List Nat} {k : Nat}, Path (Lk s) (M ++ [e]) → e ∉ M → k + M.length ≤ s.sz l + 1 →
    lenLoop s l (M.headD e) e k = some (k + M.length)
  | [], k, _, _, _ => by rw [lenLoop]; simp
  | [a], k, h, he, hk => by
    rw [lenLoop]
    have h1 : s.lnk a = some (some e) := h.1
    simp only [List.mem_singleton] at he
    simp only [List.length_singleton] at hk
    have h2 : ¬ [a].headD e = e := fun h => he h.symm
    have h3 : k ≤ s.sz l := by omega
    rw [if_neg h2, if_pos h3]
    simp only [List.headD_cons, h1, Option.bind_eq_bind, Option.bind_some]
    have := @len_spec l e [] (k + 1) trivial (by simp) (by simp; omega)
    simpa using this
  | a :: b :: M, k, h, he, hk => by
    rw [lenLoop]
    have h1 : s.lnk a = some (some b) := h.1
    have he' := he
    simp only [List.mem_cons, not_or] at he
    simp only [List.length_cons] at hk
    have h2 : ¬ (a :: b :: M).headD e = e := fun h => he.1 h.symm
    have h3 : k ≤ s.sz l := by omega
    rw [if_neg h2, if_pos h3]
    simp only [List.headD_cons, h1, Option.bind_eq_bind, Option.bind_some]
    have := @len_spec l e (b :: M) (k + 1) h.2 (fun h => he' (List.mem_cons_of_mem _ h)) (by simp; omega)
    rw [List.headD_cons] at this
    rw [this]
    simp only [List.length_cons, Option.some.injEq]
    omega

/-- Several structs given away. -/
def dropAll (s : Sll α) (X : List Nat) : Sll α :=
  { s with lnk := fun a => if X.contains a then none else s.lnk a, val := fun a => if X.contains a then none else s.val a }

theorem dropAll_cons (s : Sll α) (a : Nat) (X : List Nat) : dropAll (free s a) X = dropAll s (a :: X) := by
  simp only [dropAll, free, Sll.mk.injEq, and_true]
  constructor
  · funext j
    by_cases h : j = a
    · subst h; simp
    · simp [upd_ne _ _ h, h]
  · funext j
    by_cases h : j = a
    · subst h; simp
    · simp [upd_ne _ _ h, h]

theorem dropAll_one (s : Sll α) (a : Nat) : dropAll s [a] = free s a := by
  simp only [dropAll, free, Sll.mk.injEq, and_true]
  constructor <;> (funext j; simp [upd])

theorem free_path {a : Nat} {X : List Nat} (h : Path (Lk s) X) (ha : a ∉ X) : Path (Lk (free s a)) X := by
  refine h.mono fun x hx y _ hxy => ?_
  have : x ≠ a := fun e => ha (e ▸ mem_dropLast' hx)
  show upd s.lnk a none x = _
  rw [upd_ne _ _ this]; exact hxy

theorem freeLoop_spec {l e : Nat} : ∀ {M : List Nat} {s : Sll α} {k : Nat}, Path (Lk s) (M ++ [e]) → (M ++ [e]).Nodup → s.lnk e ≠ none →
    k + M.length ≤ s.sz l + 1 → freeLoop s l (M.headD e) e k = some (dropAll s (M ++ [e]), k + M.length)
  | [], s, k, _, _, hl, _ => by
    rw [freeLoop]
    obtain ⟨x, hx⟩ := Option.ne_none_iff_exists'.1 hl
    simp [hx, dropAll_one]
  | [a], s, k, h, nd, hl, hk => by
    rw [freeLoop]
    have h1 : s.lnk a = some (some e) := h.1
    have he : a ≠ e := by simpa using nd
    simp only [List.length_singleton] at hk
    have h3 : k ≤ s.sz l := by omega
    rw [if_neg (by simpa using he), if_pos h3]
    simp only [List.headD_cons, h1, Option.bind_eq_bind, Option.bind_some]
    have := @freeLoop_spec l e [] (free s a) (k + 1) trivial (by simp) (by simp [free, upd_ne _ _ (Ne.symm he), hl]) (by simp [free]; omega)
    simp only [List.headD_nil, List.nil_append, List.length_nil, dropAll_cons] at this
    rw [this]; rfl
  | a :: b :: M, s, k, h, nd, hl, hk => by
    rw [freeLoop]
    have h1 : s.lnk a = some (some b) := h.1
    have nd' := List.nodup_cons.1 nd
    have he : a ≠ e := fun e' => nd'.1 (by simp [e'])
    simp only [List.length_cons] at hk
    have h3 : k ≤ s.sz l := by omega
    rw [if_neg (by simpa using he), if_pos h3]
    simp only [List.headD_cons, h1, Option.bind_eq_bind, Option.bind_some]
    have := @freeLoop_spec l e (b :: M) (free s a) (k + 1) (free_path h.2 nd'.1) nd'.2
      (by simp [free, upd_ne _ _ (Ne.symm he), hl]) (by simp [free]; omega)
    rw [List.headD_cons] at this
    rw [this, dropAll_cons]
    simp only [List.cons_append, List.length_cons, Option.some.injEq, Prod.mk.injEq, true_and]
    omega

/-! ### Local changes -/

theorem upd_self {β : Type} (f : Nat → β) (i : Nat) : upd f i (f i) = f := by
  funext j; by_cases h : j = i <;> simp [upd, h]

theorem upd_upd {β : Type} (f : Nat → β) (i : Nat) (x y : β) : upd (upd f i x) i y = upd f i y := by
  funext j; by_cases h : j = i <;> simp [upd, h]

theorem Core.mem_ring (h : Core c s st) {l k a : Nat} (hl : l ∈ c.lists) (hk : k ∈ c.lists) (ha : a ∈ l :: st.seq l)
    (ha' : a ∈ k :: st.seq k) : l = k := by
  rcases List.mem_cons.1 ha with e | ha <;> rcases List.mem_cons.1 ha' with e' | ha'
  · rw [← e, ← e']
  · subst e; exact absurd hl (h.shape.out k hk a ha')
  · subst e'; exact absurd hk (h.shape.out l hl a ha)
  · exact h.shape.disj l hl k hk a ha ha'

theorem Core.lnk_live (h : Core c s st) {l a : Nat} (hl : l ∈ c.lists) (ha : a ∈ l :: st.seq l) : s.lnk a ≠ none := by
  rcases List.mem_cons.1 ha with e | ha
  · rw [e, h.head hl]; simp
  · exact h.live a (h.own l hl a ha)

/-- The state after a range is taken out. -/
def cutSt (s : Sll α) (m : Nat) (A B : List Nat) : Sll α :=
  { s with lnk := upd s.lnk (A.getLastD m) (some (some (B.headD m))) }

theorem Core.cut (h : Core c s st) {m e : Nat} (hm : m ∈ c.lists) {A M B : List Nat} (hs : st.seq m = A ++ (M ++ e :: B)) :
    Core c (cutSt s m A B) (st.set m (A ++ B)) ∧ Path (Lk (cutSt s m A B)) (M ++ [e]) ∧ (∀ a ∈ M ++ [e], a ≠ A.getLastD m) ∧
      (∀ a ∈ M ++ [e], Loose c.lists (st.set m (A ++ B)) a) := by
  have nd := h.shape.ring hm
  rw [hs] at nd
  have hsub : (A ++ B).Sublist (st.seq m) := by
    rw [hs]
    refine (List.Sublist.refl A).append ?_
    exact (List.sublist_cons_self e B).trans (List.sublist_append_right _ _)
  have hi : A.getLastD m ∈ m :: st.seq m := by
    rw [hs]
    rcases List.mem_cons.1 (getLastD_mem m A) with e | e
    · exact List.mem_cons.2 (.inl e)
    · exact List.mem_cons_of_mem _ (List.mem_append_left _ e)
  have hr := h.ring m hm
  rw [hs] at hr
  have hne : ∀ a ∈ M ++ [e], a ≠ A.getLastD m := by
    intro a ha e'
    have hm' := getLastD_mem m A
    rw [← e'] at hm'
    have hd : (m :: A ++ (M ++ e :: B)).Nodup := nd
    refine (List.nodup_append.1 hd).2.2 a hm' a ?_ rfl
    rcases List.mem_append.1 ha with h | h
    · simp [h]
    · simp at h; simp [h]
  have hfr : ∀ a b, a ≠ A.getLastD m → Lk s a b → Lk (cutSt s m A B) a b := by
    intro a b hab hl
    show upd s.lnk _ _ a = _
    rw [upd_ne _ _ hab]; exact hl
  refine ⟨⟨h.val, fun a ha => ?_, h.shape.sub hm hsub, fun l hl => ?_, fun l hl a ha => ?_, h.nolist⟩, ?_, hne, ?_⟩
  · show upd s.lnk _ _ a ≠ none
    by_cases e' : a = A.getLastD m
    · rw [e', upd_same]; simp
    · rw [upd_ne _ _ e']; exact h.live a ha
  · show Seg _ l (upd st.seq m (A ++ B) l) l
    by_cases e' : l = m
    · subst e'
      rw [upd_same]
      exact hr.cut nd hfr (upd_same _ _ _)
    · rw [upd_ne _ _ e']
      refine (h.ring l hl).mono fun a ha b _ => hfr a b fun e'' => ?_
      exact e' (h.mem_ring hl hm ha (e'' ▸ hi))
  · have : a ∈ st.seq l := by
      change a ∈ upd st.seq m (A ++ B) l at ha
      by_cases e' : l = m
      · subst e'; rw [upd_same] at ha; exact hsub.subset ha
      · rwa [upd_ne _ _ e'] at ha
    exact h.own l hl a this
  · have hp := (seg_split.1 (seg_append.1 hr).2).2.1
    exact hp.mono fun a ha b _ => hfr a b (hne a (mem_dropLast' ha))
  · intro a ha
    have ham : a ∈ st.seq m := by
      rw [hs]
      rcases List.mem_append.1 ha with h | h
      · simp [h]
      · simp at h; simp [h]
    refine ⟨h.shape.out m hm a ham, fun l hl hal => ?_⟩
    change a ∈ upd st.seq m (A ++ B) l at hal
    by_cases e' : l = m
    · subst e'
      rw [upd_same] at hal
      have hd := List.nodup_append.1 (List.nodup_cons.1 nd).2
      have hd2 : (M ++ [e] ++ B).Nodup := by simpa using hd.2.1
      rcases List.mem_append.1 hal with h | h
      · refine hd.2.2 a h a ?_ rfl
        rcases List.mem_append.1 ha with h | h
        · simp [h]
        · simp at h; simp [h]
      · exact (List.nodup_append.1 hd2).2.2 a ha a h rfl
    · rw [upd_ne _ _ e'] at hal
      exact e' (h.shape.disj l hl m hm a hal ham)

/-- The state after a range is put in. -/
def pasteSt (s : Sll α) (l : Nat) (P M Q : List Nat) (e : Nat) : Sll α :=
  { s with lnk := upd (upd s.lnk e (some (some (Q.headD l)))) (P.getLastD l) (some (some (M.headD e))) }

theorem Core.paste (h : Core c s st) {l e : Nat} (hl : l ∈ c.lists) {P M Q : List Nat} (hs : st.seq l = P ++ Q)
    (hp : Path (Lk s) (M ++ [e])) (nd : (M ++ [e]).Nodup) (hX : ∀ a ∈ M ++ [e], Loose c.lists st a ∧ st.val a ≠ none) :
    Core c (pasteSt s l P M Q e) (st.set l (P ++ (M ++ e :: Q))) := by
  have hsh := h.shape.put hl hs nd (fun a ha => (hX a ha).1)
  rw [show P ++ (M ++ [e] ++ Q) = P ++ (M ++ e :: Q) by simp] at hsh
  have hi : P.getLastD l ∈ l :: st.seq l := by
    rw [hs]
    rcases List.mem_cons.1 (getLastD_mem l P) with e | e
    · exact List.mem_cons.2 (.inl e)
    · exact List.mem_cons_of_mem _ (List.mem_append_left _ e)
  have hfr : ∀ a b, a ≠ P.getLastD l → a ≠ e → Lk s a b → Lk (pasteSt s l P M Q e) a b := by
    intro a b h1 h2 hl
    show upd (upd s.lnk _ _) _ _ a = _
    rw [upd_ne _ _ h1, upd_ne _ _ h2]; exact hl
  have heX : e ∈ M ++ [e] := by simp
  have hie : e ≠ P.getLastD l := by
    intro e'
    rcases List.mem_cons.1 hi with h1 | h1
    · exact (hX e heX).1.1 (by rw [e', h1]; exact hl)
    · exact (hX e heX).1.2 l hl (e' ▸ h1)
  have hr := h.ring l hl
  rw [hs] at hr
  have mem : ∀ {k a}, a ∈ upd st.seq l (P ++ (M ++ e :: Q)) k → a ∈ st.seq k ∨ (k = l ∧ a ∈ M ++ [e]) := by
    intro k a ha
    by_cases e' : k = l
    · subst e'
      rw [upd_same] at ha
      rw [hs]
      simp only [List.mem_append, List.mem_cons] at ha ⊢
      rcases ha with h | h | h | h <;> simp [h]
    · rw [upd_ne _ _ e'] at ha; exact .inl ha
  refine ⟨h.val, fun a ha => ?_, hsh, fun k hk => ?_, fun k hk a ha => ?_, h.nolist⟩
  · show upd (upd s.lnk _ _) _ _ a ≠ none
    by_cases e' : a = P.getLastD l
    · rw [e', upd_same]; simp
    · rw [upd_ne _ _ e']
      by_cases e'' : a = e
      · rw [e'', upd_same]; simp
      · rw [upd_ne _ _ e'']; exact h.live a ha
  · show Seg _ k (upd st.seq l _ k) k
    by_cases e' : k = l
    · subst e'
      have ndr := hsh.ring hk
      rw [upd_same] at ndr ⊢
      refine hr.paste hp ndr hfr (upd_same _ _ _) ?_
      show upd (upd s.lnk _ _) _ _ e = _
      rw [upd_ne _ _ hie, upd_same]
    · rw [upd_ne _ _ e']
      refine (h.ring k hk).mono fun a ha b _ => hfr a b (fun e'' => ?_) (fun e'' => ?_)
      · exact e' (h.mem_ring hk hl ha (e'' ▸ hi))
      · subst e''
        rcases List.mem_cons.1 ha with h1 | h1
        · exact (hX a heX).1.1 (h1 ▸ hk)
        · exact (hX a heX).1.2 k hk h1
  · rcases mem ha with h1 | ⟨_, h1⟩
    · exact h.own k hk a h1
    · exact (hX a h1).2

/-- Writing to the link of a struct in no list. -/
theorem Core.loose (h : Core c s st) {e : Nat} (he : Loose c.lists st e) (n : Slot) :
    Core c { s with lnk := upd s.lnk e (some n) } st := by
  refine ⟨h.val, fun a ha => ?_, h.shape, fun k hk => ?_, h.own, h.nolist⟩
  · show upd s.lnk _ _ a ≠ none
    by_cases e' : a = e
    · rw [e', upd_same]; simp
    · rw [upd_ne _ _ e']; exact h.live a ha
  · refine (h.ring k hk).mono fun a ha b _ hab => ?_
    have : a ≠ e := by
      rintro rfl
      rcases List.mem_cons.1 ha with h1 | h1
      · exact he.1 (h1 ▸ hk)
      · exact he.2 k hk h1
    show upd s.lnk _ _ a = _
    rw [upd_ne _ _ this]; exact hab

/-- Giving structs away that are in no list. -/
theorem Core.dropAll (h : Core c s st) {X : List Nat} (hX : ∀ a ∈ X, Loose c.lists st a) :
    Core c (dropAll s X) (st.drop X) := by
  refine ⟨?_, fun a ha => ?_, h.shape, fun k hk => ?_, fun k hk a ha => ?_, fun k hk => ?_⟩
  · simp only [Sll.dropAll, St.drop, h.val]
  · simp only [St.drop] at ha
    by_cases hx : X.contains a = true
    · simp only [hx, if_true] at ha; exact absurd rfl ha
    · simp only [Sll.dropAll, if_neg hx]
      rw [if_neg hx] at ha
      exact h.live a ha
  · refine (h.ring k hk).mono fun a ha b _ hab => ?_
    have : ¬ X.contains a = true := by
      intro hx
      have hx := hX a (by simpa using hx)
      rcases List.mem_cons.1 ha with h1 | h1
      · exact hx.1 (h1 ▸ hk)
      · exact hx.2 k hk h1
    simp only [Lk, Sll.dropAll, if_neg this]; exact hab
  · have : ¬ X.contains a = true := by
      intro hx
      exact (hX a (by simpa using hx)).2 k hk ha
    simp only [St.drop, if_neg this]
    exact h.own k hk a ha
  · simp only [St.drop, h.nolist k hk, ite_self]

/-- A position splits its list. -/
theorem split_pos {l pos : Nat} {t : List Nat} (nd : (l :: t).Nodup) (hp : pos = l ∨ pos ∈ t) :
    ∃ P Q, t = P ++ Q ∧ P.getLastD l = pos ∧ ∀ X, putAt l pos X t = P ++ (X ++ Q) := by
  have nd' := List.nodup_cons.1 nd
  rcases hp with rfl | hp
  · exact ⟨[], t, rfl, rfl, fun X => by simp [putAt]⟩
  · obtain ⟨A, B, e, hA, _⟩ := split_mem hp nd'.2
    refine ⟨A ++ [pos], B, by simp [e], by simp, fun X => ?_⟩
    have : pos ≠ l := fun e => nd'.1 (e ▸ hp)
    rw [putAt, if_neg this, putAfter, e, upto_append B hA, onward_append B hA]
    simp

end CCC.Sll
