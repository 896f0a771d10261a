import Verif.Model.OrderedMultimap
import Verif.Proof.Splay
/-
The multimap's nodes seen as a plain tree, with a ring of duplicates beside each tree node.

`h` is the tree as it would be if every tree node stored its own parent; `D a` are the duplicates of the tree node `a`, in
the order of their ring; `N` holds of structs whose links have been set to NULL.
-/
namespace CCC.Omm
open CCC Links Tree Splay

set_option linter.unusedSimpArgs false

/-- Neighbours in a doubly linked ring. -/
def Lnks (br : Nat → Bool → Slot) : List Nat → Prop
  | a :: b :: l => br a true = some b ∧ br b false = some a ∧ Lnks br (b :: l)
  | _ => True

/-- A circular doubly linked list that begins at `x`. -/
def Ring (br : Nat → Bool → Slot) (x : Nat) (xs : List Nat) : Prop := Lnks br (x :: xs ++ [x])

theorem Lnks_append {br : Nat → Bool → Slot} (l : List Nat) (a : Nat) (m : List Nat) :
    Lnks br (l ++ a :: m) ↔ Lnks br (l ++ [a]) ∧ Lnks br (a :: m) := by
  induction l with
  | nil => simp [Lnks]
  | cons b l ih =>
    cases l with
    | nil => simp [Lnks, and_assoc]
    | cons c l =>
      simp only [List.cons_append, Lnks] at ih ⊢
      rw [ih]; simp [and_assoc]

theorem Lnks.congr {br br' : Nat → Bool → Slot} {l : List Nat} (h : Lnks br l) (hb : ∀ a ∈ l, br' a = br a) :
    Lnks br' l := by
  induction l with
  | nil => trivial
  | cons a l ih =>
    cases l with
    | nil => trivial
    | cons b l =>
      refine ⟨?_, ?_, ih h.2.2 (fun x hx => hb x (List.mem_cons_of_mem _ hx))⟩
      · rw [hb a (by simp)]; exact h.1
      · rw [hb b (by simp)]; exact h.2.1

theorem Ring.congr {br br' : Nat → Bool → Slot} {x : Nat} {xs : List Nat} (h : Ring br x xs)
    (hb : ∀ a ∈ x :: xs, br' a = br a) : Ring br' x xs := by
  refine Lnks.congr h ?_
  intro a ha
  apply hb
  simp only [List.cons_append, List.mem_cons, List.mem_append, List.not_mem_nil, or_false] at ha ⊢
  rcases ha with h | h | h
  · exact Or.inl h
  · exact Or.inr h
  · exact Or.inl h

theorem Ring.last {br : Nat → Bool → Slot} {x : Nat} {xs : List Nat} (h : Ring br x xs) :
    br ((x :: xs).getLast (by simp)) true = some x ∧ br x false = some ((x :: xs).getLast (by simp)) := by
  have e := List.dropLast_concat_getLast (l := x :: xs) (by simp)
  have h1 : Lnks br (((x :: xs).dropLast ++ [(x :: xs).getLast (by simp)]) ++ [x]) := by rw [e]; exact h
  rw [List.append_assoc] at h1
  have h2 := ((Lnks_append _ _ _).1 h1).2
  exact ⟨h2.1, h2.2.1⟩

theorem Ring.first {br : Nat → Bool → Slot} {x : Nat} {xs : List Nat} (h : Ring br x xs) :
    br x true = some ((xs ++ [x]).head (by simp)) := by
  cases xs with
  | nil => exact h.1
  | cons y ys => exact h.1

structure Rel {α : Type} (D : Nat → List Nat) (N : Nat → Prop) (H : Omm α) (h : Links) : Prop where
  live : ∀ a, h.live a = true → H.live a = true
  root : H.root = h.root
  zero : h.live 0 = true
  br : ∀ a d, h.live a = true → H.br a d = some (h.br a d)
  brl : ∀ a d, h.live a = true → a ≠ 0 → h.live (h.br a d) = true
  parl : ∀ a, h.live a = true → a ≠ 0 → h.live (h.par a) = true
  plain : ∀ a, h.live a = true → D a = [] → H.par a = some (h.par a)
  head : ∀ a x xs, h.live a = true → D a = x :: xs → H.par a = some x ∧ H.par x = some (h.par a) ∧
    (∀ y ∈ xs, H.par y = none) ∧ Ring H.br x xs
  d0 : D 0 = []
  dnl : ∀ a x, x ∈ D a → h.live a = true ∧ H.live x = true ∧ h.live x = false
  dnd : ∀ a, (D a).Nodup
  ddj : ∀ a b x, x ∈ D a → x ∈ D b → a = b
  nocyc : ∀ a, h.live a = true → a ≠ 0 → h.br a false ≠ 0 → h.br (h.br a false) true ≠ a
  null : ∀ a, N a → H.live a = true ∧ (∀ d, H.br a d = none) ∧ H.par a = none ∧ h.live a = false ∧ ∀ b, a ∉ D b

/-- Nothing but links has changed. -/
def Only {α : Type} (H H' : Omm α) : Prop := ∃ b p r, H' = { H with br := b, par := p, root := r }

theorem Only.refl {α : Type} (H : Omm α) : Only H H := ⟨H.br, H.par, H.root, rfl⟩
theorem Only.trans {α : Type} {H1 H2 H3 : Omm α} (a : Only H1 H2) (b : Only H2 H3) : Only H1 H3 := by
  obtain ⟨b1, p1, r1, rfl⟩ := a
  obtain ⟨b2, p2, r2, rfl⟩ := b
  exact ⟨b2, p2, r2, rfl⟩

section access
variable {α : Type} {s : Omm α} {a : Nat}
theorem getBr_live {d : Bool} (h : s.live a = true) : getBr s a d = some (s.br a d) := by simp [getBr, h]
theorem getPar_live (h : s.live a = true) : getPar s a = some (s.par a) := by simp [getPar, h]
theorem setBr_live {d : Bool} {v : Slot} (h : s.live a = true) :
    setBr s a d v = some { s with br := fun b e => if b = a ∧ e = d then v else s.br b e } := by simp [setBr, h]
theorem setPar_live {v : Slot} (h : s.live a = true) : setPar s a v = some { s with par := upd s.par a v } := by
  simp [setPar, h]
theorem branch_live {d : Bool} (h : s.live a = true) : branch s a d = s.br a d := by simp [branch, getBr, h]
theorem parent_live (h : s.live a = true) : parent s a = s.par a := by simp [parent, getPar, h]
end access

variable {α : Type} {D : Nat → List Nat} {N : Nat → Prop} {H : Omm α} {h : Links}

theorem Rel.getBr (w : Rel D N H h) {a : Nat} {d : Bool} (ha : h.live a = true) :
    Omm.getBr H a d = some (some (h.br a d)) := by
  rw [getBr_live (w.live a ha), w.br a d ha]

theorem Rel.branch (w : Rel D N H h) {a : Nat} {d : Bool} (ha : h.live a = true) :
    Omm.branch H a d = some (h.br a d) := by
  rw [branch_live (w.live a ha), w.br a d ha]

theorem Rel.dne (w : Rel D N H h) {a x : Nat} (hx : x ∈ D a) : x ≠ 0 := by
  rintro rfl
  have := (w.dnl a 0 hx).2.2
  rw [w.zero] at this; cases this

theorem Rel.inRing (w : Rel D N H h) {a x : Nat} {xs : List Nat} (ha : h.live a = true) (e : D a = x :: xs) :
    Omm.inRing H x = some true := by
  have hx : x ∈ D a := by rw [e]; simp
  have hl := (w.head a x xs ha e).2.2.2.last
  have hz : (x :: xs).getLast (by simp) ∈ D a := by rw [e]; exact List.getLast_mem _
  unfold Omm.inRing
  rw [branch_live (w.dnl a x hx).2.1, hl.2]
  simp only [Option.bind_eq_bind, Option.bind_some, if_neg (w.dne hz)]
  rw [getBr_live (w.dnl a _ hz).2.1, hl.1]
  simp

theorem Rel.notRing (w : Rel D N H h) {a : Nat} (ha : h.live a = true) (h0 : a ≠ 0) : Omm.inRing H a = some false := by
  unfold Omm.inRing
  rw [w.branch ha]
  simp only [Option.bind_eq_bind, Option.bind_some]
  by_cases hz : h.br a false = 0
  · rw [if_pos hz]
  · rw [if_neg hz, w.getBr (w.brl a false ha h0)]
    have := w.nocyc a ha h0 hz
    simp [this]

theorem Rel.hasDups (w : Rel D N H h) {n : Nat} (hn : h.live n = true) : Omm.hasDups H n = some !(D n).isEmpty := by
  unfold Omm.hasDups
  by_cases h0 : n = 0
  · subst h0; simp [w.d0]
  rw [if_neg h0]
  cases e : D n with
  | nil =>
    rw [parent_live (w.live n hn), w.plain n hn e]
    simp only [Option.bind_eq_bind, Option.bind_some]
    by_cases hz : h.par n = 0
    · rw [if_pos hz]; rfl
    · rw [if_neg hz, w.notRing (w.parl n hn h0) hz]; rfl
  | cons x xs =>
    have hd := w.head n x xs hn e
    rw [parent_live (w.live n hn), hd.1]
    simp only [Option.bind_eq_bind, Option.bind_some]
    rw [if_neg (w.dne (show x ∈ D n by rw [e]; simp)), w.inRing hn e]
    rfl

theorem Rel.parentR (w : Rel D N H h) {n : Nat} (hn : h.live n = true) : Omm.parentR H n = some (h.par n) := by
  unfold Omm.parentR
  rw [w.hasDups hn]
  simp only [Option.bind_eq_bind, Option.bind_some]
  cases e : D n with
  | nil =>
    rw [parent_live (w.live n hn), w.plain n hn e]; simp
  | cons x xs =>
    have hd := w.head n x xs hn e
    have hx : x ∈ D n := by rw [e]; simp
    rw [parent_live (w.live n hn), hd.1]
    simp only [List.isEmpty_cons, Bool.not_false, if_true, Option.bind_some]
    rw [parent_live (w.dnl n x hx).2.1, hd.2.1]

/-- Hanging `x` below `p` makes no short circle. -/
def LinkOk (h : Links) (p : Nat) (d : Bool) (x : Nat) : Prop := p ≠ 0 → x ≠ 0 → h.br x (!d) ≠ p

theorem linkOk_zero {p : Nat} {d : Bool} : LinkOk h p d 0 := fun _ hh => absurd rfl hh
theorem linkOk_end {d : Bool} {x : Nat} : LinkOk h 0 d x := fun hh => absurd rfl hh

theorem linkOk_rep {t : Tree} {p q : Nat} {d : Bool} (hr : Rep h q t) (hp : p ∉ t.ids) : LinkOk h p d t.rootId := by
  cases t with
  | nil => exact linkOk_zero
  | node i k l r =>
    intro p0 _ hh
    obtain ⟨_, _, b1, b2, _, _, _⟩ := hr
    simp only [node_rootId] at hh
    simp only [ids, List.mem_append, List.mem_cons, not_or] at hp
    cases d
    · simp only [Bool.not_false] at hh
      rw [hh] at b2
      rcases rootId_mem_or r with e | e
      · exact p0 (b2.trans e)
      · rw [← b2] at e; exact hp.2.2 e
    · simp only [Bool.not_true] at hh
      rw [hh] at b1
      rcases rootId_mem_or l with e | e
      · exact p0 (b1.trans e)
      · rw [← b1] at e; exact hp.1 e

theorem Rel.setBr (w : Rel D N H h) {p x : Nat} {d : Bool} (hp : h.live p = true) (hx : h.live x = true)
    (ok : LinkOk h p d x) :
    Rel D N { H with br := fun b e => if b = p ∧ e = d then some x else H.br b e }
      { h with br := fun b e => if b = p ∧ e = d then x else h.br b e } := by
  have hpD : ∀ a, p ∉ D a := fun a hh => by
    have := (w.dnl a p hh).2.2; rw [hp] at this; cases this
  refine ⟨w.live, w.root, w.zero, ?_, ?_, w.parl, w.plain, ?_, w.d0, w.dnl, w.dnd, w.ddj, ?_, ?_⟩
  · intro a e ha
    by_cases he : a = p ∧ e = d
    · simp [he]
    · simp only [if_neg he]; exact w.br a e ha
  · intro a e ha h0
    by_cases he : a = p ∧ e = d
    · simp only [if_pos he]; exact hx
    · simp only [if_neg he]; exact w.brl a e ha h0
  · intro a y ys ha e
    obtain ⟨q1, q2, q3, q4⟩ := w.head a y ys ha e
    refine ⟨q1, q2, q3, q4.congr ?_⟩
    intro b hb
    have : b ≠ p := by
      rintro rfl
      exact hpD a (by rw [e]; exact hb)
    funext e; simp [this]
  · intro a ha h0
    simp only
    by_cases he : a = p ∧ false = d
    · obtain ⟨rfl, rfl⟩ := he
      simp only [and_self, if_true]
      intro hz
      simp only [Bool.true_eq_false, and_false, if_false]
      exact ok h0 hz
    · rw [if_neg he]
      intro hz
      by_cases h2 : h.br a false = p ∧ true = d
      · rw [if_pos h2]
        obtain ⟨h2, rfl⟩ := h2
        intro hh
        subst hh
        exact ok (by rw [← h2]; exact hz) h0 (by simpa using h2)
      · rw [if_neg h2]; exact w.nocyc a ha h0 hz
  · intro a ha
    obtain ⟨q1, q2, q3, q4, q5⟩ := w.null a ha
    refine ⟨q1, ?_, q3, q4, q5⟩
    intro e
    have : a ≠ p := by rintro rfl; rw [hp] at q4; cases q4
    simp [this, q2]

theorem Rel.setPar (w : Rel D N H h) {p x : Nat} (hp : h.live p = true) (hx : h.live x = true) (e : D x = []) :
    Rel D N { H with par := upd H.par x (some p) } { h with par := upd h.par x p } := by
  have hxD : ∀ a, x ∉ D a := fun a hh => by
    have := (w.dnl a x hh).2.2; rw [hx] at this; cases this
  refine ⟨w.live, w.root, w.zero, w.br, w.brl, ?_, ?_, ?_, w.d0, w.dnl, w.dnd, w.ddj, w.nocyc, ?_⟩
  · intro a ha h0
    by_cases he : a = x
    · subst he; simp [hp]
    · simp only [upd_ne _ _ he]; exact w.parl a ha h0
  · intro a ha hd
    by_cases he : a = x
    · subst he; simp
    · simp only [upd_ne _ _ he]; exact w.plain a ha hd
  · intro a y ys ha hd
    obtain ⟨q1, q2, q3, q4⟩ := w.head a y ys ha hd
    have h1 : a ≠ x := by rintro rfl; rw [e] at hd; cases hd
    have h2 : y ≠ x := by rintro rfl; exact hxD a (by rw [hd]; simp)
    refine ⟨by simp [upd_ne _ _ h1, q1], by simp [upd_ne _ _ h2, upd_ne _ _ h1, q2], ?_, q4⟩
    intro z hz
    have h3 : z ≠ x := by rintro rfl; exact hxD a (by rw [hd]; simp [hz])
    simp [upd_ne _ _ h3, q3 z hz]
  · intro a ha
    obtain ⟨q1, q2, q3, q4, q5⟩ := w.null a ha
    have : a ≠ x := by rintro rfl; rw [hx] at q4; cases q4
    exact ⟨q1, q2, by simp [upd_ne _ _ this, q3], q4, q5⟩

theorem Rel.setHead (w : Rel D N H h) {p x y : Nat} {ys : List Nat} (hp : h.live p = true) (hx : h.live x = true)
    (e : D x = y :: ys) :
    Rel D N { H with par := upd H.par y (some p) } { h with par := upd h.par x p } := by
  have hy : y ∈ D x := by rw [e]; simp
  have hyl := (w.dnl x y hy).2.2
  have nl : ∀ a, h.live a = true → a ≠ y := by rintro a ha rfl; rw [hyl] at ha; cases ha
  refine ⟨w.live, w.root, w.zero, w.br, w.brl, ?_, ?_, ?_, w.d0, w.dnl, w.dnd, w.ddj, w.nocyc, ?_⟩
  · intro a ha h0
    by_cases he : a = x
    · subst he; simp [hp]
    · simp only [upd_ne _ _ he]; exact w.parl a ha h0
  · intro a ha hd
    have he : a ≠ x := by rintro rfl; rw [e] at hd; cases hd
    simp only [upd_ne _ _ he, upd_ne _ _ (nl a ha)]; exact w.plain a ha hd
  · intro a z zs ha hd
    obtain ⟨q1, q2, q3, q4⟩ := w.head a z zs ha hd
    refine ⟨by simp [upd_ne _ _ (nl a ha), q1], ?_, ?_, q4⟩
    · by_cases he : a = x
      · subst he
        rw [e] at hd
        obtain ⟨rfl, rfl⟩ := List.cons.inj hd
        simp
      · have : z ≠ y := by
          rintro rfl
          exact he (w.ddj a x z (by rw [hd]; simp) hy)
        simp [upd_ne _ _ this, upd_ne _ _ he, q2]
    · intro u hu
      have : u ≠ y := by
        rintro rfl
        have he := w.ddj a x u (by rw [hd]; simp [hu]) hy
        subst he
        rw [e] at hd
        obtain ⟨rfl, rfl⟩ := List.cons.inj hd
        have := w.dnd a
        rw [e] at this
        exact (List.nodup_cons.1 this).1 hu
      simp [upd_ne _ _ this, q3 u hu]
  · intro a ha
    obtain ⟨q1, q2, q3, q4, q5⟩ := w.null a ha
    have : a ≠ y := by rintro rfl; exact q5 x hy
    exact ⟨q1, q2, by simp [upd_ne _ _ this, q3], q4, q5⟩

/-- `link_trees` does to the multimap what it does to a plain tree. -/
theorem Rel.link (w : Rel D N H h) {p x : Nat} {d : Bool} {h' : Links} (hl : Splay.link h p d x = some h')
    (hp : h.live p = true) (hx : h.live x = true) (ok : LinkOk h p d x) :
    ∃ H', Omm.link H p d x = some H' ∧ Rel D N H' h' ∧ Only H H' := by
  rw [link_live hp hx] at hl
  obtain rfl := Option.some.inj hl
  have w1 := w.setBr hp hx ok
  unfold Omm.link
  rw [Omm.setBr_live (w.live p hp)]
  simp only [Option.bind_eq_bind, Option.bind_some]
  rw [w1.hasDups hx]
  simp only [Option.bind_some]
  cases e : D x with
  | nil =>
    simp only [List.isEmpty_nil, Bool.not_true, Bool.false_eq_true, if_false]
    rw [Omm.setPar_live (w1.live x hx)]
    exact ⟨_, rfl, w1.setPar hp hx e, _, _, _, rfl⟩
  | cons y ys =>
    have hd := w1.head x y ys hx e
    have hy : y ∈ D x := by rw [e]; simp
    simp only [List.isEmpty_cons, Bool.not_false, if_true]
    rw [parent_live (w1.live x hx), hd.1]
    simp only [Option.bind_some]
    rw [Omm.setPar_live (w1.dnl x y hy).2.1]
    exact ⟨_, rfl, w1.setHead hp hx e, _, _, _, rfl⟩

theorem Rel.setRoot (w : Rel D N H h) (r : Nat) : Rel D N { H with root := r } (h.setRoot r) :=
  ⟨w.live, rfl, w.zero, w.br, w.brl, w.parl, w.plain, w.head, w.d0, w.dnl, w.dnd, w.ddj, w.nocyc, w.null⟩

end CCC.Omm
