import Verif.Spec.Iter
import Verif.Proof.Mono
/-
Facts about the user's iteration loop.
-/
namespace CCC

theorem nodup_reverse' {l : List Nat} (h : l.Nodup) : l.reverse.Nodup := by
  unfold List.Nodup at *
  rw [List.pairwise_reverse]
  exact h.imp (fun h => fun e => h e.symm)

/-- If `next` walks along `l` and then reaches `fin`, the loop from one position to a later one visits what lies
between. -/
theorem iterate_spec' {next : Nat → Option Slot} {l : List Nat} {fin : Slot} (hf : ∀ a ∈ l, fin ≠ some a) (hnd : l.Nodup)
    (hn : ∀ pre a post, l = pre ++ a :: post → next a = some (post.head?.or fin)) :
    ∀ {pre m post : List Nat}, l = pre ++ m ++ post →
      iterate next (post.head?.or fin) ((m ++ post).head?.or fin) = some m := by
  intro pre m
  induction m generalizing pre with
  | nil => intro post _; rw [iterate.eq_def]; simp
  | cons a m ih =>
    intro post e
    have hne : some a ≠ post.head?.or fin := by
      intro hh
      cases post with
      | nil => exact hf a (by rw [e]; simp) (by simpa using hh.symm)
      | cons b post =>
        simp only [List.head?_cons, Option.some_or, Option.some.injEq] at hh
        subst hh
        rw [e] at hnd
        simp [List.nodup_append] at hnd
    have h1 := hn pre a (m ++ post) (by rw [e]; simp)
    have h2 := ih (pre := pre ++ [a]) (post := post) (by rw [e]; simp)
    rw [iterate.eq_def]
    simp only [List.cons_append, List.head?_cons, Option.some_or, if_neg hne, h1, Option.bind_eq_bind, Option.bind_some, h2]

/-- If `next` walks along `l`, the loop from one position to a later one visits what lies between. -/
theorem iterate_spec {next : Nat → Option Slot} {l : List Nat} (hnd : l.Nodup)
    (hn : ∀ pre a post, l = pre ++ a :: post → next a = some post.head?) :
    ∀ {pre m post : List Nat}, l = pre ++ m ++ post →
      iterate next post.head? (m ++ post).head? = some m := by
  intro pre m post e
  have := iterate_spec' (fin := none) (by simp) hnd (by simpa using hn) e
  simpa using this

end CCC

namespace CCC.MapSpec
open CCC
variable {E κ : Type} {cmp : κ → κ → Cmp} {key : E → κ}

theorem place_length (hc : LawfulCmp cmp) {e : E} {l : List E} (h : lookup cmp key (key e) l = none) :
    (place cmp key e l).length = l.length + 1 := by
  induction l with
  | nil => rfl
  | cons x l ih =>
    simp only [lookup, List.find?_cons] at h
    have hx : cmp (key e) (key x) = .les ∨ cmp (key e) (key x) = .grt := by
      have := hc.noErr (key e) (key x)
      revert this h
      cases cmp (key e) (key x) <;> simp
    rcases hx with hx | hx
    · rw [hx] at h
      have := ih h
      simp only [place, List.length_append, List.length_cons] at this
      simp only [place, List.filter_cons, hx, List.length_append, List.length_cons]
      simp only [show (Cmp.les == Cmp.grt) = false from rfl, Bool.false_eq_true, if_false,
        show (Cmp.les == Cmp.les) = true from rfl, if_true, List.length_cons]
      omega
    · rw [hx] at h
      have := ih h
      simp only [place, List.length_append, List.length_cons] at this
      simp only [place, List.filter_cons, hx, List.length_append, List.length_cons]
      simp only [show (Cmp.grt == Cmp.les) = false from rfl, Bool.false_eq_true, if_false,
        show (Cmp.grt == Cmp.grt) = true from rfl, if_true, List.length_cons]
      omega

/-- A predicate that stays true along a list splits it. -/
theorem suffix_split {Q : E → Bool} {l : List E} (hq : l.Pairwise (fun x y => Q x = true → Q y = true)) :
    ∃ post, l = l.filter (fun x => !Q x) ++ post ∧ post.head? = l.find? Q := by
  induction l with
  | nil => exact ⟨[], rfl, rfl⟩
  | cons x l ih =>
    rw [List.pairwise_cons] at hq
    obtain ⟨post, e1, e2⟩ := ih hq.2
    cases hx : Q x with
    | true =>
      have hf : (x :: l).filter (fun x => !Q x) = [] := by
        rw [List.filter_eq_nil_iff]; intro y hy
        rcases List.mem_cons.1 hy with rfl | hy
        · simp [hx]
        · simp [hq.1 y hy hx]
      exact ⟨x :: l, by rw [hf]; rfl, by simp [hx]⟩
    | false => exact ⟨post, by simp [hx]; exact e1, by simp [hx, e2]⟩

/-- The elements on which `P` holds but not yet `Q`. -/
theorem segment_split {P Q : E → Bool} {l : List E} (hp : l.Pairwise (fun x y => P x = true → P y = true))
    (hq : l.Pairwise (fun x y => Q x = true → Q y = true)) (hqp : ∀ x ∈ l, Q x = true → P x = true) :
    ∃ pre post, l = pre ++ l.filter (fun x => P x && !Q x) ++ post ∧
      (l.filter (fun x => P x && !Q x) ++ post).head? = l.find? P ∧ post.head? = l.find? Q := by
  induction l with
  | nil => exact ⟨[], [], rfl, rfl, rfl⟩
  | cons x l ih =>
    have hp' := hp
    have hq' := hq
    rw [List.pairwise_cons] at hp' hq'
    cases hx : P x with
    | false =>
      have hqx : Q x = false := by
        cases h : Q x with
        | false => rfl
        | true => rw [hqp x (by simp) h] at hx; cases hx
      obtain ⟨pre, post, e1, e2, e3⟩ := ih hp'.2 hq'.2 (fun y hy => hqp y (by simp [hy]))
      exact ⟨x :: pre, post, by simp [hx]; simpa using e1, by simp [hx]; simpa using e2, by simp [hqx, e3]⟩
    | true =>
      obtain ⟨post, e1, e2⟩ := suffix_split hq
      have hf : (x :: l).filter (fun x => P x && !Q x) = (x :: l).filter (fun x => !Q x) := by
        apply List.filter_congr
        intro y hy
        rcases List.mem_cons.1 hy with rfl | hy
        · simp [hx]
        · simp [hp'.1 y hy hx]
      exact ⟨[], post, by rw [hf]; exact e1, by rw [hf, ← e1]; simp [hx], e2⟩

/-- On a sorted list the elements with keys in `[b, e]` lie together: between the first one not less than `b` and the
first one greater than `e`. -/
theorem range_split (hc : LawfulCmp cmp) {l : List E} (hs : Sorted cmp key l) {b e : κ} (hbe : cmp b e ≠ .grt) :
    ∃ pre post, l = pre ++ l.filter (fun x => cmp b (key x) != .grt && cmp e (key x) != .les) ++ post ∧
      (l.filter (fun x => cmp b (key x) != .grt && cmp e (key x) != .les) ++ post).head? = firstNotLess cmp key b l ∧
      post.head? = firstGreater cmp key e l := by
  have h := segment_split (l := l) (P := fun x => cmp b (key x) != .grt) (Q := fun x => cmp e (key x) == .les)
    (hs.imp (fun {x y} h hx => by
      simp only [bne_iff_ne] at hx ⊢
      rw [hc.le_lt hx h]; simp))
    (hs.imp (fun {x y} h hx => by
      simp only [beq_iff_eq] at hx ⊢
      exact hc.le_lt (by rw [hx]; simp) h))
    (fun x _ hx => by
      simp only [beq_iff_eq, bne_iff_ne] at hx ⊢
      rw [hc.le_lt hbe hx]; simp)
  exact h

/-- The mirror image. -/
theorem rrange_split (hc : LawfulCmp cmp) {l : List E} (hs : Sorted cmp key l) {b e : κ} (hbe : cmp e b ≠ .grt) :
    ∃ pre post, l.reverse = pre ++ (l.filter (fun x => cmp b (key x) != .les && cmp e (key x) != .grt)).reverse ++ post ∧
      ((l.filter (fun x => cmp b (key x) != .les && cmp e (key x) != .grt)).reverse ++ post).head? =
        lastNotGreater cmp key b l ∧
      post.head? = lastLess cmp key e l := by
  have hs' := List.pairwise_reverse.2 hs
  have h := segment_split (l := l.reverse) (P := fun x => cmp b (key x) != .les) (Q := fun x => cmp e (key x) == .grt)
    (hs'.imp (fun {x y} h hx => by
      simp only [bne_iff_ne, ne_eq] at hx ⊢
      intro hh; exact hx (hc.lt_le hh (by rw [h]; simp))))
    (hs'.imp (fun {x y} h hx => by
      simp only [beq_iff_eq] at hx ⊢
      rw [hc.grt_iff] at hx ⊢; exact hc.lt_le h (by rw [hx]; simp)))
    (fun x _ hx => by
      simp only [beq_iff_eq, bne_iff_ne, ne_eq] at hx ⊢
      rw [hc.grt_iff] at hx
      intro hh
      have h1 := hc.le_lt hbe hh
      rw [hc.flip, hx] at h1; cases h1)
  rw [List.filter_reverse] at h
  exact h

end CCC.MapSpec
