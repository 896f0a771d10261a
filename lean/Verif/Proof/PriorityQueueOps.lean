import Verif.Proof.PriorityQueue
/-
Proofs about the pairing heap: the helpers of the calls.
-/
namespace CCC.Pq
open CCC PrioQ

variable {α : Type} {c : Cfg α} {s : Pq α} {S R : List Nat} {kids : Nat → List Nat}

theorem linkChild_empty {p ch : Nat} (hp : s.v.vl p ≠ none) (hc : s.v.vl ch ≠ none) (hl : s.v.lf p = none) :
    ∃ s', linkChild s p ch = some s' ∧ s'.root = s.root ∧ s'.sz = s.sz ∧
      s'.v = ⟨upd s.v.nx ch (some ch), upd s.v.pv ch (some ch), upd s.v.lf p (some ch), upd s.v.pr ch (some p), s.v.vl⟩ := by
  obtain ⟨ep, hep⟩ := live_of hp
  have hl' : ep.left = none := (view_mem hep).2.2.1.symm.trans hl
  obtain ⟨s1, a1, b1, c1, d1⟩ := mod_prev hc (some ch)
  obtain ⟨s2, a2, b2, c2, d2⟩ := mod_next (s := s1) (a := ch) (by rw [d1]; exact hc) (some ch)
  obtain ⟨s3, a3, b3, c3, d3⟩ := mod_left (s := s2) (a := p) (by rw [d2, d1]; exact hp) (some ch)
  obtain ⟨s4, a4, b4, c4, d4⟩ := mod_par (s := s3) (a := ch) (by rw [d3, d2, d1]; exact hc) (some p)
  refine ⟨s4, ?_, by rw [b4, b3, b2, b1], by rw [c4, c3, c2, c1], by rw [d4, d3, d2, d1]⟩
  simp only [linkChild, hep, Option.bind_eq_bind, Option.bind_some, hl', a1, a2, a3, a4]

theorem linkChild_some {p ch l f : Nat} (hp : s.v.vl p ≠ none) (hc : s.v.vl ch ≠ none) (hl : s.v.lf p = some l)
    (hll : s.v.vl l ≠ none) (hf : s.v.nx l = some f) (hfl : s.v.vl f ≠ none) (hne : l ≠ ch) :
    ∃ s', linkChild s p ch = some s' ∧ s'.root = s.root ∧ s'.sz = s.sz ∧
      s'.v = ⟨upd (upd s.v.nx ch (some f)) l (some ch), upd (upd s.v.pv ch (some l)) f (some ch),
        upd s.v.lf p (some ch), upd s.v.pr ch (some p), s.v.vl⟩ := by
  obtain ⟨ep, hep⟩ := live_of hp
  obtain ⟨el, hel⟩ := live_of hll
  have hl' : ep.left = some l := (view_mem hep).2.2.1.symm.trans hl
  have hf' : el.next = some f := (view_mem hel).1.symm.trans hf
  obtain ⟨s1, a1, b1, c1, d1⟩ := mod_next hc (some f)
  obtain ⟨s2, a2, b2, c2, d2⟩ := mod_prev (s := s1) (a := ch) (by rw [d1]; exact hc) (some l)
  obtain ⟨el2, hel2⟩ := live_of (s := s2) (a := l) (by rw [d2, d1]; exact hll)
  have hf2 : el2.next = some f := by
    refine (view_mem hel2).1.symm.trans ?_
    rw [d2, d1]; show upd s.v.nx ch (some f) l = some f
    rw [upd_ne _ _ hne]; exact hf
  obtain ⟨s3, a3, b3, c3, d3⟩ := mod_prev (s := s2) (a := f) (by rw [d2, d1]; exact hfl) (some ch)
  obtain ⟨s4, a4, b4, c4, d4⟩ := mod_next (s := s3) (a := l) (by rw [d3, d2, d1]; exact hll) (some ch)
  obtain ⟨s5, a5, b5, c5, d5⟩ := mod_left (s := s4) (a := p) (by rw [d4, d3, d2, d1]; exact hp) (some ch)
  obtain ⟨s6, a6, b6, c6, d6⟩ := mod_par (s := s5) (a := ch) (by rw [d5, d4, d3, d2, d1]; exact hc) (some p)
  refine ⟨s6, ?_, by rw [b6, b5, b4, b3, b2, b1], by rw [c6, c5, c4, c3, c2, c1], by rw [d6, d5, d4, d3, d2, d1]⟩
  simp only [linkChild, hep, Option.bind_eq_bind, Option.bind_some, hl', hel, hf', a1, a2, hel2, hf2, a3, a4, a5, a6]

/-- What the helpers leave alone: everything of other roots, and the values. -/
structure Keep (v v' : View α) (R : List Nat) : Prop where
  vl : v'.vl = v.vl
  nx : ∀ x ∈ R, v'.nx x = v.nx x
  pv : ∀ x ∈ R, v'.pv x = v.pv x
  pr : ∀ x ∈ R, v'.pr x = v.pr x

theorem Keep.refl (v : View α) (R : List Nat) : Keep v v R := ⟨rfl, fun _ _ => rfl, fun _ _ => rfl, fun _ _ => rfl⟩
theorem Keep.trans {u v w : View α} {R : List Nat} (h1 : Keep u v R) (h2 : Keep v w R) : Keep u w R :=
  ⟨h2.vl.trans h1.vl, fun x hx => (h2.nx x hx).trans (h1.nx x hx), fun x hx => (h2.pv x hx).trans (h1.pv x hx),
    fun x hx => (h2.pr x hx).trans (h1.pr x hx)⟩
theorem Keep.mono {u v : View α} {R R' : List Nat} (h : Keep u v R) (hs : ∀ x ∈ R', x ∈ R) : Keep u v R' :=
  ⟨h.vl, fun x hx => h.nx x (hs x hx), fun x hx => h.pv x (hs x hx), fun x hx => h.pr x (hs x hx)⟩

theorem head_last {β : Type} {l : List β} (h : l ≠ []) : ∃ f t q z, l = f :: t ∧ l = q ++ [z] := by
  cases l with
  | nil => exact absurd rfl h
  | cons f t =>
    exact ⟨f, t, (f :: t).dropLast, (f :: t).getLast (by simp), rfl, (List.dropLast_concat_getLast (by simp)).symm⟩

/-- The oldest follows the youngest. -/
theorem ring_last {v : View α} {l t q : List Nat} {f z : Nat} (h : Ring v l) (ht : l = f :: t) (hq : l = q ++ [z]) :
    v.nx z = some f := by
  have h1 : Link v (l ++ [f]) := by rw [ht] at h ⊢; exact h
  rw [hq, List.append_assoc] at h1
  exact ((link_split q z [f]).1 h1).2.1.1

theorem linkChild_spec {p ch : Nat} (h : Shape s.v S (p :: ch :: R) kids) :
    ∃ s', linkChild s p ch = some s' ∧ s'.root = s.root ∧ s'.sz = s.sz ∧
      Shape s'.v S (p :: R) (upd kids p (kids p ++ [ch])) ∧ Keep s.v s'.v (p :: R) := by
  have hp : p ∈ S := h.root_mem (by simp)
  have hc : ch ∈ S := h.root_mem (by simp)
  have hck : ch ∉ kids p := h.root_not_kid (by simp) hp
  have hnd := h.nodup_all
  simp only [List.cons_append, List.nodup_cons, List.mem_cons, not_or, List.mem_append] at hnd
  have hR : ∀ x ∈ p :: R, x ≠ ch ∧ x ∉ kids p := by
    intro x hx
    refine ⟨?_, h.root_not_kid (by simp only [List.mem_cons] at hx ⊢; rcases hx with h | h; exact .inl h; exact .inr (.inr h)) hp⟩
    rintro rfl
    rcases List.mem_cons.1 hx with rfl | hx
    · exact hnd.1.1 rfl
    · exact hnd.2.1.1 hx
  by_cases hk : kids p = []
  · obtain ⟨s', h1, h2, h3, h4⟩ := linkChild_empty (h.live p hp) (h.live ch hc) (by rw [h.left p hp, hk]; rfl)
    refine ⟨s', h1, h2, h3, ?_, ?_⟩
    · apply h.link (v' := s'.v)
      · rw [h4]
      · rw [h4]
      · rw [h4]
      · rw [hk, h4]
        exact ⟨⟨by simp, by simp⟩, trivial⟩
      · intro x hx _; rw [h4]; exact upd_ne _ _ hx
      · intro x hx _; rw [h4]; exact upd_ne _ _ hx
    · rw [h4]
      exact ⟨rfl, fun x hx => upd_ne _ _ (hR x hx).1, fun x hx => upd_ne _ _ (hR x hx).1, fun x hx => upd_ne _ _ (hR x hx).1⟩
  · obtain ⟨f, t, q, z, ht, hq⟩ := head_last hk
    have hzk : z ∈ kids p := by rw [hq]; simp
    have hfk : f ∈ kids p := by rw [ht]; simp
    have hcz : z ≠ ch := by rintro rfl; exact hck hzk
    obtain ⟨s', h1, h2, h3, h4⟩ := linkChild_some (l := z) (f := f) (h.live p hp) (h.live ch hc)
      (by rw [h.left p hp, hq]; simp) (h.live z (h.kid_mem hp hzk)) (ring_last (h.ring p hp) ht hq)
      (h.live f (h.kid_mem hp hfk)) hcz
    have hnx : ∀ x, x ≠ ch → x ∉ kids p → s'.v.nx x = s.v.nx x := by
      intro x hx hx'
      rw [h4]
      show upd (upd _ _ _) _ _ _ = _
      rw [upd_ne _ _ (by rintro rfl; exact hx' hzk), upd_ne _ _ hx]
    have hpv : ∀ x, x ≠ ch → x ∉ kids p → s'.v.pv x = s.v.pv x := by
      intro x hx hx'
      rw [h4]
      show upd (upd _ _ _) _ _ _ = _
      rw [upd_ne _ _ (by rintro rfl; exact hx' hfk), upd_ne _ _ hx]
    refine ⟨s', h1, h2, h3, ?_, ?_⟩
    · refine h.link (v' := s'.v) (by rw [h4]) (by rw [h4]) (by rw [h4]) ?_ hnx hpv
      exact ring_insert (List.nodup_cons.2 ⟨hck, h.kids_nodup hp⟩) ht hq (h.ring p hp) (by rw [h4]) (by rw [h4])
    · refine ⟨by rw [h4], fun x hx => hnx x (hR x hx).1 (hR x hx).2, fun x hx => hpv x (hR x hx).1 (hR x hx).2, fun x hx => ?_⟩
      rw [h4]; exact upd_ne _ _ (hR x hx).1

/-- `a` does not beat `b`. -/
def NB (c : Cfg α) (v : View α) (a b : Nat) : Prop :=
  ∀ x y, v.vl a = some x → v.vl b = some y → ¬ Beats c.cmp c.order x y

/-- No child beats its parent. -/
def Ord (c : Cfg α) (v : View α) (S : List Nat) (kids : Nat → List Nat) : Prop := ∀ a ∈ S, ∀ k ∈ kids a, NB c v k a

/-- The comparison function and order of the queue are proper. -/
structure Good (c : Cfg α) : Prop where
  swo : SWO (Beats c.cmp c.order)

theorem NB.trans (hg : Good c) {v : View α} {a b d : Nat} (h1 : NB c v a b) (h2 : NB c v b d) (hb : v.vl b ≠ none) :
    NB c v a d := by
  intro x y hx hy
  obtain ⟨z, hz⟩ := Option.ne_none_iff_exists'.1 hb
  exact hg.swo.ntrans x z y (h1 x z hx hz) (h2 z y hz hy)

theorem NB.congr {v v' : View α} {a b : Nat} (h : NB c v a b) (ha : v'.vl a = v.vl a) (hb : v'.vl b = v.vl b) : NB c v' a b :=
  fun x y hx hy => h x y (ha ▸ hx) (hb ▸ hy)

theorem Ord.congr {v v' : View α} (h : Ord c v S kids) (hv : v'.vl = v.vl) : Ord c v' S kids :=
  fun a ha k hk => (h a ha k hk).congr (by rw [hv]) (by rw [hv])

theorem Ord.link {v : View α} {p ch : Nat} (h : Ord c v S kids) (hn : NB c v ch p) :
    Ord c v S (upd kids p (kids p ++ [ch])) := by
  intro a ha k hk
  by_cases hap : a = p
  · subst hap
    rw [upd_same] at hk
    rcases List.mem_append.1 hk with hk | hk
    · exact h a ha k hk
    · rw [List.mem_singleton.1 hk]; exact hn
  · rw [upd_ne _ _ hap] at hk; exact h a ha k hk

theorem merge_spec (hg : Good c) {a b : Nat} (h : Shape s.v S (a :: b :: R) kids) (ho : Ord c s.v S kids) :
    ∃ s' w kids', merge c s (some a) (some b) = some (s', some w) ∧ s'.root = s.root ∧ s'.sz = s.sz ∧
      Shape s'.v S (w :: R) kids' ∧ Ord c s'.v S kids' ∧ Keep s.v s'.v (w :: R) ∧ (w = a ∨ w = b) ∧
      (NB c s.v b a → w = a) := by
  have ha : a ∈ S := h.root_mem (by simp)
  have hb : b ∈ S := h.root_mem (by simp)
  have hab : a ≠ b := by
    have := h.nodup_all
    simp only [List.cons_append, List.nodup_cons, List.mem_cons] at this
    exact fun e => this.1 (.inl e)
  obtain ⟨x, hx⟩ := live_of (h.live a ha)
  obtain ⟨y, hy⟩ := live_of (h.live b hb)
  have vx := (view_mem hx).2.2.2.2
  have vy := (view_mem hy).2.2.2.2
  by_cases hb' : c.cmp y.val x.val = c.order
  · obtain ⟨s', h1, h2, h3, h4, h5⟩ := linkChild_spec (h.perm_roots (List.Perm.swap b a R))
    refine ⟨s', b, _, ?_, h2, h3, h4, ?_, h5, .inr rfl, ?_⟩
    · simp only [merge, if_neg hab, hx, hy, Option.bind_eq_bind, Option.bind_some, if_pos hb', h1]
    · refine Ord.congr (ho.link ?_) h5.vl
      intro p q hp hq hbt
      rw [vx] at hp; rw [vy] at hq
      cases hp; cases hq
      exact hg.swo.asym _ _ hbt hb'
    · intro hn
      exact absurd hb' (hn _ _ vy vx)
  · obtain ⟨s', h1, h2, h3, h4, h5⟩ := linkChild_spec h
    refine ⟨s', a, _, ?_, h2, h3, h4, ?_, h5, .inl rfl, fun _ => rfl⟩
    · simp only [merge, if_neg hab, hx, hy, Option.bind_eq_bind, Option.bind_some, if_neg hb', h1]
    · refine Ord.congr (ho.link ?_) h5.vl
      intro p q hp hq hbt
      rw [vy] at hp; rw [vx] at hq
      cases hp; cases hq
      exact hb' hbt

/-- The elements from `cur` on, each followed by the next and the last by `eldest`. -/
def Chain (v : View α) (eldest : Nat) : List Nat → Prop
  | [] => True
  | [a] => v.nx a = some eldest
  | a :: b :: l => v.nx a = some b ∧ Chain v eldest (b :: l)

theorem chain_congr {v v' : View α} {d : Nat} : ∀ {l : List Nat}, (∀ x ∈ l, v'.nx x = v.nx x) → Chain v d l → Chain v' d l
  | [], _, _ => trivial
  | [a], h, hc => by show v'.nx a = _; rw [h a (by simp)]; exact hc
  | a :: b :: l, h, hc => by
    refine ⟨by rw [h a (by simp)]; exact hc.1, chain_congr (fun x hx => h x (List.mem_cons_of_mem _ hx)) hc.2⟩

/-- Where the loop stands. -/
def cursor (eldest : Nat) : List Nat → Slot
  | [] => some eldest
  | a :: _ => some a

theorem pairLoop_spec (hg : Good c) {eldest : Nat} : ∀ (n : Nat) {s : Pq α} {S R rest : List Nat} {kids : Nat → List Nat} {acc : Nat},
    rest.length ≤ n → Shape s.v S (acc :: (rest ++ R)) kids → Ord c s.v S kids → Chain s.v eldest rest → eldest ∉ rest →
    ∃ s' acc' rest' kids', pairLoop c s (some eldest) (some acc) (cursor eldest rest) =
        some (s', some acc', cursor eldest rest') ∧ rest'.length ≤ 1 ∧ eldest ∉ rest' ∧ s'.root = s.root ∧ s'.sz = s.sz ∧
      Shape s'.v S (acc' :: (rest' ++ R)) kids' ∧ Ord c s'.v S kids' ∧ Keep s.v s'.v R
  | n, s, S, R, [], kids, acc, _, h, ho, _, _ =>
    ⟨s, acc, [], kids, by rw [pairLoop]; simp [cursor], by simp, by simp, rfl, rfl, h, ho, Keep.refl _ _⟩
  | n, s, S, R, [a], kids, acc, _, h, ho, hc, he => by
    have hne : a ≠ eldest := fun e => he (by simp [e])
    obtain ⟨e, hae⟩ := live_of (h.live a (h.root_mem (by simp)))
    have hc' : e.next = some eldest := (view_mem hae).1.symm.trans hc
    refine ⟨s, acc, [a], kids, ?_, by simp, he, rfl, rfl, h, ho, Keep.refl _ _⟩
    rw [pairLoop]
    simp [cursor, hne, hae, hc']
  | 0, s, S, R, a :: b :: rest, kids, acc, hn, _, _, _, _ => by simp at hn
  | n + 1, s, S, R, a :: b :: rest, kids, acc, hn, h, ho, hc, he => by
    have hae : a ≠ eldest := fun e => he (by simp [e])
    have hbe : b ≠ eldest := fun e => he (by simp [e])
    have hnd := h.nodup_all
    simp only [List.cons_append, List.nodup_cons, List.mem_cons, not_or, List.mem_append] at hnd
    obtain ⟨x, hx⟩ := live_of (h.live a (h.root_mem (by simp)))
    obtain ⟨y, hy⟩ := live_of (h.live b (h.root_mem (by simp)))
    have hxn : x.next = some b := (view_mem hx).1.symm.trans hc.1
    have hyn : y.next = cursor eldest rest := by
      refine (view_mem hy).1.symm.trans ?_
      cases rest with
      | nil => exact hc.2
      | cons d r => exact hc.2.1
    have hcr : Chain s.v eldest rest := by
      cases rest with
      | nil => trivial
      | cons d r => exact hc.2.2
    obtain ⟨s1, a1, b1, c1, d1⟩ := mod_sibs (h.live b (h.root_mem (by simp))) none none
    obtain ⟨s2, a2, b2, c2, d2⟩ := mod_sibs (s := s1) (a := a) (by rw [d1]; exact h.live a (h.root_mem (by simp))) none none
    have hR : ∀ x, x ∉ acc :: (a :: b :: rest ++ R) → x ≠ a ∧ x ≠ b := by
      intro x hx
      constructor
      · rintro rfl; exact hx (by simp)
      · rintro rfl; exact hx (by simp)
    have k2 : ∀ x, x ≠ a → x ≠ b → s2.v.nx x = s.v.nx x ∧ s2.v.pv x = s.v.pv x := by
      intro x h1 h2
      rw [d2, d1]
      exact ⟨by show upd (upd _ _ _) _ _ _ = _; rw [upd_ne _ _ h1, upd_ne _ _ h2],
        by show upd (upd _ _ _) _ _ _ = _; rw [upd_ne _ _ h1, upd_ne _ _ h2]⟩
    have v2 : s2.v.vl = s.v.vl ∧ s2.v.lf = s.v.lf ∧ s2.v.pr = s.v.pr := by rw [d2, d1]; exact ⟨rfl, rfl, rfl⟩
    have sh2 : Shape s2.v S (acc :: (a :: b :: rest ++ R)) kids := by
      refine h.roots_free (by rw [v2.2.1]; exact fun _ _ => rfl) (by rw [v2.1]; exact h.live) (fun x _ hx => ?_) (fun x _ hx => ?_)
        (by rw [v2.2.2]; exact fun _ _ _ => rfl)
      · exact (k2 x (hR x hx).1 (hR x hx).2).1
      · exact (k2 x (hR x hx).1 (hR x hx).2).2
    have sh2' : Shape s2.v S (a :: b :: (acc :: (rest ++ R))) kids := by
      refine sh2.perm_roots ?_
      exact (List.Perm.swap a acc _).trans ((List.Perm.swap b acc _).cons a)
    obtain ⟨s3, w, k3, a3, b3, c3, d3, e3, f3, g3, _⟩ := merge_spec hg sh2' (ho.congr v2.1)
    obtain ⟨s4, w', k4, a4, b4, c4, d4, e4, f4, g4, _⟩ :=
      merge_spec hg (d3.perm_roots (List.Perm.swap acc w _)) e3
    have hrest : ∀ x ∈ rest ++ R, x ≠ a ∧ x ≠ b := by
      intro z hz
      have hz' := List.mem_append.1 hz
      constructor
      · intro e; subst e
        simp_all
      · intro e; subst e
        simp_all
    have keep2 : Keep s.v s2.v (rest ++ R) :=
      ⟨v2.1, fun x hx => (k2 x (hrest x hx).1 (hrest x hx).2).1, fun x hx => (k2 x (hrest x hx).1 (hrest x hx).2).2,
        by rw [v2.2.2]; exact fun _ _ => rfl⟩
    have keep4 : Keep s.v s4.v (rest ++ R) :=
      (keep2.trans (f3.mono (fun x hx => List.mem_cons_of_mem _ (List.mem_cons_of_mem _ hx)))).trans
        (f4.mono (fun x hx => List.mem_cons_of_mem _ hx))
    obtain ⟨s5, acc5, rest5, k5, a5, b5, c5, d5, e5, f5, g5, h5⟩ := pairLoop_spec hg n (s := s4) (S := S) (R := R) (rest := rest)
      (by simp at hn ⊢; omega) d4 e4 (chain_congr (fun x hx => keep4.nx x (List.mem_append_left _ hx)) hcr)
      (fun h => he (by simp [h]))
    refine ⟨s5, acc5, rest5, k5, ?_, b5, c5, by rw [d5, b4, b3, b2, b1], by rw [e5, c4, c3, c2, c1], f5, g5,
      (keep4.mono (fun x hx => List.mem_append_right _ hx)).trans h5⟩
    rw [pairLoop]
    simp only [cursor, Option.some.injEq, if_neg hae, Option.bind_eq_bind, Option.bind_some, hx, hxn, if_neg hbe, hy, hyn, a1, a2,
      a3, a4]
    exact a5

/-- `chain` of a ring. -/
theorem ring_chain {v : View α} {f : Nat} : ∀ {t : List Nat} {x : Nat}, Link v (x :: t ++ [f]) → Chain v f (x :: t)
  | [], x, h => h.1.1
  | y :: t, x, h => ⟨h.1.1, ring_chain h.2⟩

theorem deleteMin_spec (hg : Good c) {r : Nat} (h : Shape s.v S (r :: R) kids) (ho : Ord c s.v (S.erase r) kids) :
    ∃ s' res kids', deleteMin c s r = some (s', res) ∧ s'.root = s.root ∧ s'.sz = s.sz ∧
      Shape s'.v (S.erase r) (res.toList ++ R) kids' ∧ Ord c s'.v (S.erase r) kids' ∧ Keep s.v s'.v R ∧
      (∀ w, res = some w → s'.v.nx w = some w ∧ s'.v.pv w = some w ∧ s'.v.pr w = none) ∧
      (res = none → kids r = []) := by
  have hr : r ∈ S := h.root_mem (by simp)
  obtain ⟨e, he⟩ := live_of (h.live r hr)
  have hel : e.left = (kids r).getLast? := (view_mem he).2.2.1.symm.trans (h.left r hr)
  have hd := h.delete
  by_cases hk : kids r = []
  · refine ⟨s, none, kids, ?_, rfl, rfl, ?_, ho, Keep.refl _ _, by simp, fun _ => hk⟩
    · simp only [deleteMin, he, hel, hk, Option.bind_eq_bind, Option.bind_some, List.getLast?_nil]
    · rw [hk] at hd; exact hd
  · obtain ⟨f, t, q, z, ht, hq⟩ := head_last hk
    have hz : z ∈ kids r := by rw [hq]; simp
    have hf : f ∈ kids r := by rw [ht]; simp
    obtain ⟨el, hzl⟩ := live_of (h.live z (h.kid_mem hr hz))
    obtain ⟨ef, hfl⟩ := live_of (h.live f (h.kid_mem hr hf))
    have hzn : el.next = some f := (view_mem hzl).1.symm.trans (ring_last (h.ring r hr) ht hq)
    have hring := h.ring r hr
    have hknd := h.kids_nodup hr
    rw [ht] at hring hknd hd
    have hlink : Link s.v (f :: t ++ [f]) := hring
    have hfn : ef.next = cursor f t := by
      refine (view_mem hfl).1.symm.trans ?_
      cases t with
      | nil => exact hlink.1.1
      | cons y t => exact hlink.1.1
    have hch : Chain s.v f t := by
      cases t with
      | nil => trivial
      | cons y t => exact ring_chain hlink.2
    obtain ⟨s1, acc, rest, k1, a1, b1, c1, d1, e1, f1, g1, h1⟩ := pairLoop_spec hg t.length (s := s) (Nat.le_refl _) hd ho hch
      (List.nodup_cons.1 hknd).1
    have fin : ∀ (s2 : Pq α) (w : Nat) (k2 : Nat → List Nat), Shape s2.v (S.erase r) (w :: R) k2 → Ord c s2.v (S.erase r) k2 →
        Keep s.v s2.v R → s2.root = s.root → s2.sz = s.sz →
        (do let s ← (s2.mod (some w) (fun x => { x with prev := some w, next := some w }))
            let s ← s.mod (some w) (fun x => { x with par := none })
            some (s, some w)) = deleteMin c s r →
        ∃ s' res kids', deleteMin c s r = some (s', res) ∧ s'.root = s.root ∧ s'.sz = s.sz ∧
          Shape s'.v (S.erase r) (res.toList ++ R) kids' ∧ Ord c s'.v (S.erase r) kids' ∧ Keep s.v s'.v R ∧
          (∀ w, res = some w → s'.v.nx w = some w ∧ s'.v.pv w = some w ∧ s'.v.pr w = none) ∧
          (res = none → kids r = []) := by
      intro s2 w k2 sh o2 kp r2 z2 heq
      have hw : s2.v.vl w ≠ none := sh.live w (sh.root_mem (by simp))
      obtain ⟨s3, a3, b3, c3, d3⟩ := mod_sibs hw (some w) (some w)
      obtain ⟨s4, a4, b4, c4, d4⟩ := mod_par (s := s3) (a := w) (by rw [d3]; exact hw) none
      have hwR : ∀ x ∈ R, x ≠ w := by
        rintro x hx rfl
        have := sh.nodup_all
        simp only [List.cons_append, List.nodup_cons, List.mem_append, not_or] at this
        exact this.1.1 hx
      refine ⟨s4, some w, k2, ?_, by rw [b4, b3, r2], by rw [c4, c3, z2], ?_, o2.congr (by rw [d4, d3]), ?_, ?_, by simp⟩
      · rw [← heq, a3]
        simp only [Option.bind_eq_bind, Option.bind_some, a4]
      · refine sh.roots_free (by rw [d4, d3]; exact fun _ _ => rfl) (by rw [d4, d3]; exact sh.live) (fun x _ hx => ?_) (fun x _ hx => ?_)
          (fun x _ hx => ?_)
        · rw [d4, d3]; exact upd_ne _ _ (fun e => hx (by simp [e]))
        · rw [d4, d3]; exact upd_ne _ _ (fun e => hx (by simp [e]))
        · rw [d4, d3]; exact upd_ne _ _ (fun e => hx (by simp [e]))
      · refine kp.trans ⟨by rw [d4, d3], fun x hx => ?_, fun x hx => ?_, fun x hx => ?_⟩
        · rw [d4, d3]; exact upd_ne _ _ (hwR x hx)
        · rw [d4, d3]; exact upd_ne _ _ (hwR x hx)
        · rw [d4, d3]; exact upd_ne _ _ (hwR x hx)
      · intro w' hw'
        cases hw'
        rw [d4, d3]
        exact ⟨upd_same _ _ _, upd_same _ _ _, upd_same _ _ _⟩
    match rest, b1, c1, a1, f1 with
    | [], _, _, a1, f1 =>
      refine fin s1 acc k1 f1 g1 h1 d1 e1 ?_
      simp only [deleteMin, he, hel, hq, Option.bind_eq_bind, Option.bind_some, List.getLast?_append, List.getLast?_singleton,
        Option.some_or, hzl, hzn, hfl, hfn, a1]
      simp only [cursor, ne_eq, not_true_eq_false, if_false, Option.bind_some]
    | [d], _, c1, a1, f1 =>
      have hdf : d ≠ f := fun e => c1 (by simp [e])
      obtain ⟨s2, w, k2, a2, b2, c2, d2, e2, f2, _⟩ := merge_spec hg f1 g1
      refine fin s2 w k2 d2 e2 (h1.trans (f2.mono (fun x hx => List.mem_cons_of_mem _ hx))) (by rw [b2, d1]) (by rw [c2, e1]) ?_
      simp only [deleteMin, he, hel, hq, Option.bind_eq_bind, Option.bind_some, List.getLast?_append, List.getLast?_singleton,
        Option.some_or, hzl, hzn, hfl, hfn, a1]
      simp only [cursor, ne_eq, Option.some.injEq, hdf, not_false_eq_true, if_true, a2, Option.bind_some]
    | _ :: _ :: _, b1, _, _, _ => simp at b1

/-- Every element is behind some root. -/
theorem Shape.front (hg : Good c) {v : View α} (h : Shape v S R kids) (ho : Ord c v S kids) :
    ∀ n ∈ S, ∃ r ∈ R, NB c v n r := by
  obtain ⟨rk, hrk⟩ := h.rank
  have hB : ∃ B, ∀ a ∈ S, rk a ≤ B := by
    clear h ho hrk
    induction S with
    | nil => exact ⟨0, by simp⟩
    | cons a S ih =>
      obtain ⟨B, hB⟩ := ih
      refine ⟨max B (rk a), fun x hx => ?_⟩
      rcases List.mem_cons.1 hx with rfl | hx
      · omega
      · have := hB x hx; omega
  obtain ⟨B, hB⟩ := hB
  have : ∀ m n, n ∈ S → B - rk n ≤ m → ∃ r ∈ R, NB c v n r := by
    intro m
    induction m with
    | zero =>
      intro n hn hm
      rcases h.root_or_kid hn with hr | ⟨b, hb, hk⟩
      · refine ⟨n, hr, fun x y hx hy hbt => ?_⟩
        rw [hx] at hy; cases hy
        exact hg.swo.asym _ _ hbt hbt
      · have := hrk b hb n hk
        have := hB b hb
        omega
    | succ m ih =>
      intro n hn hm
      rcases h.root_or_kid hn with hr | ⟨b, hb, hk⟩
      · refine ⟨n, hr, fun x y hx hy hbt => ?_⟩
        rw [hx] at hy; cases hy
        exact hg.swo.asym _ _ hbt hbt
      · have h1 := hrk b hb n hk
        have h2 := hB b hb
        obtain ⟨r, hr, hnb⟩ := ih b hb (by omega)
        exact ⟨r, hr, (ho b hb n hk).trans hg hnb (h.live b hb)⟩
  exact fun n hn => this _ n hn (Nat.le_refl _)

theorem cutChild_view {e n p : Nat} (he : s.v.vl e ≠ none) (hn : s.v.nx e = some n) (hp : s.v.pv e = some p)
    (hnl : s.v.vl n ≠ none) (hpl : s.v.vl p ≠ none) (hpar : ∀ q, s.v.pr e = some q → s.v.vl q ≠ none) :
    ∃ s', cutChild s e = some s' ∧ s'.root = s.root ∧ s'.sz = s.sz ∧
      s'.v = ⟨upd s.v.nx p (some n), upd s.v.pv n (some p),
        (match s.v.pr e with
          | none => s.v.lf
          | some q => if s.v.lf q = some e then upd s.v.lf q (if n = e then none else some n) else s.v.lf),
        upd s.v.pr e none, s.v.vl⟩ := by
  obtain ⟨x, hx⟩ := live_of he
  have xn : x.next = some n := (view_mem hx).1.symm.trans hn
  have xp : x.prev = some p := (view_mem hx).2.1.symm.trans hp
  obtain ⟨s1, a1, b1, c1, d1⟩ := mod_prev hnl (some p)
  obtain ⟨x1, hx1⟩ := live_of (s := s1) (a := e) (by rw [d1]; exact he)
  have x1n : x1.next = some n := by refine (view_mem hx1).1.symm.trans ?_; rw [d1]; exact hn
  have x1p : x1.prev = some p := by
    refine (view_mem hx1).2.1.symm.trans ?_
    rw [d1]
    show upd s.v.pv n (some p) e = _
    by_cases h : e = n
    · rw [h, upd_same]
    · rw [upd_ne _ _ h]; exact hp
  obtain ⟨s2, a2, b2, c2, d2⟩ := mod_next (s := s1) (a := p) (by rw [d1]; exact hpl) (some n)
  obtain ⟨x2, hx2⟩ := live_of (s := s2) (a := e) (by rw [d2, d1]; exact he)
  have x2n : x2.next = some n := by
    refine (view_mem hx2).1.symm.trans ?_
    rw [d2, d1]
    show upd s.v.nx p (some n) e = _
    by_cases h : e = p
    · rw [h, upd_same]
    · rw [upd_ne _ _ h]; exact hn
  have x2r : x2.par = s.v.pr e := by refine (view_mem hx2).2.2.2.1.symm.trans ?_; rw [d2, d1]
  have v2 : s2.v = { s.v with nx := upd s.v.nx p (some n), pv := upd s.v.pv n (some p) } := by rw [d2, d1]
  cases hr : s.v.pr e with
  | none =>
    obtain ⟨s3, a3, b3, c3, d3⟩ := mod_par (s := s2) (a := e) (by rw [v2]; exact he) none
    refine ⟨s3, ?_, by rw [b3, b2, b1], by rw [c3, c2, c1], by rw [d3, v2]⟩
    simp only [cutChild, hx, xn, xp, Option.bind_eq_bind, Option.bind_some, a1, hx1, x1n, x1p, a2, hx2, x2n, x2r, hr, a3]
  | some q =>
    have hq := hpar q hr
    obtain ⟨y, hy⟩ := live_of (s := s2) (a := q) (by rw [v2]; exact hq)
    have yl : y.left = s.v.lf q := by refine (view_mem hy).2.2.1.symm.trans ?_; rw [v2]
    by_cases hl : s.v.lf q = some e
    · obtain ⟨s3, a3, b3, c3, d3⟩ := mod_left (s := s2) (a := q) (by rw [v2]; exact hq) (if n = e then none else some n)
      obtain ⟨s4, a4, b4, c4, d4⟩ := mod_par (s := s3) (a := e) (by rw [d3, v2]; exact he) none
      refine ⟨s4, ?_, by rw [b4, b3, b2, b1], by rw [c4, c3, c2, c1], by rw [d4, d3, v2]; simp [hl]⟩
      simp only [cutChild, hx, xn, xp, Option.bind_eq_bind, Option.bind_some, a1, hx1, x1n, x1p, a2, hx2, x2n, x2r, hr, hy, yl, hl, if_true,
        Option.some.injEq, a3, a4]
    · obtain ⟨s4, a4, b4, c4, d4⟩ := mod_par (s := s2) (a := e) (by rw [v2]; exact he) none
      refine ⟨s4, ?_, by rw [b4, b2, b1], by rw [c4, c2, c1], by rw [d4, v2]; simp [hl]⟩
      simp only [cutChild, hx, xn, xp, Option.bind_eq_bind, Option.bind_some, a1, hx1, x1n, x1p, a2, hx2, x2n, x2r, hr, hy, yl, hl, if_false, a4]

end CCC.Pq
