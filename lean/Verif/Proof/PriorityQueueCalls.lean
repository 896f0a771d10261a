import Verif.Proof.PriorityQueueOps
/-
Proofs about the pairing heap: the calls.
-/
namespace CCC.Pq
open CCC PrioQ

variable {α : Type} {c : Cfg α} {s : Pq α} {S R : List Nat} {kids : Nat → List Nat}

/-- A ring seen from one of its members. -/
theorem ring_from {v : View α} {A B : List Nat} {e : Nat} (h : Ring v (A ++ e :: B)) : Ring v (e :: (B ++ A)) := by
  have := (ring_rot A (e :: B)).1 h
  simpa using this

theorem ring_some {v : View α} {l : List Nat} {e : Nat} (h : Ring v l) (he : e ∈ l) :
    ∃ n p, v.nx e = some n ∧ v.pv e = some p ∧ n ∈ l ∧ p ∈ l ∧ v.pv n = some e ∧ v.nx p = some e := by
  obtain ⟨A, B, rfl⟩ := List.append_of_mem he
  have h' := ring_from h
  by_cases hk : B ++ A = []
  · rw [hk] at h'
    have h2 : Adj v e e := h'.1
    exact ⟨e, e, h2.1, h2.2, he, he, h2.2, h2.1⟩
  · obtain ⟨f, t, q, z, ht, hq⟩ := head_last hk
    have hm : ∀ x ∈ B ++ A, x ∈ A ++ e :: B := by
      intro x hx
      rcases List.mem_append.1 hx with hx | hx
      · exact List.mem_append_right _ (List.mem_cons_of_mem _ hx)
      · exact List.mem_append_left _ hx
    have h1 : Link v (e :: (B ++ A) ++ [e]) := h'
    have h2 := h1
    rw [ht] at h1
    rw [hq, show e :: (q ++ [z]) ++ [e] = (e :: q) ++ z :: [e] by simp] at h2
    have h3 := ((link_split (e :: q) z [e]).1 h2).2.1
    exact ⟨f, z, h1.1.1, h3.2, hm f (by rw [ht]; simp), hm z (by rw [hq]; simp), h1.1.2, h3.1⟩

theorem Shape.perm_set {v : View α} {S' : List Nat} (h : Shape v S R kids) (hp : S.Perm S') : Shape v S' R kids := by
  have hm : ∀ a ∈ S', a ∈ S := fun a ha => hp.symm.subset ha
  refine ⟨hp.nodup h.nodup, ?_, fun a ha => h.live a (hm a ha), fun a ha => h.left a (hm a ha), fun a ha => h.ring a (hm a ha),
    fun a ha => h.par a (hm a ha), ?_⟩
  · exact hp.symm.trans (h.perm.trans (List.Perm.append_left R (hp.flatMap_right kids)))
  · obtain ⟨rk, hr⟩ := h.rank
    exact ⟨rk, fun a ha => hr a (hm a ha)⟩

theorem Ord.perm_set {v : View α} {S' : List Nat} (h : Ord c v S kids) (hp : S.Perm S') : Ord c v S' kids :=
  fun a ha => h a (hp.symm.subset ha)

/-- Only the fields of the elements matter. -/
theorem Shape.congr {v v' : View α} (h : Shape v S R kids) (hnx : ∀ a ∈ S, v'.nx a = v.nx a) (hpv : ∀ a ∈ S, v'.pv a = v.pv a)
    (hlf : ∀ a ∈ S, v'.lf a = v.lf a) (hpr : ∀ a ∈ S, v'.pr a = v.pr a) (hvl : ∀ a ∈ S, v'.vl a ≠ none) : Shape v' S R kids :=
  h.roots_free hlf hvl (fun a ha _ => hnx a ha) (fun a ha _ => hpv a ha) (fun a ha _ => hpr a ha)

/-- A new element on its own. -/
theorem Shape.add {v v' : View α} {e : Nat} (h : Shape v S R kids) (he : e ∉ S) (hnx : ∀ a ∈ S, v'.nx a = v.nx a)
    (hpv : ∀ a ∈ S, v'.pv a = v.pv a) (hlf : ∀ a ∈ S, v'.lf a = v.lf a) (hpr : ∀ a ∈ S, v'.pr a = v.pr a)
    (hvl : ∀ a ∈ S, v'.vl a ≠ none) (hle : v'.lf e = none) (hve : v'.vl e ≠ none) :
    Shape v' (e :: S) (e :: R) (upd kids e []) := by
  have h' := h.congr hnx hpv hlf hpr hvl
  have hne : ∀ a ∈ S, a ≠ e := by rintro a ha rfl; exact he ha
  refine ⟨List.nodup_cons.2 ⟨he, h.nodup⟩, ?_, ?_, ?_, ?_, ?_, ?_⟩
  · rw [List.flatMap_cons, upd_same, List.nil_append]
    have : S.flatMap (upd kids e []) = S.flatMap kids := flatMap_congr' fun a ha => upd_ne _ _ (hne a ha)
    rw [this]
    exact h.perm.cons e
  · intro a ha
    rcases List.mem_cons.1 ha with rfl | ha
    · exact hve
    · exact hvl a ha
  · intro a ha
    rcases List.mem_cons.1 ha with rfl | ha
    · rw [upd_same, hle]; rfl
    · rw [upd_ne _ _ (hne a ha)]; exact h'.left a ha
  · intro a ha
    rcases List.mem_cons.1 ha with rfl | ha
    · rw [upd_same]; trivial
    · rw [upd_ne _ _ (hne a ha)]; exact h'.ring a ha
  · intro a ha
    rcases List.mem_cons.1 ha with rfl | ha
    · rw [upd_same]; simp
    · rw [upd_ne _ _ (hne a ha)]; exact h'.par a ha
  · obtain ⟨rk, hr⟩ := h.rank
    refine ⟨rk, fun a ha => ?_⟩
    rcases List.mem_cons.1 ha with rfl | ha
    · rw [upd_same]; simp
    · rw [upd_ne _ _ (hne a ha)]; exact hr a ha

theorem Ord.add {v : View α} {e : Nat} (h : Ord c v S kids) (he : e ∉ S) : Ord c v (e :: S) (upd kids e []) := by
  intro a ha
  rcases List.mem_cons.1 ha with rfl | ha'
  · rw [upd_same]; simp
  · rw [upd_ne _ _ (by rintro rfl; exact he ha')]; exact h a ha'

theorem Shape.roots_ne {v : View α} (h : Shape v S R kids) {a : Nat} (ha : a ∈ S) : R ≠ [] := by
  have hg : Good (⟨fun _ _ => .eql, .les, false, 0⟩ : Cfg α) :=
    ⟨⟨by intro a b h; simp [Beats] at h, by intro a b d _ _ h; simp [Beats] at h⟩⟩
  obtain ⟨r, hr, _⟩ := h.front hg (by intro a _ k _ x y _ _ h; simp [Beats] at h) a ha
  exact List.ne_nil_of_mem hr

/-- What becomes of the children when `e` is cut off: if it was the youngest, the oldest becomes the youngest. -/
def Cut (l : List Nat) (e : Nat) (K : List Nat) : Prop :=
  (∃ A B, l = A ++ e :: B ∧ K = A ++ B) ∨ ∃ n t, l = n :: (t ++ [e]) ∧ K = t ++ [n]

theorem cutChild_spec {e : Nat} (h : Shape s.v S R kids) (he : e ∈ S) (heR : e ∉ R) :
    ∃ s' kids', cutChild s e = some s' ∧ s'.root = s.root ∧ s'.sz = s.sz ∧ Shape s'.v S (e :: R) kids' ∧ Keep s.v s'.v R ∧
      (∀ a ∈ S, ∀ k ∈ kids' a, k ∈ kids a ∧ k ≠ e) ∧ s'.v.nx e ≠ none ∧ s'.v.pv e ≠ none ∧ s'.v.pr e = none ∧
      ∃ p ∈ S, ∃ K, kids' = upd kids p K ∧ Cut (kids p) e K := by
  rcases h.root_or_kid he with hr | ⟨p, hp, hk⟩
  · exact absurd hr heR
  obtain ⟨A, B, hAB⟩ := List.append_of_mem hk
  have hring := h.ring p hp
  rw [hAB] at hring
  have hring' := ring_from hring
  have hnd : (e :: (B ++ A)).Nodup := by
    have := h.kids_nodup hp
    rw [hAB] at this
    exact (List.Perm.nodup (by simpa using List.perm_append_comm (l₁ := A) (l₂ := e :: B)) this)
  have hpe := h.par p hp e hk
  have hparl : ∀ q, s.v.pr e = some q → s.v.vl q ≠ none := by
    intro q hq; rw [hpe] at hq; cases hq; exact h.live _ hp
  have hlf := h.left p hp
  have hkR : ∀ x ∈ R, x ∉ kids p := fun x hx => h.root_not_kid hx hp
  have cases : ∃ (s' : Pq α) (n p' : Nat) (K : List Nat), cutChild s e = some s' ∧ s'.root = s.root ∧ s'.sz = s.sz ∧ (kids p).Perm (e :: K) ∧
      Ring s'.v K ∧ s'.v.lf = upd s.v.lf p K.getLast? ∧ s'.v.nx = upd s.v.nx p' (some n) ∧ s'.v.pv = upd s.v.pv n (some p') ∧
      s'.v.pr = upd s.v.pr e none ∧ s'.v.vl = s.v.vl ∧ s.v.nx e = some n ∧ s.v.pv e = some p' ∧ (n ∈ K ∨ n = e) ∧ (p' ∈ K ∨ p' = e) ∧
      Cut (kids p) e K := by
    by_cases hBA : B ++ A = []
    · rw [hBA] at hring'
      have h2 : Adj s.v e e := hring'.1
      obtain ⟨s', a1, b1, c1, d1⟩ := cutChild_view (h.live e he) h2.1 h2.2 (h.live e he) (h.live e he) hparl
      have hk1 : kids p = [e] := by
        have := List.append_eq_nil_iff.1 hBA
        rw [hAB, this.1, this.2]; rfl
      refine ⟨s', e, e, [], a1, b1, c1, by rw [hk1], trivial, ?_, by rw [d1], by rw [d1], by rw [d1], by rw [d1], h2.1, h2.2,
        .inr rfl, .inr rfl, .inl ⟨[], [], hk1, rfl⟩⟩
      have hl : s.v.lf p = some e := by rw [hlf, hk1]; rfl
      rw [d1, hpe]; simp [hl]
    · obtain ⟨n, t, q, p', ht, hq⟩ := head_last hBA
      have hm : ∀ x ∈ B ++ A, x ∈ kids p := by
        intro x hx
        rw [hAB]
        rcases List.mem_append.1 hx with hx | hx
        · exact List.mem_append_right _ (List.mem_cons_of_mem _ hx)
        · exact List.mem_append_left _ hx
      have hn : n ∈ B ++ A := by rw [ht]; simp
      have hp' : p' ∈ B ++ A := by rw [hq]; simp
      have hne : n ≠ e := by rintro rfl; exact (List.nodup_cons.1 hnd).1 hn
      obtain ⟨n0, p0, hn0, hp0, _⟩ := ring_some hring' (e := e) (by simp)
      have hrm : s.v.nx e = some n ∧ s.v.pv e = some p' :=
        (ring_remove (v' := { s.v with nx := upd s.v.nx p' (some n), pv := upd s.v.pv n (some p') }) hnd ht hq hring' rfl rfl).2
      obtain ⟨s', a1, b1, c1, d1⟩ := cutChild_view (h.live e he) hrm.1 hrm.2 (h.live n (h.kid_mem hp (hm n hn)))
        (h.live p' (h.kid_mem hp (hm p' hp'))) hparl
      have hr2 := (ring_remove (v' := s'.v) hnd ht hq hring' (by rw [d1]) (by rw [d1])).1
      by_cases hB : B = []
      · subst hB
        have hl : s.v.lf p = some e := by rw [hlf, hAB]; simp
        rw [List.nil_append] at ht hr2
        refine ⟨s', n, p', t ++ [n], a1, b1, c1, ?_, ?_, ?_, by rw [d1], by rw [d1], by rw [d1], by rw [d1], hrm.1, hrm.2,
          .inl (by simp), .inl ?_, .inr ⟨n, t, by rw [hAB, ht]; rfl, rfl⟩⟩
        · rw [hAB, ht]
          simp only [List.cons_append]
          exact ((List.perm_append_comm (l₁ := n :: t) (l₂ := [e])).trans
            ((List.perm_append_comm (l₁ := [n]) (l₂ := t)).cons e))
        · exact (ring_rotate n t).1 (by rw [← ht]; exact hr2)
        · rw [d1, hpe]
          simp [hl, hne]
        · rw [List.nil_append, ht] at hp'
          simp only [List.mem_cons, List.mem_append] at hp' ⊢
          rcases hp' with h | h
          · exact .inr (.inl h)
          · exact .inl h
      · have hl : s.v.lf p = B.getLast? := by
          rw [hlf, hAB]
          obtain ⟨_, _, q2, z2, _, hq2⟩ := head_last hB
          rw [hq2, show A ++ e :: (q2 ++ [z2]) = (A ++ e :: q2) ++ [z2] by simp, List.getLast?_concat, List.getLast?_concat]
        have hl' : s.v.lf p ≠ some e := by
          rw [hl]
          intro h
          exact (List.nodup_cons.1 hnd).1 (List.mem_append_left _ (List.mem_of_getLast? h))
        refine ⟨s', n, p', A ++ B, a1, b1, c1, ?_, (ring_rot B A).1 hr2, ?_, by rw [d1], by rw [d1], by rw [d1], by rw [d1], hrm.1, hrm.2,
          .inl ?_, .inl ?_, .inl ⟨A, B, hAB, rfl⟩⟩
        · rw [hAB]; exact List.perm_middle
        · rw [d1, hpe]
          simp only [hl', if_false]
          refine (upd_id' ?_).symm
          rw [hl]
          obtain ⟨_, _, q2, z2, _, hq2⟩ := head_last hB
          rw [hq2, ← List.append_assoc]
          simp
        · exact List.perm_append_comm.subset hn
        · exact List.perm_append_comm.subset hp'
  obtain ⟨s', n, p', K, a1, b1, c1, d1, e1, f1, g1, h1, i1, j1, k1, l1, m1, n1, hcut⟩ := cases
  have hKk : ∀ x ∈ K, x ∈ kids p ∧ x ≠ e := by
    intro x hx
    refine ⟨d1.symm.subset (List.mem_cons_of_mem _ hx), ?_⟩
    rintro rfl
    exact (List.nodup_cons.1 (d1.nodup (h.kids_nodup hp))).1 hx
  have nx' : ∀ x, x ∉ K → x ≠ e → s'.v.nx x = s.v.nx x := by
    intro x hx hxe
    rw [g1]
    exact upd_ne _ _ (by rintro rfl; rcases n1 with h | h; exact hx h; exact hxe h)
  have pv' : ∀ x, x ∉ K → x ≠ e → s'.v.pv x = s.v.pv x := by
    intro x hx hxe
    rw [h1]
    exact upd_ne _ _ (by rintro rfl; rcases m1 with h | h; exact hx h; exact hxe h)
  have rK : ∀ x ∈ R, x ∉ K ∧ x ≠ e := fun x hx => ⟨fun h => hkR x hx (hKk x h).1, by rintro rfl; exact heR hx⟩
  refine ⟨s', upd kids p K, a1, b1, c1, ?_, ⟨j1, ?_, ?_, ?_⟩, ?_, ?_, ?_, ?_, p, hp, K, rfl, hcut⟩
  · exact h.cut hp d1 j1 f1 (fun x hx => by rw [i1]; exact upd_ne _ _ hx) e1 nx' pv'
  · exact fun x hx => nx' x (rK x hx).1 (rK x hx).2
  · exact fun x hx => pv' x (rK x hx).1 (rK x hx).2
  · intro x hx; rw [i1]; exact upd_ne _ _ (rK x hx).2
  · intro a ha k hk'
    by_cases hap : a = p
    · subst hap; rw [upd_same] at hk'; exact hKk k hk'
    · rw [upd_ne _ _ hap] at hk'
      exact ⟨hk', by rintro rfl; exact hap (h.one_parent ha hp hk' hk)⟩
  · rw [g1]
    by_cases hx : e = p'
    · rw [← hx, upd_same]; simp
    · rw [upd_ne _ _ hx, k1]; simp
  · rw [h1]
    by_cases hx : e = n
    · rw [← hx, upd_same]; simp
    · rw [upd_ne _ _ hx, l1]; simp
  · rw [i1, upd_same]

/-- What is known about the links of the root. -/
def Top (v : View α) (r : Nat) (stale : Bool) : Prop :=
  v.nx r ≠ none ∧ v.pv r ≠ none ∧ v.pr r = none ∧ (stale = false → v.nx r = some r ∧ v.pv r = some r)

theorem Top.keep {v v' : View α} {r : Nat} {b : Bool} {R : List Nat} (h : Top v r b) (hk : Keep v v' R) (hr : r ∈ R) : Top v' r b := by
  unfold Top at *
  rw [hk.nx r hr, hk.pv r hr, hk.pr r hr]
  exact h

theorem Top.congr {v v' : View α} {r : Nat} {b : Bool} (h : Top v r b) (h1 : v'.nx r = v.nx r) (h2 : v'.pv r = v.pv r)
    (h3 : v'.pr r = v.pr r) : Top v' r b := by
  unfold Top at *
  rw [h1, h2, h3]
  exact h

theorem top_self {v : View α} {r : Nat} (h : v.nx r = some r ∧ v.pv r = some r ∧ v.pr r = none) (b : Bool) : Top v r b := by
  unfold Top
  rw [h.1, h.2.1, h.2.2]
  simp

theorem Top.weak {v : View α} {r : Nat} {b b' : Bool} (h : Top v r b) (hb : b' = false → b = false) : Top v r b' :=
  ⟨h.1, h.2.1, h.2.2.1, fun x => h.2.2.2 (hb x)⟩

/-- The order holds except where `e` is concerned. -/
def OrdBut (c : Cfg α) (v : View α) (S : List Nat) (kids : Nat → List Nat) (e : Nat) : Prop :=
  ∀ a ∈ S, a ≠ e → ∀ k ∈ kids a, k ≠ e → NB c v k a

theorem deleteNode_spec (hg : Good c) {e : Nat} (h : Shape s.v S s.root.toList kids) (he : e ∈ S)
    (ho : OrdBut c s.v S kids e) (hf : ∀ r, s.root = some r → r ≠ e → ∀ n ∈ S, n ≠ e → NB c s.v n r) :
    ∃ s' res kids', deleteNode c s e = some (s', res) ∧ s'.sz = s.sz ∧
      Shape s'.v (S.erase e) res.toList kids' ∧ Ord c s'.v (S.erase e) kids' ∧ s'.v.vl = s.v.vl ∧
      (s.root ≠ some e → res = s.root ∧ Keep s.v s'.v s.root.toList) ∧
      (s.root = some e → ∀ w, res = some w → Top s'.v w false) := by
  have sub : ∀ a ∈ S.erase e, a ∈ S ∧ a ≠ e := fun a ha => by
    rw [h.nodup.mem_erase_iff] at ha; exact ⟨ha.2, ha.1⟩
  cases hr : s.root with
  | none =>
    have := h.roots_ne he
    rw [hr] at this; simp at this
  | some r =>
    rw [hr] at h hf
    by_cases hre : r = e
    · subst hre
      have ho' : Ord c s.v (S.erase r) kids := by
        intro a ha k hk
        obtain ⟨ha1, ha2⟩ := sub a ha
        refine ho a ha1 ha2 k hk ?_
        rintro rfl
        exact h.root_not_kid (by simp) ha1 hk
      obtain ⟨s', res, k', a1, b1, c1, d1, e1, f1, g1, _⟩ := deleteMin_spec hg h ho'
      refine ⟨s', res, k', ?_, c1, by simpa using d1, e1, f1.vl, fun h => absurd rfl h, fun _ w hw => ?_⟩
      · simp only [deleteNode, hr, if_true, a1]
      · obtain ⟨x, y, z⟩ := g1 w hw
        exact top_self ⟨x, y, z⟩ _
    · have hne : e ∉ (some r).toList := by simp; exact fun h => hre h.symm
      obtain ⟨s1, k1, a1, b1, c1, d1, e1, f1, _⟩ := cutChild_spec h he hne
      have o1 : Ord c s1.v (S.erase e) k1 := by
        intro a ha k hk
        obtain ⟨ha1, ha2⟩ := sub a ha
        obtain ⟨hk1, hk2⟩ := f1 a ha1 k hk
        exact (ho a ha1 ha2 k hk1 hk2).congr (by rw [e1.vl]) (by rw [e1.vl])
      obtain ⟨s2, res, k2, a2, b2, c2, d2, e2, f2, g2, _⟩ := deleteMin_spec hg d1 o1
      have hroot : s2.root = some r := by rw [b2, b1, hr]
      cases res with
      | none =>
        refine ⟨s2, some r, k2, ?_, by rw [c2, c1], by simpa using d2, e2, by rw [f2.vl, e1.vl], fun _ => ⟨rfl, e1.trans f2⟩,
          fun h => ?_⟩
        · have hre' : s.root ≠ some e := by rw [hr]; simpa using hre
          simp only [deleteNode, if_neg hre', a1, a2, Option.bind_eq_bind, Option.bind_some, hroot, merge]
        · cases h; exact absurd rfl hre
      | some w =>
        have d2' : Shape s2.v (S.erase e) (r :: w :: []) k2 := d2.perm_roots (by simpa using List.Perm.swap r w [])
        obtain ⟨s3, w', k3, a3, b3, c3, d3, e3, f3, _, g3⟩ := merge_spec hg d2' e2
        have hw' : w' = r := by
          apply g3
          obtain ⟨hw1, hw2⟩ := sub w (d2.root_mem (by simp))
          exact (hf r rfl hre w hw1 hw2).congr (by rw [f2.vl, e1.vl]) (by rw [f2.vl, e1.vl])
        subst hw'
        refine ⟨s3, some w', k3, ?_, by rw [c3, c2, c1], by simpa using d3, e3, by rw [f3.vl, f2.vl, e1.vl],
          fun _ => ⟨rfl, (e1.trans f2).trans (by simpa using f3)⟩, fun h => ?_⟩
        · have hre' : s.root ≠ some e := by rw [hr]; simpa using hre
          simp only [deleteNode, if_neg hre', a1, a2, Option.bind_eq_bind, Option.bind_some, hroot, a3]
        · cases h; exact absurd rfl hre

/-- `init_node` and `merge` with the root. -/
theorem insert_spec (hg : Good c) {e : Nat} {st : Bool} (h : Shape s.v S s.root.toList kids) (ho : Ord c s.v S kids) (he : e ∉ S)
    (hl : s.v.vl e ≠ none) (ht : ∀ r, s.root = some r → Top s.v r st) :
    ∃ s1 s2 w kids', initNode s e = some s1 ∧ s1.sz = s.sz ∧ merge c s1 s1.root (some e) = some (s2, some w) ∧ s2.sz = s.sz ∧
      s2.v.vl = s.v.vl ∧ Shape s2.v (e :: S) [w] kids' ∧ Ord c s2.v (e :: S) kids' ∧ (w ≠ e → some w = s.root) ∧
      Top s2.v w (st && some w != some e) := by
  obtain ⟨s1, a1, b1, c1, d1⟩ := initNode_view hl
  have hne : ∀ a ∈ S, a ≠ e := by rintro a ha rfl; exact he ha
  have sh : Shape s1.v (e :: S) (e :: s.root.toList) (upd kids e []) := by
    refine h.add he (fun a ha => ?_) (fun a ha => ?_) (fun a ha => ?_) (fun a ha => ?_) (fun a ha => ?_) ?_ ?_ <;> rw [d1]
    · exact upd_ne _ _ (hne a ha)
    · exact upd_ne _ _ (hne a ha)
    · exact upd_ne _ _ (hne a ha)
    · exact upd_ne _ _ (hne a ha)
    · exact h.live a ha
    · exact upd_same _ _ _
    · exact hl
  have o1 : Ord c s1.v (e :: S) (upd kids e []) := (ho.add he).congr (by rw [d1])
  have tope : s1.v.nx e = some e ∧ s1.v.pv e = some e ∧ s1.v.pr e = none := by
    rw [d1]; exact ⟨upd_same _ _ _, upd_same _ _ _, upd_same _ _ _⟩
  have v1 : s1.v.vl = s.v.vl := by rw [d1]
  cases hr : s.root with
  | none =>
    rw [hr] at sh
    refine ⟨s1, s1, e, _, a1, c1, ?_, c1, v1, by simpa using sh, o1, fun h => absurd rfl h, top_self tope _⟩
    rw [b1, hr]; rfl
  | some r =>
    rw [hr] at sh h
    have hrS : r ∈ S := h.root_mem (by simp)
    obtain ⟨s2, w, k2, a2, b2, c2, d2, e2, f2, g2, _⟩ := merge_spec hg (sh.perm_roots (List.Perm.swap r e [])) o1
    refine ⟨s1, s2, w, k2, a1, c1, by rw [b1, hr]; exact a2, by rw [c2, c1], by rw [f2.vl, v1], d2, e2, ?_, ?_⟩
    · intro hw
      rcases g2 with h | h
      · rw [h]
      · exact absurd h hw
    · by_cases hwe : w = e
      · subst hwe
        exact (top_self tope _).keep f2 (by simp)
      · have hw : w = r := g2.resolve_right hwe
        subst hw
        have h1 : Top s1.v w st := (ht w hr).congr (by rw [d1]; exact upd_ne _ _ hwe) (by rw [d1]; exact upd_ne _ _ hwe)
          (by rw [d1]; exact upd_ne _ _ hwe)
        exact (h1.keep f2 (by simp)).weak (by simp [hwe])

/-- `cut_child` and `merge` with the root. -/
theorem raise_spec (hg : Good c) {e : Nat} {st : Bool} (h : Shape s.v S s.root.toList kids) (he : e ∈ S)
    (ho : ∀ a ∈ S, ∀ k ∈ kids a, k ≠ e → NB c s.v k a) (ht : ∀ r, s.root = some r → Top s.v r st)
    (hst : s.root = some e → st = false) :
    ∃ s1 s2 w kids', cutChild s e = some s1 ∧ s1.sz = s.sz ∧ merge c s1 s1.root (some e) = some (s2, some w) ∧ s2.sz = s.sz ∧
      s2.v.vl = s.v.vl ∧ Shape s2.v S [w] kids' ∧ Ord c s2.v S kids' ∧ (w ≠ e → some w = s.root) ∧
      Top s2.v w (s.root != some e && (st || some w == some e)) := by
  cases hr : s.root with
  | none =>
    have := h.roots_ne he
    rw [hr] at this; simp at this
  | some r =>
    rw [hr] at h
    by_cases hre : r = e
    · subst hre
      have ht' := ht r hr
      have hs := ht'.2.2.2 (hst hr)
      obtain ⟨s1, a1, b1, c1, d1⟩ := cutChild_view (h.live r he) hs.1 hs.2 (h.live r he) (h.live r he) (by rw [ht'.2.2.1]; simp)
      have hv : s1.v = s.v := by
        rw [d1, ht'.2.2.1]
        simp only []
        rw [upd_id' hs.1.symm, upd_id' hs.2.symm, upd_id' ht'.2.2.1.symm]
      refine ⟨s1, s1, r, kids, a1, c1, ?_, c1, by rw [hv], by rw [hv]; exact h, ?_, fun h => absurd rfl h, ?_⟩
      · rw [b1, hr]; simp [merge]
      · rw [hv]
        intro a ha k hk
        exact ho a ha k hk (by rintro rfl; exact h.root_not_kid (by simp) ha hk)
      · rw [hv]; exact top_self ⟨hs.1, hs.2, ht'.2.2.1⟩ _
    · have hne : e ∉ (some r).toList := by simp; exact fun h => hre h.symm
      obtain ⟨s1, k1, a1, b1, c1, d1, e1, f1, n1, p1, r1, _⟩ := cutChild_spec h he hne
      have o1 : Ord c s1.v S k1 := by
        intro a ha k hk
        obtain ⟨hk1, hk2⟩ := f1 a ha k hk
        exact (ho a ha k hk1 hk2).congr (by rw [e1.vl]) (by rw [e1.vl])
      obtain ⟨s2, w, k2, a2, b2, c2, d2, e2, f2, g2, _⟩ := merge_spec hg (d1.perm_roots (List.Perm.swap r e [])) o1
      refine ⟨s1, s2, w, k2, a1, c1, by rw [b1, hr]; exact a2, by rw [c2, c1], by rw [f2.vl, e1.vl], d2, e2, ?_, ?_⟩
      · intro hw
        rcases g2 with h | h
        · rw [h]
        · exact absurd h hw
      · by_cases hwe : w = e
        · subst hwe
          have : Top s1.v w true := ⟨n1, p1, r1, by simp⟩
          refine (this.keep f2 (by simp)).weak ?_
          simp; exact hre
        · have hw : w = r := g2.resolve_right hwe
          subst hw
          refine (((ht w hr).keep e1 (by simp)).keep f2 (by simp)).weak ?_
          simp [hre]

/-- The state of the program and that of the specification. -/
structure Sim (c : Cfg α) (s : Pq α) (st : St α) : Prop where
  heap : ∃ kids, Shape s.v st.q s.root.toList kids ∧ Ord c s.v st.q kids
  val : s.v.vl = st.val
  root : s.root = st.front
  sz : s.sz = st.q.length
  top : ∀ r, s.root = some r → Top s.v r st.stale

theorem Sim.isFront (hg : Good c) {st : St α} (h : Sim c s st) : IsFront c.cmp c.order st := by
  obtain ⟨kids, sh, o⟩ := h.heap
  unfold IsFront
  cases hf : st.front with
  | none =>
    simp only []
    apply Classical.byContradiction
    intro hq
    obtain ⟨a, t, ht⟩ := List.exists_cons_of_ne_nil hq
    have := sh.roots_ne (a := a) (by rw [ht]; simp)
    rw [h.root, hf] at this; simp at this
  | some f =>
    rw [h.root, hf] at sh
    refine ⟨sh.root_mem (by simp), fun e he v w hv hw => ?_⟩
    obtain ⟨r, hr, hnb⟩ := sh.front hg o e he
    have : r = f := by simpa using hr
    subst this
    exact hnb w v (by rw [h.val]; exact hw) (by rw [h.val]; exact hv)

theorem Sim.behind (hg : Good c) {st : St α} (h : Sim c s st) {r n : Nat} (hr : s.root = some r) (hn : n ∈ st.q) : NB c s.v n r := by
  obtain ⟨kids, sh, o⟩ := h.heap
  obtain ⟨r', hr', hnb⟩ := sh.front hg o n hn
  rw [hr] at hr'
  have : r' = r := by simpa using hr'
  rw [← this]; exact hnb

theorem Sim.live {st : St α} (h : Sim c s st) {e : Nat} (he : e ∈ st.q) : s.v.vl e ≠ none := by
  obtain ⟨kids, sh, _⟩ := h.heap
  exact sh.live e he

/-- An element of the queue has siblings, at least itself. -/
theorem Sim.sibs {st : St α} (h : Sim c s st) {e : Nat} (he : e ∈ st.q) :
    ∃ x, s.mem e = some x ∧ ¬ (x.next = none ∨ x.prev = none) ∧ s.root ≠ none := by
  obtain ⟨kids, sh, _⟩ := h.heap
  obtain ⟨x, hx⟩ := live_of (sh.live e he)
  obtain ⟨e1, e2, _⟩ := view_mem hx
  refine ⟨x, hx, ?_, fun hr => ?_⟩
  · rcases sh.root_or_kid he with hr | ⟨p, hp, hk⟩
    · have := h.top e (by simpa using hr)
      rw [← e1, ← e2]
      rintro (h | h)
      · exact this.1 h
      · exact this.2.1 h
    · obtain ⟨n, q, h1, h2, _⟩ := ring_some (sh.ring p hp) hk
      rw [← e1, ← e2, h1, h2]; simp
  · have := sh.roots_ne he
    rw [hr] at this; simp at this

/-- The root after a merge is in the heap, hence the two halves of the simulation. -/
theorem push_sim (hg : Good c) (ha : c.alloc = false) {st : St α} (h : Sim c s st) {e : Nat} (ans : Slot) (he : e ∉ st.q)
    (hv : st.val e ≠ none) :
    ∃ s' f, push c s e ans = some (s', some e) ∧ Sim c s' { st with q := e :: st.q, front := f, stale := st.stale && f != some e } := by
  obtain ⟨kids, sh, o⟩ := h.heap
  obtain ⟨s1, s2, w, k, a1, c1, a2, c2, v2, sh2, o2, _, t2⟩ := insert_spec hg sh o he (by rw [h.val]; exact hv) h.top
  refine ⟨{ s2 with root := some w, sz := s2.sz + 1 }, some w, ?_, ⟨k, sh2, o2⟩, v2.trans h.val, rfl, ?_, ?_⟩
  · simp only [push, a1, ha, Bool.false_eq_true, if_false, Option.bind_eq_bind, Option.bind_some, a2]
  · show s2.sz + 1 = _
    rw [c2, h.sz]; simp
  · intro r hr
    cases hr
    exact t2

theorem pop_none {st : St α} (h : Sim c s st) (hf : st.front = none) : pop c s = some (s, .inputErr) := by
  simp only [pop, h.root, hf]

/-- Fields of an element outside the queue do not matter. -/
theorem Sim.outside {st : St α} (h : Sim c s st) {e : Nat} {s' : Pq α} (he : e ∉ st.q) (hr : s'.root = s.root) (hz : s'.sz = s.sz)
    (hm : ∀ a, a ≠ e → s'.mem a = s.mem a) : Sim c s' { st with val := upd st.val e (s'.v.vl e) } := by
  have hv : ∀ a, a ≠ e → s'.v.nx a = s.v.nx a ∧ s'.v.pv a = s.v.pv a ∧ s'.v.lf a = s.v.lf a ∧ s'.v.pr a = s.v.pr a ∧
      s'.v.vl a = s.v.vl a := by
    intro a ha
    simp only [Pq.v, hm a ha, and_self]
  have hne : ∀ a ∈ st.q, a ≠ e := by rintro a ha rfl; exact he ha
  obtain ⟨kids, sh, o⟩ := h.heap
  refine ⟨⟨kids, ?_, ?_⟩, ?_, by rw [hr]; exact h.root, by rw [hz]; exact h.sz, ?_⟩
  · rw [hr]
    exact sh.congr (fun a ha => (hv a (hne a ha)).1) (fun a ha => (hv a (hne a ha)).2.1) (fun a ha => (hv a (hne a ha)).2.2.1)
      (fun a ha => (hv a (hne a ha)).2.2.2.1) (fun a ha => by rw [(hv a (hne a ha)).2.2.2.2]; exact sh.live a ha)
  · intro a ha k hk
    exact (o a ha k hk).congr (hv k (hne k (sh.kid_mem ha hk))).2.2.2.2 (hv a (hne a ha)).2.2.2.2
  · funext a
    by_cases hae : a = e
    · subst hae; simp
    · show s'.v.vl a = upd st.val e _ a
      rw [upd_ne _ _ hae, (hv a hae).2.2.2.2, h.val]
  · intro r hr'
    rw [hr] at hr'
    have : r ∈ st.q := sh.root_mem (by rw [hr']; simp)
    exact (h.top r hr').congr (hv r (hne r this)).1 (hv r (hne r this)).2.1 (hv r (hne r this)).2.2.2.1

theorem mod_mem {f : Elem α → Elem α} {e : Nat} {s' : Pq α} (h : s.mod (some e) f = some s') :
    s'.root = s.root ∧ s'.sz = s.sz ∧ ∀ a, a ≠ e → s'.mem a = s.mem a := by
  simp only [Pq.mod, Option.bind_eq_bind, Option.bind_some] at h
  cases he : s.mem e with
  | none => rw [he] at h; cases h
  | some x =>
    rw [he] at h
    cases h
    exact ⟨rfl, rfl, fun a ha => upd_ne _ _ ha⟩

/-- Taking one element out. -/
theorem delete_sim (hg : Good c) {st : St α} (h : Sim c s st) {e : Nat} (he : e ∈ st.q) :
    ∃ s' f, deleteNode c s e = some (s', f) ∧ s'.sz = s.sz ∧ Sim c { s' with root := f, sz := s'.sz - 1 } (st.without e f) ∧
      s'.v.vl = s.v.vl := by
  obtain ⟨kids, sh, o⟩ := h.heap
  obtain ⟨s1, f, k, a1, c1, sh1, o1, v1, n1, r1⟩ := deleteNode_spec hg sh he (fun a ha _ k hk _ => o a ha k hk)
    (fun r hr _ n hn _ => h.behind hg hr hn)
  refine ⟨s1, f, a1, c1, ⟨⟨k, sh1, o1⟩, v1.trans h.val, rfl, ?_, ?_⟩, v1⟩
  · show s1.sz - 1 = (st.q.erase e).length
    rw [c1, h.sz, List.length_erase_of_mem he]
  · intro r hr
    change f = some r at hr
    show Top s1.v r (st.stale && st.front != some e)
    by_cases hre : s.root = some e
    · exact (r1 hre r hr).weak (by simp)
    · obtain ⟨h1, h2⟩ := n1 hre
      rw [hr] at h1
      refine ((h.top r h1.symm).keep h2 (by rw [← h1]; simp)).weak ?_
      rw [← h.root]
      simp [hre]

theorem pop_sim (hg : Good c) (ha : c.alloc = false) {st : St α} (h : Sim c s st) {e : Nat} (hf : st.front = some e) :
    ∃ s' f, pop c s = some (s', .ok) ∧ Sim c s' (st.without e f) := by
  have hr : s.root = some e := by rw [h.root, hf]
  obtain ⟨kids, sh, o⟩ := h.heap
  have he : e ∈ st.q := by rw [hr] at sh; exact sh.root_mem (by simp)
  obtain ⟨s1, f, a1, c1, sm, v1⟩ := delete_sim hg h he
  have a1' : deleteMin c s e = some (s1, f) := by
    rw [← a1]; simp only [deleteNode, hr, if_true]
  obtain ⟨s2, a2, b2, c2, d2⟩ := clearNode_view (s := { s1 with root := f, sz := s1.sz - 1 }) (a := e) (by
    show s1.v.vl e ≠ none; rw [v1]; exact h.live he)
  refine ⟨s2, f, ?_, ?_⟩
  · simp only [pop, hr, a1', Option.bind_eq_bind, Option.bind_some, a2, ha, Bool.false_eq_true, if_false]
  · have hnot : e ∉ (st.without e f).q := by
      show e ∉ st.q.erase e
      rw [sh.nodup.mem_erase_iff]; simp
    have := sm.outside hnot b2 c2 (mod_mem a2).2.2
    rwa [upd_id' (by rw [d2]; exact congrFun sm.val e)] at this

theorem extract_sim (hg : Good c) {st : St α} (h : Sim c s st) {e : Nat} (he : e ∈ st.q) :
    ∃ s' f, extract c s e = some (s', some e) ∧ Sim c s' (st.without e f) := by
  obtain ⟨x, hx, hn, hrn⟩ := h.sibs he
  obtain ⟨kids, sh, o⟩ := h.heap
  obtain ⟨s1, f, a1, c1, sm, v1⟩ := delete_sim hg h he
  obtain ⟨s2, a2, b2, c2, d2⟩ := clearNode_view (s := { s1 with root := f, sz := s1.sz - 1 }) (a := e) (by
    show s1.v.vl e ≠ none; rw [v1]; exact h.live he)
  refine ⟨s2, f, ?_, ?_⟩
  · simp only [extract, if_neg hrn, hx, if_neg hn, a1, Option.bind_eq_bind, Option.bind_some, a2]
  · have hnot : e ∉ (st.without e f).q := by
      show e ∉ st.q.erase e
      rw [sh.nodup.mem_erase_iff]; simp
    have := sm.outside hnot b2 c2 (mod_mem a2).2.2
    rwa [upd_id' (by rw [d2]; exact congrFun sm.val e)] at this

theorem erase_sim (hg : Good c) (ha : c.alloc = false) {st : St α} (h : Sim c s st) {e : Nat} (he : e ∈ st.q) :
    ∃ s' f, erase c s e = some (s', .ok) ∧ Sim c s' (st.without e f) := by
  obtain ⟨x, hx, hn, hrn⟩ := h.sibs he
  obtain ⟨s1, f, a1, c1, sm, v1⟩ := delete_sim hg h he
  refine ⟨_, f, ?_, sm⟩
  simp only [erase, if_neg hrn, hx, if_neg hn, a1, Option.bind_eq_bind, Option.bind_some, ha, Bool.false_eq_true, if_false]

/-- The heap right after the user's function changed an element. -/
theorem changed {st : St α} (h : Sim c s st) {e : Nat} (he : e ∈ st.q) (f : α → α) :
    ∃ s1 kids, s.mod (some e) (fun x => { x with val := f x.val }) = some s1 ∧ s1.root = s.root ∧ s1.sz = s.sz ∧
      Shape s.v st.q s.root.toList kids ∧ Ord c s.v st.q kids ∧ Shape s1.v st.q s1.root.toList kids ∧
      s1.v = { s.v with vl := upd s.v.vl e ((s.v.vl e).map f) } ∧
      (∀ a k, a ≠ e → k ≠ e → NB c s.v k a → NB c s1.v k a) := by
  obtain ⟨kids, sh, o⟩ := h.heap
  obtain ⟨s1, a1, b1, c1, d1⟩ := mod_val (h.live he) f
  refine ⟨s1, kids, a1, b1, c1, sh, o, ?_, d1, ?_⟩
  · rw [b1]
    refine sh.congr (by rw [d1]; simp) (by rw [d1]; simp) (by rw [d1]; simp) (by rw [d1]; simp) (fun a ha => ?_)
    rw [d1]
    show upd _ _ _ a ≠ none
    by_cases hae : a = e
    · subst hae; rw [upd_same]
      obtain ⟨y, hy⟩ := Option.ne_none_iff_exists'.1 (sh.live a ha)
      rw [hy]; simp
    · rw [upd_ne _ _ hae]; exact sh.live a ha
  · intro a k ha hk hnb
    rw [d1]
    exact hnb.congr (upd_ne _ _ hk) (upd_ne _ _ ha)

theorem change_val (st : St α) (e : Nat) (f : α → α) (v : Nat → Option α) (hv : v = st.val) (w : Slot) :
    upd v e ((v e).map f) = (st.change e f w).val := by
  funext a
  show _ = if a = e then _ else _
  by_cases h : a = e
  · subst h; rw [upd_same, if_pos rfl, hv]
  · rw [upd_ne _ _ h, if_neg h, hv]

/-- Deleting a changed element and putting it back. -/
theorem slow_sim (hg : Good c) {st : St α} (h : Sim c s st) {e : Nat} (he : e ∈ st.q) (f : α → α) {s1 : Pq α}
    (h1 : s.mod (some e) (fun x => { x with val := f x.val }) = some s1) :
    ∃ s2 r2 s3 s4 w, deleteNode c s1 e = some (s2, r2) ∧ initNode { s2 with root := r2 } e = some s3 ∧
      merge c s3 s3.root (some e) = some (s4, some w) ∧ Sim c { s4 with root := some w } (st.change e f (some w)) := by
  obtain ⟨s1', kids, a1, b1, c1, sh, o, sh1, d1, n1⟩ := changed h he f
  rw [h1] at a1; cases a1
  obtain ⟨s2, r2, k2, a2, c2, sh2, o2, v2, n2, t2⟩ := deleteNode_spec hg sh1 he
    (fun a ha hae k hk hke => n1 a k hae hke (o a ha k hk))
    (fun r hr hre n hn hne => n1 r n hre hne (h.behind hg (by rw [← b1]; exact hr) hn))
  have htop : ∀ r, r2 = some r → Top s2.v r (s.root != some e && st.stale) := by
    intro r hr
    by_cases hre : s1.root = some e
    · exact (t2 hre r hr).weak (by simp)
    · obtain ⟨x1, x2⟩ := n2 hre
      rw [hr, b1] at x1
      have := h.top r x1.symm
      refine ((this.congr (v' := s1.v) (by rw [d1]) (by rw [d1]) (by rw [d1])).keep x2 (by rw [b1, ← x1]; simp)).weak ?_
      rw [b1] at hre
      simp [hre]
  have hnot : e ∉ st.q.erase e := by rw [sh.nodup.mem_erase_iff]; simp
  obtain ⟨s3, s4, w, k4, a3, c3, a4, c4, v4, sh4, o4, w4, t4⟩ :=
    insert_spec (s := { s2 with root := r2 }) hg sh2 o2 hnot (by show s2.v.vl e ≠ none; rw [v2]; exact sh1.live e he) htop
  have hp : (e :: st.q.erase e).Perm st.q := (List.perm_cons_erase he).symm
  refine ⟨s2, r2, s3, s4, w, a2, a3, a4, ⟨k4, sh4.perm_set hp, o4.perm_set hp⟩, ?_, rfl, ?_, ?_⟩
  · show s4.v.vl = _
    rw [v4]
    show s2.v.vl = _
    rw [v2, d1]
    exact change_val st e f _ h.val _
  · show s4.sz = st.q.length
    rw [c4]; show s2.sz = _
    rw [c2, c1, h.sz]
  · intro r hr
    cases hr
    refine t4.weak ?_
    show (st.front != some e && (st.stale || some w == some e)) = false → _
    rw [h.root]
    cases (st.front != some e) <;> cases st.stale <;> simp

/-- Moving a changed element up. -/
theorem fast_sim (hg : Good c) {st : St α} (h : Sim c s st) {e : Nat} (he : e ∈ st.q) (f : α → α) {s1 : Pq α}
    (h1 : s.mod (some e) (fun x => { x with val := f x.val }) = some s1)
    (hk : ∀ kids, Shape s.v st.q s.root.toList kids → Ord c s.v st.q kids → ∀ k ∈ kids e, NB c s1.v k e)
    (hst : st.front = some e → st.stale = false) :
    ∃ s3 s4 w, cutChild s1 e = some s3 ∧ merge c s3 s3.root (some e) = some (s4, some w) ∧
      Sim c { s4 with root := some w } (st.change e f (some w)) := by
  obtain ⟨s1', kids, a1, b1, c1, sh, o, sh1, d1, n1⟩ := changed h he f
  rw [h1] at a1; cases a1
  obtain ⟨s3, s4, w, k4, a3, c3, a4, c4, v4, sh4, o4, w4, t4⟩ := raise_spec hg (st := st.stale) sh1 he
    (fun a ha k hk' hke => by
      by_cases hae : a = e
      · subst hae; exact hk kids sh o k hk'
      · exact n1 a k hae hke (o a ha k hk'))
    (fun r hr => (h.top r (by rw [← b1]; exact hr)).congr (by rw [d1]) (by rw [d1]) (by rw [d1]))
    (fun hr => hst (by rw [← h.root, ← b1]; exact hr))
  refine ⟨s3, s4, w, a3, a4, ⟨k4, sh4, o4⟩, ?_, rfl, ?_, ?_⟩
  · show s4.v.vl = _
    rw [v4, d1]
    exact change_val st e f _ h.val _
  · show s4.sz = st.q.length
    rw [c4, c1, h.sz]
  · intro r hr
    cases hr
    rw [b1, h.root] at t4
    exact t4

theorem changed_val {st : St α} (h : Sim c s st) {e : Nat} (he : e ∈ st.q) {f : α → α} {s1 : Pq α}
    (h1 : s.mod (some e) (fun x => { x with val := f x.val }) = some s1) :
    ∃ y, s.v.vl e = some y ∧ s1.v.vl e = some (f y) := by
  obtain ⟨s1', a1, b1, c1, d1⟩ := mod_val (h.live he) f
  rw [h1] at a1; cases a1
  obtain ⟨y, hy⟩ := Option.ne_none_iff_exists'.1 (h.live he)
  exact ⟨y, hy, by rw [d1, hy]; exact upd_same _ _ _⟩

theorem update_sim (hg : Good c) {st : St α} (h : Sim c s st) {e : Nat} (he : e ∈ st.q) (f : α → α) :
    ∃ s' w, update c s e f = some (s', true) ∧ Sim c s' (st.change e f w) := by
  obtain ⟨x, hx, hn, hrn⟩ := h.sibs he
  obtain ⟨s1, kids, a1, b1, c1, sh, o, sh1, d1, n1⟩ := changed h he f
  obtain ⟨y, hy, hy1⟩ := changed_val h he a1
  obtain ⟨x1, hx1⟩ := live_of (sh1.live e he)
  have hpar : x1.par = s.v.pr e := by
    refine (view_mem hx1).2.2.2.1.symm.trans ?_; rw [d1]
  have hval : x1.val = f y := by
    have := (view_mem hx1).2.2.2.2
    rw [hy1] at this
    exact (Option.some.inj this).symm
  obtain ⟨s2, r2, s3, s4, w, a2, a3, a4, hs⟩ := slow_sim hg h he f a1
  rcases sh.root_or_kid he with hr | ⟨p, hp, hk⟩
  · have hp0 := (h.top e (by simpa using hr)).2.2.1
    refine ⟨_, some w, ?_, hs⟩
    simp only [update, change, hx, if_neg hn, a1, updateFixup, hx1, hpar, hp0, Option.bind_eq_bind, Option.bind_some,
      Bool.false_eq_true, if_false, a2, a3, a4]
  · have hpe := sh.par p hp e hk
    obtain ⟨z, hz⟩ := live_of (sh1.live p hp)
    have hpe' : p ≠ e := by rintro rfl; exact sh.kid_not_self hp hk
    have hzv : s.v.vl p = some z.val := by
      have := (view_mem hz).2.2.2.2
      rw [d1] at this
      rw [← this]
      exact (upd_ne _ _ hpe').symm
    by_cases hb : c.cmp x1.val z.val = c.order
    · obtain ⟨s3, s4, w, a3, a4, hs⟩ := fast_sim hg h he f a1 (by
        intro kids' sh' o' k hk'
        have hke : k ≠ e := by rintro rfl; exact sh'.kid_not_self he hk'
        have hkp : NB c s.v k p := by
          obtain ⟨p', hp', hkp'⟩ : ∃ p' ∈ st.q, e ∈ kids' p' := by
            rcases sh'.root_or_kid he with hr | h
            · exact absurd hk (sh.root_not_kid hr hp)
            · exact h
          have : p' = p := by
            have := sh'.par p' hp' e hkp'
            rw [hpe] at this; cases this; rfl
          subst this
          exact (o' e he k hk').trans hg (o' p' hp' e hkp') (h.live he)
        intro a b ha hb' hbt
        rw [hy1] at hb'; cases hb'
        rw [hval] at hb
        refine hkp a z.val ?_ hzv (hg.swo.trans hbt hb)
        rw [← ha, d1]
        exact (upd_ne _ _ hke).symm) (by
        intro hf
        exfalso
        rw [← h.root] at hf
        exact sh.root_not_kid (by rw [hf]; simp) hp hk)
      refine ⟨_, some w, ?_, hs⟩
      simp only [update, change, hx, if_neg hn, a1, updateFixup, hx1, hpar, hpe, hz, Option.bind_eq_bind, Option.bind_some, hb,
        decide_true, if_true, a3, a4]
    · refine ⟨_, some w, ?_, hs⟩
      simp only [update, change, hx, if_neg hn, a1, updateFixup, hx1, hpar, hpe, hz, Option.bind_eq_bind, Option.bind_some, hb,
        decide_false, Bool.false_eq_true, if_false, a2, a3, a4]

theorem fixup_sim (hg : Good c) {st : St α} (h : Sim c s st) {e : Nat} (he : e ∈ st.q) (f : α → α) (up : Bool)
    (hup : up = true → (∀ y, st.val e = some y → ¬ Beats c.cmp c.order y (f y)) ∧ (st.front = some e → st.stale = false)) :
    ∃ s' w, change s e f (fixup c · e up) = some (s', true) ∧ Sim c s' (st.change e f w) := by
  obtain ⟨x, hx, hn, hrn⟩ := h.sibs he
  obtain ⟨s1, kids, a1, b1, c1, sh, o, sh1, d1, n1⟩ := changed h he f
  cases up with
  | false =>
    obtain ⟨s2, r2, s3, s4, w, a2, a3, a4, hs⟩ := slow_sim hg h he f a1
    refine ⟨_, some w, ?_, hs⟩
    simp only [change, hx, if_neg hn, a1, fixup, Bool.false_eq_true, if_false, Option.bind_eq_bind, Option.bind_some, a2, a3, a4]
  | true =>
    obtain ⟨hb, hst⟩ := hup rfl
    obtain ⟨y, hy, hy1⟩ := changed_val h he a1
    obtain ⟨s3, s4, w, a3, a4, hs⟩ := fast_sim hg h he f a1 (by
      intro kids' sh' o' k hk' a b ha hb'
      rw [hy1] at hb'; cases hb'
      have hke : k ≠ e := by rintro rfl; exact sh'.kid_not_self he hk'
      refine hg.swo.ntrans a y (f y) ?_ (hb y (by rw [← h.val]; exact hy))
      refine o' e he k hk' a y ?_ hy
      rw [← ha, d1]
      exact (upd_ne _ _ hke).symm) hst
    refine ⟨_, some w, ?_, hs⟩
    simp only [change, hx, if_neg hn, a1, fixup, if_true, Option.bind_eq_bind, Option.bind_some, a3, a4]

/-- Emptying the queue; the destructor sees every element once, in order. -/
theorem clearLoop_sim (hg : Good c) (ha : c.alloc = false) (d : Bool) : ∀ (n : Nat) {s : Pq α} {st : St α}, Sim c s st → st.q.length = n →
    ∃ s' ds, clearLoop c s d = some (s', ds) ∧ Sim c s' { st with q := [], front := none, stale := false } ∧
      (d = true → ds.Perm st.q ∧ ds.Pairwise (fun a b => NB c s.v b a)) ∧ (d = false → ds = [])
  | 0, s, st, h, hn => by
    have hq : st.q = [] := List.length_eq_zero_iff.1 hn
    refine ⟨s, [], ?_, ?_, ?_, fun _ => rfl⟩
    · rw [clearLoop]; simp [isEmpty, h.sz, hn]
    · have hf : st.front = none := by
        cases hf : st.front with
        | none => rfl
        | some f =>
          obtain ⟨kids, sh, _⟩ := h.heap
          have := sh.root_mem (a := f) (by rw [h.root, hf]; simp)
          rw [hq] at this; simp at this
      have hr : s.root = none := by rw [h.root, hf]
      obtain ⟨kids, sh, o⟩ := h.heap
      rw [hq] at sh o
      exact ⟨⟨kids, sh, o⟩, h.val, hr, by rw [h.sz, hn]; rfl, by rw [hr]; simp⟩
    · intro _; rw [hq]; exact ⟨.refl _, .nil⟩
  | n + 1, s, st, h, hn => by
    obtain ⟨kids, sh, o⟩ := h.heap
    have hfr := h.isFront hg
    cases hf : st.front with
    | none =>
      unfold IsFront at hfr
      rw [hf] at hfr
      rw [hfr] at hn; simp at hn
    | some e =>
      have hr : s.root = some e := by rw [h.root, hf]
      have he : e ∈ st.q := by rw [hr] at sh; exact sh.root_mem (by simp)
      obtain ⟨s1, f, a1, h1⟩ := pop_sim hg ha h hf
      obtain ⟨s2, ds, a2, h2, hd, hd'⟩ := clearLoop_sim hg ha d n h1 (by
        show (st.q.erase e).length = n
        rw [List.length_erase_of_mem he]; omega)
      have hv1 : s1.v.vl = s.v.vl := by rw [h1.val, h.val]; rfl
      refine ⟨s2, (if d then [e] else []) ++ ds, ?_, h2, ?_, ?_⟩
      · rw [clearLoop]
        have : isEmpty s = false := by simp [isEmpty, h.sz, hn]
        cases d <;> simp [this, front, hr, a1, a2]
      · rintro rfl
        obtain ⟨p1, p2⟩ := hd rfl
        simp only [if_true, List.singleton_append]
        refine ⟨(p1.cons e).trans (List.perm_cons_erase he).symm, List.pairwise_cons.2 ⟨fun b hb => ?_, ?_⟩⟩
        · exact h.behind hg hr (List.mem_of_mem_erase (p1.subset hb))
        · exact p2.imp (fun hab => hab.congr (by rw [hv1]) (by rw [hv1]))
      · rintro rfl
        simp [hd' rfl]

end CCC.Pq
