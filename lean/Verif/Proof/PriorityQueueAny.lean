import Verif.Proof.PriorityQueueValidate
/-
Proofs about the pairing heap with a comparison function that obeys no rule: the shape of the heap without its order.
-/
namespace CCC.Pq
open CCC PrioQ

variable {α : Type} {c : Cfg α} {s : Pq α} {S R : List Nat} {kids : Nat → List Nat}

theorem merge_any {a b : Nat} (h : Shape s.v S (a :: b :: R) kids) :
    ∃ s' w kids', merge c s (some a) (some b) = some (s', some w) ∧ s'.root = s.root ∧ s'.sz = s.sz ∧
      Shape s'.v S (w :: R) kids' ∧ Keep s.v s'.v (w :: R) ∧ (w = a ∨ w = b) := by
  have ha : a ∈ S := h.root_mem (by simp)
  have hb : b ∈ S := h.root_mem (by simp)
  have hab : a ≠ b := by
    have := h.nodup_all
    simp only [List.cons_append, List.nodup_cons, List.mem_cons] at this
    exact fun e => this.1 (.inl e)
  obtain ⟨x, hx⟩ := live_of (h.live a ha)
  obtain ⟨y, hy⟩ := live_of (h.live b hb)
  by_cases hb' : c.cmp y.val x.val = c.order
  · obtain ⟨s', h1, h2, h3, h4, h5⟩ := linkChild_spec (h.perm_roots (List.Perm.swap b a R))
    refine ⟨s', b, _, ?_, h2, h3, h4, h5, .inr rfl⟩
    simp only [merge, if_neg hab, hx, hy, Option.bind_eq_bind, Option.bind_some, if_pos hb', h1]
  · obtain ⟨s', h1, h2, h3, h4, h5⟩ := linkChild_spec h
    refine ⟨s', a, _, ?_, h2, h3, h4, h5, .inl rfl⟩
    simp only [merge, if_neg hab, hx, hy, Option.bind_eq_bind, Option.bind_some, if_neg hb', h1]

theorem pairLoop_any {eldest : Nat} : ∀ (n : Nat) {s : Pq α} {S R rest : List Nat} {kids : Nat → List Nat} {acc : Nat},
    rest.length ≤ n → Shape s.v S (acc :: (rest ++ R)) kids → Chain s.v eldest rest → eldest ∉ rest →
    ∃ s' acc' rest' kids', pairLoop c s (some eldest) (some acc) (cursor eldest rest) =
        some (s', some acc', cursor eldest rest') ∧ rest'.length ≤ 1 ∧ eldest ∉ rest' ∧ s'.root = s.root ∧ s'.sz = s.sz ∧
      Shape s'.v S (acc' :: (rest' ++ R)) kids' ∧ Keep s.v s'.v R
  | n, s, S, R, [], kids, acc, _, h, _, _ =>
    ⟨s, acc, [], kids, by rw [pairLoop]; simp [cursor], by simp, by simp, rfl, rfl, h, Keep.refl _ _⟩
  | n, s, S, R, [a], kids, acc, _, h, hc, he => by
    have hne : a ≠ eldest := fun e => he (by simp [e])
    obtain ⟨e, hae⟩ := live_of (h.live a (h.root_mem (by simp)))
    have hc' : e.next = some eldest := (view_mem hae).1.symm.trans hc
    refine ⟨s, acc, [a], kids, ?_, by simp, he, rfl, rfl, h, Keep.refl _ _⟩
    rw [pairLoop]
    simp [cursor, hne, hae, hc']
  | 0, s, S, R, a :: b :: rest, kids, acc, hn, _, _, _ => by simp at hn
  | n + 1, s, S, R, a :: b :: rest, kids, acc, hn, h, hc, he => by
    have hae : a ≠ eldest := fun e => he (by simp [e])
    have hbe : b ≠ eldest := fun e => he (by simp [e])
    have hnd := h.nodup_all
    simp only [List.cons_append, List.nodup_cons, List.mem_cons, not_or, List.mem_append] at hnd
    obtain ⟨x, hx⟩ := live_of (h.live a (h.root_mem (by simp)))
    obtain ⟨y, hy⟩ := live_of (h.live b (h.root_mem (by simp)))
    have hxn : x.next = some b := (view_mem hx).1.symm.trans hc.1
    have hyn : y.next = cursor eldest rest := by
      refine (view_mem hy).1.symm.trans ?_
      cases rest with
      | nil => exact hc.2
      | cons d r => exact hc.2.1
    have hcr : Chain s.v eldest rest := by
      cases rest with
      | nil => trivial
      | cons d r => exact hc.2.2
    obtain ⟨s1, a1, b1, c1, d1⟩ := mod_sibs (h.live b (h.root_mem (by simp))) none none
    obtain ⟨s2, a2, b2, c2, d2⟩ := mod_sibs (s := s1) (a := a) (by rw [d1]; exact h.live a (h.root_mem (by simp))) none none
    have hR : ∀ x, x ∉ acc :: (a :: b :: rest ++ R) → x ≠ a ∧ x ≠ b := by
      intro x hx
      constructor
      · rintro rfl; exact hx (by simp)
      · rintro rfl; exact hx (by simp)
    have k2 : ∀ x, x ≠ a → x ≠ b → s2.v.nx x = s.v.nx x ∧ s2.v.pv x = s.v.pv x := by
      intro x h1 h2
      rw [d2, d1]
      exact ⟨by show upd (upd _ _ _) _ _ _ = _; rw [upd_ne _ _ h1, upd_ne _ _ h2],
        by show upd (upd _ _ _) _ _ _ = _; rw [upd_ne _ _ h1, upd_ne _ _ h2]⟩
    have v2 : s2.v.vl = s.v.vl ∧ s2.v.lf = s.v.lf ∧ s2.v.pr = s.v.pr := by rw [d2, d1]; exact ⟨rfl, rfl, rfl⟩
    have sh2 : Shape s2.v S (acc :: (a :: b :: rest ++ R)) kids := by
      refine h.roots_free (by rw [v2.2.1]; exact fun _ _ => rfl) (by rw [v2.1]; exact h.live) (fun x _ hx => ?_) (fun x _ hx => ?_)
        (by rw [v2.2.2]; exact fun _ _ _ => rfl)
      · exact (k2 x (hR x hx).1 (hR x hx).2).1
      · exact (k2 x (hR x hx).1 (hR x hx).2).2
    have sh2' : Shape s2.v S (a :: b :: (acc :: (rest ++ R))) kids := by
      refine sh2.perm_roots ?_
      exact (List.Perm.swap a acc _).trans ((List.Perm.swap b acc _).cons a)
    obtain ⟨s3, w, k3, a3, b3, c3, d3, f3, g3⟩ := merge_any (c := c) sh2'
    obtain ⟨s4, w', k4, a4, b4, c4, d4, f4, g4⟩ :=
      merge_any (c := c) (d3.perm_roots (List.Perm.swap acc w _))
    have hrest : ∀ x ∈ rest ++ R, x ≠ a ∧ x ≠ b := by
      intro z hz
      have hz' := List.mem_append.1 hz
      constructor
      · intro e; subst e
        simp_all
      · intro e; subst e
        simp_all
    have keep2 : Keep s.v s2.v (rest ++ R) :=
      ⟨v2.1, fun x hx => (k2 x (hrest x hx).1 (hrest x hx).2).1, fun x hx => (k2 x (hrest x hx).1 (hrest x hx).2).2,
        by rw [v2.2.2]; exact fun _ _ => rfl⟩
    have keep4 : Keep s.v s4.v (rest ++ R) :=
      (keep2.trans (f3.mono (fun x hx => List.mem_cons_of_mem _ (List.mem_cons_of_mem _ hx)))).trans
        (f4.mono (fun x hx => List.mem_cons_of_mem _ hx))
    obtain ⟨s5, acc5, rest5, k5, a5, b5, c5, d5, e5, f5, h5⟩ := pairLoop_any n (s := s4) (S := S) (R := R) (rest := rest)
      (by simp at hn ⊢; omega) d4 (chain_congr (fun x hx => keep4.nx x (List.mem_append_left _ hx)) hcr)
      (fun h => he (by simp [h]))
    refine ⟨s5, acc5, rest5, k5, ?_, b5, c5, by rw [d5, b4, b3, b2, b1], by rw [e5, c4, c3, c2, c1], f5,
      (keep4.mono (fun x hx => List.mem_append_right _ hx)).trans h5⟩
    rw [pairLoop]
    simp only [cursor, Option.some.injEq, if_neg hae, Option.bind_eq_bind, Option.bind_some, hx, hxn, if_neg hbe, hy, hyn, a1, a2,
      a3, a4]
    exact a5

theorem deleteMin_any {r : Nat} (h : Shape s.v S (r :: R) kids) :
    ∃ s' res kids', deleteMin c s r = some (s', res) ∧ s'.root = s.root ∧ s'.sz = s.sz ∧
      Shape s'.v (S.erase r) (res.toList ++ R) kids' ∧ Keep s.v s'.v R ∧
      (∀ w, res = some w → s'.v.nx w = some w ∧ s'.v.pv w = some w ∧ s'.v.pr w = none) ∧
      (res = none → kids r = []) := by
  have hr : r ∈ S := h.root_mem (by simp)
  obtain ⟨e, he⟩ := live_of (h.live r hr)
  have hel : e.left = (kids r).getLast? := (view_mem he).2.2.1.symm.trans (h.left r hr)
  have hd := h.delete
  by_cases hk : kids r = []
  · refine ⟨s, none, kids, ?_, rfl, rfl, ?_, Keep.refl _ _, by simp, fun _ => hk⟩
    · simp only [deleteMin, he, hel, hk, Option.bind_eq_bind, Option.bind_some, List.getLast?_nil]
    · rw [hk] at hd; exact hd
  · obtain ⟨f, t, q, z, ht, hq⟩ := head_last hk
    have hz : z ∈ kids r := by rw [hq]; simp
    have hf : f ∈ kids r := by rw [ht]; simp
    obtain ⟨el, hzl⟩ := live_of (h.live z (h.kid_mem hr hz))
    obtain ⟨ef, hfl⟩ := live_of (h.live f (h.kid_mem hr hf))
    have hzn : el.next = some f := (view_mem hzl).1.symm.trans (ring_last (h.ring r hr) ht hq)
    have hring := h.ring r hr
    have hknd := h.kids_nodup hr
    rw [ht] at hring hknd hd
    have hlink : Link s.v (f :: t ++ [f]) := hring
    have hfn : ef.next = cursor f t := by
      refine (view_mem hfl).1.symm.trans ?_
      cases t with
      | nil => exact hlink.1.1
      | cons y t => exact hlink.1.1
    have hch : Chain s.v f t := by
      cases t with
      | nil => trivial
      | cons y t => exact ring_chain hlink.2
    obtain ⟨s1, acc, rest, k1, a1, b1, c1, d1, e1, f1, h1⟩ := pairLoop_any (c := c) t.length (s := s) (Nat.le_refl _) hd hch
      (List.nodup_cons.1 hknd).1
    have fin : ∀ (s2 : Pq α) (w : Nat) (k2 : Nat → List Nat), Shape s2.v (S.erase r) (w :: R) k2 →
        Keep s.v s2.v R → s2.root = s.root → s2.sz = s.sz →
        (do let s ← (s2.mod (some w) (fun x => { x with prev := some w, next := some w }))
            let s ← s.mod (some w) (fun x => { x with par := none })
            some (s, some w)) = deleteMin c s r →
        ∃ s' res kids', deleteMin c s r = some (s', res) ∧ s'.root = s.root ∧ s'.sz = s.sz ∧
          Shape s'.v (S.erase r) (res.toList ++ R) kids' ∧ Keep s.v s'.v R ∧
          (∀ w, res = some w → s'.v.nx w = some w ∧ s'.v.pv w = some w ∧ s'.v.pr w = none) ∧
          (res = none → kids r = []) := by
      intro s2 w k2 sh kp r2 z2 heq
      have hw : s2.v.vl w ≠ none := sh.live w (sh.root_mem (by simp))
      obtain ⟨s3, a3, b3, c3, d3⟩ := mod_sibs hw (some w) (some w)
      obtain ⟨s4, a4, b4, c4, d4⟩ := mod_par (s := s3) (a := w) (by rw [d3]; exact hw) none
      have hwR : ∀ x ∈ R, x ≠ w := by
        rintro x hx rfl
        have := sh.nodup_all
        simp only [List.cons_append, List.nodup_cons, List.mem_append, not_or] at this
        exact this.1.1 hx
      refine ⟨s4, some w, k2, ?_, by rw [b4, b3, r2], by rw [c4, c3, z2], ?_, ?_, ?_, by simp⟩
      · rw [← heq, a3]
        simp only [Option.bind_eq_bind, Option.bind_some, a4]
      · refine sh.roots_free (by rw [d4, d3]; exact fun _ _ => rfl) (by rw [d4, d3]; exact sh.live) (fun x _ hx => ?_) (fun x _ hx => ?_)
          (fun x _ hx => ?_)
        · rw [d4, d3]; exact upd_ne _ _ (fun e => hx (by simp [e]))
        · rw [d4, d3]; exact upd_ne _ _ (fun e => hx (by simp [e]))
        · rw [d4, d3]; exact upd_ne _ _ (fun e => hx (by simp [e]))
      · refine kp.trans ⟨by rw [d4, d3], fun x hx => ?_, fun x hx => ?_, fun x hx => ?_⟩
        · rw [d4, d3]; exact upd_ne _ _ (hwR x hx)
        · rw [d4, d3]; exact upd_ne _ _ (hwR x hx)
        · rw [d4, d3]; exact upd_ne _ _ (hwR x hx)
      · intro w' hw'
        cases hw'
        rw [d4, d3]
        exact ⟨upd_same _ _ _, upd_same _ _ _, upd_same _ _ _⟩
    match rest, b1, c1, a1, f1 with
    | [], _, _, a1, f1 =>
      refine fin s1 acc k1 f1 h1 d1 e1 ?_
      simp only [deleteMin, he, hel, hq, Option.bind_eq_bind, Option.bind_some, List.getLast?_append, List.getLast?_singleton,
        Option.some_or, hzl, hzn, hfl, hfn, a1]
      simp only [cursor, ne_eq, not_true_eq_false, if_false, Option.bind_some]
    | [d], _, c1, a1, f1 =>
      have hdf : d ≠ f := fun e => c1 (by simp [e])
      obtain ⟨s2, w, k2, a2, b2, c2, d2, f2, _⟩ := merge_any (c := c) f1
      refine fin s2 w k2 d2 (h1.trans (f2.mono (fun x hx => List.mem_cons_of_mem _ hx))) (by rw [b2, d1]) (by rw [c2, e1]) ?_
      simp only [deleteMin, he, hel, hq, Option.bind_eq_bind, Option.bind_some, List.getLast?_append, List.getLast?_singleton,
        Option.some_or, hzl, hzn, hfl, hfn, a1]
      simp only [cursor, ne_eq, Option.some.injEq, hdf, not_false_eq_true, if_true, a2, Option.bind_some]
    | _ :: _ :: _, b1, _, _, _ => simp at b1

theorem deleteNode_any {e : Nat} (h : Shape s.v S s.root.toList kids) (he : e ∈ S) {st : Bool}
    (ht : ∀ r, s.root = some r → Top s.v r st) :
    ∃ s' res kids', deleteNode c s e = some (s', res) ∧ s'.sz = s.sz ∧
      Shape s'.v (S.erase e) res.toList kids' ∧ s'.v.vl = s.v.vl ∧
      (∀ w, res = some w → Top s'.v w (s.root != some e && st)) := by
  cases hr : s.root with
  | none =>
    have := h.roots_ne he
    rw [hr] at this; simp at this
  | some r =>
    rw [hr] at h
    by_cases hre : r = e
    · subst hre
      obtain ⟨s', res, k', a1, b1, c1, d1, f1, g1, _⟩ := deleteMin_any (c := c) h
      refine ⟨s', res, k', ?_, c1, by simpa using d1, f1.vl, fun w hw => ?_⟩
      · simp only [deleteNode, hr, if_true, a1]
      · obtain ⟨x, y, z⟩ := g1 w hw
        exact top_self ⟨x, y, z⟩ _
    · have hne : e ∉ (some r).toList := by simp; exact fun h => hre h.symm
      obtain ⟨s1, k1, a1, b1, c1, d1, e1, f1, _⟩ := cutChild_spec h he hne
      obtain ⟨s2, res, k2, a2, b2, c2, d2, f2, g2, _⟩ := deleteMin_any (c := c) d1
      have hroot : s2.root = some r := by rw [b2, b1, hr]
      have hre' : s.root ≠ some e := by rw [hr]; simpa using hre
      have hb : (some r != some e && st) = st := by simp [hre]
      cases res with
      | none =>
        refine ⟨s2, some r, k2, ?_, by rw [c2, c1], by simpa using d2, by rw [f2.vl, e1.vl], fun w hw => ?_⟩
        · simp only [deleteNode, if_neg hre', a1, a2, Option.bind_eq_bind, Option.bind_some, hroot, merge]
        · cases hw
          rw [hb]
          exact ((ht r hr).keep e1 (by simp)).keep f2 (by simp)
      | some w =>
        have d2' : Shape s2.v (S.erase e) (r :: w :: []) k2 := d2.perm_roots (by simpa using List.Perm.swap r w [])
        obtain ⟨s3, w', k3, a3, b3, c3, d3, f3, g3⟩ := merge_any (c := c) d2'
        refine ⟨s3, some w', k3, ?_, by rw [c3, c2, c1], by simpa using d3, by rw [f3.vl, f2.vl, e1.vl], fun x hx => ?_⟩
        · simp only [deleteNode, if_neg hre', a1, a2, Option.bind_eq_bind, Option.bind_some, hroot, a3]
        · cases hx
          rw [hb]
          rcases g3 with rfl | rfl
          · exact (((ht w' hr).keep e1 (by simp)).keep f2 (by simp)).keep f3 (by simp)
          · exact (top_self (g2 w' rfl) _).keep f3 (by simp)

/-- `init_node` and `merge` with the root. -/
theorem insert_any {e : Nat} {st : Bool} (h : Shape s.v S s.root.toList kids) (he : e ∉ S)
    (hl : s.v.vl e ≠ none) (ht : ∀ r, s.root = some r → Top s.v r st) :
    ∃ s1 s2 w kids', initNode s e = some s1 ∧ s1.sz = s.sz ∧ merge c s1 s1.root (some e) = some (s2, some w) ∧ s2.sz = s.sz ∧
      s2.v.vl = s.v.vl ∧ Shape s2.v (e :: S) [w] kids' ∧ (w ≠ e → some w = s.root) ∧
      Top s2.v w (st && some w != some e) := by
  obtain ⟨s1, a1, b1, c1, d1⟩ := initNode_view hl
  have hne : ∀ a ∈ S, a ≠ e := by rintro a ha rfl; exact he ha
  have sh : Shape s1.v (e :: S) (e :: s.root.toList) (upd kids e []) := by
    refine h.add he (fun a ha => ?_) (fun a ha => ?_) (fun a ha => ?_) (fun a ha => ?_) (fun a ha => ?_) ?_ ?_ <;> rw [d1]
    · exact upd_ne _ _ (hne a ha)
    · exact upd_ne _ _ (hne a ha)
    · exact upd_ne _ _ (hne a ha)
    · exact upd_ne _ _ (hne a ha)
    · exact h.live a ha
    · exact upd_same _ _ _
    · exact hl
  have tope : s1.v.nx e = some e ∧ s1.v.pv e = some e ∧ s1.v.pr e = none := by
    rw [d1]; exact ⟨upd_same _ _ _, upd_same _ _ _, upd_same _ _ _⟩
  have v1 : s1.v.vl = s.v.vl := by rw [d1]
  cases hr : s.root with
  | none =>
    rw [hr] at sh
    refine ⟨s1, s1, e, _, a1, c1, ?_, c1, v1, by simpa using sh, fun h => absurd rfl h, top_self tope _⟩
    rw [b1, hr]; rfl
  | some r =>
    rw [hr] at sh h
    have hrS : r ∈ S := h.root_mem (by simp)
    obtain ⟨s2, w, k2, a2, b2, c2, d2, f2, g2⟩ := merge_any (c := c) (sh.perm_roots (List.Perm.swap r e []))
    refine ⟨s1, s2, w, k2, a1, c1, by rw [b1, hr]; exact a2, by rw [c2, c1], by rw [f2.vl, v1], d2, ?_, ?_⟩
    · intro hw
      rcases g2 with h | h
      · rw [h]
      · exact absurd h hw
    · by_cases hwe : w = e
      · subst hwe
        exact (top_self tope _).keep f2 (by simp)
      · have hw : w = r := g2.resolve_right hwe
        subst hw
        have h1 : Top s1.v w st := (ht w hr).congr (by rw [d1]; exact upd_ne _ _ hwe) (by rw [d1]; exact upd_ne _ _ hwe)
          (by rw [d1]; exact upd_ne _ _ hwe)
        exact (h1.keep f2 (by simp)).weak (by simp [hwe])

/-- `cut_child` and `merge` with the root. -/
theorem raise_any {e : Nat} {st : Bool} (h : Shape s.v S s.root.toList kids) (he : e ∈ S)
    (ht : ∀ r, s.root = some r → Top s.v r st)
    (hst : s.root = some e → st = false) :
    ∃ s1 s2 w kids', cutChild s e = some s1 ∧ s1.sz = s.sz ∧ merge c s1 s1.root (some e) = some (s2, some w) ∧ s2.sz = s.sz ∧
      s2.v.vl = s.v.vl ∧ Shape s2.v S [w] kids' ∧ (w ≠ e → some w = s.root) ∧
      Top s2.v w (s.root != some e && (st || some w == some e)) := by
  cases hr : s.root with
  | none =>
    have := h.roots_ne he
    rw [hr] at this; simp at this
  | some r =>
    rw [hr] at h
    by_cases hre : r = e
    · subst hre
      have ht' := ht r hr
      have hs := ht'.2.2.2 (hst hr)
      obtain ⟨s1, a1, b1, c1, d1⟩ := cutChild_view (h.live r he) hs.1 hs.2 (h.live r he) (h.live r he) (by rw [ht'.2.2.1]; simp)
      have hv : s1.v = s.v := by
        rw [d1, ht'.2.2.1]
        simp only []
        rw [upd_id' hs.1.symm, upd_id' hs.2.symm, upd_id' ht'.2.2.1.symm]
      refine ⟨s1, s1, r, kids, a1, c1, ?_, c1, by rw [hv], by rw [hv]; exact h, fun h => absurd rfl h, ?_⟩
      · rw [b1, hr]; simp [merge]
      · rw [hv]; exact top_self ⟨hs.1, hs.2, ht'.2.2.1⟩ _
    · have hne : e ∉ (some r).toList := by simp; exact fun h => hre h.symm
      obtain ⟨s1, k1, a1, b1, c1, d1, e1, f1, n1, p1, r1, _⟩ := cutChild_spec h he hne
      obtain ⟨s2, w, k2, a2, b2, c2, d2, f2, g2⟩ := merge_any (c := c) (d1.perm_roots (List.Perm.swap r e []))
      refine ⟨s1, s2, w, k2, a1, c1, by rw [b1, hr]; exact a2, by rw [c2, c1], by rw [f2.vl, e1.vl], d2, ?_, ?_⟩
      · intro hw
        rcases g2 with h | h
        · rw [h]
        · exact absurd h hw
      · by_cases hwe : w = e
        · subst hwe
          have : Top s1.v w true := ⟨n1, p1, r1, by simp⟩
          refine (this.keep f2 (by simp)).weak ?_
          simp; exact hre
        · have hw : w = r := g2.resolve_right hwe
          subst hw
          refine (((ht w hr).keep e1 (by simp)).keep f2 (by simp)).weak ?_
          simp [hre]

/-- The state of the program and that of the specification, without the order. -/
structure Blind (s : Pq α) (st : St α) : Prop where
  heap : ∃ kids, Shape s.v st.q s.root.toList kids
  val : s.v.vl = st.val
  root : s.root = st.front
  sz : s.sz = st.q.length
  top : ∀ r, s.root = some r → Top s.v r st.stale

/-- There is a front element unless the queue is empty. -/
theorem Blind.front {st : St α} (h : Blind s st) : (st.front = none → st.q = []) ∧ ∀ f, st.front = some f → f ∈ st.q := by
  obtain ⟨kids, sh⟩ := h.heap
  constructor
  · intro hf
    apply Classical.byContradiction
    intro hq
    obtain ⟨a, t, ht⟩ := List.exists_cons_of_ne_nil hq
    have := sh.roots_ne (a := a) (by rw [ht]; simp)
    rw [h.root, hf] at this; simp at this
  · intro f hf
    rw [h.root, hf] at sh
    exact sh.root_mem (by simp)

theorem Blind.live {st : St α} (h : Blind s st) {e : Nat} (he : e ∈ st.q) : s.v.vl e ≠ none := by
  obtain ⟨kids, sh⟩ := h.heap
  exact sh.live e he

/-- An element of the queue has siblings, at least itself. -/
theorem Blind.sibs {st : St α} (h : Blind s st) {e : Nat} (he : e ∈ st.q) :
    ∃ x, s.mem e = some x ∧ ¬ (x.next = none ∨ x.prev = none) ∧ s.root ≠ none := by
  obtain ⟨kids, sh⟩ := h.heap
  obtain ⟨x, hx⟩ := live_of (sh.live e he)
  obtain ⟨e1, e2, _⟩ := view_mem hx
  refine ⟨x, hx, ?_, fun hr => ?_⟩
  · rcases sh.root_or_kid he with hr | ⟨p, hp, hk⟩
    · have := h.top e (by simpa using hr)
      rw [← e1, ← e2]
      rintro (h | h)
      · exact this.1 h
      · exact this.2.1 h
    · obtain ⟨n, q, h1, h2, _⟩ := ring_some (sh.ring p hp) hk
      rw [← e1, ← e2, h1, h2]; simp
  · have := sh.roots_ne he
    rw [hr] at this; simp at this

theorem push_any (ha : c.alloc = false) {st : St α} (h : Blind s st) {e : Nat} (ans : Slot) (he : e ∉ st.q)
    (hv : st.val e ≠ none) :
    ∃ s' f, push c s e ans = some (s', some e) ∧ Blind s' { st with q := e :: st.q, front := f, stale := st.stale && f != some e } := by
  obtain ⟨kids, sh⟩ := h.heap
  obtain ⟨s1, s2, w, k, a1, c1, a2, c2, v2, sh2, _, t2⟩ := insert_any (c := c) sh he (by rw [h.val]; exact hv) h.top
  refine ⟨{ s2 with root := some w, sz := s2.sz + 1 }, some w, ?_, ⟨k, sh2⟩, v2.trans h.val, rfl, ?_, ?_⟩
  · simp only [push, a1, ha, Bool.false_eq_true, if_false, Option.bind_eq_bind, Option.bind_some, a2]
  · show s2.sz + 1 = _
    rw [c2, h.sz]; simp
  · intro r hr
    cases hr
    exact t2

theorem pop_none_any {st : St α} (h : Blind s st) (hf : st.front = none) : pop c s = some (s, .inputErr) := by
  simp only [pop, h.root, hf]

/-- Fields of an element outside the queue do not matter. -/
theorem Blind.outside {st : St α} (h : Blind s st) {e : Nat} {s' : Pq α} (he : e ∉ st.q) (hr : s'.root = s.root) (hz : s'.sz = s.sz)
    (hm : ∀ a, a ≠ e → s'.mem a = s.mem a) : Blind s' { st with val := upd st.val e (s'.v.vl e) } := by
  have hv : ∀ a, a ≠ e → s'.v.nx a = s.v.nx a ∧ s'.v.pv a = s.v.pv a ∧ s'.v.lf a = s.v.lf a ∧ s'.v.pr a = s.v.pr a ∧
      s'.v.vl a = s.v.vl a := by
    intro a ha
    simp only [Pq.v, hm a ha, and_self]
  have hne : ∀ a ∈ st.q, a ≠ e := by rintro a ha rfl; exact he ha
  obtain ⟨kids, sh⟩ := h.heap
  refine ⟨⟨kids, ?_⟩, ?_, by rw [hr]; exact h.root, by rw [hz]; exact h.sz, ?_⟩
  · rw [hr]
    exact sh.congr (fun a ha => (hv a (hne a ha)).1) (fun a ha => (hv a (hne a ha)).2.1) (fun a ha => (hv a (hne a ha)).2.2.1)
      (fun a ha => (hv a (hne a ha)).2.2.2.1) (fun a ha => by rw [(hv a (hne a ha)).2.2.2.2]; exact sh.live a ha)
  · funext a
    by_cases hae : a = e
    · subst hae; simp
    · show s'.v.vl a = upd st.val e _ a
      rw [upd_ne _ _ hae, (hv a hae).2.2.2.2, h.val]
  · intro r hr'
    rw [hr] at hr'
    have : r ∈ st.q := sh.root_mem (by rw [hr']; simp)
    exact (h.top r hr').congr (hv r (hne r this)).1 (hv r (hne r this)).2.1 (hv r (hne r this)).2.2.2.1

/-- Taking one element out. -/
theorem delete_any {st : St α} (h : Blind s st) {e : Nat} (he : e ∈ st.q) :
    ∃ s' f, deleteNode c s e = some (s', f) ∧ s'.sz = s.sz ∧ Blind { s' with root := f, sz := s'.sz - 1 } (st.without e f) ∧
      s'.v.vl = s.v.vl := by
  obtain ⟨kids, sh⟩ := h.heap
  obtain ⟨s1, f, k, a1, c1, sh1, v1, r1⟩ := deleteNode_any (c := c) sh he h.top
  refine ⟨s1, f, a1, c1, ⟨⟨k, sh1⟩, v1.trans h.val, rfl, ?_, ?_⟩, v1⟩
  · show s1.sz - 1 = (st.q.erase e).length
    rw [c1, h.sz, List.length_erase_of_mem he]
  · intro r hr
    refine (r1 r hr).weak ?_
    show (st.stale && st.front != some e) = false → _
    rw [h.root, Bool.and_comm]
    exact id

theorem pop_any (ha : c.alloc = false) {st : St α} (h : Blind s st) {e : Nat} (hf : st.front = some e) :
    ∃ s' f, pop c s = some (s', .ok) ∧ Blind s' (st.without e f) := by
  have hr : s.root = some e := by rw [h.root, hf]
  obtain ⟨kids, sh⟩ := h.heap
  have he : e ∈ st.q := by rw [hr] at sh; exact sh.root_mem (by simp)
  obtain ⟨s1, f, a1, c1, sm, v1⟩ := delete_any (c := c) h he
  have a1' : deleteMin c s e = some (s1, f) := by
    rw [← a1]; simp only [deleteNode, hr, if_true]
  obtain ⟨s2, a2, b2, c2, d2⟩ := clearNode_view (s := { s1 with root := f, sz := s1.sz - 1 }) (a := e) (by
    show s1.v.vl e ≠ none; rw [v1]; exact h.live he)
  refine ⟨s2, f, ?_, ?_⟩
  · simp only [pop, hr, a1', Option.bind_eq_bind, Option.bind_some, a2, ha, Bool.false_eq_true, if_false]
  · have hnot : e ∉ (st.without e f).q := by
      show e ∉ st.q.erase e
      rw [sh.nodup.mem_erase_iff]; simp
    have := sm.outside hnot b2 c2 (mod_mem a2).2.2
    rwa [upd_id' (by rw [d2]; exact congrFun sm.val e)] at this

theorem extract_any {st : St α} (h : Blind s st) {e : Nat} (he : e ∈ st.q) :
    ∃ s' f, extract c s e = some (s', some e) ∧ Blind s' (st.without e f) := by
  obtain ⟨x, hx, hn, hrn⟩ := h.sibs he
  obtain ⟨kids, sh⟩ := h.heap
  obtain ⟨s1, f, a1, c1, sm, v1⟩ := delete_any (c := c) h he
  obtain ⟨s2, a2, b2, c2, d2⟩ := clearNode_view (s := { s1 with root := f, sz := s1.sz - 1 }) (a := e) (by
    show s1.v.vl e ≠ none; rw [v1]; exact h.live he)
  refine ⟨s2, f, ?_, ?_⟩
  · simp only [extract, if_neg hrn, hx, if_neg hn, a1, Option.bind_eq_bind, Option.bind_some, a2]
  · have hnot : e ∉ (st.without e f).q := by
      show e ∉ st.q.erase e
      rw [sh.nodup.mem_erase_iff]; simp
    have := sm.outside hnot b2 c2 (mod_mem a2).2.2
    rwa [upd_id' (by rw [d2]; exact congrFun sm.val e)] at this

theorem erase_any (ha : c.alloc = false) {st : St α} (h : Blind s st) {e : Nat} (he : e ∈ st.q) :
    ∃ s' f, erase c s e = some (s', .ok) ∧ Blind s' (st.without e f) := by
  obtain ⟨x, hx, hn, hrn⟩ := h.sibs he
  obtain ⟨s1, f, a1, c1, sm, v1⟩ := delete_any (c := c) h he
  refine ⟨_, f, ?_, sm⟩
  simp only [erase, if_neg hrn, hx, if_neg hn, a1, Option.bind_eq_bind, Option.bind_some, ha, Bool.false_eq_true, if_false]

/-- The heap right after the user's function changed an element. -/
theorem changed_any {st : St α} (h : Blind s st) {e : Nat} (he : e ∈ st.q) (f : α → α) :
    ∃ s1 kids, s.mod (some e) (fun x => { x with val := f x.val }) = some s1 ∧ s1.root = s.root ∧ s1.sz = s.sz ∧
      Shape s.v st.q s.root.toList kids ∧ Shape s1.v st.q s1.root.toList kids ∧
      s1.v = { s.v with vl := upd s.v.vl e ((s.v.vl e).map f) } := by
  obtain ⟨kids, sh⟩ := h.heap
  obtain ⟨s1, a1, b1, c1, d1⟩ := mod_val (h.live he) f
  refine ⟨s1, kids, a1, b1, c1, sh, ?_, d1⟩
  · rw [b1]
    refine sh.congr (by rw [d1]; simp) (by rw [d1]; simp) (by rw [d1]; simp) (by rw [d1]; simp) (fun a ha => ?_)
    rw [d1]
    show upd _ _ _ a ≠ none
    by_cases hae : a = e
    · subst hae; rw [upd_same]
      obtain ⟨y, hy⟩ := Option.ne_none_iff_exists'.1 (sh.live a ha)
      rw [hy]; simp
    · rw [upd_ne _ _ hae]; exact sh.live a ha

/-- Deleting a changed element and putting it back. -/
theorem slow_any {st : St α} (h : Blind s st) {e : Nat} (he : e ∈ st.q) (f : α → α) {s1 : Pq α}
    (h1 : s.mod (some e) (fun x => { x with val := f x.val }) = some s1) :
    ∃ s2 r2 s3 s4 w, deleteNode c s1 e = some (s2, r2) ∧ initNode { s2 with root := r2 } e = some s3 ∧
      merge c s3 s3.root (some e) = some (s4, some w) ∧ Blind { s4 with root := some w } (st.change e f (some w)) := by
  obtain ⟨s1', kids, a1, b1, c1, sh, sh1, d1⟩ := changed_any h he f
  rw [h1] at a1; cases a1
  obtain ⟨s2, r2, k2, a2, c2, sh2, v2, t2⟩ := deleteNode_any (c := c) (st := st.stale) sh1 he
    (fun r hr => (h.top r (by rw [← b1]; exact hr)).congr (by rw [d1]) (by rw [d1]) (by rw [d1]))
  have htop : ∀ r, r2 = some r → Top s2.v r (s.root != some e && st.stale) := by rw [← b1]; exact t2
  have hnot : e ∉ st.q.erase e := by rw [sh.nodup.mem_erase_iff]; simp
  obtain ⟨s3, s4, w, k4, a3, c3, a4, c4, v4, sh4, w4, t4⟩ :=
    insert_any (c := c) (s := { s2 with root := r2 }) sh2 hnot (by show s2.v.vl e ≠ none; rw [v2]; exact sh1.live e he) htop
  have hp : (e :: st.q.erase e).Perm st.q := (List.perm_cons_erase he).symm
  refine ⟨s2, r2, s3, s4, w, a2, a3, a4, ⟨k4, sh4.perm_set hp⟩, ?_, rfl, ?_, ?_⟩
  · show s4.v.vl = _
    rw [v4]
    show s2.v.vl = _
    rw [v2, d1]
    exact change_val st e f _ h.val _
  · show s4.sz = st.q.length
    rw [c4]; show s2.sz = _
    rw [c2, c1, h.sz]
  · intro r hr
    cases hr
    refine t4.weak ?_
    show (st.front != some e && (st.stale || some w == some e)) = false → _
    rw [h.root]
    cases (st.front != some e) <;> cases st.stale <;> simp

/-- Moving a changed element up. -/
theorem fast_any {st : St α} (h : Blind s st) {e : Nat} (he : e ∈ st.q) (f : α → α) {s1 : Pq α}
    (h1 : s.mod (some e) (fun x => { x with val := f x.val }) = some s1)
    (hst : st.front = some e → st.stale = false) :
    ∃ s3 s4 w, cutChild s1 e = some s3 ∧ merge c s3 s3.root (some e) = some (s4, some w) ∧
      Blind { s4 with root := some w } (st.change e f (some w)) := by
  obtain ⟨s1', kids, a1, b1, c1, sh, sh1, d1⟩ := changed_any h he f
  rw [h1] at a1; cases a1
  obtain ⟨s3, s4, w, k4, a3, c3, a4, c4, v4, sh4, w4, t4⟩ := raise_any (c := c) (st := st.stale) sh1 he
    (fun r hr => (h.top r (by rw [← b1]; exact hr)).congr (by rw [d1]) (by rw [d1]) (by rw [d1]))
    (fun hr => hst (by rw [← h.root, ← b1]; exact hr))
  refine ⟨s3, s4, w, a3, a4, ⟨k4, sh4⟩, ?_, rfl, ?_, ?_⟩
  · show s4.v.vl = _
    rw [v4, d1]
    exact change_val st e f _ h.val _
  · show s4.sz = st.q.length
    rw [c4, c1, h.sz]
  · intro r hr
    cases hr
    rw [b1, h.root] at t4
    exact t4

theorem update_any {st : St α} (h : Blind s st) {e : Nat} (he : e ∈ st.q) (f : α → α) :
    ∃ s' w, update c s e f = some (s', true) ∧ Blind s' (st.change e f w) := by
  obtain ⟨x, hx, hn, hrn⟩ := h.sibs he
  obtain ⟨s1, kids, a1, b1, c1, sh, sh1, d1⟩ := changed_any h he f
  obtain ⟨x1, hx1⟩ := live_of (sh1.live e he)
  have hpar : x1.par = s.v.pr e := by
    refine (view_mem hx1).2.2.2.1.symm.trans ?_; rw [d1]
  obtain ⟨s2, r2, s3, s4, w, a2, a3, a4, hs⟩ := slow_any (c := c) h he f a1
  rcases sh.root_or_kid he with hr | ⟨p, hp, hk⟩
  · have hp0 := (h.top e (by simpa using hr)).2.2.1
    refine ⟨_, some w, ?_, hs⟩
    simp only [update, change, hx, if_neg hn, a1, updateFixup, hx1, hpar, hp0, Option.bind_eq_bind, Option.bind_some,
      Bool.false_eq_true, if_false, a2, a3, a4]
  · have hpe := sh.par p hp e hk
    obtain ⟨z, hz⟩ := live_of (sh1.live p hp)
    by_cases hb : c.cmp x1.val z.val = c.order
    · obtain ⟨s3, s4, w, a3, a4, hs⟩ := fast_any (c := c) h he f a1 (by
        intro hf
        exfalso
        rw [← h.root] at hf
        exact sh.root_not_kid (by rw [hf]; simp) hp hk)
      refine ⟨_, some w, ?_, hs⟩
      simp only [update, change, hx, if_neg hn, a1, updateFixup, hx1, hpar, hpe, hz, Option.bind_eq_bind, Option.bind_some, hb,
        decide_true, if_true, a3, a4]
    · refine ⟨_, some w, ?_, hs⟩
      simp only [update, change, hx, if_neg hn, a1, updateFixup, hx1, hpar, hpe, hz, Option.bind_eq_bind, Option.bind_some, hb,
        decide_false, Bool.false_eq_true, if_false, a2, a3, a4]

theorem fixup_any {st : St α} (h : Blind s st) {e : Nat} (he : e ∈ st.q) (f : α → α) (up : Bool)
    (hup : up = true → st.front = some e → st.stale = false) :
    ∃ s' w, change s e f (fixup c · e up) = some (s', true) ∧ Blind s' (st.change e f w) := by
  obtain ⟨x, hx, hn, hrn⟩ := h.sibs he
  obtain ⟨s1, kids, a1, b1, c1, sh, sh1, d1⟩ := changed_any h he f
  cases up with
  | false =>
    obtain ⟨s2, r2, s3, s4, w, a2, a3, a4, hs⟩ := slow_any (c := c) h he f a1
    refine ⟨_, some w, ?_, hs⟩
    simp only [change, hx, if_neg hn, a1, fixup, Bool.false_eq_true, if_false, Option.bind_eq_bind, Option.bind_some, a2, a3, a4]
  | true =>
    obtain ⟨s3, s4, w, a3, a4, hs⟩ := fast_any (c := c) h he f a1 (hup rfl)
    refine ⟨_, some w, ?_, hs⟩
    simp only [change, hx, if_neg hn, a1, fixup, if_true, Option.bind_eq_bind, Option.bind_some, a3, a4]

/-- Emptying the queue; the destructor sees every element once. -/
theorem clearLoop_any (ha : c.alloc = false) (d : Bool) : ∀ (n : Nat) {s : Pq α} {st : St α}, Blind s st → st.q.length = n →
    ∃ s' ds, clearLoop c s d = some (s', ds) ∧ Blind s' { st with q := [], front := none, stale := false } ∧
      (d = true → ds.Perm st.q) ∧ (d = false → ds = [])
  | 0, s, st, h, hn => by
    have hq : st.q = [] := List.length_eq_zero_iff.1 hn
    refine ⟨s, [], ?_, ?_, ?_, fun _ => rfl⟩
    · rw [clearLoop]; simp [isEmpty, h.sz, hn]
    · have hf : st.front = none := by
        cases hf : st.front with
        | none => rfl
        | some f =>
          obtain ⟨kids, sh⟩ := h.heap
          have := sh.root_mem (a := f) (by rw [h.root, hf]; simp)
          rw [hq] at this; simp at this
      have hr : s.root = none := by rw [h.root, hf]
      obtain ⟨kids, sh⟩ := h.heap
      rw [hq] at sh
      exact ⟨⟨kids, sh⟩, h.val, hr, by rw [h.sz, hn]; rfl, by rw [hr]; simp⟩
    · intro _; rw [hq]
  | n + 1, s, st, h, hn => by
    obtain ⟨kids, sh⟩ := h.heap
    cases hf : st.front with
    | none =>
      rw [h.front.1 hf] at hn; simp at hn
    | some e =>
      have hr : s.root = some e := by rw [h.root, hf]
      have he : e ∈ st.q := by rw [hr] at sh; exact sh.root_mem (by simp)
      obtain ⟨s1, f, a1, h1⟩ := pop_any (c := c) ha h hf
      obtain ⟨s2, ds, a2, h2, hd, hd'⟩ := clearLoop_any ha d n h1 (by
        show (st.q.erase e).length = n
        rw [List.length_erase_of_mem he]; omega)
      refine ⟨s2, (if d then [e] else []) ++ ds, ?_, h2, ?_, ?_⟩
      · rw [clearLoop]
        have : isEmpty s = false := by simp [isEmpty, h.sz, hn]
        cases d <;> simp [this, front, hr, a1, a2]
      · rintro rfl
        simp only [if_true, List.singleton_append]
        exact ((hd rfl).cons e).trans (List.perm_cons_erase he).symm
      · rintro rfl
        simp [hd' rfl]

theorem linksLoop_any (h : Shape s.v S R kids) {rk : Nat → Nat}
    (hrk : ∀ a ∈ S, ∀ k ∈ kids a, rk k < rk a) : ∀ (n : Nat) (p : Nat), p ∈ S → rk p ≤ n → ∀ (q : List Nat) (z : Nat), kids p = q ++ [z] →
      ∀ (rest : List Nat) (cur : Nat), (∀ x ∈ cur :: rest, x ∈ kids p) → z ∉ rest → Chain s.v z (cur :: rest) →
      ∃ b, linksLoop c s (some p) z (some cur) = some b := by
  intro n
  induction n with
  | zero =>
    intro p hp hn q z hq
    have := hrk p hp z (by rw [hq]; simp)
    omega
  | succ n ihn =>
    intro p hp hn q z hq rest
    induction rest with
    | nil => ?_
    | cons b rest ihr => ?_
    all_goals
      intro cur hm hz hc
      have hzk : z ∈ kids p := by rw [hq]; simp
      have hcur : cur ∈ kids p := hm cur (by simp)
      have hcS := h.kid_mem hp hcur
      obtain ⟨ez, hez⟩ := live_of (h.live z (h.kid_mem hp hzk))
      obtain ⟨ep, hep⟩ := live_of (h.live p hp)
      obtain ⟨x, hx⟩ := live_of (h.live cur hcS)
      obtain ⟨nn, pp, hn1, hp1, hnk, hpk, hn2, hp2⟩ := ring_some (h.ring p hp) hzk
      obtain ⟨en, hen⟩ := live_of (h.live nn (h.kid_mem hp hnk))
      obtain ⟨epp, hepp⟩ := live_of (h.live pp (h.kid_mem hp hpk))
      have e1 : ez.par = some p := (view_mem hez).2.2.2.1.symm.trans (h.par p hp z hzk)
      have e2 : ez.next = some nn := (view_mem hez).1.symm.trans hn1
      have e3 : ez.prev = some pp := (view_mem hez).2.1.symm.trans hp1
      have e4 : en.prev = some z := (view_mem hen).2.1.symm.trans hn2
      have e5 : epp.next = some z := (view_mem hepp).1.symm.trans hp2
      have e6 : x.left = (kids cur).getLast? := (view_mem hx).2.2.1.symm.trans (h.left cur hcS)
      have e8 : x.next = cursor z _ := (view_mem hx).1.symm.trans hc.next
      have sub : x.left = none ∨ ∃ l b, x.left = some l ∧ linksLoop c s (some cur) l (some l) = some b := by
        rw [e6]
        by_cases hk : kids cur = []
        · rw [hk]; exact .inl rfl
        · obtain ⟨q', z', hq', hz'⟩ := young hk (h.kids_nodup hcS)
          have hlast : (kids cur).getLast? = some z' := by rw [hq']; simp
          have hall : ∀ y ∈ z' :: q', y ∈ kids cur := by
            intro y hy
            rw [hq']
            simp only [List.mem_cons, List.mem_append, List.not_mem_nil, or_false] at hy ⊢
            exact hy.symm
          obtain ⟨b', hb'⟩ := ihn cur hcS (by have := hrk p hp cur hcur; omega) q' z' hq' q' z' hall hz'
            (ring_young (h.ring cur hcS) hq')
          exact .inr ⟨z', b', hlast, hb'⟩
      rw [linksLoop.eq_def]
      simp only [hez, e1, e2, e3, hep, hen, hepp, e4, e5, hx, Option.bind_eq_bind, Option.bind_some, ne_eq, not_true_eq_false,
        and_false, if_false, decide_false, Bool.false_eq_true, Bool.not_true, reduceCtorEq, not_false_eq_true, e8]
      generalize decide (c.cmp ep.val x.val = if c.order = .les then .grt else .les) = bad
      cases bad
      rotate_left
      · exact ⟨false, by simp⟩
    · rcases sub with h0 | ⟨l, b, h0, h1⟩
      · simp [cursor, h0]
      · cases b <;> simp [cursor, h0, h1]
    · have hzb : b ≠ z := fun e => hz (by simp [e])
      obtain ⟨b', fin⟩ := ihr b (fun y hy => hm y (List.mem_cons_of_mem _ hy)) (fun h => hz (List.mem_cons_of_mem _ h)) hc.rest
      rcases sub with h0 | ⟨l, b, h0, h1⟩
      · simp [cursor, h0, hzb, fin]
      · cases b <;> simp [cursor, h0, h1, hzb, fin]

theorem validate_any {st : St α} (h : Blind s st) (hst : st.stale = false) :
    ∃ b, validate c s = some b := by
  obtain ⟨kids, sh⟩ := h.heap
  obtain ⟨rk, hrk⟩ := sh.rank
  cases hr : s.root with
  | none =>
    have hq : st.q = [] := by
      apply Classical.byContradiction
      intro hq
      obtain ⟨a, t, ht⟩ := List.exists_cons_of_ne_nil hq
      have := sh.roots_ne (a := a) (by rw [ht]; simp)
      rw [hr] at this; simp at this
    have hz : s.sz = 0 := by rw [h.sz, hq]; rfl
    simp [validate, hr, hasValidLinks, traversalSize, hz]
  | some r =>
    rw [hr] at sh
    have hrS : r ∈ st.q := sh.root_mem (by simp)
    obtain ⟨x, hx⟩ := live_of (sh.live r hrS)
    obtain ⟨t1, t2, t3, t4⟩ := h.top r hr
    obtain ⟨t4, t5⟩ := t4 hst
    have e1 : x.next = some r := (view_mem hx).1.symm.trans t4
    have e2 : x.prev = some r := (view_mem hx).2.1.symm.trans t5
    have e3 : x.par = none := (view_mem hx).2.2.2.1.symm.trans t3
    have e6 : x.left = (kids r).getLast? := (view_mem hx).2.2.1.symm.trans (sh.left r hrS)
    have hw : ∀ y ∈ st.q, weight kids (rk y + 1) y = 1 + ((kids y).map (fun k => weight kids (rk k + 1) k)).sum := by
      intro y hy
      show 1 + _ = _
      rw [sum_congr (fun k hk => weight_stable sh hrk (rk y) (rk k + 1) k (sh.kid_mem hy hk) (hrk y hy k hk) (by omega))]
    have hlinks : ∃ b, linksLoop c s none r (some r) = some b := by
      have sub : x.left = none ∨ ∃ l b, x.left = some l ∧ linksLoop c s (some r) l (some l) = some b := by
        rw [e6]
        by_cases hk : kids r = []
        · rw [hk]; exact .inl rfl
        · obtain ⟨q', z', hq', hz'⟩ := young hk (sh.kids_nodup hrS)
          have hlast : (kids r).getLast? = some z' := by rw [hq']; simp
          have hall : ∀ y ∈ z' :: q', y ∈ kids r := by
            intro y hy
            rw [hq']
            simp only [List.mem_cons, List.mem_append, List.not_mem_nil, or_false] at hy ⊢
            exact hy.symm
          obtain ⟨b', hb'⟩ := linksLoop_any (c := c) sh hrk (rk r) r hrS (Nat.le_refl _) q' z' hq' q' z' hall hz'
            (ring_young (sh.ring r hrS) hq')
          exact .inr ⟨z', b', hlast, hb'⟩
      rw [linksLoop.eq_def]
      rcases sub with h0 | ⟨l, b, h0, h1⟩
      · simp [hx, e1, e2, h0]
      · cases b <;> simp [hx, e1, e2, h0, h1]
    have hsize : sizeLoop s r r 0 = some st.q.length := by
      have sub : (x.left = none ∧ ((kids r).map (fun k => weight kids (rk k + 1) k)).sum = 0) ∨ ∃ l, x.left = some l ∧
          sizeLoop s l l 0 = some (((kids r).map (fun k => weight kids (rk k + 1) k)).sum) := by
        rw [e6]
        by_cases hk : kids r = []
        · rw [hk]; exact .inl ⟨rfl, rfl⟩
        · obtain ⟨q', z', hq', hz'⟩ := young hk (sh.kids_nodup hrS)
          have hlast : (kids r).getLast? = some z' := by rw [hq']; simp
          refine .inr ⟨z', hlast, ?_⟩
          refine (sizeLoop_kids sh hrk hw (rk r) r hrS (Nat.le_refl _) q' z' hq' q' z' 0 ?_ hz' (ring_young (sh.ring r hrS) hq')).trans ?_
          · intro y hy
            rw [hq']
            simp only [List.mem_cons, List.mem_append, List.not_mem_nil, or_false] at hy ⊢
            exact hy.symm
          · rw [hq']; simp; omega
      rw [sizeLoop.eq_def]
      have := weights sh hw
      simp only [Option.toList, List.map_cons, List.map_nil, List.sum_cons, List.sum_nil, hw r hrS] at this
      rcases sub with ⟨h0, h1⟩ | ⟨l, h0, h1⟩
      · simp only [hx, h0, Option.bind_eq_bind, Option.bind_some, e1, if_true]
        congr 1; omega
      · simp only [hx, h0, h1, Option.bind_eq_bind, Option.bind_some, e1, if_true]
        congr 1; omega
    obtain ⟨b, hlinks⟩ := hlinks
    cases b <;> simp [validate, hr, hx, e3, hasValidLinks, hlinks, traversalSize, hsize, h.sz]

end CCC.Pq
