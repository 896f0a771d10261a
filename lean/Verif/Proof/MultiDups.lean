import Verif.Proof.MultiRing
/-
The calls of the multimap that change what is in the tree and what is in the rings.
-/
namespace CCC.Omm
open CCC Links Tree Splay Wavl

set_option linter.unusedSimpArgs false

variable {α : Type} {D : Nat → List Nat} {N : Nat → Prop} {H : Omm α} {h : Links}

/-- One more node in the tree of the proof, without children. -/
def ext (h : Links) (e : Nat) : Links :=
  { h with live := upd h.live e true, br := fun b d => if b = e then 0 else h.br b d, par := upd h.par e 0 }

/-- One node less in the tree of the proof. -/
def cut (h : Links) (e : Nat) : Links := { h with live := upd h.live e false }

theorem Rel.weaken {M : Nat → Prop} (w : Rel D N H h) (hm : ∀ a, M a → N a) : Rel D M H h :=
  ⟨w.live, w.root, w.zero, w.br, w.brl, w.parl, w.plain, w.head, w.d0, w.dnl, w.dnd, w.ddj, w.nocyc,
   fun a ha => w.null a (hm a ha)⟩

theorem Rel.dempty (w : Rel D N H h) {e : Nat} (nl : h.live e = false) : D e = [] := by
  cases hd : D e with
  | nil => rfl
  | cons x xs =>
    have := (w.dnl e x (by rw [hd]; simp)).1
    rw [nl] at this; cases this

theorem Rel.init (w : Rel D N H h) {e : Nat} (e0 : e ≠ 0) (el : H.live e = true) (nl : h.live e = false)
    (nd : ∀ b, e ∉ D b) :
    ∃ H', initNode H e = some H' ∧ Only H H' ∧ Rel D (fun a => N a ∧ a ≠ e) H' (ext h e) := by
  refine ⟨{ H with br := fun b d => if b = e then some 0 else H.br b d, par := upd H.par e (some 0) }, ?_,
    ⟨_, _, _, rfl⟩, ?_⟩
  · simp only [initNode, Omm.setBr, Omm.setPar, el, if_true, Option.bind_eq_bind, Option.bind_some]
    congr 2
    funext b d
    by_cases hb : b = e <;> cases d <;> simp [hb]
  have de := w.dempty nl
  have ne : ∀ a, h.live a = true → a ≠ e := by rintro a ha rfl; rw [nl] at ha; cases ha
  have live : ∀ a, (ext h e).live a = true → a ≠ e → h.live a = true := by
    intro a ha hne; simpa [ext, upd, hne] using ha
  have lext : ∀ a, h.live a = true → (ext h e).live a = true := by
    intro a ha; simp [ext, upd, ha]
  refine ⟨?_, w.root, lext 0 w.zero, ?_, ?_, ?_, ?_, ?_, w.d0, ?_, w.dnd, w.ddj, ?_, ?_⟩
  · intro a ha
    by_cases hae : a = e
    · subst hae; exact el
    · exact w.live a (live a ha hae)
  · intro a d ha
    by_cases hae : a = e
    · simp [hae, ext]
    · simp only [if_neg hae, ext]; exact w.br a d (live a ha hae)
  · intro a d ha h0
    by_cases hae : a = e
    · simp only [ext, hae, if_true]; exact lext 0 w.zero
    · simp only [ext, if_neg hae]; exact lext _ (w.brl a d (live a ha hae) h0)
  · intro a ha h0
    by_cases hae : a = e
    · simp only [ext, hae, upd_same]; exact lext 0 w.zero
    · simp only [ext, upd_ne _ _ hae]; exact lext _ (w.parl a (live a ha hae) h0)
  · intro a ha hd
    by_cases hae : a = e
    · simp [ext, hae]
    · simp only [ext, upd_ne _ _ hae]; exact w.plain a (live a ha hae) hd
  · intro a x xs ha hd
    have hae : a ≠ e := by rintro rfl; rw [de] at hd; cases hd
    obtain ⟨q1, q2, q3, q4⟩ := w.head a x xs (live a ha hae) hd
    have mem : ∀ y ∈ x :: xs, y ≠ e := by rintro y hy rfl; exact nd a (by rw [hd]; exact hy)
    refine ⟨by simp [upd_ne _ _ hae, q1], by simp [ext, upd_ne _ _ hae, upd_ne _ _ (mem x (by simp)), q2], ?_, ?_⟩
    · intro y hy; simp [upd_ne _ _ (mem y (by simp [hy])), q3 y hy]
    · exact q4.congr (fun b hb => by funext d; simp [mem b hb])
  · intro a x hx
    obtain ⟨q1, q2, q3⟩ := w.dnl a x hx
    have : x ≠ e := by rintro rfl; exact nd a hx
    exact ⟨lext a q1, q2, by simp [ext, upd_ne _ _ this, q3]⟩
  · intro a ha h0
    by_cases hae : a = e
    · simp [ext, hae]
    · have hl := live a ha hae
      simp only [ext, if_neg hae]
      intro hz
      rw [if_neg (ne _ (w.brl a false hl h0))]
      exact w.nocyc a hl h0 hz
  · intro a ⟨ha, hne⟩
    obtain ⟨q1, q2, q3, q4, q5⟩ := w.null a ha
    exact ⟨q1, by simp [hne, q2], by simp [upd_ne _ _ hne, q3], by simp [ext, upd_ne _ _ hne, q4], q5⟩

theorem Rel.cut (w : Rel D N H h) {e : Nat} (e0 : e ≠ 0) (de : D e = [])
    (hb : ∀ a d, h.live a = true → a ≠ 0 → a ≠ e → h.br a d ≠ e)
    (hp : ∀ a, h.live a = true → a ≠ 0 → a ≠ e → h.par a ≠ e) : Rel D N H (Omm.cut h e) := by
  have live : ∀ a, (Omm.cut h e).live a = true → h.live a = true ∧ a ≠ e := by
    intro a ha
    by_cases hae : a = e
    · simp [Omm.cut, hae] at ha
    · simp only [Omm.cut, upd_ne _ _ hae] at ha; exact ⟨ha, hae⟩
  have lext : ∀ a, h.live a = true → a ≠ e → (Omm.cut h e).live a = true := by
    intro a ha hne; simp [Omm.cut, upd_ne _ _ hne, ha]
  refine ⟨fun a ha => w.live a (live a ha).1, w.root, lext 0 w.zero (Ne.symm e0), fun a d ha => w.br a d (live a ha).1,
    ?_, ?_, fun a ha => w.plain a (live a ha).1, fun a x xs ha => w.head a x xs (live a ha).1, w.d0, ?_, w.dnd, w.ddj,
    fun a ha => w.nocyc a (live a ha).1, ?_⟩
  · intro a d ha h0
    exact lext _ (w.brl a d (live a ha).1 h0) (hb a d (live a ha).1 h0 (live a ha).2)
  · intro a ha h0
    exact lext _ (w.parl a (live a ha).1 h0) (hp a (live a ha).1 h0 (live a ha).2)
  · intro a x hx
    obtain ⟨q1, q2, q3⟩ := w.dnl a x hx
    refine ⟨lext a q1 ?_, q2, ?_⟩
    · rintro rfl; rw [de] at hx; simp at hx
    · simp only [Omm.cut, upd]; split <;> simp [q3]
  · intro a ha
    obtain ⟨q1, q2, q3, q4, q5⟩ := w.null a ha
    refine ⟨q1, q2, q3, ?_, q5⟩
    simp only [Omm.cut, upd]; split <;> simp [q4]

/-- Branches of a represented tree stay inside it. -/
theorem Rep.br_mem {p : Nat} {T : Tree} (hr : Rep h p T) : ∀ a ∈ T.ids, ∀ d, h.br a d = 0 ∨ h.br a d ∈ T.ids := by
  induction T generalizing p with
  | nil => intro a ha; simp [ids] at ha
  | node i k l r il ir =>
    obtain ⟨_, _, b1, b2, _, rl, rr⟩ := hr
    intro a ha d
    simp only [ids, List.mem_append, List.mem_cons] at ha ⊢
    rcases ha with ha | rfl | ha
    · rcases il rl a ha d with h1 | h1
      · exact Or.inl h1
      · exact Or.inr (Or.inl h1)
    · cases d
      · rw [b1]
        rcases rootId_mem_or l with h1 | h1
        · exact Or.inl h1
        · exact Or.inr (Or.inl h1)
      · rw [b2]
        rcases rootId_mem_or r with h1 | h1
        · exact Or.inl h1
        · exact Or.inr (Or.inr (Or.inr h1))
    · rcases ir rr a ha d with h1 | h1
      · exact Or.inl h1
      · exact Or.inr (Or.inr (Or.inr h1))

theorem Rep.par_mem {p : Nat} {T : Tree} (hr : Rep h p T) : ∀ a ∈ T.ids, h.par a = p ∨ h.par a ∈ T.ids := by
  induction T generalizing p with
  | nil => intro a ha; simp [ids] at ha
  | node i k l r il ir =>
    obtain ⟨_, _, b1, b2, ip, rl, rr⟩ := hr
    intro a ha
    simp only [ids, List.mem_append, List.mem_cons] at ha ⊢
    rcases ha with ha | rfl | ha
    · rcases il rl a ha with h1 | h1
      · exact Or.inr (Or.inr (Or.inl h1))
      · exact Or.inr (Or.inl h1)
    · exact Or.inl ip
    · rcases ir rr a ha with h1 | h1
      · exact Or.inr (Or.inr (Or.inl h1))
      · exact Or.inr (Or.inr (Or.inr h1))

/-- Drop a node that is not in the tree. -/
theorem Rel.cut_whole (w : Rel D N H h) {T : Tree} (wt : Whole h [] T) {e : Nat} (e0 : e ≠ 0) (de : D e = [])
    (he : e ∉ T.ids) (hl : ∀ a, h.live a = true → a = 0 ∨ a = e ∨ a ∈ T.ids) :
    Rel D N H (Omm.cut h e) ∧ Whole (Omm.cut h e) [] T := by
  have mem : ∀ a, h.live a = true → a ≠ 0 → a ≠ e → a ∈ T.ids := by
    intro a ha h0 h1
    rcases hl a ha with h2 | h2 | h2
    · exact absurd h2 h0
    · exact absurd h2 h1
    · exact h2
  refine ⟨w.cut e0 de ?_ ?_, ⟨wt.ctx, ?_, wt.nodup, ?_⟩⟩
  · intro a d ha h0 h1 hh
    rcases Rep.br_mem wt.tree a (mem a ha h0 h1) d with h2 | h2
    · exact e0 (hh ▸ h2)
    · exact he (hh ▸ h2)
  · intro a ha h0 h1 hh
    rcases Rep.par_mem wt.tree a (mem a ha h0 h1) with h2 | h2
    · exact e0 (by rw [← hh, h2]; rfl)
    · exact he (hh ▸ h2)
  · refine wt.tree.congr ?_ (fun _ _ => rfl) (fun _ _ => rfl)
    intro a ha
    have : a ≠ e := by rintro rfl; exact he ha
    simp [Omm.cut, upd_ne _ _ this]
  · simp [Omm.cut, upd_ne _ _ (Ne.symm e0), wt.live0]

theorem Whole.ext {T : Tree} (wt : Whole h [] T) {e : Nat} (e0 : e ≠ 0) (he : e ∉ T.ids) : Whole (ext h e) [] T := by
  refine ⟨wt.ctx, ?_, wt.nodup, by simp [Omm.ext, upd_ne _ _ (Ne.symm e0), wt.live0]⟩
  have ne : ∀ a ∈ T.ids, a ≠ e := by rintro a ha rfl; exact he ha
  refine wt.tree.congr ?_ ?_ ?_
  · intro a ha; simp [Omm.ext, upd_ne _ _ (ne a ha)]
  · intro a ha; funext d; simp [Omm.ext, ne a ha]
  · intro a ha; simp [Omm.ext, upd_ne _ _ (ne a ha)]

/-- A struct outside the tree and the rings gets NULL links. -/
theorem Rel.clear (w : Rel D N H h) {e : Nat} (el : H.live e = true) (nl : h.live e = false) (nd : ∀ b, e ∉ D b) :
    ∃ H', clearNode H e = some H' ∧ Only H H' ∧ Rel D (fun a => N a ∨ a = e) H' h := by
  refine ⟨{ H with br := fun b d => if b = e then none else H.br b d, par := upd H.par e none }, ?_, ⟨_, _, _, rfl⟩, ?_⟩
  · simp only [clearNode, Omm.setBr, Omm.setPar, el, if_true, Option.bind_eq_bind, Option.bind_some]
    congr 2
    funext b d
    by_cases hb : b = e <;> cases d <;> simp [hb]
  have ne : ∀ a, h.live a = true → a ≠ e := by rintro a ha rfl; rw [nl] at ha; cases ha
  refine ⟨w.live, w.root, w.zero, ?_, w.brl, w.parl, ?_, ?_, w.d0, w.dnl, w.dnd, w.ddj, w.nocyc, ?_⟩
  · intro a d ha; simp only [if_neg (ne a ha)]; exact w.br a d ha
  · intro a ha hd; simp only [upd_ne _ _ (ne a ha)]; exact w.plain a ha hd
  · intro a x xs ha hd
    obtain ⟨q1, q2, q3, q4⟩ := w.head a x xs ha hd
    have mem : ∀ y ∈ x :: xs, y ≠ e := by rintro y hy rfl; exact nd a (by rw [hd]; exact hy)
    refine ⟨by simp [upd_ne _ _ (ne a ha), q1], by simp [upd_ne _ _ (mem x (by simp)), q2], ?_, ?_⟩
    · intro y hy; simp [upd_ne _ _ (mem y (by simp [hy])), q3 y hy]
    · exact q4.congr (fun b hb => by funext d; simp [mem b hb])
  · intro a ha
    by_cases hae : a = e
    · subst hae; exact ⟨el, by simp, by simp, nl, nd⟩
    · have ha : N a := by rcases ha with h1 | h1; exact h1; exact absurd h1 hae
      obtain ⟨q1, q2, q3, q4, q5⟩ := w.null a ha
      exact ⟨q1, by simp [hae, q2], by simp [upd_ne _ _ hae, q3], q4, q5⟩

/-- A new duplicate behind all others. -/
theorem Rel.addDup (w : Rel D N H h) {r e : Nat} (rl : h.live r = true) (r0 : r ≠ 0) (rp : h.par r = 0)
    (el : H.live e = true) (nl : h.live e = false) (nd : ∀ b, e ∉ D b) (nn : ¬ N e) :
    ∃ H', addDuplicate H r e 0 = some H' ∧ Only H H' ∧ Rel (upd D r (D r ++ [e])) N H' h := by
  have ne : ∀ a, h.live a = true → a ≠ e := by rintro a ha rfl; rw [nl] at ha; cases ha
  have er := (ne r rl).symm
  have hrl := w.live r rl
  have nN : ∀ a, N a → a ≠ e := by rintro a ha rfl; exact nn ha
  have dnl' : ∀ a x, x ∈ upd D r (D r ++ [e]) a → h.live a = true ∧ H.live x = true ∧ h.live x = false := by
    intro a x hx
    by_cases ha : a = r
    · subst ha
      simp only [upd_same, List.mem_append, List.mem_singleton] at hx
      rcases hx with hx | rfl
      · exact w.dnl a x hx
      · exact ⟨rl, el, nl⟩
    · rw [upd_ne _ _ ha] at hx; exact w.dnl a x hx
  have dnd' : ∀ a, (upd D r (D r ++ [e]) a).Nodup := by
    intro a
    by_cases ha : a = r
    · subst ha
      rw [upd_same, List.nodup_append]
      refine ⟨w.dnd a, by simp, ?_⟩
      intro x hx y hy hxy
      simp only [List.mem_singleton] at hy
      rw [hxy, hy] at hx; exact nd a hx
    · rw [upd_ne _ _ ha]; exact w.dnd a
  have mem' : ∀ a x, x ∈ upd D r (D r ++ [e]) a → x ∈ D a ∨ (x = e ∧ a = r) := by
    intro a x hx
    by_cases ha : a = r
    · subst ha
      simp only [upd_same, List.mem_append, List.mem_singleton] at hx
      rcases hx with hx | hx
      · exact Or.inl hx
      · exact Or.inr ⟨hx, rfl⟩
    · rw [upd_ne _ _ ha] at hx; exact Or.inl hx
  have ddj' : ∀ a b x, x ∈ upd D r (D r ++ [e]) a → x ∈ upd D r (D r ++ [e]) b → a = b := by
    intro a b x h1 h2
    rcases mem' a x h1 with h1 | h1 <;> rcases mem' b x h2 with h2 | h2
    · exact w.ddj a b x h1 h2
    · rw [h2.1] at h1; exact absurd h1 (nd a)
    · rw [h1.1] at h2; exact absurd h2 (nd b)
    · exact h1.2.trans h2.2.symm
  have d0' : upd D r (D r ++ [e]) 0 = [] := by rw [upd_ne _ _ r0.symm]; exact w.d0
  have null5 : ∀ a, N a → ∀ b, a ∉ upd D r (D r ++ [e]) b := by
    intro a ha b hh
    rcases mem' b a hh with h1 | h1
    · exact (w.null a ha).2.2.2.2 b h1
    · exact nN a ha h1.1
  unfold addDuplicate
  rw [w.hasDups rl]
  simp only [Option.bind_eq_bind, Option.bind_some]
  cases hd : D r with
  | nil =>
    rw [hd] at dnl' dnd' mem' ddj' d0' null5
    simp only [List.nil_append] at dnl' dnd' mem' ddj' d0' null5 ⊢
    refine ⟨{ H with br := fun b d => if b = e then some e else H.br b d,
                     par := upd (upd H.par e (some 0)) r (some e) }, ?_, ⟨_, _, _, rfl⟩, ?_⟩
    · simp only [List.isEmpty_nil, Bool.not_true, Bool.not_false, if_true, Omm.setPar, Omm.setBr, el, hrl,
        Option.bind_some]
      congr 2
      funext b d
      by_cases hb : b = e <;> cases d <;> simp [hb]
    refine ⟨w.live, w.root, w.zero, ?_, w.brl, w.parl, ?_, ?_, d0', dnl', dnd', ddj', w.nocyc, ?_⟩
    · intro a d ha; simp only [if_neg (ne a ha)]; exact w.br a d ha
    · intro a ha hda
      by_cases har : a = r
      · subst har; rw [upd_same] at hda; cases hda
      · rw [upd_ne _ _ har] at hda
        simp only [upd_ne _ _ har, upd_ne _ _ (ne a ha)]
        exact w.plain a ha hda
    · intro a x xs ha hda
      by_cases har : a = r
      · subst har
        rw [upd_same] at hda
        obtain ⟨rfl, rfl⟩ := List.cons.inj hda
        refine ⟨by simp, by simp [upd_ne _ _ er, rp], by simp, ?_⟩
        simp [Ring, Lnks]
      · rw [upd_ne _ _ har] at hda
        obtain ⟨q1, q2, q3, q4⟩ := w.head a x xs ha hda
        have mem : ∀ y ∈ x :: xs, y ≠ e ∧ y ≠ r := by
          intro y hy
          have hy' : y ∈ D a := by rw [hda]; exact hy
          refine ⟨by rintro rfl; exact nd a hy', ?_⟩
          rintro rfl
          have := (w.dnl a y hy').2.2
          rw [rl] at this; cases this
        refine ⟨by simp [upd_ne _ _ har, upd_ne _ _ (ne a ha), q1], ?_, ?_, ?_⟩
        · have := mem x (by simp)
          simp [upd_ne _ _ this.1, upd_ne _ _ this.2, q2]
        · intro y hy
          have := mem y (by simp [hy])
          simp [upd_ne _ _ this.1, upd_ne _ _ this.2, q3 y hy]
        · exact q4.congr (fun b hb => by funext d; simp [(mem b hb).1])
    · intro a ha
      obtain ⟨q1, q2, q3, q4, q5⟩ := w.null a ha
      have har : a ≠ r := by rintro rfl; rw [rl] at q4; cases q4
      exact ⟨q1, by simp [nN a ha, q2], by simp [upd_ne _ _ har, upd_ne _ _ (nN a ha), q3], q4, null5 a ha⟩
  | cons x xs =>
    rw [hd] at dnl' dnd' mem' ddj' d0' null5
    obtain ⟨q1, q2, q3, q4⟩ := w.head r x xs rl hd
    have hx : x ∈ D r := by rw [hd]; simp
    have memr : ∀ y ∈ x :: xs, y ≠ e ∧ y ≠ r ∧ H.live y = true := by
      intro y hy
      have hy' : y ∈ D r := by rw [hd]; exact hy
      refine ⟨by rintro rfl; exact nd r hy', ?_, (w.dnl r y hy').2.1⟩
      rintro rfl
      have := (w.dnl y y hy').2.2
      rw [rl] at this; cases this
    obtain ⟨xe, xr, xl⟩ := memr x (by simp)
    generalize ht : (x :: xs).getLast (by simp) = t at *
    have tm : t ∈ x :: xs := by rw [← ht]; exact List.getLast_mem _
    obtain ⟨te, tr, tl⟩ := memr t tm
    have hlast := q4.last
    rw [ht] at hlast
    refine ⟨{ H with br := fun b d => if b = e then (if d then some x else some t)
                       else if b = x ∧ d = false then some e else if b = t ∧ d = true then some e else H.br b d,
                     par := upd H.par e none }, ?_, ⟨_, _, _, rfl⟩, ?_⟩
    · simp only [List.isEmpty_cons, Bool.not_false, Bool.not_true, Bool.false_eq_true, if_false]
      simp only [Omm.setPar, Omm.setBr, Omm.getBr, Omm.branch, Omm.parent, Omm.getPar, el, hrl, xl, tl, if_true,
        Option.bind_eq_bind, Option.bind_some, upd_ne _ _ er.symm, q1, hlast.2]
      congr 2
      funext b d
      by_cases hb : b = e
      · cases d <;> simp [hb]
      · cases d <;> simp [hb]
    have keep : ∀ a d, a ≠ e → a ∉ x :: xs → (if a = e then (if d then some x else some t)
        else if a = x ∧ d = false then some e else if a = t ∧ d = true then some e else H.br a d) = H.br a d := by
      intro a d h1 h2
      have h3 : a ≠ x := by rintro rfl; exact h2 (by simp)
      have h4 : a ≠ t := by rintro rfl; exact h2 tm
      simp [h1, h3, h4]
    have hlv : ∀ a, h.live a = true → a ∉ x :: xs := by
      intro a ha hh
      have := (w.dnl r a (by rw [hd]; exact hh)).2.2
      rw [ha] at this; cases this
    refine ⟨w.live, w.root, w.zero, ?_, w.brl, w.parl, ?_, ?_, d0', dnl', dnd', ddj', w.nocyc, ?_⟩
    · intro a d ha
      show (if a = e then _ else _) = _
      rw [keep a d (ne a ha) (hlv a ha)]; exact w.br a d ha
    · intro a ha hda
      by_cases har : a = r
      · subst har; rw [upd_same] at hda; cases hda
      · rw [upd_ne _ _ har] at hda
        simp only [upd_ne _ _ (ne a ha)]
        exact w.plain a ha hda
    · intro a y ys ha hda
      by_cases har : a = r
      · subst har
        rw [upd_same] at hda
        obtain ⟨rfl, rfl⟩ := List.cons.inj hda
        refine ⟨by simp [upd_ne _ _ (ne a ha), q1], by simp [upd_ne _ _ xe, q2], ?_, ?_⟩
        · intro y hy
          rcases List.mem_append.1 hy with hy | hy
          · simp [upd_ne _ _ (memr y (by simp [hy])).1, q3 y hy]
          · simp only [List.mem_singleton] at hy; subst hy; simp
        · have ndx : (x :: xs).Nodup := by rw [← hd]; exact w.dnd a
          refine q4.add (t := t) ndx ht.symm ?_ ?_ ?_ ?_ ?_ ?_
          · simp [te]
          · simp
          · simp
          · simp [xe]
          · intro b hb hbt; simp [(memr b hb).1, hbt]
          · intro b hb hbx; simp [(memr b hb).1, hbx]
      · rw [upd_ne _ _ har] at hda
        obtain ⟨p1, p2, p3, p4⟩ := w.head a y ys ha hda
        have mem : ∀ z ∈ y :: ys, z ≠ e ∧ z ∉ x :: xs := by
          intro z hz
          have hz' : z ∈ D a := by rw [hda]; exact hz
          refine ⟨by rintro rfl; exact nd a hz', ?_⟩
          intro hh
          exact har (w.ddj a r z hz' (by rw [hd]; exact hh))
        refine ⟨by simp [upd_ne _ _ (ne a ha), p1], by simp [upd_ne _ _ (mem y (by simp)).1, p2], ?_, ?_⟩
        · intro z hz; simp [upd_ne _ _ (mem z (by simp [hz])).1, p3 z hz]
        · exact p4.congr (fun b hb => by funext d; exact keep b d (mem b hb).1 (mem b hb).2)
    · intro a ha
      obtain ⟨p1, p2, p3, p4, p5⟩ := w.null a ha
      refine ⟨p1, ?_, by simp [upd_ne _ _ (nN a ha), p3], p4, null5 a ha⟩
      intro d
      show (if a = e then _ else _) = _
      rw [keep a d (nN a ha) (fun hh => p5 r (by rw [hd]; exact hh))]
      exact p2 d

end CCC.Omm
