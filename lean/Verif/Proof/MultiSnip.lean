import Verif.Proof.MultiPop
/-
Duplicates that leave the ring while the tree node stays.
-/
namespace CCC.Omm
open CCC Links Tree Splay

set_option linter.unusedSimpArgs false

variable {α κ : Type} {D : Nat → List Nat} {N : Nat → Prop} {H : Omm α} {h : Links}

/-- The ring of one tree node is rearranged. -/
theorem Rel.ring (w : Rel D N H h) {r : Nat} {L : List Nat} {br' : Nat → Bool → Slot} {par' : Nat → Slot}
    (rl : h.live r = true) (r0 : r ≠ 0) (hsub : ∀ y ∈ L, y ∈ D r) (hnd : L.Nodup)
    (hb : ∀ a, a ∉ D r → br' a = H.br a) (hp : ∀ a, a ∉ D r → a ≠ r → par' a = H.par a)
    (h1 : L = [] → par' r = some (h.par r))
    (h2 : ∀ x xs, L = x :: xs → par' r = some x ∧ par' x = some (h.par r) ∧ (∀ y ∈ xs, par' y = none) ∧ Ring br' x xs) :
    Rel (upd D r L) N { H with br := br', par := par' } h := by
  have nl : ∀ a, h.live a = true → a ∉ D r := by
    intro a ha hh
    have := (w.dnl r a hh).2.2
    rw [ha] at this; cases this
  have sub : ∀ a x, x ∈ upd D r L a → x ∈ D a := by
    intro a x hx
    by_cases ha : a = r
    · subst ha; rw [upd_same] at hx; exact hsub x hx
    · rw [upd_ne _ _ ha] at hx; exact hx
  refine ⟨w.live, w.root, w.zero, ?_, w.brl, w.parl, ?_, ?_, ?_, ?_, ?_, ?_, w.nocyc, ?_⟩
  · intro a d ha; simp only [hb a (nl a ha)]; exact w.br a d ha
  · intro a ha hd
    by_cases har : a = r
    · subst har; rw [upd_same] at hd; exact h1 hd
    · rw [upd_ne _ _ har] at hd
      simp only [hp a (nl a ha) har]; exact w.plain a ha hd
  · intro a x xs ha hd
    by_cases har : a = r
    · subst har; rw [upd_same] at hd; exact h2 x xs hd
    · rw [upd_ne _ _ har] at hd
      obtain ⟨q1, q2, q3, q4⟩ := w.head a x xs ha hd
      have mem : ∀ y ∈ x :: xs, y ∉ D r ∧ y ≠ r := by
        intro y hy
        have hy' : y ∈ D a := by rw [hd]; exact hy
        refine ⟨fun hh => har (w.ddj a r y hy' hh), ?_⟩
        rintro rfl
        have := (w.dnl a y hy').2.2
        rw [rl] at this; cases this
      refine ⟨by simp only [hp a (nl a ha) har]; exact q1, ?_, ?_, ?_⟩
      · have := mem x (by simp)
        simp only [hp x this.1 this.2]; exact q2
      · intro y hy
        have := mem y (by simp [hy])
        simp only [hp y this.1 this.2]; exact q3 y hy
      · exact q4.congr (fun b hb' => hb b (mem b hb').1)
  · rw [upd_ne _ _ r0.symm]; exact w.d0
  · intro a x hx; exact w.dnl a x (sub a x hx)
  · intro a
    by_cases ha : a = r
    · subst ha; rw [upd_same]; exact hnd
    · rw [upd_ne _ _ ha]; exact w.dnd a
  · intro a b x ha hb'; exact w.ddj a b x (sub a x ha) (sub b x hb')
  · intro a ha
    obtain ⟨q1, q2, q3, q4, q5⟩ := w.null a ha
    have har : a ≠ r := by rintro rfl; rw [rl] at q4; cases q4
    exact ⟨q1, by simp only [hb a (q5 r)]; exact q2, by simp only [hp a (q5 r) har]; exact q3, q4,
      fun b hh => q5 b (sub b a hh)⟩

/-- `pop_dup_node` of the first duplicate. -/
theorem Rel.popHead (cmp : κ → κ → Cmp) (key : α → κ) (w : Rel D N H h) {r x : Nat} {xs : List Nat}
    (rl : h.live r = true) (r0 : r ≠ 0) (rp : h.par r = 0) (hd : D r = x :: xs) :
    ∃ H', popDupNode cmp key H x r = some (H', x) ∧ Only H H' ∧ Rel (upd D r xs) N H' h := by
  have hx : x ∈ D r := by rw [hd]; simp
  have xl := (w.dnl r x hx).2.1
  have nlive : ∀ a, h.live a = true → a ∉ D r := by
    intro a ha hh
    have := (w.dnl r a hh).2.2
    rw [ha] at this; cases this
  have xr : x ≠ r := by rintro rfl; exact nlive x rl hx
  have hrl := w.live r rl
  obtain ⟨q1, q2, q3, q4⟩ := w.head r x xs rl hd
  rw [rp] at q2
  unfold popDupNode
  rw [if_neg xr]
  cases xs with
  | nil =>
    have e1 : H.br x true = some x := q4.1
    refine ⟨{ H with par := upd H.par r (some 0) }, ?_, ⟨_, _, _, rfl⟩, ?_⟩
    · simp [Omm.getBr, xl, e1, Omm.setPar, hrl]
    · refine w.ring (br' := H.br) rl r0 (by simp) (by simp) (fun _ _ => rfl) ?_ ?_ (by simp)
      · intro a _ har; rw [upd_ne _ _ har]
      · intro _; rw [upd_same, rp]
  | cons n ms =>
    have ndr : (x :: n :: ms).Nodup := by rw [← hd]; exact w.dnd r
    have nm : n ∈ D r := by rw [hd]; simp
    have nl := (w.dnl r n nm).2.1
    have xn : n ≠ x := by
      rintro rfl
      exact (List.nodup_cons.1 ndr).1 (by simp)
    have rn : r ≠ n := by rintro rfl; exact nlive r rl nm
    generalize ht : (n :: ms).getLast (by simp) = t at *
    have tm : t ∈ n :: ms := by rw [← ht]; exact List.getLast_mem _
    have tD : t ∈ D r := by rw [hd]; exact List.mem_cons_of_mem _ tm
    have tl := (w.dnl r t tD).2.1
    have hlast := q4.last
    have elast : (x :: n :: ms).getLast (by simp) = t := by rw [← ht]; simp
    rw [elast] at hlast
    have e1 : H.br x true = some n := q4.1
    have ex : ¬ (some n = some x) := by simp [xn]
    refine ⟨{ H with br := fun b d => if b = n ∧ d = false then some t else if b = t ∧ d = true then some n else H.br b d,
                     par := upd (upd H.par n (some 0)) r (some n) }, ?_, ⟨_, _, _, rfl⟩, ?_⟩
    · simp only [Omm.branch, Omm.getBr, Omm.getPar, Omm.setBr, Omm.setPar, xl, hrl, nl, tl, if_true, Option.bind_eq_bind,
        Option.bind_some, e1, ex, if_false, hlast.2, q2]
    · refine w.ring rl r0 ?_ (List.nodup_cons.1 ndr).2 ?_ ?_ (by simp) ?_
      · intro y hy; rw [hd]; exact List.mem_cons_of_mem _ hy
      · intro a ha
        have h2 : a ≠ t := by rintro rfl; exact ha tD
        have h3 : a ≠ n := by rintro rfl; exact ha nm
        funext d; simp [h2, h3]
      · intro a ha har
        have h3 : a ≠ n := by rintro rfl; exact ha nm
        rw [upd_ne _ _ har, upd_ne _ _ h3]
      · intro y ys hy
        obtain ⟨rfl, rfl⟩ := List.cons.inj hy
        refine ⟨by simp, by simp [upd_ne _ _ rn.symm, rp], ?_, ?_⟩
        · intro z hz
          have h1 : z ≠ r := by
            rintro rfl; exact nlive z rl (by rw [hd]; simp [hz])
          have h2 : z ≠ n := by
            rintro rfl
            exact (List.nodup_cons.1 (List.nodup_cons.1 ndr).2).1 hz
          rw [upd_ne _ _ h1, upd_ne _ _ h2]; exact q3 z (by simp [hz])
        · refine q4.dropHead (p := t) ndr ht.symm ?_ ?_ ?_ ?_
          · simp
          · simp
          · intro a _ hat; simp [hat]
          · intro a _ han; simp [han]

/-- `multimap_erase_node` of a later duplicate. -/
theorem Rel.snip (w : Rel D N H h) {r x y : Nat} {pre post : List Nat}
    (rl : h.live r = true) (r0 : r ≠ 0) (hd : D r = x :: (pre ++ y :: post)) :
    ∃ p n H', H.live y = true ∧ H.par y = none ∧ H.br y false = some p ∧ H.br y true = some n ∧
      H.live n = true ∧ H.live p = true ∧ H.br n false = some y ∧ H.br p true = some y ∧
      (∃ H1, Omm.setBr H p true (some n) = some H1 ∧ Omm.setBr H1 n false (some p) = some H') ∧ Only H H' ∧
      Rel (upd D r (x :: (pre ++ post))) N H' h ∧ p ≠ y ∧ n ≠ y := by
  have nlive : ∀ a, h.live a = true → a ∉ D r := by
    intro a ha hh
    have := (w.dnl r a hh).2.2
    rw [ha] at this; cases this
  obtain ⟨q1, q2, q3, q4⟩ := w.head r x _ rl hd
  have ndr : (x :: (pre ++ y :: post)).Nodup := by rw [← hd]; exact w.dnd r
  generalize hp : (x :: pre).getLast (by simp) = p
  generalize hn : (post ++ [x]).head (by simp) = n
  have pm : p ∈ x :: pre := by rw [← hp]; exact List.getLast_mem _
  have nm : n ∈ post ++ [x] := by rw [← hn]; exact List.head_mem _
  have pD : p ∈ D r := by
    rw [hd]
    simp only [List.mem_cons, List.mem_append] at pm ⊢
    rcases pm with h1 | h1
    · exact Or.inl h1
    · exact Or.inr (Or.inl h1)
  have nD : n ∈ D r := by
    rw [hd]
    simp only [List.mem_cons, List.mem_append, List.not_mem_nil, or_false] at nm ⊢
    rcases nm with h1 | h1
    · exact Or.inr (Or.inr (Or.inr h1))
    · exact Or.inl h1
  have yD : y ∈ D r := by rw [hd]; simp
  have ny : p ≠ y ∧ n ≠ y := by
    have h1 : ((x :: pre) ++ y :: post).Nodup := by simpa using ndr
    obtain ⟨_, h2, h3⟩ := List.nodup_append.1 h1
    refine ⟨fun hh => h3 p pm y (by simp) hh, ?_⟩
    intro hh
    rw [hh] at nm
    simp only [List.mem_append, List.mem_cons, List.not_mem_nil, or_false] at nm
    rcases nm with h4 | h4
    · exact (List.nodup_cons.1 h2).1 h4
    · exact (List.nodup_cons.1 ndr).1 (by rw [← h4]; simp)
  have yl := (w.dnl r y yD).2.1
  have pl := (w.dnl r p pD).2.1
  have nl := (w.dnl r n nD).2.1
  have ring : Lnks H.br ((x :: pre) ++ y :: (post ++ [x])) := by
    have : Lnks H.br (x :: (pre ++ y :: post) ++ [x]) := q4
    simpa using this
  obtain ⟨g1, g2⟩ := (Lnks_append _ _ _).1 ring
  have ep := List.dropLast_concat_getLast (l := x :: pre) (by simp)
  rw [← ep, List.append_assoc, hp] at g1
  have g3 := ((Lnks_append _ _ _).1 g1).2
  have g4 : H.br p true = some y ∧ H.br y false = some p := ⟨g3.1, g3.2.1⟩
  have g5 : H.br y true = some n ∧ H.br n false = some y := by
    cases hpo : post ++ [x] with
    | nil => simp at hpo
    | cons a l =>
      have : a = n := by rw [← hn]; simp [hpo]
      rw [hpo] at g2
      rw [← this]
      exact ⟨g2.1, g2.2.1⟩
  refine ⟨p, n, { H with br := fun b d => if b = n ∧ d = false then some p else if b = p ∧ d = true then some n else H.br b d },
    yl, q3 y (by simp), g4.2, g5.1, nl, pl, g5.2, g4.1, ⟨_, Omm.setBr_live pl, ?_⟩, ⟨_, _, _, rfl⟩, ?_, ny.1, ny.2⟩
  · simp [Omm.setBr, nl]
  · have sub : ∀ z ∈ x :: (pre ++ post), z ∈ x :: (pre ++ y :: post) := by
      intro z hz
      simp only [List.mem_cons, List.mem_append] at hz ⊢
      rcases hz with h1 | h1 | h1
      · exact Or.inl h1
      · exact Or.inr (Or.inl h1)
      · exact Or.inr (Or.inr (Or.inr h1))
    have nd' : (x :: (pre ++ post)).Nodup := by
      refine List.Nodup.sublist ?_ ndr
      exact List.Sublist.cons_cons _ (List.Sublist.append (List.Sublist.refl _) (List.sublist_cons_self _ _))
    refine w.ring (par' := H.par) rl r0 ?_ nd' ?_ (fun _ _ _ => rfl) (by simp) ?_
    · intro z hz; rw [hd]; exact sub z hz
    · intro a ha
      have h2 : a ≠ p := by rintro rfl; exact ha pD
      have h3 : a ≠ n := by rintro rfl; exact ha nD
      funext d; simp [h2, h3]
    · intro z zs hz
      obtain ⟨rfl, rfl⟩ := List.cons.inj hz
      refine ⟨q1, q2, ?_, ?_⟩
      · intro z hz
        apply q3
        simp only [List.mem_append, List.mem_cons] at hz ⊢
        rcases hz with h1 | h1
        · exact Or.inl h1
        · exact Or.inr (Or.inr h1)
      · refine q4.snip (p := p) (n := n) ndr hp.symm hn.symm ?_ ?_ ?_ ?_
        · simp
        · simp
        · intro a _ ha; simp [ha]
        · intro a _ ha; simp [ha]

end CCC.Omm
