import Verif.Proof.MultiDups
/-
Taking elements with duplicates out of the multimap.
-/
namespace CCC.Omm
open CCC Links Tree Splay Wavl

set_option linter.unusedSimpArgs false

variable {α κ : Type} {D : Nat → List Nat} {N : Nat → Prop} {H : Omm α} {h : Links}

/-- The first duplicate in the place of a tree node, whose own links are still there. -/
def swapIn (h : Links) (r x p : Nat) : Links :=
  { h with root := x, live := upd h.live x true, br := fun b d => if b = x then h.br r d else h.br b d,
           par := upd (upd h.par r x) x p }

theorem Rel.swapIn (w : Rel D N H h) {r x : Nat} {xs : List Nat} (rl : h.live r = true) (r0 : r ≠ 0)
    (hd : D r = x :: xs) {br' : Nat → Bool → Slot} {par' : Nat → Slot} {p : Nat}
    (brx : ∀ d, br' x d = some (h.br r d)) (bro : ∀ a d, a ∉ D r → br' a d = H.br a d)
    (paro : ∀ a, a ∉ x :: xs.take 1 → par' a = H.par a) (hp : p = x ∨ p = 0)
    (plain : xs = [] → par' x = some p)
    (head : ∀ n ms, xs = n :: ms → par' x = some n ∧ par' n = some p ∧ Ring br' n ms) :
    Rel (upd (upd D r []) x xs) N { H with br := br', par := par', root := x } (Omm.swapIn h r x p) := by
  have hx : x ∈ D r := by rw [hd]; simp
  have xl := (w.dnl r x hx).2.1
  have xn := (w.dnl r x hx).2.2
  have x0 := w.dne hx
  have ne : ∀ a, h.live a = true → a ∉ D r := by
    intro a ha hh
    have := (w.dnl r a hh).2.2
    rw [ha] at this; cases this
  have nex : ∀ a, h.live a = true → a ≠ x := by rintro a ha rfl; exact ne a ha hx
  have rx : r ≠ x := nex r rl
  have live : ∀ a, (Omm.swapIn h r x p).live a = true → a ≠ x → h.live a = true := by
    intro a ha hne; simpa [Omm.swapIn, upd, hne] using ha
  have lext : ∀ a, h.live a = true → (Omm.swapIn h r x p).live a = true := by
    intro a ha; simp [Omm.swapIn, upd, ha]
  have lx : (Omm.swapIn h r x p).live x = true := by simp [Omm.swapIn]
  have lp : (Omm.swapIn h r x p).live p = true := by
    rcases hp with rfl | rfl
    · exact lx
    · exact lext 0 w.zero
  have ndr : (x :: xs).Nodup := by rw [← hd]; exact w.dnd r
  have Dx : upd (upd D r []) x xs x = xs := by simp
  have Dr : upd (upd D r []) x xs r = [] := by rw [upd_ne _ _ rx]; simp
  have Do : ∀ a, a ≠ x → a ≠ r → upd (upd D r []) x xs a = D a := by
    intro a h1 h2; rw [upd_ne _ _ h1, upd_ne _ _ h2]
  have sub : ∀ a y, y ∈ upd (upd D r []) x xs a → (a = x ∧ y ∈ xs) ∨ (a ≠ x ∧ a ≠ r ∧ y ∈ D a) := by
    intro a y hy
    by_cases h1 : a = x
    · subst h1; rw [Dx] at hy; exact Or.inl ⟨rfl, hy⟩
    · by_cases h2 : a = r
      · subst h2; rw [Dr] at hy; simp at hy
      · rw [Do a h1 h2] at hy; exact Or.inr ⟨h1, h2, hy⟩
  have xsr : ∀ y ∈ xs, y ∈ D r := by intro y hy; rw [hd]; simp [hy]
  have par_live : ∀ a, h.live a = true → par' a = H.par a := by
    intro a ha
    refine paro a (fun hh => ne a ha ?_)
    rw [hd]
    simp only [List.mem_cons] at hh ⊢
    rcases hh with hh | hh
    · exact Or.inl hh
    · exact Or.inr (List.mem_of_mem_take hh)
  refine ⟨?_, rfl, lext 0 w.zero, ?_, ?_, ?_, ?_, ?_, ?_, ?_, ?_, ?_, ?_, ?_⟩
  · intro a ha
    by_cases hax : a = x
    · subst hax; exact xl
    · exact w.live a (live a ha hax)
  · intro a d ha
    by_cases hax : a = x
    · subst hax; simp [Omm.swapIn, brx]
    · have := live a ha hax
      simp only [Omm.swapIn, if_neg hax]
      rw [bro a d (ne a this)]; exact w.br a d this
  · intro a d ha h0
    by_cases hax : a = x
    · subst hax; simp only [Omm.swapIn, if_true]; exact lext _ (w.brl r d rl r0)
    · simp only [Omm.swapIn, if_neg hax]; exact lext _ (w.brl a d (live a ha hax) h0)
  · intro a ha h0
    by_cases hax : a = x
    · subst hax; simp only [Omm.swapIn, upd_same]; exact lp
    · by_cases har : a = r
      · subst har; simp only [Omm.swapIn, upd_ne _ _ hax, upd_same]
      · simp only [Omm.swapIn, upd_ne _ _ hax, upd_ne _ _ har]; exact lext _ (w.parl a (live a ha hax) h0)
  · intro a ha hda
    by_cases hax : a = x
    · subst hax
      rw [Dx] at hda
      simp only [Omm.swapIn, upd_same]; exact plain hda
    · have hal := live a ha hax
      by_cases har : a = r
      · subst har
        simp only [Omm.swapIn, upd_ne _ _ hax, upd_same]
        rw [par_live a hal]
        exact (w.head a x xs hal hd).1
      · rw [Do a hax har] at hda
        simp only [Omm.swapIn, upd_ne _ _ hax, upd_ne _ _ har]
        rw [par_live a hal]
        exact w.plain a hal hda
  · intro a y ys ha hda
    by_cases hax : a = x
    · subst hax
      rw [Dx] at hda
      obtain ⟨p1, p2, p3⟩ := head y ys hda
      refine ⟨p1, by simp only [Omm.swapIn, upd_same]; exact p2, ?_, p3⟩
      intro z hz
      have hz' : z ∈ xs := by rw [hda]; simp [hz]
      show par' z = none
      rw [paro z ?_]
      · exact (w.head r a xs rl hd).2.2.1 z hz'
      · rw [hda] at ndr ⊢
        simp only [List.nodup_cons, List.mem_cons, not_or] at ndr
        simp only [List.take_succ_cons, List.take_zero, List.mem_cons, List.not_mem_nil, or_false, not_or]
        refine ⟨?_, ?_⟩
        · rintro rfl; exact ndr.1.2 hz
        · rintro rfl; exact ndr.2.1 hz
    · have hal := live a ha hax
      by_cases har : a = r
      · subst har; rw [Dr] at hda; cases hda
      · rw [Do a hax har] at hda
        obtain ⟨p1, p2, p3, p4⟩ := w.head a y ys hal hda
        have other : ∀ z ∈ y :: ys, z ∉ D r := by
          intro z hz hh
          exact har (w.ddj a r z (by rw [hda]; exact hz) hh)
        have pz : ∀ z ∈ y :: ys, par' z = H.par z := by
          intro z hz
          refine paro z (fun hh => other z hz ?_)
          rw [hd]
          simp only [List.mem_cons] at hh ⊢
          rcases hh with hh | hh
          · exact Or.inl hh
          · exact Or.inr (List.mem_of_mem_take hh)
        refine ⟨by show par' a = _; rw [par_live a hal]; exact p1, ?_, ?_, ?_⟩
        · show par' y = _
          rw [pz y (by simp)]
          simp only [Omm.swapIn, upd_ne _ _ hax, upd_ne _ _ har]; exact p2
        · intro z hz
          show par' z = _
          rw [pz z (by simp [hz])]; exact p3 z hz
        · exact p4.congr (fun b hb => by funext d; exact bro b d (other b hb))
  · rw [Do 0 x0.symm r0.symm]; exact w.d0
  · intro a y hy
    rcases sub a y hy with ⟨rfl, hy'⟩ | ⟨h1, h2, hy'⟩
    · obtain ⟨q1, q2, q3⟩ := w.dnl r y (xsr y hy')
      have : y ≠ a := by rintro rfl; exact (List.nodup_cons.1 ndr).1 hy'
      exact ⟨lx, q2, by simp [Omm.swapIn, upd_ne _ _ this, q3]⟩
    · obtain ⟨q1, q2, q3⟩ := w.dnl a y hy'
      have : y ≠ x := by rintro rfl; exact h2 (w.ddj a r y hy' hx)
      exact ⟨lext a q1, q2, by simp [Omm.swapIn, upd_ne _ _ this, q3]⟩
  · intro a
    by_cases h1 : a = x
    · subst h1; rw [Dx]; exact (List.nodup_cons.1 ndr).2
    · by_cases h2 : a = r
      · subst h2; rw [Dr]; simp
      · rw [Do a h1 h2]; exact w.dnd a
  · intro a b y ha hb
    rcases sub a y ha with ⟨h1, h2⟩ | ⟨h1, h2, h3⟩ <;> rcases sub b y hb with ⟨g1, g2⟩ | ⟨g1, g2, g3⟩
    · exact h1.trans g1.symm
    · exact absurd (w.ddj b r y g3 (xsr y h2)) g2
    · exact absurd (w.ddj a r y h3 (xsr y g2)) h2
    · exact w.ddj a b y h3 g3
  · intro a ha h0
    by_cases hax : a = x
    · subst hax
      simp only [Omm.swapIn, if_true]
      intro hz
      rw [if_neg (nex _ (w.brl r false rl r0))]
      exact nex _ (w.brl _ true (w.brl r false rl r0) hz)
    · have hal := live a ha hax
      simp only [Omm.swapIn, if_neg hax]
      intro hz
      rw [if_neg (nex _ (w.brl a false hal h0))]
      exact w.nocyc a hal h0 hz
  · intro a ha
    obtain ⟨q1, q2, q3, q4, q5⟩ := w.null a ha
    have hax : a ≠ x := by rintro rfl; exact q5 r hx
    refine ⟨q1, ?_, ?_, by simp [Omm.swapIn, upd_ne _ _ hax, q4], ?_⟩
    · intro d; show br' a d = none; rw [bro a d (q5 r)]; exact q2 d
    · show par' a = none
      rw [paro a (fun hh => q5 r ?_)]
      · exact q3
      · rw [hd]
        simp only [List.mem_cons] at hh ⊢
        rcases hh with hh | hh
        · exact Or.inl hh
        · exact Or.inr (List.mem_of_mem_take hh)
    · intro b hb
      rcases sub b a hb with ⟨_, h2⟩ | ⟨_, _, h3⟩
      · exact q5 r (xsr a h2)
      · exact q5 b h3

/-- `pop_front_dup` at the root: the first duplicate takes its place. -/
theorem Rel.popFront (cmp : κ → κ → Cmp) (key : α → κ) (w : Rel D N H h) {r k x : Nat} {A B : Tree} {xs : List Nat}
    (wt : Whole h [] (node r k A B)) (hl : ∀ a, h.live a = true → a = 0 ∨ a ∈ (node r k A B).ids)
    (hd : D r = x :: xs) (kk : κ) :
    ∃ H' h', popFrontDup cmp key H r kk = some (H', r) ∧ Only H H' ∧ Rel (upd (upd D r []) x xs) N H' h' ∧
      Whole h' [] (node x k A B) ∧ (∀ a, h'.live a = true → a = 0 ∨ a ∈ (node x k A B).ids) := by
  obtain ⟨r0, rl, b1, b2, rp, rA, rB⟩ := wt.tree
  simp only [pid_nil] at rp
  have hroot : H.root = r := w.root.trans wt.ctx
  have hx : x ∈ D r := by rw [hd]; simp
  have xl := (w.dnl r x hx).2.1
  have xn := (w.dnl r x hx).2.2
  have x0 := w.dne hx
  have hrl := w.live r rl
  obtain ⟨q1, q2, q3, q4⟩ := w.head r x xs rl hd
  rw [rp] at q2
  have nlive : ∀ a, h.live a = true → a ∉ D r := by
    intro a ha hh
    have := (w.dnl r a hh).2.2
    rw [ha] at this; cases this
  have rx : r ≠ x := by rintro rfl; exact nlive r rl hx
  have hn := wt.nodup
  simp only [cids_nil, List.append_nil, ids, List.nodup_append, List.nodup_cons, List.mem_cons] at hn
  obtain ⟨nA, ⟨rB', nB⟩, dAB⟩ := hn
  have rA' : r ∉ A.ids := fun hh => dAB r hh r (Or.inl rfl) rfl
  have xA : x ∉ A.ids := fun hh => nlive x (rA.live x hh) hx
  have xB : x ∉ B.ids := fun hh => nlive x (rB.live x hh) hx
  have zA := rA.ne_zero
  have zB := rB.ne_zero
  have ne : ∀ {T : Tree} {a : Nat}, a ≠ 0 → a ∉ T.ids → a ≠ T.rootId := by
    rintro T a h1 h2 rfl
    rcases rootId_mem_or T with hh | hh
    · exact h1 hh
    · exact h2 hh
  -- after the writes to the ring and to the replacement
  obtain ⟨p, br', par', R5, hp0, ev⟩ : ∃ (p : Nat) (br' : Nat → Bool → Slot) (par' : Nat → Slot),
      Rel (upd (upd D r []) x xs) N { H with br := br', par := par', root := x } (Omm.swapIn h r x p) ∧
      ((xs == []) = false → p = 0) ∧
      popFrontDup cmp key H r kk = (do
        let s : Omm α := { H with br := br', par := par', root := x }
        let l ← Omm.branch s x false
        let s ← Omm.link s x false l
        let l ← Omm.branch s x true
        let s ← Omm.link s x true l
        let s ← (if xs == [] then Omm.setPar s x (some 0) else some s)
        some (s, r)) := by
    cases xs with
    | nil =>
      have e1 : H.br x true = some x := q4.1
      have e2 : H.br x false = some x := q4.2.1
      refine ⟨x, fun b d => if b = x then H.br r d else H.br b d, upd H.par x (some x),
        w.swapIn rl r0 hd ?_ ?_ ?_ (Or.inl rfl) ?_ ?_, by simp, ?_⟩
      · intro d; simp [w.br r d rl]
      · intro a d ha
        have : a ≠ x := by rintro rfl; exact ha hx
        simp [this]
      · intro a ha
        simp only [List.take_nil, List.mem_cons, List.not_mem_nil, or_false] at ha
        simp [upd_ne _ _ ha]
      · intro _; simp
      · intro n ms hh; cases hh
      · unfold popFrontDup
        simp only [parent_live hrl, q1, Option.bind_eq_bind, Option.bind_some, parent_live xl, q2, hroot, if_true]
        simp only [Omm.branch, Omm.getBr, Omm.setBr, Omm.setPar, xl, hrl, if_true, Option.bind_eq_bind, Option.bind_some,
          e1, e2, rx, false_and, if_false, BEq.rfl, Bool.false_eq_true, Bool.true_eq_false, and_false, and_self, and_true, true_and]
        have ebr : (fun (b : Nat) (e : Bool) => if b = x ∧ e = true then H.br r true else if b = x ∧ e = false then
            H.br r false else if b = x ∧ e = true then some x else if b = x ∧ e = false then some x else H.br b e) =
            fun b d => if b = x then H.br r d else H.br b d := by
          funext b d
          by_cases hb : b = x <;> cases d <;> simp [hb]
        have epar : upd (upd H.par x (some 0)) x (some x) = upd H.par x (some x) := by
          funext b
          by_cases hb : b = x
          · simp [hb]
          · simp [upd_ne _ _ hb]
        rw [ebr, epar]
    | cons n ms =>
      have ndr : (x :: n :: ms).Nodup := by rw [← hd]; exact w.dnd r
      have nm : n ∈ D r := by rw [hd]; simp
      have nl := (w.dnl r n nm).2.1
      have xn' : n ≠ x := by
        rintro rfl
        exact (List.nodup_cons.1 ndr).1 (by simp)
      have rn : r ≠ n := by rintro rfl; exact nlive r rl nm
      generalize ht : (n :: ms).getLast (by simp) = t at *
      have tm : t ∈ n :: ms := by rw [← ht]; exact List.getLast_mem _
      have tD : t ∈ D r := by rw [hd]; exact List.mem_cons_of_mem _ tm
      have tl := (w.dnl r t tD).2.1
      have tx : t ≠ x := by
        rintro rfl
        exact (List.nodup_cons.1 ndr).1 tm
      have rt : r ≠ t := by rintro rfl; exact nlive r rl tD
      have hlast := q4.last
      have elast : (x :: n :: ms).getLast (by simp) = t := by rw [← ht]; simp
      rw [elast] at hlast
      have e1 : H.br x true = some n := q4.1
      have alone : (H.br n true == some n) = false := by
        have h2 : Lnks H.br (n :: (ms ++ [x])) := q4.2.2
        cases ms with
        | nil =>
          have : H.br n true = some x := h2.1
          simp [this, xn'.symm]
        | cons m ms =>
          have h3 : H.br n true = some m := h2.1
          have : m ≠ n := by
            rintro rfl
            have := (List.nodup_cons.1 ndr).2
            exact (List.nodup_cons.1 this).1 (by simp)
          simp [h3, this]
      refine ⟨0, fun b d => if b = x then H.br r d else if b = t ∧ d = true then some n
          else if b = n ∧ d = false then some t else H.br b d, upd (upd H.par n (some 0)) x (some n),
        w.swapIn rl r0 hd ?_ ?_ ?_ (Or.inr rfl) ?_ ?_, by simp, ?_⟩
      · intro d; simp [w.br r d rl]
      · intro a d ha
        have h1 : a ≠ x := by rintro rfl; exact ha hx
        have h2 : a ≠ t := by rintro rfl; exact ha tD
        have h3 : a ≠ n := by rintro rfl; exact ha nm
        simp [h1, h2, h3]
      · intro a ha
        simp only [List.take_succ_cons, List.take_zero, List.mem_cons, List.not_mem_nil, or_false, not_or] at ha
        simp [upd_ne _ _ ha.1, upd_ne _ _ ha.2]
      · intro hh; cases hh
      · intro n' ms' hh
        obtain ⟨rfl, rfl⟩ := List.cons.inj hh
        refine ⟨by simp, by simp [upd_ne _ _ xn'], ?_⟩
        have nex : ∀ a ∈ n :: ms, a ≠ x := by
          rintro a ha rfl
          exact (List.nodup_cons.1 ndr).1 ha
        refine q4.dropHead (p := t) ndr ht.symm ?_ ?_ ?_ ?_
        · simp [tx]
        · simp [xn']
        · intro a ha hat; simp [nex a ha, hat]
        · intro a ha han; simp [nex a ha, han]
      · unfold popFrontDup
        simp only [parent_live hrl, q1, Option.bind_eq_bind, Option.bind_some, parent_live xl, q2, hroot, if_true]
        simp only [Omm.branch, Omm.getBr, Omm.setBr, Omm.setPar, xl, hrl, nl, tl, if_true, Option.bind_eq_bind,
          Option.bind_some, e1, hlast.2, rx, rt, rn, false_and, if_false, alone, Bool.false_eq_true, Bool.true_eq_false, and_false, and_self, and_true, true_and]
        have ebr : (fun (b : Nat) (e : Bool) => if b = x ∧ e = true then H.br r true else if b = x ∧ e = false then
            H.br r false else if b = t ∧ e = true then some n else if b = n ∧ e = false then some t else H.br b e) =
            fun b d => if b = x then H.br r d else if b = t ∧ d = true then some n
              else if b = n ∧ d = false then some t else H.br b d := by
          funext b d
          by_cases hb : b = x <;> cases d <;> simp [hb]
        rw [ebr]
        rfl
  -- the children of the replacement
  rw [ev]
  generalize hG : ({ H with br := br', par := par', root := x } : Omm α) = G at R5
  have oG : Only H G := by rw [← hG]; exact ⟨_, _, _, rfl⟩
  generalize hg : Omm.swapIn h r x p = g at R5
  have gx : g.live x = true := by rw [← hg]; simp [Omm.swapIn]
  have glive : ∀ a, h.live a = true → g.live a = true := by
    intro a ha; rw [← hg]; simp [Omm.swapIn, upd, ha]
  have gbx : ∀ d, g.br x d = h.br r d := by intro d; rw [← hg]; simp [Omm.swapIn]
  have gpx : g.par x = p := by rw [← hg]; simp [Omm.swapIn]
  have gbr : ∀ a, a ≠ x → g.br a = h.br a := by intro a ha; funext d; rw [← hg]; simp [Omm.swapIn, ha]
  have gpar : ∀ a, a ≠ x → a ≠ r → g.par a = h.par a := by
    intro a h1 h2; rw [← hg]; simp [Omm.swapIn, upd_ne _ _ h1, upd_ne _ _ h2]
  have gl' : ∀ a, g.live a = true → a = x ∨ h.live a = true := by
    intro a ha
    by_cases hax : a = x
    · exact Or.inl hax
    · rw [← hg] at ha; right; simpa [Omm.swapIn, upd_ne _ _ hax] using ha
  have gA : Rep g r A := by
    refine rA.congr ?_ ?_ ?_
    · intro a ha; rw [glive a (rA.live a ha), rA.live a ha]
    · intro a ha; exact gbr a (fun hh => xA (hh ▸ ha))
    · intro a ha; exact gpar a (fun hh => xA (hh ▸ ha)) (fun hh => rA' (hh ▸ ha))
  have gB : Rep g r B := by
    refine rB.congr ?_ ?_ ?_
    · intro a ha; rw [glive a (rB.live a ha), rB.live a ha]
    · intro a ha; exact gbr a (fun hh => xB (hh ▸ ha))
    · intro a ha; exact gpar a (fun hh => xB (hh ▸ ha)) (fun hh => rB' (hh ▸ ha))
  have g0 : g.live 0 = true := glive 0 wt.live0
  let g1 : Links := { g with br := fun b e => if b = x ∧ e = false then A.rootId else g.br b e,
                             par := upd g.par A.rootId x }
  have e1 : Splay.link g x false A.rootId = some g1 := link_live gx (gA.root_live g0)
  obtain ⟨G1, f1, R1, o1⟩ := R5.link e1 gx (gA.root_live g0) (linkOk_rep gA xA)
  let g2 : Links := { g1 with br := fun b e => if b = x ∧ e = true then B.rootId else g1.br b e,
                              par := upd g1.par B.rootId x }
  have e2 : Splay.link g1 x true B.rootId = some g2 := link_live gx (gB.root_live g0)
  have ok2 : LinkOk g1 x true B.rootId := by
    have := linkOk_rep (d := true) gB xB
    intro p1 p2
    have ni := ne (T := B) x0 xB
    have nb : ¬ (B.rootId = x ∧ (!true) = false) := fun hh => ni hh.1.symm
    simp only [g1, if_neg nb]
    exact this p1 p2
  obtain ⟨G2, f2, R2, o2⟩ := R1.link e2 gx (gB.root_live g0) ok2
  let g3 : Links := { g2 with par := upd g2.par x 0 }
  have px2 : g2.par x = p := by
    simp [g2, g1, upd_ne _ _ (ne (T := B) x0 xB), upd_ne _ _ (ne (T := A) x0 xA), gpx]
  have hfin : ∃ G3, (if xs == [] then Omm.setPar G2 x (some 0) else some G2) = some G3 ∧ Only H G3 ∧
      Rel (upd (upd D r []) x xs) N G3 g3 := by
    have oG2 : Only H G2 := oG.trans (o1.trans o2)
    cases hxs : xs == [] with
    | true =>
      simp only [if_true]
      have xsn : xs = [] := by simpa using hxs
      rw [Omm.setPar_live (R2.live x gx)]
      refine ⟨_, rfl, oG2.trans ⟨_, _, _, rfl⟩, R2.setPar g0 gx ?_⟩
      rw [upd_same]; exact xsn
    | false =>
      simp only [Bool.false_eq_true, if_false]
      refine ⟨G2, rfl, oG2, ?_⟩
      have : g3 = g2 := by
        show ({ g2 with par := upd g2.par x 0 } : Links) = g2
        have : upd g2.par x 0 = g2.par := by
          funext a
          by_cases ha : a = x
          · rw [ha, upd_same, px2, hp0 hxs]
          · rw [upd_ne _ _ ha]
        rw [this]
      rw [this]; exact R2
  obtain ⟨G3, f3, o3, R3⟩ := hfin
  have evx : g.br x false = A.rootId := by rw [gbx, b1]
  have evy : g1.br x true = B.rootId := by
    have : g1.br x true = g.br x true := by simp [g1]
    rw [this, gbx, b2]
  have br3 : ∀ a, a ≠ x → g3.br a = h.br a := by
    intro a ha
    have : g3.br a = g.br a := by funext d; simp [g3, g2, g1, ha]
    rw [this, gbr a ha]
  have par3 : ∀ a, a ≠ x → a ≠ r → a ≠ A.rootId → a ≠ B.rootId → g3.par a = h.par a := by
    intro a h1 h2 h3 h4
    rw [← gpar a h1 h2]
    simp [g3, g2, g1, upd_ne _ _ h1, upd_ne _ _ h3, upd_ne _ _ h4]
  have W3 : Whole g3 [] (node x k A B) := by
    refine ⟨?_, ⟨x0, gx, ?_, ?_, by simp [g3], ?_, ?_⟩, ?_, g0⟩
    · show g3.root = x
      rw [← R3.root]
      have h1 : G.root = x := by rw [← hG]
      obtain ⟨_, _, _, hh⟩ := o3
      rw [R3.root]
      show g.root = x
      rw [← hg]; rfl
    · simp [g3, g2, g1]
    · simp [g3, g2]
    · refine rA.move nA ?_ ?_ ?_ ?_
      · intro a ha; show g.live a = _; rw [glive a (rA.live a ha), rA.live a ha]
      · intro a ha; exact br3 a (fun hh => xA (hh ▸ ha))
      · intro a ha hne
        exact par3 a (fun hh => xA (hh ▸ ha)) (fun hh => rA' (hh ▸ ha)) hne
          (ne (fun hh => zA (hh ▸ ha)) (fun hh => dAB a ha a (Or.inr hh) rfl))
      · intro hm
        have h1 : A.rootId ≠ x := fun hh => xA (hh ▸ hm)
        have h2 : A.rootId ≠ B.rootId := ne (fun hh => zA (hh ▸ hm)) (fun hh => dAB _ hm _ (Or.inr hh) rfl)
        simp [g3, g2, g1, upd_ne _ _ h1, upd_ne _ _ h2]
    · refine rB.move nB ?_ ?_ ?_ ?_
      · intro a ha; show g.live a = _; rw [glive a (rB.live a ha), rB.live a ha]
      · intro a ha; exact br3 a (fun hh => xB (hh ▸ ha))
      · intro a ha hne
        exact par3 a (fun hh => xB (hh ▸ ha)) (fun hh => rB' (hh ▸ ha))
          (ne (fun hh => zB (hh ▸ ha)) (fun hh => dAB a hh a (Or.inr ha) rfl)) hne
      · intro hm
        have h1 : B.rootId ≠ x := fun hh => xB (hh ▸ hm)
        simp [g3, g2, g1, upd_ne _ _ h1]
    · simp only [cids_nil, List.append_nil, ids, List.nodup_append, List.nodup_cons, List.mem_cons]
      refine ⟨nA, ⟨xB, nB⟩, ?_⟩
      intro a ha b hb hab
      rcases hb with rfl | hb
      · rw [hab] at ha; exact xA ha
      · exact dAB a ha b (Or.inr hb) hab
  have live3 : ∀ a, g3.live a = true → a = 0 ∨ a = r ∨ a ∈ (node x k A B).ids := by
    intro a ha
    rcases gl' a ha with rfl | ha
    · right; right; simp [ids]
    · rcases hl a ha with h1 | h1
      · exact Or.inl h1
      · simp only [ids, List.mem_append, List.mem_cons] at h1 ⊢
        rcases h1 with h1 | h1 | h1
        · exact Or.inr (Or.inr (Or.inl h1))
        · exact Or.inr (Or.inl h1)
        · exact Or.inr (Or.inr (Or.inr (Or.inr h1)))
  have rnot : r ∉ (node x k A B).ids := by
    simp only [ids, List.mem_append, List.mem_cons, not_or]
    exact ⟨rA', rx, rB'⟩
  have Dr : upd (upd D r []) x xs r = [] := by rw [upd_ne _ _ rx]; simp
  obtain ⟨R4, W4⟩ := R3.cut_whole W3 r0 Dr rnot live3
  refine ⟨G3, Omm.cut g3 r, ?_, o3, R4, W4, ?_⟩
  · simp only [Option.bind_eq_bind]
    rw [R5.branch gx, evx]
    simp only [Option.bind_some]
    rw [f1]
    simp only [Option.bind_some]
    rw [R1.branch (show g1.live x = true from gx), evy]
    simp only [Option.bind_some]
    rw [f2]
    simp only [Option.bind_some]
    rw [f3]
    rfl
  · intro a ha
    have hne : a ≠ r := by rintro rfl; simp [Omm.cut] at ha
    have ha' : g3.live a = true := by simpa [Omm.cut, upd_ne _ _ hne] using ha
    rcases live3 a ha' with h1 | h1 | h1
    · exact Or.inl h1
    · exact absurd h1 hne
    · exact Or.inr h1

end CCC.Omm
