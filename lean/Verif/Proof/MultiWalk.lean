import Verif.Proof.MultiIter
/-
Clearing and validating the multimap.
-/
namespace CCC.Omm
open CCC Links Tree Wavl Splay MultiSpec

set_option linter.unusedSimpArgs false

variable {α κ : Type} {cmp : κ → κ → Cmp} {key : α → κ}
variable {H : Omm α} {A : List Nat} {N : Nat → Prop} {D : Nat → List Nat} {h : Links} {T : Tree}

theorem drop_eq (r : Nat) (A : List Nat) : drop r A = A.filter (fun a => a != r) := by
  unfold drop
  refine List.filter_congr ?_
  intro a _
  simp

/-- What is left of a traversal when its first element is taken away. -/
theorem flat_drop {H' : Omm α} {D' : Nat → List Nat} {h' : Links} {T' : Tree} {M : Nat → Prop} {r : Nat} {d : Bool} {l : List Nat}
    (c : Core cmp key H A N D h T) (c' : Core cmp key H' (drop r A) M D' h' T') (hc : LawfulCmp cmp)
    (hv : H'.val = H.val) (e : flat d D T = r :: l) : flat d D' T' = l := by
  have nd := c.flat_nodup d
  rw [e, List.nodup_cons] at nd
  rw [← c'.arrange hc d, hv, drop_eq, arrange_filter (aheadOf_pre hc H.val d), c.arrange hc d, e, List.filter_cons]
  simp only [bne_self_eq_false, Bool.false_eq_true, if_false]
  rw [List.filter_eq_self]
  intro a ha
  simp only [bne_iff_ne, ne_eq]
  rintro rfl
  exact nd.1 ha

/-- The struct leaves the memory. -/
theorem Core.free (c : Core cmp key H A N D h T) (hc : LawfulCmp cmp) {M : Nat → Prop} (hm : ∀ a, M a → N a) {r : Nat} (hr : r ∉ A) (r0 : r ≠ 0)
    (hM : ¬ M r) (hl : H.live r = true) (ho : H.own r = true) :
    Omm.free H r = some { H with live := upd H.live r false, own := upd H.own r false } ∧
    Core cmp key { H with live := upd H.live r false, own := upd H.own r false } A M D h T := by
  refine ⟨by simp [Omm.free, hl, ho], c.frame hc hm rfl ?_ (fun a _ => hc.refl _)⟩
  intro a ha
  have : a ≠ r := by
    rcases ha with rfl | ha | ha
    · exact Ne.symm r0
    · rintro rfl; exact hr ha
    · rintro rfl; exact hM ha
  exact ⟨rfl, rfl, upd_ne _ _ this⟩

theorem Core.clearLoop (hc : LawfulCmp cmp) : ∀ (n : Nat) {H : Omm α} {A : List Nat} {N : Nat → Prop} {D : Nat → List Nat}
    {h : Links} {T : Tree} (acc : List (Nat × α)), Core cmp key H A N D h T → H.sz = A.length → A.length = n →
    (H.alloc = true → ∀ a ∈ A, H.own a = true) → ∃ H' D' h' T',
      Omm.clearLoop cmp key H acc = some (H', acc ++ (flat true D T).map (fun a => (a, H.val a))) ∧
      Core cmp key H' [] (fun a => N a ∨ (H.alloc = false ∧ a ∈ A)) D' h' T' ∧ H'.sz = 0 ∧ H'.val = H.val ∧
      H'.alloc = H.alloc ∧ H'.off = H.off ∧ (∀ a, a ∉ A ∨ H.alloc = false → H'.live a = H.live a ∧ H'.own a = H.own a) := by
  intro n
  induction n with
  | zero =>
    intro H A N D h T acc c hsz hn _
    have hA : A = [] := List.length_eq_zero_iff.1 hn
    subst hA
    have hT := c.nil_iff.2 rfl
    refine ⟨H, D, h, T, ?_, c.weaken (by simp), hsz, rfl, rfl, rfl, fun _ _ => ⟨rfl, rfl⟩⟩
    rw [Omm.clearLoop, if_pos (by simp [Omm.isEmpty, hsz]), hT, flat_nil]
    simp
  | succ n ih =>
    intro H A N D h T acc c hsz hn hown
    rcases c.eraseEnd hc hsz false with ⟨hA, _⟩ | ⟨hA, H1, D1, h1, T1, run, hmem, c1, o1⟩
    · rw [hA] at hn; simp at hn
    simp only [Bool.false_eq_true, if_false] at run
    have hne : T ≠ nil := fun hh => hA (c.nil_iff.1 hh)
    have hE : Omm.isEmpty H = false := by simp [Omm.isEmpty, hsz, hn]
    have hhd := flat_head (D := D) true hne
    simp only [Bool.not_true] at hhd
    have hrA := c.memT hmem
    revert run hmem c1 hhd hrA
    generalize endOf false T.ids = r
    intro hmem c1 run hhd hrA
    obtain ⟨l, hl⟩ : ∃ l, flat true D T = r :: l := by
      cases hf : flat true D T with
      | nil => rw [hf] at hhd; cases hhd
      | cons a l => rw [hf] at hhd; cases hhd; exact ⟨l, rfl⟩
    obtain ⟨v1, v2, v3, v4, v5, v6⟩ := o1.val
    have hlen : (drop r A).length = n := by
      rw [← c1.flat_length hc true, flat_drop c c1 hc v1 hl]
      have := c.flat_length hc true
      rw [hl, hn] at this
      simpa using this
    have hrn : r ∉ drop r A := by rw [drop_eq]; simp
    cases hal : H.alloc with
    | false =>
      obtain ⟨H2, D2, h2, T2, run2, c2, s2, w1, w2, w3, w4⟩ := ih (acc ++ [(r, H1.val r)]) c1 (by rw [v4, hlen]; omega) hlen
        (by rw [v5, hal]; intro hh; cases hh)
      refine ⟨H2, D2, h2, T2, ?_, c2.weaken ?_, s2, w1.trans v1, w2.trans (v5.trans hal), w3.trans v6, ?_⟩
      · rw [Omm.clearLoop, hE]
        simp only [Bool.false_eq_true, if_false, Option.bind_eq_bind, run, Option.bind_some, v5, hal, run2]
        rw [flat_drop c c1 hc v1 hl, hl, v1]
        simp
      · intro a ha
        rcases ha with ha | ⟨_, ha⟩
        · exact Or.inl (Or.inl ha)
        · by_cases hr : a = r
          · exact Or.inl (Or.inr hr)
          · exact Or.inr ⟨by rw [v5, hal], mem_drop.2 ⟨ha, hr⟩⟩
      · intro a _
        have := w4 a (Or.inr (by rw [v5, hal]))
        rw [v2, v3] at this; exact this
    | true =>
      have hfr := c1.free hc (M := N) (fun a ha => Or.inl ha) hrn (c.ne_zero hrA) (c.notN hrA)
        (by rw [v2]; exact c.alive hrA) (by rw [v3]; exact hown hal r hrA)
      obtain ⟨fr, c1'⟩ := hfr
      have hdr := flat_drop c c1' hc v1 hl
      obtain ⟨H2, D2, h2, T2, run2, c2, s2, w1, w2, w3, w4⟩ := ih (acc ++ [(r, H1.val r)]) c1'
        (by show H1.sz = _; rw [v4, hlen]; omega) hlen (by
          intro _ a ha
          have ha' := mem_drop.1 ha
          show upd H1.own r false a = true
          rw [upd_ne _ _ ha'.2, v3]; exact hown hal a ha'.1)
      refine ⟨H2, D2, h2, T2, ?_, c2.weaken ?_, s2, w1.trans v1, w2.trans (v5.trans hal), w3.trans v6, ?_⟩
      · rw [Omm.clearLoop, hE]
        simp only [Bool.false_eq_true, if_false, Option.bind_eq_bind, run, Option.bind_some]
        rw [if_pos (v5.trans hal), fr]
        simp only [Option.bind_some, run2]
        rw [hdr, hl, v1]
        simp
      · rintro a (ha | ⟨hh, _⟩)
        · exact Or.inl ha
        · cases hh
      · rintro a (ha | hh)
        · have hne' : a ≠ r := by rintro rfl; exact ha hrA
          have := w4 a (Or.inl (fun hh => ha (mem_drop.1 hh).1))
          rw [show ({ H1 with live := upd H1.live r false, own := upd H1.own r false } : Omm α).live a = H1.live a from
            upd_ne _ _ hne', show ({ H1 with live := upd H1.live r false, own := upd H1.own r false } : Omm α).own a = H1.own a
            from upd_ne _ _ hne', v2, v3] at this
          exact this
        · cases hh

/-! ### Validation -/

theorem countLoop_spec (c : Core cmp key H A N D h T) {n x : Nat} {xs : List Nat} (hn : h.live n = true) (e : D n = x :: xs) :
    ∀ {u v : List Nat} (k : Nat), xs = u ++ v → Omm.countLoop H x (v.headD x) k = some (k + v.length) := by
  obtain ⟨_, _, _, q4⟩ := c.rel.head n x xs hn e
  have nd := c.rel.dnd n
  rw [e, List.nodup_cons] at nd
  intro u v
  induction v generalizing u with
  | nil => intro k _; rw [Omm.countLoop]; simp
  | cons y v ih =>
    intro k ev
    have hy : y ∈ D n := by rw [e, ev]; simp
    have hyx : y ≠ x := by rintro rfl; exact nd.1 (by rw [ev]; simp)
    show Omm.countLoop H x y k = _
    rw [Omm.countLoop, if_neg hyx, branch_live (c.rel.dnl n y hy).2.1,
      q4.succ (u := x :: u) (a := y) (v := v) (by rw [ev]; rfl)]
    simp only [Option.bind_eq_bind, Option.bind_some]
    rw [ih (u := u ++ [y]) (k + 1) (by rw [ev]; simp)]
    simp only [List.length_cons, Option.some.injEq]; omega

theorem Core.countDups (c : Core cmp key H A N D h T) {n : Nat} (hn : h.live n = true) : Omm.countDups H n = some (D n).length := by
  unfold Omm.countDups
  rw [c.rel.hasDups hn]
  cases e : D n with
  | nil => simp
  | cons x xs =>
    obtain ⟨q1, _, _, q4⟩ := c.rel.head n x xs hn e
    have hx : x ∈ D n := by rw [e]; simp
    simp only [List.isEmpty_cons, Bool.not_false, Bool.not_true, Bool.false_eq_true, if_false, Option.bind_eq_bind,
      Option.bind_some]
    rw [parent_live (c.rel.live n hn), q1]
    simp only [Option.bind_some]
    rw [branch_live (c.rel.dnl n x hx).2.1, q4.succ (u := []) (a := x) (v := xs) rfl]
    simp only [Option.bind_some]
    rw [countLoop_spec c hn e (u := []) 1 rfl]
    simp only [List.length_cons, Option.some.injEq]; omega

theorem Core.recursiveSize (c : Core cmp key H A N D h T) : ∀ {t : Tree} {p : Nat}, Rep h p t →
    Omm.recursiveSize H t.rootId = some (t.ids.flatMap (fun n => n :: D n)).length := by
  intro t
  induction t with
  | nil => intro p _; rw [Omm.recursiveSize]; rfl
  | node i k l r il ir =>
    intro p hr
    obtain ⟨i0, lv, b1, b2, ip, rl, rr⟩ := hr
    show Omm.recursiveSize H i = _
    rw [Omm.recursiveSize, if_neg i0, c.countDups lv, c.rel.branch lv, c.rel.branch lv]
    simp only [Option.bind_eq_bind, Option.bind_some]
    rw [b1, b2, il rl, ir rr]
    simp only [Option.bind_some, ids, List.flatMap_append, List.flatMap_cons, List.length_append, List.length_cons,
      Option.some.injEq]
    omega

theorem Core.storing (c : Core cmp key H A N D h T) : ∀ {t : Tree} {p : Nat}, Rep h p t →
    Omm.isStoringParent H p t.rootId = some true := by
  intro t
  induction t with
  | nil => intro p _; rw [Omm.isStoringParent]; rfl
  | node i k l r il ir =>
    intro p hr
    obtain ⟨i0, lv, b1, b2, ip, rl, rr⟩ := hr
    have ht : childTracksParent H p i = some true := by
      unfold childTracksParent
      rw [c.rel.hasDups lv]
      cases e : D i with
      | nil =>
        simp only [List.isEmpty_nil, Bool.not_true, Bool.false_eq_true, if_false, Option.bind_eq_bind, Option.bind_some]
        rw [getPar_live (c.rel.live i lv), c.rel.plain i lv e, ip]
        simp
      | cons x xs =>
        obtain ⟨q1, q2, _, _⟩ := c.rel.head i x xs lv e
        have hx : x ∈ D i := by rw [e]; simp
        simp only [List.isEmpty_cons, Bool.not_false, if_true, Option.bind_eq_bind, Option.bind_some]
        rw [parent_live (c.rel.live i lv), q1]
        simp only [Option.bind_some]
        rw [getPar_live (c.rel.dnl i x hx).2.1, q2, ip]
        simp
    show Omm.isStoringParent H p i = _
    rw [Omm.isStoringParent, if_neg i0, ht, c.rel.branch lv, c.rel.branch lv]
    simp only [Option.bind_eq_bind, Option.bind_some, Bool.not_true, Bool.false_eq_true, if_false]
    rw [b1, b2, il rl, ir rr]
    simp

theorem Core.subtrees (c : Core cmp key H A N D h T) (hc : LawfulCmp cmp) : ∀ {t : Tree} {p : Nat} (low high : Nat), Rep h p t →
    t.ids.Pairwise (fun a b => cmp (key (H.val a)) (key (H.val b)) = .les) → (∀ a ∈ t.ids, a ∈ A) →
    (low ≠ 0 → ∀ a ∈ t.ids, cmp (key (H.val low)) (key (H.val a)) = .les) →
    (high ≠ 0 → ∀ a ∈ t.ids, cmp (key (H.val high)) (key (H.val a)) = .grt) →
    Omm.areSubtreesValid cmp key H low (some t.rootId) high = some true := by
  intro t
  induction t with
  | nil => intro p low high _ _ _ _ _; rw [Omm.areSubtreesValid.eq_def]; rfl
  | node i k l r il ir =>
    intro p low high hr hs hA hlo hhi
    obtain ⟨i0, lv, b1, b2, ip, rl, rr⟩ := hr
    have hi := hA i (by simp [ids])
    simp only [ids] at hs
    rw [List.pairwise_append, List.pairwise_cons] at hs
    obtain ⟨s1, ⟨s2, s3⟩, s4⟩ := hs
    show Omm.areSubtreesValid cmp key H low (some i) high = _
    rw [Omm.areSubtreesValid.eq_def]
    have h1 : (if low ≠ 0 then Omm.cmpAt cmp key H (key (H.val low)) i else some .les) = some .les := by
      split
      · rename_i hl
        rw [c.cmpAt _ hi, hlo hl i (by simp [ids])]
      · rfl
    have h2 : (if high ≠ 0 then Omm.cmpAt cmp key H (key (H.val high)) i else some .grt) = some .grt := by
      split
      · rename_i hl
        rw [c.cmpAt _ hi, hhi hl i (by simp [ids])]
      · rfl
    simp only [if_neg i0, h1, h2, c.rel.getBr lv, b1, b2, Option.bind_eq_bind, Option.bind_some, ne_eq, not_true, if_false]
    rw [il low i rl s1 (fun a ha => hA a (by simp [ids, ha])) (fun hl a ha => hlo hl a (by simp [ids, ha]))
      (fun _ a ha => hc.grt_iff.2 (s4 a ha i (by simp)))]
    simp only [Option.bind_some, Bool.not_true, Bool.false_eq_true, if_false]
    exact ir i high rr s3 (fun a ha => hA a (by simp [ids, ha])) (fun _ a ha => s2 a ha)
      (fun hl a ha => hhi hl a (by simp [ids, ha]))

/-- `validate` says yes. -/
theorem Core.validate (c : Core cmp key H A N D h T) (hc : LawfulCmp cmp) (hsz : H.sz = A.length) :
    Omm.validate cmp key H = some true := by
  unfold Omm.validate
  have hlen := c.flat_length hc true
  unfold flat at hlen
  simp only [if_true] at hlen
  rw [c.root, c.subtrees hc 0 0 c.whole.tree c.sorted (fun a ha => c.memT ha) (fun hh => absurd rfl hh)
    (fun hh => absurd rfl hh)]
  simp only [Option.bind_eq_bind, Option.bind_some, Bool.not_true, Bool.false_eq_true, if_false]
  have := c.storing c.whole.tree
  rw [show pid [] = 0 from rfl] at this
  rw [this]
  simp only [Option.bind_some, Bool.not_true, Bool.false_eq_true, if_false]
  rw [c.recursiveSize c.whole.tree, hlen, hsz]
  simp

end CCC.Omm
