import Verif.Proof.WavlInv
/-
Insertion keeps the WAVL invariant.
-/
namespace CCC.Wavl
open CCC Links Tree

theorem ev_succ (k : Nat) : ev (k + 1) = !ev k := by
  unfold ev
  rcases Nat.mod_two_eq_zero_or_one k with h | h <;> simp [Nat.add_mod, h]
theorem ev_add_two (k : Nat) : ev (k + 2) = ev k := by
  rw [ev_succ, ev_succ, Bool.not_not]

theorem plug_ids_eq {c : Ctx} {t t' : Tree} (h : t'.ids = t.ids) : (plug c t').ids = (plug c t).ids := by
  rw [plug_ids, plug_ids, h]

/-- What every maintenance function establishes: it runs, and the links then represent a valid tree with the same
in-order sequence of elements. -/
def Fixed (op : Option Links) (live : Nat → Bool) (is : List Nat) : Prop :=
  ∃ h' T', op = some h' ∧ Wv h' [] T' ∧ Valid T' ∧ T'.ids = is ∧ h'.live = live

theorem insertTail_spec {h : Links} {c : Ctx} {f : Frame} {d : Bool} {x k : Nat} {A B : Tree}
    (w : Wv h (f :: c) (nd d x (k + 1) A B)) (vA : Valid A) (vB : Valid B) (hA : A.rk = k) (hB : B.rk + 1 = k)
    (hf : f.rk = k + 1 ∧ f.sib.rk + 1 = k ∨ f.rk = k + 2) (vs : Valid f.sib)
    (hs : f.rk = f.sib.rk + 1 ∨ f.rk = f.sib.rk + 2) (vc : ValidC c f.rk) :
    Fixed (insertTail h f.id x) h.live (plug (f :: c) (nd d x (k + 1) A B)).ids := by
  obtain ⟨f0, fl, hb0, hb1, _, rs, _⟩ := w.whole.ctx
  have hx0 : x ≠ 0 := (Rep_nd.1 w.whole.tree).1
  have xl : h.live x = true := by simpa using w.root_live
  have px : h.parity x = ev (k + 1) := by simpa using w.root_parity
  have pf : h.parity f.id = ev f.rk := w.rpc.1
  have ps := w.sib_parity
  have sl := w.sib_live
  have es := siblingOf_spec w (by simpa using hx0)
  have dt := w.whole.dir_true (w.whole.root_ne_sib (by simpa using hx0))
  simp only [nd_rootId] at es dt
  have f0' : f.id ≠ 0 := f0
  rcases hf with ⟨hf1, hf2⟩ | hf2
  · have e22 : is22parent h x f.id f.sib.rootId = some true := by
      simp only [is22parent, req, bne_zero f0', if_true, Option.bind_eq_bind, Option.bind_some,
        getParity_live xl, getParity_live fl, getParity_live sl, px, pf, ps, hf1]
      rw [← hf2, ev_add_two]; simp
    have e0 : is2child h f.id x = some true := by
      simp [is2child, f0', getParity_live xl, getParity_live fl, px, pf, hf1]
    obtain ⟨fd, fi, fk, S⟩ := f
    simp only at *
    subst hf1
    by_cases hd : d = fd
    · -- outer heavy: single rotation
      subst hd
      have eb : h.br x (!d) = B.rootId := (Rep_nd.1 w.whole.tree).2.2.2.1
      have Bl : h.live B.rootId = true := (Rep_nd.1 w.whole.tree).2.2.2.2.2.2.root_live w.whole.live0
      have pB : h.parity B.rootId = ev B.rk := by
        have := Wv.down'.1 w
        exact this.root_parity
      have single : (if B.rootId = 0 then some true else is2child h fi B.rootId) = some true := by
        split
        · rfl
        · simp only [is2child, f0', if_false, getParity_live fl, getParity_live Bl, Option.bind_eq_bind,
            Option.bind_some, pf, pB]
          rw [← hB, ev_add_two]; simp
      have w1 : Wv h c (nd d fi (k + 1) (nd d x (k + 1) A B) S) := Wv.down.2 w
      obtain ⟨h2, e2, w2, l2⟩ := rotate_wv w1
      obtain ⟨h3, e3, w3, l3⟩ := promote_spec k (Wv.down'.1 w2) (by rw [ev_succ, Bool.not_not])
      refine ⟨h3, plug c (nd d x (k + 1) A (nd d fi k B S)), ?_, ?_, ?_, ?_, by rw [l3, l2]⟩
      · simp only [insertTail, es, e22, Option.bind_eq_bind, Option.bind_some, Bool.not_true, req,
          bne_zero hx0, if_true, e0, getBr_live fl, dt, getBr_live xl, eb, single, e2, e3]
        simp
      · rw [← Wv.plug]; exact Wv.down'.2 w3
      · rw [Valid_plug]
        refine ⟨by simpa using vc, ?_⟩
        rw [Valid_nd, Valid_nd, nd_rk]
        exact ⟨by omega, by omega, by omega, vA, by omega, by omega, by omega, vB, vs⟩
      · rw [plug_cons]
        apply plug_ids_eq
        cases d <;> simp [Frame.fill, ids]
    · -- inner heavy: double rotation
      have hd' : fd = !d := by revert hd; cases d <;> cases fd <;> simp
      subst hd'
      obtain ⟨y, ky, Y1, Y2, rfl⟩ := exists_nd (t := A) (!d) (by omega)
      simp only [nd_rk] at hA
      subst hA
      have eb : h.br x (!!d) = y := by
        rw [Bool.not_not]; simpa using (Rep_nd.1 w.whole.tree).2.2.1
      have wy := Wv.down.1 w
      have hy0 : y ≠ 0 := (Rep_nd.1 wy.whole.tree).1
      have yl : h.live y = true := by simpa using wy.root_live
      have py : h.parity y = ev ky := by simpa using wy.root_parity
      have ney : ev (ky + 1) ≠ ev ky := by rw [ev_succ]; simp
      have single : (if y = 0 then some true else is2child h fi y) = some false := by
        simp [hy0, is2child, f0', getParity_live fl, getParity_live yl, pf, py, ney]
      have one : is1child h fi y = some true := by
        simp [is1child, f0', getParity_live fl, getParity_live yl, pf, py, ney]
      have w1 : Wv h c (nd (!d) fi (ky + 1) (nd (!d) x (ky + 1) B (nd (!d) y ky Y1 Y2)) S) := by
        have := Wv.down.2 w
        have e : nd d x (ky + 1) (nd (!d) y ky Y1 Y2) B = nd (!d) x (ky + 1) B (nd (!d) y ky Y1 Y2) := by
          cases d <;> rfl
        rw [e] at this
        exact this
      obtain ⟨h2, e2, w2, l2⟩ := doubleRotate_wv w1
      obtain ⟨h3, e3, w3, l3⟩ := promote_spec (ky + 1) w2 (ev_succ _)
      obtain ⟨h4, e4, w4, l4⟩ := promote_spec ky (Wv.down.1 w3) (by rw [ev_succ, Bool.not_not])
      obtain ⟨h5, e5, w5, l5⟩ := promote_spec ky (Wv.down'.1 (Wv.down.2 w4)) (by rw [ev_succ, Bool.not_not])
      rw [Valid_nd] at vA
      obtain ⟨v1, v2, v3, v4, v5⟩ := vA
      refine ⟨h5, plug c (nd (!d) y (ky + 1) (nd (!d) x ky B Y1) (nd (!d) fi ky Y2 S)), ?_, ?_, ?_, ?_,
        by rw [l5, l4, l3, l2]⟩
      · simp only [insertTail, es, e22, Option.bind_eq_bind, Option.bind_some, Bool.not_true, req,
          bne_zero hx0, if_true, e0, getBr_live fl, dt, getBr_live xl, eb, single, one, e2, e3, e4, e5]
        simp
      · rw [← Wv.plug]; exact Wv.down'.2 w5
      · rw [Valid_plug]
        refine ⟨by simpa using vc, ?_⟩
        rw [Valid_nd, Valid_nd, Valid_nd, nd_rk, nd_rk]
        exact ⟨by omega, by omega, by omega, ⟨by omega, by omega, by omega, vB, v4⟩,
          by omega, by omega, by omega, v5, vs⟩
      · rw [plug_cons]
        apply plug_ids_eq
        cases d <;> simp [Frame.fill, ids]
  · have e22 : is22parent h x f.id f.sib.rootId = some false := by
      simp only [is22parent, req, bne_zero f0', if_true, Option.bind_eq_bind, Option.bind_some,
        getParity_live xl, getParity_live fl, getParity_live sl, px, pf, hf2]
      have : (ev (k + 1) == ev (k + 2)) = false := by rw [ev_succ (k + 1)]; simp
      rw [this]; simp
    refine ⟨h, plug (f :: c) (nd d x (k + 1) A B), ?_, Wv.plug.1 w, ?_, rfl, rfl⟩
    · simp only [insertTail, es, e22, Option.bind_eq_bind, Option.bind_some, Bool.not_false, if_true]
    · rw [Valid_plug]
      refine ⟨⟨by simp; omega, hs, by simp, vs, vc⟩, ?_⟩
      rw [Valid_nd]
      exact ⟨by omega, by omega, by omega, vA, vB⟩

theorem insertFixup_spec {h : Links} {c : Ctx} : ∀ {d : Bool} {z k : Nat} {A B : Tree},
    Wv h c (nd d z k A B) → Valid A → Valid B → A.rk = k → B.rk + 1 = k → ValidC c k →
    Fixed (insertFixup h z) h.live (plug c (nd d z k A B)).ids := by
  induction c generalizing h with
  | nil =>
    intro d z k A B w vA vB hA hB vc
    obtain ⟨h1, e1, w1, l1⟩ := promote_spec (k + 1) w (ev_succ _)
    have zl : h1.live z = true := by simpa using w1.root_live
    have zp : h1.par z = 0 := by
      have := w1.whole.tree.root_par (by simp)
      simpa using this
    refine ⟨h1, nd d z (k + 1) A B, ?_, w1, ?_, ?_, l1⟩
    · rw [insertFixup]
      simp [e1, getPar_live zl, zp]
    · rw [Valid_nd]; exact ⟨by omega, by omega, by omega, vA, vB⟩
    · cases d <;> simp [ids]
  | cons f c ih =>
    intro d z k A B w vA vB hA hB vc
    obtain ⟨h1, e1, w1, l1⟩ := promote_spec (k + 1) w (ev_succ _)
    have zl : h1.live z = true := by simpa using w1.root_live
    have zp : h1.par z = f.id := by
      have := w1.whole.tree.root_par (by simp)
      simpa using this
    have z0 : z ≠ 0 := (Rep_nd.1 w1.whole.tree).1
    have es := siblingOf_spec w1 (by simpa using z0)
    simp only [nd_rootId] at es
    have f0 : f.id ≠ 0 := w1.whole.ctx.1
    have fl := w1.whole.ctx.2.1
    have pf : h1.parity f.id = ev f.rk := w1.rpc.1
    have ps := w1.sib_parity
    have sl := w1.sib_live
    have pz : h1.parity z = ev (k + 1) := by simpa using w1.root_parity
    obtain ⟨v1, v2, v3, vs, vc'⟩ := vc
    have hid : (plug (f :: c) (nd d z (k + 1) A B)).ids = (plug (f :: c) (nd d z k A B)).ids :=
      plug_ids_eq (by cases d <;> rfl)
    by_cases hc : f.rk = k + 1 ∧ f.sib.rk = k
    · have e01 : is01parent h1 z f.id f.sib.rootId = some true := by
        simp only [is01parent, req, bne_zero f0, if_true, Option.bind_eq_bind, Option.bind_some,
          getParity_live zl, getParity_live fl, getParity_live sl, pz, pf, ps, hc.1, hc.2]
        rw [ev_succ]; cases ev k <;> rfl
      have w2 : Wv h1 c (nd f.dir f.id f.rk (nd d z (k + 1) A B) f.sib) := Wv.up.1 w1
      have := ih w2 (Valid_nd.2 ⟨by omega, by omega, by omega, vA, vB⟩) vs (by simp [hc.1]) (by omega) vc'
      rw [← hid, ← l1]
      unfold Fixed at this ⊢
      rw [insertFixup]
      simp only [e1, Option.bind_eq_bind, Option.bind_some, getPar_live zl, zp, f0, if_false, es, e01, if_true]
      exact this
    · have e01 : is01parent h1 z f.id f.sib.rootId = some false := by
        simp only [is01parent, req, bne_zero f0, if_true, Option.bind_eq_bind, Option.bind_some,
          getParity_live zl, getParity_live fl, getParity_live sl, pz, pf, ps]
        rcases v1 with v1 | v1
        · have : f.sib.rk + 1 = k := by omega
          have hs : ev f.sib.rk = ev (k + 1) := by rw [← this, ev_add_two]
          rw [v1, hs]; cases ev (k + 1) <;> rfl
        · rw [v1, ev_succ (k + 1)]; cases ev (k + 1) <;> cases ev f.sib.rk <;> rfl
      have := insertTail_spec w1 vA vB hA hB (by omega) vs v2 vc'
      rw [← hid, ← l1]
      unfold Fixed at this ⊢
      rw [insertFixup]
      simp only [e1, Option.bind_eq_bind, Option.bind_some, getPar_live zl, zp, f0, if_false, es, e01]
      exact this

end CCC.Wavl
