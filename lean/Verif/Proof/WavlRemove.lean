import Verif.Proof.WavlInsert
/-
Removal keeps the WAVL invariant.
-/
namespace CCC.Wavl
open CCC Links Tree

theorem Wv.rerank {h : Links} {c : Ctx} {d : Bool} {x k : Nat} {a b : Tree} (k' : Nat)
    (w : Wv h c (nd d x k a b)) (hk : ev k' = ev k) : Wv h c (nd d x k' a b) := by
  obtain ⟨⟨w1, w2, w3, w4⟩, r, rc, p0⟩ := w
  refine ⟨⟨by simpa using w1, Rep_nd.2 (Rep_nd.1 w2), ?_, w4⟩, ?_, rc, p0⟩
  · refine List.Perm.nodup (List.Perm.append_right _ ?_) w3
    exact (nd_ids_perm _ _ _ _ _).trans (nd_ids_perm _ _ _ _ _).symm
  · obtain ⟨r1, r2, r3⟩ := RP_nd.1 r
    exact RP_nd.2 ⟨by rw [r1, hk], r2, r3⟩

theorem isLeaf_spec {h : Links} {c : Ctx} {d : Bool} {x k : Nat} {a b : Tree}
    (w : Wv h c (nd d x k a b)) (va : Valid a) (vb : Valid b) :
    isLeaf h x = some (decide (a.rk = 0 ∧ b.rk = 0)) := by
  obtain ⟨_, xl, e1, e2, _, ra, rb⟩ := Rep_nd.1 w.whole.tree
  have h1 := va.rootId ra
  have h2 := vb.rootId rb
  cases d
  · simp only [Bool.not_false] at e1 e2
    simp only [isLeaf, getBr_live xl, e1, e2, Option.bind_eq_bind, Option.bind_some]
    by_cases q : a.rootId = 0 <;> by_cases q2 : b.rootId = 0 <;> simp [q, q2, ← h1, ← h2]
  · simp only [Bool.not_true] at e1 e2
    simp only [isLeaf, getBr_live xl, e1, e2, Option.bind_eq_bind, Option.bind_some]
    by_cases q : a.rootId = 0 <;> by_cases q2 : b.rootId = 0 <;> simp [q, q2, ← h1, ← h2]

theorem is22_spec {h : Links} {c : Ctx} {d : Bool} {x k : Nat} {a b : Tree}
    (w : Wv h c (nd d x k a b)) :
    is22parent h (h.br x false) x (h.br x true) = some ((ev a.rk == ev k) && (ev b.rk == ev k)) := by
  obtain ⟨x0, xl, e1, e2, _, ra, rb⟩ := Rep_nd.1 w.whole.tree
  have pa := (Wv.down.1 w).root_parity
  have pb := (Wv.down'.1 w).root_parity
  have la := (Wv.down.1 w).root_live
  have lb := (Wv.down'.1 w).root_live
  have px : h.parity x = ev k := by simpa using w.root_parity
  cases d
  · simp only [Bool.not_false] at e1 e2
    simp only [is22parent, req, bne_zero x0, if_true, e1, e2, Option.bind_eq_bind, Option.bind_some,
      getParity_live la, getParity_live lb, getParity_live xl, pa, pb, px]
    cases ev a.rk <;> cases ev k <;> cases ev b.rk <;> rfl
  · simp only [Bool.not_true] at e1 e2
    simp only [is22parent, req, bne_zero x0, if_true, e1, e2, Option.bind_eq_bind, Option.bind_some,
      getParity_live la, getParity_live lb, getParity_live xl, pa, pb, px]
    cases ev a.rk <;> cases ev k <;> cases ev b.rk <;> rfl

theorem is11_spec {h : Links} {c : Ctx} {d : Bool} {x k : Nat} {a b : Tree}
    (w : Wv h c (nd d x k a b)) :
    is11parent h (h.br x false) x (h.br x true) = some ((ev a.rk != ev k) && (ev b.rk != ev k)) := by
  obtain ⟨x0, xl, e1, e2, _, ra, rb⟩ := Rep_nd.1 w.whole.tree
  have pa := (Wv.down.1 w).root_parity
  have pb := (Wv.down'.1 w).root_parity
  have la := (Wv.down.1 w).root_live
  have lb := (Wv.down'.1 w).root_live
  have px : h.parity x = ev k := by simpa using w.root_parity
  cases d
  · simp only [Bool.not_false] at e1 e2
    simp only [is11parent, req, bne_zero x0, if_true, e1, e2, Option.bind_eq_bind, Option.bind_some,
      getParity_live la, getParity_live lb, getParity_live xl, pa, pb, px]
    cases ev a.rk <;> cases ev k <;> cases ev b.rk <;> rfl
  · simp only [Bool.not_true] at e1 e2
    simp only [is11parent, req, bne_zero x0, if_true, e1, e2, Option.bind_eq_bind, Option.bind_some,
      getParity_live la, getParity_live lb, getParity_live xl, pa, pb, px]
    cases ev a.rk <;> cases ev k <;> cases ev b.rk <;> rfl

theorem is2child_spec {h : Links} {c : Ctx} {f : Frame} {t : Tree} (w : Wv h (f :: c) t) :
    is2child h f.id t.rootId = some (ev f.rk == ev t.rk) := by
  have f0 : f.id ≠ 0 := w.whole.ctx.1
  simp only [is2child, f0, if_false, getParity_live w.whole.ctx.2.1, getParity_live w.root_live,
    Option.bind_eq_bind, Option.bind_some, w.rpc.1, w.root_parity]

theorem is1child_spec {h : Links} {c : Ctx} {f : Frame} {t : Tree} (w : Wv h (f :: c) t) :
    is1child h f.id t.rootId = some (ev f.rk != ev t.rk) := by
  have f0 : f.id ≠ 0 := w.whole.ctx.1
  simp only [is1child, f0, if_false, getParity_live w.whole.ctx.2.1, getParity_live w.root_live,
    Option.bind_eq_bind, Option.bind_some, w.rpc.1, w.root_parity]

/-- `is_2_child(parent, x)` for any path. -/
theorem is2child_pid {h : Links} {c : Ctx} {t : Tree} (w : Wv h c t) :
    is2child h (pid c) t.rootId = some (match c with | [] => false | f :: _ => ev f.rk == ev t.rk) := by
  cases c with
  | nil => simp [is2child]
  | cons f c => exact is2child_spec w

theorem ev_eq_iff {a b : Nat} : (ev a == ev b) = decide (a % 2 = b % 2) := by
  unfold ev
  rcases Nat.mod_two_eq_zero_or_one a with h | h <;> rcases Nat.mod_two_eq_zero_or_one b with h' | h' <;>
    simp [h, h']

theorem ev_ne_iff {a b : Nat} : (ev a != ev b) = decide (a % 2 ≠ b % 2) := by
  unfold ev
  rcases Nat.mod_two_eq_zero_or_one a with h | h <;> rcases Nat.mod_two_eq_zero_or_one b with h' | h' <;>
    simp [h, h']

theorem ev_congr {a b : Nat} (h : a % 2 = b % 2) : ev a = ev b := by unfold ev; rw [h]
theorem ev_not {a b : Nat} (h : a % 2 ≠ b % 2) : ev a = !ev b := by
  unfold ev
  rcases Nat.mod_two_eq_zero_or_one a with h1 | h1 <;> rcases Nat.mod_two_eq_zero_or_one b with h' | h' <;>
    simp [h1, h'] at h ⊢

theorem rebalanceRotate_spec {h : Links} {c : Ctx} {f : Frame} {X : Tree}
    (w : Wv h (f :: c) X) (vX : Valid X) (vs : Valid f.sib) (hf : f.rk = X.rk + 3)
    (hs : f.rk = f.sib.rk + 1) (vc : ValidC c f.rk)
    (h22 : ∀ d y k a b, f.sib = nd d y k a b → ¬ (a.rk % 2 = k % 2 ∧ b.rk % 2 = k % 2)) :
    Fixed (rebalanceRotate h f.id X.rootId f.sib.rootId) h.live (plug (f :: c) X).ids := by
  obtain ⟨fd, z, kz, S⟩ := f
  simp only at *
  obtain ⟨y, ky, W, V, rfl⟩ := exists_nd (t := S) (!fd) (by omega)
  simp only [nd_rk] at hs
  have h22 := h22 _ _ _ _ _ rfl
  have e3 := is1child_spec w
  simp only at e3
  have z0 : z ≠ 0 := w.whole.ctx.1
  have zl : h.live z = true := w.whole.ctx.2.1
  have hy0 : y ≠ 0 := (Rep_nd.1 w.whole.ctx.2.2.2.2.2.1).1
  have dt : (h.br z true == X.rootId) = fd := w.whole.dir_true (w.whole.sib_ne_root (by simpa using hy0))
  -- the tree seen from `z`
  have wz : Wv h c (nd (!fd) z kz (nd (!fd) y ky W V) X) := by
    have h1 := Wv.up.1 w
    have e : Frame.fill ⟨fd, z, kz, nd (!fd) y ky W V⟩ X = nd (!fd) z kz (nd (!fd) y ky W V) X := by
      cases fd <;> rfl
    rw [e] at h1; exact h1
  have wy := Wv.down.1 wz
  obtain ⟨_, yl, yb1, yb2, _, rW, rV⟩ := Rep_nd.1 wy.whole.tree
  rw [Bool.not_not] at yb2
  have e1 := is1child_spec (Wv.down.1 wy)
  have e2 := is2child_spec (Wv.down.1 wy)
  have e1v := is1child_spec (Wv.down'.1 wy)
  simp only at e1 e2 e1v
  rw [Valid_nd] at vs
  obtain ⟨v1, v2, v3, vW, vV⟩ := vs
  have hid : (plug (⟨fd, z, kz, nd (!fd) y ky W V⟩ :: c) X).ids =
      (plug c (nd (!fd) z kz (nd (!fd) y ky W V) X)).ids := by
    rw [plug_cons]; cases fd <;> rfl
  rw [hid]
  have t3 : (ev kz != ev X.rk) = true := by rw [ev_ne_iff]; simp; omega
  by_cases hW : ky = W.rk + 1
  · -- single rotation
    obtain ⟨h2, q2, w2, l2⟩ := rotate_wv wz
    rw [Bool.not_not] at q2
    obtain ⟨h3, q3, w3, l3⟩ := promote_spec (ky + 1) w2 (ev_succ _)
    obtain ⟨h4, q4, w4, l4⟩ := promote_spec (X.rk + 2) (Wv.down'.1 w3) (by apply ev_not; omega)
    have q5 := isLeaf_spec w4 vV vX
    have t1 : (ev ky != ev W.rk) = true := by rw [ev_ne_iff]; simp; omega
    have run : rebalanceRotate h z X.rootId y =
        (if decide (V.rk = 0 ∧ X.rk = 0) = true then promote h4 z else some h4) := by
      simp only [rebalanceRotate, e3, t3, Option.bind_eq_bind, Option.bind_some, req, if_true, getBr_live zl, dt,
        getBr_live yl, yb1, yb2, e1, t1, q2, q3, q4, q5]
    rw [nd_rootId, run]
    by_cases hl : V.rk = 0 ∧ X.rk = 0
    · obtain ⟨h5, q6, w5, l5⟩ := promote_spec (X.rk + 1) w4 (by apply ev_not; omega)
      refine ⟨h5, plug c (nd (!fd) y (ky + 1) W (nd (!fd) z (X.rk + 1) V X)), ?_, ?_, ?_, ?_,
        by rw [l5, l4, l3, l2]⟩
      · simp only [hl, and_self, decide_true, if_true]; exact q6
      · rw [← Wv.plug]; exact Wv.down'.2 w5
      · rw [Valid_plug]
        refine ⟨by rw [nd_rk]; have : ky + 1 = kz := by omega
                   rw [this]; exact vc, ?_⟩
        rw [Valid_nd, Valid_nd, nd_rk]
        exact ⟨by omega, by omega, by omega, vW, by omega, by omega, by omega, vV, vX⟩
      · apply plug_ids_eq
        cases fd <;> simp [ids]
    · refine ⟨h4, plug c (nd (!fd) y (ky + 1) W (nd (!fd) z (X.rk + 2) V X)), ?_, ?_, ?_, ?_,
        by rw [l4, l3, l2]⟩
      · rw [if_neg (by simpa using hl)]
      · rw [← Wv.plug]; exact Wv.down'.2 w4
      · rw [Valid_plug]
        refine ⟨by rw [nd_rk]; have : ky + 1 = kz := by omega
                   rw [this]; exact vc, ?_⟩
        rw [Valid_nd, Valid_nd, nd_rk]
        exact ⟨by omega, by omega, by omega, vW, by omega, by omega, by omega, vV, vX⟩
      · apply plug_ids_eq
        cases fd <;> simp [ids]
  · -- double rotation
    have hW2 : ky = W.rk + 2 := by omega
    have hV1 : ky = V.rk + 1 := by omega
    obtain ⟨v, kv, V1, V2, rfl⟩ := exists_nd (t := V) (!fd) (by omega)
    simp only [nd_rk] at hV1
    obtain ⟨h2, q2, w2, l2⟩ := doubleRotate_wv wz
    have w2' := w2.rerank (kv + 2) (ev_add_two kv)
    obtain ⟨h3, q3, w3, l3⟩ := promote_spec (X.rk + 1) (Wv.down.1 w2') (by apply ev_not; omega)
    have w3' := (Wv.down'.1 (Wv.down.2 w3)).rerank (X.rk + 1) (by apply ev_congr; omega)
    rw [Valid_nd] at vV
    obtain ⟨u1, u2, u3, vV1, vV2⟩ := vV
    have q4 := isLeaf_spec w3' vV2 vX
    have q5 := is11_spec w3'
    have zl3 : h3.live z = true := by rw [l3, l2]; exact zl
    have t1 : (ev ky != ev W.rk) = false := by rw [ev_ne_iff]; simp; omega
    have t2 : (ev ky == ev W.rk) = true := by rw [ev_eq_iff]; simp; omega
    have t4 : (ev ky != ev kv) = true := by rw [ev_ne_iff]; simp; omega
    have tz : (ev V2.rk != ev (X.rk + 1) && ev X.rk != ev (X.rk + 1)) = decide (V2.rk = X.rk) := by
      rw [ev_ne_iff, ev_ne_iff]
      by_cases q : V2.rk = X.rk
      · simp [q]; omega
      · simp only [q, decide_false]
        simp only [Bool.and_eq_false_iff, decide_eq_false_iff_not]; omega
    have ez : (if (!decide (V2.rk = 0 ∧ X.rk = 0)) = true
          then is11parent h3 (h3.br z false) z (h3.br z true) else some false) =
        some (decide (V2.rk = X.rk ∧ X.rk ≠ 0)) := by
      rw [q5, tz]
      by_cases a1 : V2.rk = X.rk <;> by_cases a2 : X.rk = 0 <;> simp [a1, a2]
    have wy3 := Wv.down.1 (Wv.down'.2 w3')
    have q6 := isLeaf_spec wy3 vW vV1
    have q7 := is11_spec wy3
    have yl3 : h3.live y = true := by rw [l3, l2]; exact yl
    have hWX : W.rk = X.rk := by omega
    have ty : (ev W.rk != ev (X.rk + 1) && ev V1.rk != ev (X.rk + 1)) = decide (V1.rk = X.rk) := by
      rw [ev_ne_iff, ev_ne_iff]
      by_cases q : V1.rk = X.rk
      · simp [q, hWX]; omega
      · simp only [q, decide_false]
        simp only [Bool.and_eq_false_iff, decide_eq_false_iff_not]; omega
    have ey : (if (!decide (W.rk = 0 ∧ V1.rk = 0)) = true
          then is11parent h3 (h3.br y false) y (h3.br y true) else some false) =
        some (decide (V1.rk = X.rk ∧ X.rk ≠ 0)) := by
      rw [q7, ty]
      by_cases a1 : V1.rk = X.rk <;> by_cases a2 : X.rk = 0 <;> simp [a1, a2, hWX]
    have run : rebalanceRotate h z X.rootId y =
        (if decide (V2.rk = X.rk ∧ X.rk ≠ 0) = true then promote h3 z
         else if decide (V1.rk = X.rk ∧ X.rk ≠ 0) = true then promote h3 y else some h3) := by
      simp only [rebalanceRotate, e3, t3, Option.bind_eq_bind, Option.bind_some, req, if_true, getBr_live zl, dt,
        getBr_live yl, yb1, yb2, e1, e2, nd_rootId]
      rw [nd_rootId, nd_rk] at e1v
      simp only [t1, t2, t4, e1v, if_true, Option.bind_some, q2, q3, q4, getBr_live zl3, ez, Bool.false_eq_true,
        if_false, q6, getBr_live yl3, ey]
    rw [nd_rootId, run]
    have hfin : ∀ (h5 : Links) (jy jz : Nat), h5.live = h.live →
        Wv h5 c (nd (!fd) v (kv + 2) (nd (!fd) y jy W V1) (nd (!fd) z jz V2 X)) →
        (jy = X.rk + 1 ∨ jy = X.rk + 2 ∧ V1.rk = X.rk ∧ X.rk ≠ 0) →
        (jz = X.rk + 1 ∨ jz = X.rk + 2 ∧ V2.rk = X.rk ∧ X.rk ≠ 0) →
        Fixed (some h5) h.live
          (plug c (nd (!fd) z kz (nd (!fd) y ky W (nd (!fd) v kv V1 V2)) X)).ids := by
      intro h5 jy jz l5 w5 hj1 hj2
      refine ⟨h5, plug c (nd (!fd) v (kv + 2) (nd (!fd) y jy W V1) (nd (!fd) z jz V2 X)), rfl,
        Wv.plug.1 w5, ?_, ?_, l5⟩
      · rw [Valid_plug]
        refine ⟨by rw [nd_rk]; have : kv + 2 = kz := by omega
                   rw [this]; exact vc, ?_⟩
        rw [Valid_nd, Valid_nd, Valid_nd, nd_rk, nd_rk]
        exact ⟨by omega, by omega, by omega, ⟨by omega, by omega, by omega, vW, vV1⟩, by omega, by omega,
          by omega, vV2, vX⟩
      · apply plug_ids_eq
        cases fd <;> simp [ids]
    by_cases c1 : V2.rk = X.rk ∧ X.rk ≠ 0
    · obtain ⟨h5, p5, w5, l5⟩ := promote_spec (X.rk + 2) w3' (ev_succ _)
      rw [if_pos (by simpa using c1), p5]
      exact hfin h5 (X.rk + 1) (X.rk + 2) (by rw [l5, l3, l2]) (Wv.down'.2 w5) (Or.inl rfl) (Or.inr ⟨rfl, c1⟩)
    · rw [if_neg (by simpa using c1)]
      by_cases c2 : V1.rk = X.rk ∧ X.rk ≠ 0
      · obtain ⟨h5, p5, w5, l5⟩ := promote_spec (X.rk + 2) wy3 (ev_succ _)
        rw [if_pos (by simpa using c2), p5]
        exact hfin h5 (X.rk + 2) (X.rk + 1) (by rw [l5, l3, l2]) (Wv.down.2 w5) (Or.inr ⟨rfl, c2⟩) (Or.inl rfl)
      · rw [if_neg (by simpa using c2)]
        exact hfin h3 (X.rk + 1) (X.rk + 1) (by rw [l3, l2]) (Wv.down'.2 w3') (Or.inl rfl) (Or.inl rfl)

theorem Fixed.cast {op : Option Links} {l l' : Nat → Bool} {is is' : List Nat} (h : Fixed op l is)
    (hl : l = l') (hi : is = is') : Fixed op l' is' := by subst hl; subst hi; exact h

theorem rebalance3child_spec {c : Ctx} : ∀ {h : Links} {f : Frame} {X : Tree},
    Wv h (f :: c) X → Valid X → Valid f.sib → f.rk = X.rk + 3 →
    (f.rk = f.sib.rk + 1 ∨ f.rk = f.sib.rk + 2) → ValidC c f.rk →
    Fixed (rebalance3child h f.id X.rootId) h.live (plug (f :: c) X).ids := by
  induction c with
  | nil =>
    intro h f X w vX vs hf hs vc
    obtain ⟨fd, z, kz, S⟩ := f
    simp only at *
    have z0 : z ≠ 0 := w.whole.ctx.1
    have zl : h.live z = true := w.whole.ctx.2.1
    have zp : h.par z = 0 := w.whole.ctx.2.2.2.2.1
    have zb : h.br z (!fd) = S.rootId := w.whole.ctx.2.2.2.1
    have rS : Rep h z S := w.whole.ctx.2.2.2.2.2.1
    have S0 : S.rootId ≠ 0 := by rw [Ne, vs.rootId rS]; omega
    have df : (h.br z false == X.rootId) = !fd := w.whole.dir_false (w.whole.sib_ne_root S0)
    have wf : Wv h [] (nd fd z kz X S) := Wv.down.2 w
    have two := is2child_spec (Wv.down'.1 wf)
    simp only at two
    rw [rebalance3child]
    simp only [req, bne_zero z0, if_true, Option.bind_eq_bind, Option.bind_some, getPar_live zl, zp, getBr_live zl,
      df, zb, two]
    have m0 : is2child h 0 z = some false := by simp [is2child]
    simp only [m0, Option.bind_some, Bool.false_eq_true, and_false, if_false]
    by_cases h2 : kz = S.rk + 2
    · have t : (ev kz == ev S.rk) = true := by rw [ev_eq_iff]; simp; omega
      obtain ⟨h3, e3, w3, l3⟩ := promote_spec (X.rk + 2) wf (by apply ev_not; omega)
      simp only [t, if_true, e3, Option.bind_some]
      refine ⟨h3, _, rfl, w3, ?_, ?_, l3⟩
      · rw [Valid_nd]; exact ⟨by omega, by omega, by omega, vX, vs⟩
      · cases fd <;> simp [Frame.fill, ids]
    · have t : (ev kz == ev S.rk) = false := by rw [ev_eq_iff]; simp; omega
      simp only [t, Bool.false_eq_true, if_false]
      obtain ⟨y, ky, a, b, rfl⟩ := exists_nd (t := S) false (by omega)
      have wy := Wv.down'.1 wf
      have yl : h.live y = true := by simpa using wy.root_live
      have e22 := is22_spec wy
      have vs2 := vs
      rw [Valid_nd] at vs2
      obtain ⟨u1, u2, u3, va, vb⟩ := vs2
      simp only [nd_rk] at h2 hs
      simp only [nd_rootId, getBr_live yl, Option.bind_some, e22]
      by_cases q : a.rk % 2 = ky % 2 ∧ b.rk % 2 = ky % 2
      · have tt : ((ev a.rk == ev ky) && (ev b.rk == ev ky)) = true := by
          rw [ev_eq_iff, ev_eq_iff]; simp [q]
        obtain ⟨h3, e3, w3, l3⟩ := promote_spec (X.rk + 2) wf (by apply ev_not; omega)
        obtain ⟨h4, e4, w4, l4⟩ := promote_spec (X.rk + 1) (Wv.down'.1 w3) (by apply ev_not; omega)
        simp only [tt, if_true, e3, Option.bind_some, e4]
        refine ⟨h4, _, rfl, Wv.down'.2 w4, ?_, ?_, by rw [l4, l3]⟩
        · rw [Valid_nd, Valid_nd, nd_rk]
          exact ⟨by omega, by omega, by omega, vX, by omega, by omega, by omega, va, vb⟩
        · cases fd <;> simp [Frame.fill, ids]
      · have tt : ((ev a.rk == ev ky) && (ev b.rk == ev ky)) = false := by
          rw [ev_eq_iff, ev_eq_iff, ← Bool.decide_and]; simpa using q
        simp only [tt, Bool.false_eq_true, if_false]
        have := rebalanceRotate_spec w vX vs hf (by simp; omega) vc (by
          intro d' y' k' a' b' hh
          cases d'
          · simp only [nd_false, Tree.node.injEq] at hh
            obtain ⟨rfl, rfl, rfl, rfl⟩ := hh; exact q
          · simp only [nd_false, nd_true, Tree.node.injEq] at hh
            obtain ⟨rfl, rfl, rfl, rfl⟩ := hh; exact fun hh => q hh.symm)
        simpa using this
  | cons g c ih =>
    intro h f X w vX vs hf hs vc
    obtain ⟨fd, z, kz, S⟩ := f
    simp only at *
    have z0 : z ≠ 0 := w.whole.ctx.1
    have zl : h.live z = true := w.whole.ctx.2.1
    have zp : h.par z = g.id := w.whole.ctx.2.2.2.2.1
    have zb : h.br z (!fd) = S.rootId := w.whole.ctx.2.2.2.1
    have rS : Rep h z S := w.whole.ctx.2.2.2.2.2.1
    have S0 : S.rootId ≠ 0 := by rw [Ne, vs.rootId rS]; omega
    have df : (h.br z false == X.rootId) = !fd := w.whole.dir_false (w.whole.sib_ne_root S0)
    have wf : Wv h (g :: c) (nd fd z kz X S) := Wv.down.2 w
    have g0 : g.id ≠ 0 := wf.whole.ctx.1
    have two := is2child_spec (Wv.down'.1 wf)
    simp only at two
    have made := is2child_spec wf
    simp only [nd_rootId, nd_rk] at made
    obtain ⟨c1, c2, c3, vsg, vcg⟩ := vc
    have made' : (ev g.rk == ev kz) = decide (g.rk = kz + 2) := by
      rw [ev_eq_iff]; apply decide_eq_decide.2; omega
    rw [made'] at made
    rw [rebalance3child]
    simp only [req, bne_zero z0, if_true, Option.bind_eq_bind, Option.bind_some, getPar_live zl, zp, getBr_live zl,
      df, zb, two, made]
    -- finishing or continuing after the demotion of `z`
    have cont : ∀ (h3 : Links) (S' : Tree), h3.live = h.live → Wv h3 (g :: c) (nd fd z (X.rk + 2) X S') →
        Valid (nd fd z (X.rk + 2) X S') → S'.ids = S.ids →
        Fixed (if g.id ≠ 0 ∧ decide (g.rk = kz + 2) = true then rebalance3child h3 g.id z else some h3)
          h.live (plug (⟨fd, z, kz, S⟩ :: g :: c) X).ids := by
      intro h3 S' l3 w3 v3 hS
      have hid : (plug (g :: c) (nd fd z (X.rk + 2) X S')).ids = (plug (⟨fd, z, kz, S⟩ :: g :: c) X).ids := by
        rw [plug_cons (f := ⟨fd, z, kz, S⟩)]
        apply plug_ids_eq
        cases fd <;> simp [Frame.fill, ids, hS]
      by_cases hg : g.rk = kz + 2
      · rw [if_pos ⟨g0, by simpa using hg⟩]
        have := ih w3 v3 vsg (by simp; omega) c2 vcg
        simp only [nd_rootId] at this
        exact this.cast l3 hid
      · rw [if_neg (by simp [hg])]
        refine ⟨h3, _, rfl, Wv.plug.1 w3, ?_, hid, l3⟩
        rw [Valid_plug]
        exact ⟨⟨by simp; omega, c2, by simp, vsg, vcg⟩, v3⟩
    by_cases h2 : kz = S.rk + 2
    · have t : (ev kz == ev S.rk) = true := by rw [ev_eq_iff]; simp; omega
      obtain ⟨h3, e3, w3, l3⟩ := promote_spec (X.rk + 2) wf (by apply ev_not; omega)
      simp only [t, if_true, e3, Option.bind_some]
      exact cont h3 S l3 w3 (Valid_nd.2 ⟨by omega, by omega, by omega, vX, vs⟩) rfl
    · have t : (ev kz == ev S.rk) = false := by rw [ev_eq_iff]; simp; omega
      simp only [t, Bool.false_eq_true, if_false]
      obtain ⟨y, ky, a, b, rfl⟩ := exists_nd (t := S) false (by omega)
      have wy := Wv.down'.1 wf
      have yl : h.live y = true := by simpa using wy.root_live
      have e22 := is22_spec wy
      have vs2 := vs
      rw [Valid_nd] at vs2
      obtain ⟨u1, u2, u3, va, vb⟩ := vs2
      simp only [nd_rk] at h2 hs
      simp only [nd_rootId, getBr_live yl, Option.bind_some, e22]
      by_cases q : a.rk % 2 = ky % 2 ∧ b.rk % 2 = ky % 2
      · have tt : ((ev a.rk == ev ky) && (ev b.rk == ev ky)) = true := by
          rw [ev_eq_iff, ev_eq_iff]; simp [q]
        obtain ⟨h3, e3, w3, l3⟩ := promote_spec (X.rk + 2) wf (by apply ev_not; omega)
        obtain ⟨h4, e4, w4, l4⟩ := promote_spec (X.rk + 1) (Wv.down'.1 w3) (by apply ev_not; omega)
        simp only [tt, if_true, e3, Option.bind_some, e4]
        refine cont h4 _ (by rw [l4, l3]) (Wv.down'.2 w4) ?_ rfl
        rw [Valid_nd, Valid_nd, nd_rk]
        exact ⟨by omega, by omega, by omega, vX, by omega, by omega, by omega, va, vb⟩
      · have tt : ((ev a.rk == ev ky) && (ev b.rk == ev ky)) = false := by
          rw [ev_eq_iff, ev_eq_iff, ← Bool.decide_and]; simpa using q
        simp only [tt, Bool.false_eq_true, if_false]
        have := rebalanceRotate_spec w vX vs hf (by simp; omega)
          ⟨c1, c2, c3, vsg, vcg⟩ (by
          intro d' y' k' a' b' hh
          cases d'
          · simp only [nd_false, Tree.node.injEq] at hh
            obtain ⟨rfl, rfl, rfl, rfl⟩ := hh; exact q
          · simp only [nd_false, nd_true, Tree.node.injEq] at hh
            obtain ⟨rfl, rfl, rfl, rfl⟩ := hh; exact fun hh => q hh.symm)
        simpa using this

end CCC.Wavl
