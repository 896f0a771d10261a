import Verif.Model.Wavl
import Verif.Proof.Tree
/-
Rotations on represented trees.
-/
namespace CCC.Wavl
open CCC Links Tree

/-- The links represent `t` below path `c`, all addresses are distinct, the sentinel may be dereferenced. -/
structure Whole (h : Links) (c : Ctx) (t : Tree) : Prop where
  ctx : RepC h c t.rootId
  tree : Rep h (pid c) t
  nodup : (t.ids ++ cids c).Nodup
  live0 : h.live 0 = true

theorem Whole.congr {h h' : Links} {c : Ctx} {t : Tree} (w : Whole h c t)
    (h1 : h'.br = h.br) (h2 : h'.par = h.par) (h3 : h'.live = h.live) (h4 : h'.root = h.root) :
    Whole h' c t :=
  ⟨w.ctx.congr h4 (by simp [h3]) (by simp [h1]) (by simp [h2]),
   w.tree.congr (by simp [h3]) (by simp [h1]) (by simp [h2]), w.nodup, by rw [h3]; exact w.live0⟩

theorem Whole.up {h : Links} {c : Ctx} {f : Frame} {t : Tree} :
    Whole h (f :: c) t ↔ Whole h c (f.fill t) := by
  have hp : (t.ids ++ cids (f :: c)).Perm ((f.fill t).ids ++ cids c) := by
    refine List.Perm.trans ?_ ((fill_ids_perm f t).symm.append_right _)
    simp
  constructor
  · rintro ⟨⟨a1, a2, a3, a4, a5, a6, a7⟩, b, n, l⟩
    exact ⟨by simpa using a7, Rep_nd.2 ⟨a1, a2, a3, a4, a5, b, a6⟩, hp.nodup n, l⟩
  · rintro ⟨a, b, n, l⟩
    obtain ⟨b1, b2, b3, b4, b5, b6, b7⟩ := Rep_nd.1 b
    exact ⟨⟨b1, b2, b3, b4, b5, b7, by simpa using a⟩, b6, hp.symm.nodup n, l⟩

theorem Whole.cids_nodup {h : Links} {c : Ctx} {t : Tree} (w : Whole h c t) : (cids c).Nodup :=
  (List.nodup_append.1 w.nodup).2.1
theorem Whole.ids_nodup {h : Links} {c : Ctx} {t : Tree} (w : Whole h c t) : t.ids.Nodup :=
  (List.nodup_append.1 w.nodup).1
theorem Whole.disj {h : Links} {c : Ctx} {t : Tree} (w : Whole h c t) {a : Nat} (ha : a ∈ t.ids) : a ∉ cids c :=
  fun hh => (List.nodup_append.1 w.nodup).2.2 a ha a hh rfl

theorem bne_zero {n : Nat} (h : n ≠ 0) : (n != 0) = true := by simpa using h

theorem nd_nodup {d : Bool} {i k : Nat} {a b : Tree} :
    (nd d i k a b).ids.Nodup ↔ i ∉ a.ids ∧ i ∉ b.ids ∧ a.ids.Nodup ∧ b.ids.Nodup ∧ (∀ j ∈ a.ids, j ∉ b.ids) := by
  rw [(nd_ids_perm d i k a b).nodup_iff]
  simp only [List.nodup_cons, List.mem_append, not_or, List.nodup_append]
  constructor
  · rintro ⟨⟨h1, h2⟩, h3, h4, h5⟩; exact ⟨h1, h2, h3, h4, fun j h6 h7 => h5 j h6 j h7 rfl⟩
  · rintro ⟨h1, h2, h3, h4, h5⟩; exact ⟨⟨h1, h2⟩, h3, h4, fun a h6 b h7 h8 => h5 a h6 (h8 ▸ h7)⟩

theorem rootId_ne_of_not_mem {t : Tree} {x : Nat} (hx : x ≠ 0) (h : x ∉ t.ids) : t.rootId ≠ x := by
  rcases rootId_mem_or t with h1 | h1
  · rw [h1]; exact fun hh => hx hh.symm
  · intro hh; exact h (hh ▸ h1)

/-- The single rotation: node `z` with child `x` in direction `d`. -/
theorem rotate_spec {h : Links} {c : Ctx} {d : Bool} {z x kz kx : Nat} {A B C : Tree} (kz' kx' : Nat)
    (w : Whole h c (nd d z kz (nd d x kx A B) C)) :
    ∃ h', rotate h z x B.rootId (!d) = some h' ∧ Whole h' c (nd d x kx' A (nd d z kz' B C)) ∧
      h'.parity = h.parity ∧ h'.live = h.live := by
  obtain ⟨wc, wt, wn, w0⟩ := w
  have w' : Whole h c (nd d z kz (nd d x kx A B) C) := ⟨wc, wt, wn, w0⟩
  have hdisj := fun a => w'.disj (a := a)
  have hidn := w'.ids_nodup
  rw [nd_nodup, nd_nodup] at hidn
  simp only [mem_nd, not_or] at hidn hdisj
  obtain ⟨⟨zx, zA, zB⟩, zC, ⟨xA, xB, nA, nB, AB⟩, nC, xABC⟩ := hidn
  simp only [nd_rootId] at wc
  have wt0 := wt
  rw [Rep_nd, Rep_nd] at wt
  obtain ⟨z0, zl, zb1, zb2, zp, ⟨x0, xl, xb1, xb2, xp, rA, rB⟩, rC⟩ := wt
  have zc := hdisj z (by simp)
  have xc := hdisj x (by simp)
  have h1c : RepC { h with par := upd h.par x (pid c) } c z :=
    wc.congr rfl (fun _ _ => rfl) (fun _ _ => rfl)
      (fun a ha => upd_ne _ _ (fun hh => xc (hh ▸ ha)))
  obtain ⟨h2, e2, c2, l2, p2, q2, b2⟩ := relink_spec (x := x) h1c z0 zc w'.cids_nodup
  have bl : h.live B.rootId = true := rB.root_live w0
  refine ⟨{ h2 with
    br := fun b e => if b = z ∧ e = d then B.rootId else if b = x ∧ e = (!d) then z else h2.br b e
    par := upd (upd h2.par z x) B.rootId z }, ?_, ⟨?_, ?_, ?_, ?_⟩, ?_, ?_⟩
  · have l2x : h2.live x = true := by rw [l2]; exact xl
    have l2z : h2.live z = true := by rw [l2]; exact zl
    have l2B : h2.live B.rootId = true := by rw [l2]; exact bl
    simp only [rotate, req, bne_zero z0, if_true, Option.bind_eq_bind, Option.bind_some, getPar_live zl, zp,
      setPar_live xl, e2, setBr_live l2x]
    rw [setPar_live (by exact l2z)]
    simp only [Option.bind_some]
    rw [setBr_live (by exact l2z)]
    simp only [Option.bind_some, Bool.not_not]
    rw [setPar_live (by exact l2B)]
  · rw [nd_rootId]
    refine c2.congr rfl (fun _ _ => rfl) ?_ ?_
    · intro a ha
      have h1 : a ≠ z := fun hh => zc (hh ▸ ha)
      have h2 : a ≠ x := fun hh => xc (hh ▸ ha)
      funext e; simp [h1, h2]
    · intro a ha
      have h1 : a ≠ z := fun hh => zc (hh ▸ ha)
      have h2 : a ≠ B.rootId := by
        intro hh
        rcases rootId_mem_or B with h3 | h3
        · exact c2.ne_zero (by rw [← h3, ← hh]; exact ha)
        · exact hdisj _ (Or.inr (Or.inl (Or.inr (Or.inr h3)))) (hh ▸ ha)
      simp [upd, h1, h2]
  · have hBx : B.rootId ≠ x := rootId_ne_of_not_mem x0 xB
    have hBz : B.rootId ≠ z := rootId_ne_of_not_mem z0 zB
    have bb : ∀ a, a ∉ cids c → h2.br a = h.br a := fun a ha => b2 a ha
    have pp : h2.par = upd h.par x (pid c) := p2
    have hA : ∀ a ∈ A.ids, a ∉ cids c ∧ a ≠ x ∧ a ≠ z ∧ a ≠ B.rootId := fun a ha =>
      ⟨hdisj a (by simp [ha]), fun hh => xA (hh ▸ ha), fun hh => zA (hh ▸ ha), fun hh => by
        rcases rootId_mem_or B with h3 | h3
        · exact rA.ne_zero (by rw [← h3, ← hh]; exact ha)
        · exact AB a ha (hh ▸ h3)⟩
    have hB : ∀ a ∈ B.ids, a ∉ cids c ∧ a ≠ x ∧ a ≠ z := fun a ha =>
      ⟨hdisj a (by simp [ha]), fun hh => xB (hh ▸ ha), fun hh => zB (hh ▸ ha)⟩
    have hC : ∀ a ∈ C.ids, a ∉ cids c ∧ a ≠ x ∧ a ≠ z ∧ a ≠ B.rootId := fun a ha =>
      ⟨hdisj a (by simp [ha]), fun hh => xABC x (Or.inl rfl) (hh ▸ ha), fun hh => zC (hh ▸ ha), fun hh => by
        rcases rootId_mem_or B with h3 | h3
        · exact rC.ne_zero (by rw [← h3, ← hh]; exact ha)
        · exact xABC a (Or.inr (Or.inr (hh ▸ h3))) ha⟩
    rw [Rep_nd, Rep_nd]
    refine ⟨x0, by show h2.live x = true; rw [l2]; exact xl, ?_, ?_, ?_, ?_, z0,
      by show h2.live z = true; rw [l2]; exact zl, ?_, ?_, ?_, ?_, ?_⟩
    · simp [Ne.symm zx, bb x xc, xb1]
    · simp [Ne.symm zx]
    · simp [upd, pp, Ne.symm zx, Ne.symm hBx]
    · refine rA.congr (fun a ha => by show h2.live a = _; rw [l2]) ?_ ?_
      · intro a ha
        obtain ⟨h1, h2, h3, h4⟩ := hA a ha
        funext e; simp [h2, h3, bb a h1]
      · intro a ha
        obtain ⟨h1, h2, h3, h4⟩ := hA a ha
        simp [upd, pp, h2, h3, h4]
    · simp
    · simp [zx, bb z zc, zb2]
    · simp [upd, Ne.symm hBz]
    · refine rB.move nB (fun a ha => by show h2.live a = _; rw [l2]) ?_ ?_ ?_
      · intro a ha
        obtain ⟨h1, h2, h3⟩ := hB a ha
        funext e; simp [h2, h3, bb a h1]
      · intro a ha hne
        obtain ⟨h1, h2, h3⟩ := hB a ha
        simp [upd, pp, h2, h3, hne]
      · intro _; simp
    · refine rC.congr (fun a ha => by show h2.live a = _; rw [l2]) ?_ ?_
      · intro a ha
        obtain ⟨h1, h2, h3, h4⟩ := hC a ha
        funext e; simp [h2, h3, bb a h1]
      · intro a ha
        obtain ⟨h1, h2, h3, h4⟩ := hC a ha
        simp [upd, pp, h2, h3, h4]
  · refine List.Perm.nodup (List.Perm.append_right _ ?_) wn
    refine (nd_ids_perm _ _ _ _ _).trans ?_
    refine List.Perm.trans ?_ (nd_ids_perm _ _ _ _ _).symm
    refine List.Perm.trans ((List.Perm.append_right _ (nd_ids_perm _ _ _ _ _)).cons z) ?_
    refine List.Perm.trans ?_ ((List.Perm.append_left _ (nd_ids_perm _ _ _ _ _).symm).cons x)
    rw [List.perm_iff_count]
    intro a
    simp only [List.count_cons, List.count_append]
    omega
  · show h2.live 0 = true
    rw [l2]; exact w0
  · exact q2
  · exact l2

/-- The double rotation: `z` with child `x` in direction `d`, whose inner child is `y`. -/
theorem doubleRotate_spec {h : Links} {c : Ctx} {d : Bool} {z x y kz kx ky : Nat} {A B C D : Tree}
    (kz' kx' ky' : Nat)
    (w : Whole h c (nd d z kz (nd d x kx A (nd d y ky B C)) D)) :
    ∃ h', doubleRotate h z x y d = some h' ∧
      Whole h' c (nd d y ky' (nd d x kx' A B) (nd d z kz' C D)) ∧
      h'.parity = h.parity ∧ h'.live = h.live := by
  obtain ⟨wc, wt, wn, w0⟩ := w
  have w' : Whole h c (nd d z kz (nd d x kx A (nd d y ky B C)) D) := ⟨wc, wt, wn, w0⟩
  have hdisj := fun a => w'.disj (a := a)
  have hidn := w'.ids_nodup
  rw [nd_nodup, nd_nodup, nd_nodup] at hidn
  simp only [mem_nd, not_or] at hidn hdisj
  obtain ⟨⟨zx, zA, zy, zB, zC⟩, zD, ⟨xA, ⟨xy, xB, xC⟩, nA, ⟨yB, yC, nB, nC, BC⟩, AyBC⟩, nD, xD⟩ := hidn
  simp only [nd_rootId] at wc
  rw [Rep_nd, Rep_nd, Rep_nd] at wt
  obtain ⟨z0, zl, zb1, zb2, zp, ⟨x0, xl, xb1, xb2, xp, rA, ⟨y0, yl, yb1, yb2, yp, rB, rC⟩⟩, rD⟩ := wt
  have zc := hdisj z (by simp)
  have xc := hdisj x (by simp)
  have yc := hdisj y (by simp)
  have h1c : RepC { h with par := upd h.par y (pid c) } c z :=
    wc.congr rfl (fun _ _ => rfl) (fun _ _ => rfl)
      (fun a ha => upd_ne _ _ (fun hh => yc (hh ▸ ha)))
  obtain ⟨h2, e2, c2, l2, p2, q2, b2⟩ := relink_spec (x := y) h1c z0 zc w'.cids_nodup
  have bl : h.live B.rootId = true := rB.root_live w0
  have cl : h.live C.rootId = true := rC.root_live w0
  have bb : ∀ a, a ∉ cids c → h2.br a = h.br a := fun a ha => b2 a ha
  have pp : h2.par = upd h.par y (pid c) := p2
  have hne : ∀ (T : Tree) (a : Nat), 0 ∉ T.ids → (a = 0 ∨ a ∉ T.ids) → ∀ b ∈ T.ids, b ≠ a := by
    intro T a h0 h1 b hb hh
    rcases h1 with h1 | h1
    · exact h0 (h1 ▸ hh ▸ hb)
    · exact h1 (hh ▸ hb)
  have Bx : B.rootId ≠ x := rootId_ne_of_not_mem x0 xB
  have Bz : B.rootId ≠ z := rootId_ne_of_not_mem z0 zB
  have By : B.rootId ≠ y := rootId_ne_of_not_mem y0 yB
  have Cx : C.rootId ≠ x := rootId_ne_of_not_mem x0 xC
  have Cz : C.rootId ≠ z := rootId_ne_of_not_mem z0 zC
  have Cy : C.rootId ≠ y := rootId_ne_of_not_mem y0 yC
  have xny : x ≠ y := xy
  have zny : z ≠ y := zy
  refine ⟨{ h2 with
    br := fun b e => if b = y ∧ e = (!d) then z else if b = z ∧ e = d then C.rootId
      else if b = y ∧ e = d then x else if b = x ∧ e = (!d) then B.rootId else h2.br b e
    par := upd (upd (upd (upd h2.par B.rootId x) x y) C.rootId z) z y }, ?_, ⟨?_, ?_, ?_, ?_⟩, ?_, ?_⟩
  · have l2x : h2.live x = true := by rw [l2]; exact xl
    have l2y : h2.live y = true := by rw [l2]; exact yl
    have l2z : h2.live z = true := by rw [l2]; exact zl
    have l2B : h2.live B.rootId = true := by rw [l2]; exact bl
    have l2C : h2.live C.rootId = true := by rw [l2]; exact cl
    simp only [doubleRotate, req, bne_zero z0, bne_zero x0, bne_zero y0, if_true, Option.bind_eq_bind,
      Option.bind_some, getPar_live zl, zp, setPar_live yl, e2, getBr_live l2y, bb y yc, yb1,
      setBr_live l2x]
    rw [setPar_live (by exact l2B)]
    simp only [Option.bind_some]
    rw [setBr_live (by exact l2y)]
    simp only [Option.bind_some]
    rw [setPar_live (by exact l2x)]
    simp only [Option.bind_some]
    rw [getBr_live (by exact l2y)]
    simp only [Option.bind_some, Bool.not_eq_self, and_false, if_false, Ne.symm xny, false_and, bb y yc, yb2]
    rw [setBr_live (by exact l2z)]
    simp only [Option.bind_some]
    rw [setPar_live (by exact l2C)]
    simp only [Option.bind_some]
    rw [setBr_live (by exact l2y)]
    simp only [Option.bind_some]
    rw [setPar_live (by exact l2z)]
  · rw [nd_rootId]
    refine c2.congr rfl (fun _ _ => rfl) ?_ ?_
    · intro a ha
      have h1 : a ≠ z := fun hh => zc (hh ▸ ha)
      have h2 : a ≠ x := fun hh => xc (hh ▸ ha)
      have h3 : a ≠ y := fun hh => yc (hh ▸ ha)
      funext e; simp [h1, h2, h3]
    · intro a ha
      have h1 : a ≠ z := fun hh => zc (hh ▸ ha)
      have h2 : a ≠ x := fun hh => xc (hh ▸ ha)
      have hr : ∀ T : Tree, (∀ j ∈ T.ids, j ∉ cids c) → a ≠ T.rootId := by
        intro T hT hh
        rcases rootId_mem_or T with h3 | h3
        · exact c2.ne_zero (by rw [← h3, ← hh]; exact ha)
        · exact hT _ h3 (hh ▸ ha)
      have h4 : a ≠ B.rootId := hr B (fun j hj => hdisj j (by simp [hj]))
      have h5 : a ≠ C.rootId := hr C (fun j hj => hdisj j (by simp [hj]))
      simp [upd, h1, h2, h4, h5]
  · have hA : ∀ a ∈ A.ids, a ∉ cids c ∧ a ≠ x ∧ a ≠ y ∧ a ≠ z ∧ a ≠ B.rootId ∧ a ≠ C.rootId := fun a ha =>
      ⟨hdisj a (by simp [ha]), fun hh => xA (hh ▸ ha), fun hh => (AyBC a ha).1 hh, fun hh => zA (hh ▸ ha),
       hne A _ rA.ne_zero ((rootId_mem_or B).imp id (fun hm hm2 => (AyBC _ hm2).2.1 hm)) a ha,
       hne A _ rA.ne_zero ((rootId_mem_or C).imp id (fun hm hm2 => (AyBC _ hm2).2.2 hm)) a ha⟩
    have hB : ∀ a ∈ B.ids, a ∉ cids c ∧ a ≠ x ∧ a ≠ y ∧ a ≠ z ∧ a ≠ C.rootId := fun a ha =>
      ⟨hdisj a (by simp [ha]), fun hh => xB (hh ▸ ha), fun hh => yB (hh ▸ ha), fun hh => zB (hh ▸ ha),
       hne B _ rB.ne_zero ((rootId_mem_or C).imp id (fun hm hm2 => BC _ hm2 hm)) a ha⟩
    have hC : ∀ a ∈ C.ids, a ∉ cids c ∧ a ≠ x ∧ a ≠ y ∧ a ≠ z ∧ a ≠ B.rootId := fun a ha =>
      ⟨hdisj a (by simp [ha]), fun hh => xC (hh ▸ ha), fun hh => yC (hh ▸ ha), fun hh => zC (hh ▸ ha),
       hne C _ rC.ne_zero ((rootId_mem_or B).imp id (fun hm hm2 => BC _ hm hm2)) a ha⟩
    have hD : ∀ a ∈ D.ids, a ∉ cids c ∧ a ≠ x ∧ a ≠ y ∧ a ≠ z ∧ a ≠ B.rootId ∧ a ≠ C.rootId := fun a ha =>
      ⟨hdisj a (by simp [ha]), fun hh => xD x (by simp) (hh ▸ ha), fun hh => xD y (by simp) (hh ▸ ha),
       fun hh => zD (hh ▸ ha),
       hne D _ rD.ne_zero ((rootId_mem_or B).imp id (fun hm hm2 => xD _ (by simp [hm]) hm2)) a ha,
       hne D _ rD.ne_zero ((rootId_mem_or C).imp id (fun hm hm2 => xD _ (by simp [hm]) hm2)) a ha⟩
    have BneC : B.rootId ∈ B.ids → B.rootId ≠ C.rootId := by
      intro hm
      exact hne B _ rB.ne_zero ((rootId_mem_or C).imp id (fun hm hm2 => BC _ hm2 hm)) _ hm
    rw [Rep_nd, Rep_nd, Rep_nd]
    refine ⟨y0, by show h2.live y = true; rw [l2]; exact yl, ?_, ?_, ?_,
      ⟨x0, by show h2.live x = true; rw [l2]; exact xl, ?_, ?_, ?_, ?_, ?_⟩,
      z0, by show h2.live z = true; rw [l2]; exact zl, ?_, ?_, ?_, ?_, ?_⟩
    · simp [Ne.symm zny]
    · simp
    · simp [upd, pp, Ne.symm zny, Ne.symm xny, Ne.symm By, Ne.symm Cy]
    · simp [Ne.symm zx, xny, bb x xc, xb1]
    · simp [Ne.symm zx, xny]
    · simp [upd, Ne.symm zx, Ne.symm Cx]
    · refine rA.congr (fun a ha => by show h2.live a = _; rw [l2]) ?_ ?_
      · intro a ha
        obtain ⟨h1, h2, h3, h4, h5, h6⟩ := hA a ha
        funext e; simp [h2, h3, h4, bb a h1]
      · intro a ha
        obtain ⟨h1, h2, h3, h4, h5, h6⟩ := hA a ha
        simp [upd, pp, h2, h3, h4, h5, h6]
    · refine rB.move nB (fun a ha => by show h2.live a = _; rw [l2]) ?_ ?_ ?_
      · intro a ha
        obtain ⟨h1, h2, h3, h4, h5⟩ := hB a ha
        funext e; simp [h2, h3, h4, bb a h1]
      · intro a ha hr
        obtain ⟨h1, h2, h3, h4, h5⟩ := hB a ha
        simp [upd, pp, h2, h3, h4, h5, hr]
      · intro hm
        simp [upd, Bz, Bx, BneC hm]
    · simp [zny]
    · simp [zny, zx, bb z zc, zb2]
    · simp
    · refine rC.move nC (fun a ha => by show h2.live a = _; rw [l2]) ?_ ?_ ?_
      · intro a ha
        obtain ⟨h1, h2, h3, h4, h5⟩ := hC a ha
        funext e; simp [h2, h3, h4, bb a h1]
      · intro a ha hr
        obtain ⟨h1, h2, h3, h4, h5⟩ := hC a ha
        simp [upd, pp, h2, h3, h4, h5, hr]
      · intro hm
        simp [upd, Cz]
    · refine rD.congr (fun a ha => by show h2.live a = _; rw [l2]) ?_ ?_
      · intro a ha
        obtain ⟨h1, h2, h3, h4, h5, h6⟩ := hD a ha
        funext e; simp [h2, h3, h4, bb a h1]
      · intro a ha
        obtain ⟨h1, h2, h3, h4, h5, h6⟩ := hD a ha
        simp [upd, pp, h2, h3, h4, h5, h6]
  · refine List.Perm.nodup (List.Perm.append_right _ ?_) wn
    rw [List.perm_iff_count]
    intro a
    have e := fun d i k A B => (nd_ids_perm d i k A B).count_eq a
    simp only [e, List.count_cons, List.count_append]
    omega
  · show h2.live 0 = true
    rw [l2]; exact w0
  · exact q2
  · exact l2

end CCC.Wavl
