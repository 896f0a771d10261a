import Verif.Proof.MultiRel
import Verif.Proof.MultiCount
/-
Splaying the multimap: the statements of `Verif/Proof/Splay.lean` for trees whose nodes may have rings of duplicates.
-/
namespace CCC.Omm
open CCC Links Tree Splay Wavl

set_option linter.unusedSimpArgs false

variable {α : Type} {D : Nat → List Nat} {N : Nat → Prop}

theorem Inv.disj {h : Links} {S : Bool → Ctx} {X : Tree} (w : Splay.Inv h S X) {d : Bool} {a : Nat} (ha : a ∈ X.ids) :
    a ∉ cids (S d) := fun hh => (List.nodup_append.1 (w.nodup d)).2.2 a ha a (by simp [hh]) rfl

theorem Inv.pid_notMem {h : Links} {S : Bool → Ctx} {X : Tree} (w : Splay.Inv h S X) (d : Bool) : pid (S d) ∉ X.ids := by
  intro hh
  obtain ⟨p, hr⟩ := w.tree
  rcases pid_mem_or (S d) with e | e
  · rw [e] at hh; exact hr.ne_zero hh
  · exact Inv.disj w hh e

theorem loop_simN {c : Nat → Option Cmp} {c' : Nat → Cmp} (n : Nat) : ∀ {H : Omm α} {h : Links} {S : Bool → Ctx} {X : Tree}
    {lr : Bool → Nat}, Rel D N H h → X.ids.length ≤ n → X ≠ nil → Splay.Inv h S X → (∀ b, lr b = pid (S !b)) →
    Sides c' S → (∀ a ∈ X.ids, c a = some (c' a)) → Mono c' X.ids →
    ∃ H' h' S' lr' i k A B P m, Costs (Omm.splayLoopN H c lr X.rootId) m (H', lr', i) ∧ Rel D N H' h' ∧ Only H H' ∧
      Splay.Inv h' S' (node i k A B) ∧
      (∀ b, lr' b = pid (S' !b)) ∧ Sides c' S' ∧ all S' (node i k A B).ids = all S X.ids ∧
      Same (X.ids ++ (cids (S true) ++ cids (S false))) h h' ∧
      (∀ a ∈ A.ids, c' a = .grt) ∧ (∀ a ∈ B.ids, c' a = .les) ∧ Split c' X P i k m ∧
      (∀ d, plug (S' d) (if d then A else B) = plug (S d) (P d)) := by
  induction n with
  | zero =>
    intro H h S X lr _ hn hne
    cases X with
    | nil => exact absurd rfl hne
    | node => simp [ids] at hn
  | succ n ih =>
    intro H h S X lr R hn hne w hlr hS hc hm
    cases X with
    | nil => exact absurd rfl hne
    | node i k l r =>
    have hci : c i = some (c' i) := hc i (by simp [ids])
    simp only [Costs, Omm.splayLoopN_eq H c lr, node_rootId, hci]
    by_cases he : c' i = .eql
    · have sd := stop_sides hm (Or.inl he)
      exact ⟨H, h, S, lr, i, k, l, r, _, 1, by simp [he], R, Only.refl _, w, hlr, hS, rfl, Same.refl _ _, sd.1, sd.2,
        .found he, fun d => by cases d <;> rfl⟩
    have hi := dir_cmp (hm.noErr i (by simp [ids])) he
    generalize hd : decide (c' i = .grt) = d at hi
    obtain ⟨p, hr⟩ := w.tree
    rw [nd_of_node d] at hr w hc hm hn ⊢
    generalize (if d then r else l) = Y at hr w hc hm hn ⊢
    generalize (if d then l else r) = A at hr w hc hm hn ⊢
    obtain ⟨i0, il, b1, b2, ip, rY, rA⟩ := Rep_nd.1 hr
    simp only [Option.bind_eq_bind, Option.bind_some, if_neg he, hd, R.branch il, b1]
    by_cases hY : Y.rootId = 0
    · have hY' := (rootId_ne rY).1 hY
      subst hY'
      obtain ⟨A', B', e, s1, s2⟩ := stop_nd hm hi
      exact ⟨H, h, S, lr, i, k, A', B', _, 1, by simp, R, Only.refl _, by rw [← e]; exact w, hlr, hS, by rw [e],
        Same.refl _ _, s1, s2, .last hi, stop_plug S e⟩
    simp only [if_neg hY]
    have hYn : Y ≠ nil := fun hh => hY (by rw [hh]; rfl)
    have hl : lr (!d) = pid (S d) := by rw [hlr, Bool.not_not]
    have dual : ∀ a, a ∈ cids (S d) ++ cids (S !d) → a ∈ cids (S true) ++ cids (S false) := by
      intro a ha
      cases d
      · simpa [or_comm] using ha
      · simpa using ha
    -- the common tail: push a node on its spine and go on
    have tail : ∀ (G : Omm α) (g : Links) (x kx : Nat) (Z C : Tree), Rel D N G g → Only H G →
        Splay.Inv g S (nd d x kx Z C) → Z ≠ nil →
        (nd d x kx Z C).ids = (nd d i k Y A).ids → Z.ids.length ≤ n → c' x = (if d then .grt else .les) →
        Same (nd d i k Y A).ids h g → g.live x = true →
        (∀ P y ky m, Split c' Z P y ky m → Split c' (nd d i k Y A) (setP P d (nd d x kx (P d) C)) y ky (m + 2)) →
        ∃ H' h' S' lr' i' k' A' B' P m, (∀ q, (do
            let t ← Omm.link G (lr (!d)) d x
            let nx ← Omm.branch t x d
            Omm.splayLoopN t c (fun b => if b = !d then x else lr b) nx (q + 1 + 1)) = some ((H', lr', i'), q + m)) ∧
          Rel D N H' h' ∧ Only H H' ∧ Splay.Inv h' S' (node i' k' A' B') ∧
          (∀ b, lr' b = pid (S' !b)) ∧ Sides c' S' ∧ all S' (node i' k' A' B').ids = all S (nd d i k Y A).ids ∧
          Same ((nd d i k Y A).ids ++ (cids (S true) ++ cids (S false))) h h' ∧
          (∀ a ∈ A'.ids, c' a = .grt) ∧ (∀ a ∈ B'.ids, c' a = .les) ∧ Split c' (nd d i k Y A) P i' k' m ∧
          (∀ d, plug (S' d) (if d then A' else B') = plug (S d) (P d)) := by
      intro G g x kx Z C RG oG wg hZ hids hZn hx hsame gl hsp
      obtain ⟨g', e1, w', e2, e3, s1⟩ := push_spec wg
      obtain ⟨pg, hrg⟩ := wg.tree
      have okx : LinkOk g (pid (S d)) d x := by
        have := linkOk_rep (d := d) hrg (Inv.pid_notMem wg d)
        simpa using this
      obtain ⟨G', f1, RG', oG'⟩ := RG.link e1 ((wg.sp d).pid_live wg.live0) gl okx
      have hZs : Z.ids.Sublist (nd d i k Y A).ids := hids ▸ nd_sub d x kx Z C
      obtain ⟨H', h', S', lr', i', k', A', B', P, m, q1, qR, qO, q2, q3, q4, q5, q6, q7, q8, q9, q10⟩ :=
        ih (lr := fun b => if b = !d then x else lr b) RG' hZn hZ w'
          (by
            intro b
            by_cases hb : b = !d
            · subst hb; simp [push]
            · have : (!b) ≠ d := by intro hh; apply hb; rw [← hh, Bool.not_not]
              simp [push, hb, this, hlr])
          (hS.push (by rw [hids]; exact hm) hx)
          (fun a ha => hc a (hZs.subset ha)) (hm.sub hZs)
      refine ⟨H', h', S', lr', i', k', A', B', _, m + 2, ?_, qR, oG.trans (oG'.trans qO), q2, q3, q4, ?_, ?_, q7, q8,
        hsp P _ _ _ q9, ?_⟩
      · simp only [hl, f1, Option.bind_eq_bind, Option.bind_some, RG'.branch e3, e2]
        intro q
        rw [show q + (m + 2) = q + 1 + 1 + m by omega]
        exact q1 _
      · rw [q5, all_push, hids]
      · refine (hsame.mono (fun a ha => by simp [ha])).trans ((s1.mono ?_).trans (q6.mono ?_))
        · intro a ha
          rw [hids] at ha
          rcases List.mem_append.1 ha with ha | ha
          · simp [ha]
          · exact List.mem_append_right _ (dual a ha)
        · have hC : x ∈ (nd d i k Y A).ids ∧ ∀ a ∈ C.ids, a ∈ (nd d i k Y A).ids := by
            rw [← hids]; exact ⟨mem_nd.2 (Or.inl rfl), fun a ha => mem_nd.2 (Or.inr (Or.inr ha))⟩
          have hP : ∀ e a, a ∈ cids (push S d ⟨d, x, kx, C⟩ e) →
              a ∈ (nd d i k Y A).ids ∨ a ∈ cids (S e) := by
            intro e a ha
            by_cases he : e = d
            · subst he
              simp only [push, if_pos, cids_cons, List.mem_cons, List.mem_append] at ha
              rcases ha with rfl | ha | ha
              · exact Or.inl hC.1
              · exact Or.inl (hC.2 a ha)
              · exact Or.inr ha
            · simp only [push, if_neg he] at ha; exact Or.inr ha
          intro a ha
          simp only [List.mem_append] at ha ⊢
          rcases ha with ha | ha | ha
          · exact Or.inl (hZs.subset ha)
          · rcases hP _ _ ha with h1 | h1
            · exact Or.inl h1
            · exact Or.inr (Or.inl h1)
          · rcases hP _ _ ha with h1 | h1
            · exact Or.inl h1
            · exact Or.inr (Or.inr h1)
      · intro e
        rw [q10]
        by_cases he : e = d
        · subst he; simp [push, setP, Frame.fill]
        · simp [push, setP, he]
    cases Y with
    | nil => exact absurd rfl hYn
    | node j m yl yr =>
    have hcj : c j = some (c' j) := hc j (by simp [ids])
    simp only [node_rootId, hcj, Option.bind_some]
    by_cases hrot : c' j ≠ .eql ∧ d = decide (c' j = .grt)
    · simp only [if_pos hrot]
      have hj := dir_cmp (hm.noErr j (by simp [ids])) hrot.1
      rw [← hrot.2] at hj
      rw [nd_of_node d j] at hr rY w hm hc hn tail ⊢
      generalize (if d then yr else yl) = Z at hr rY w hm hc hn tail ⊢
      generalize (if d then yl else yr) = B at hr rY w hm hc hn tail ⊢
      obtain ⟨j0, jl, d1, d2, jp, rZ, rB⟩ := Rep_nd.1 rY
      obtain ⟨h1, h2, e1, e2, w2, j2l, j2b, sm⟩ := rot_spec w
      have hX : (nd d i k (nd d j m Z B) A).ids.Nodup := (List.nodup_append.1 (w.nodup d)).1
      have hn2 : (i :: ((j :: (Z.ids ++ B.ids)) ++ A.ids)).Nodup := by
        refine List.Perm.nodup ?_ hX
        exact (nd_ids_perm d i k _ A).trans (((nd_ids_perm d j m Z B).append_right _).cons i)
      simp only [List.cons_append, List.nodup_cons, List.mem_cons, List.mem_append, not_or, List.nodup_append] at hn2
      obtain ⟨⟨ij, ⟨iZ, iB⟩, iA⟩, ⟨⟨jZ, jB⟩, jA⟩, -⟩ := hn2
      obtain ⟨H1, f1, R1, o1⟩ := R.link e1 il (rB.root_live w.live0) (linkOk_rep rB iB)
      have eh1 : h1 = { h with br := fun b e => if b = i ∧ e = d then B.rootId else h.br b e
                               par := upd h.par B.rootId i } := by
        rw [link_live il (rB.root_live w.live0)] at e1
        exact (Option.some.inj e1).symm
      have ok2 : LinkOk h1 j (!d) i := by
        intro _ _ hh
        rw [eh1] at hh
        simp only [Bool.not_not, and_self, if_true] at hh
        rcases rootId_mem_or B with hb | hb
        · rw [hb] at hh; exact j0 hh.symm
        · rw [hh] at hb; exact jB hb
      obtain ⟨H2, f2, R2, o2⟩ := R1.link e2 (by rw [eh1]; exact jl) (by rw [eh1]; exact il) ok2
      simp only [R.branch jl, d2, Option.bind_some, f1, f2, R2.branch j2l, j2b]
      obtain ⟨p2, hr2⟩ := w2.tree
      have rZ2 := (Rep_nd.1 hr2).2.2.2.2.2.1
      have hm2 : Mono c' (nd d j m Z (nd d i k B A)).ids := by rw [nd_nd_ids]; exact hm
      by_cases hZ : Z.rootId = 0
      · have hZ' := (rootId_ne rZ2).1 hZ
        subst hZ'
        obtain ⟨A', B', e, s1, s2⟩ := stop_nd hm2 hj
        refine ⟨H2, h2, S, lr, j, m, A', B', _, 2, by simp, R2, o1.trans o2, by rw [← e]; exact w2, hlr, hS, ?_, ?_, s1, s2,
          .zzLast hi hj, stop_plug S e⟩
        · rw [← e, nd_nd_ids]
        · exact sm.mono (fun a ha => by simp only [List.mem_append]; exact Or.inl ha)
      · simp only [if_neg hZ]
        have := tail H2 h2 j m Z (nd d i k B A) R2 (o1.trans o2) w2 (fun hh => hZ (by rw [hh]; rfl))
          (nd_nd_ids d i j k m Z B A) (by rw [nd_length, nd_length] at hn; omega) hj sm j2l
          (fun P y ky m hs => .zz hi hj (fun hh => hZ (by rw [hh]; rfl)) hs)
        simpa [Option.bind_eq_bind, R2.branch j2l] using this
    · simp only [if_neg hrot]
      exact tail H h i k (node j m yl yr) A R (Only.refl _) w (by simp) rfl (by rw [nd_length] at hn; omega) hi
        (Same.refl _ _) il
        (fun P y ky m hs => .zig hi (by simp) (by
          intro hh
          apply hrot
          rw [node_rootId] at hh
          rw [hh]
          cases d <;> simp [dirCmp]) hs)

/-- Splaying a non-empty tree (or subtree) for a key. -/
theorem splay_simN {H : Omm α} {h : Links} {p : Nat} {X : Tree} {c : Nat → Option Cmp} {c' : Nat → Cmp} (R : Rel D N H h)
    (hr : Rep h p X) (hn : X.ids.Nodup) (h0 : h.live 0 = true) (hne : X ≠ nil) (hc : ∀ a ∈ X.ids, c a = some (c' a))
    (hm : Mono c' X.ids) :
    ∃ H' h' i k A B, Omm.splay H c X.rootId = some (H', i) ∧ Rel D N H' h' ∧ Only H H' ∧ Whole h' [] (node i k A B) ∧ (node i k A B).ids = X.ids ∧
      (∀ a ∈ A.ids, c' a = .grt) ∧ (∀ a ∈ B.ids, c' a = .les) ∧ Same X.ids h h' ∧
      ∃ P m, Split c' X P i k m ∧ A = P true ∧ B = P false ∧ Costs (Omm.splayN H c X.rootId) m (H', i) := by
  have zX := hr.ne_zero
  let h1 : Links := { h with br := fun b e => if b = 0 ∧ e = false then 0 else h.br b e }
  let h2 : Links := { h1 with br := fun b e => if b = 0 ∧ e = true then 0 else h1.br b e }
  let h3 : Links := { h2 with par := upd h2.par 0 0 }
  have R1 : Rel D N _ h1 := R.setBr h0 h0 linkOk_zero
  have R2 : Rel D N _ h2 := R1.setBr h0 h0 linkOk_zero
  have R3 : Rel D N _ h3 := R2.setPar h0 h0 R.d0
  have e1 := Omm.setBr_live (s := H) (d := false) (v := some 0) (R.live 0 h0)
  have e2 := Omm.setBr_live (d := true) (v := some 0) (R1.live 0 h0)
  have e3 := Omm.setPar_live (v := some 0) (R2.live 0 h0)
  have s3 : Same X.ids h h3 := by
    refine ⟨rfl, ?_, ?_⟩
    · intro a _ ha; funext e; simp [h3, h2, h1, ha]
    · intro a _ ha; simp [h3, h2, h1, upd, ha]
  have w3 : Inv h3 (fun _ => []) X := by
    refine ⟨fun _ => trivial, ⟨p, hr.congr (fun _ _ => rfl) ?_ ?_⟩, by simpa using hn, h0⟩
    · intro a ha
      have : a ≠ 0 := fun hh => zX (hh ▸ ha)
      funext e; simp [h3, h2, h1, this]
    · intro a ha
      have : a ≠ 0 := fun hh => zX (hh ▸ ha)
      simp [h3, h2, h1, upd, this]
  obtain ⟨H4, h4, S, lr, i, k, A, B, P, m, e4, R4, o4, w4, hlr, hS, hall, s4, hA, hB, hsp, hpl⟩ :=
    loop_simN (c := c) (c' := c') X.ids.length (lr := fun _ => 0) R3 Nat.le.refl hne w3 (fun _ => rfl)
      (by intro d a ha; simp at ha) hc hm
  simp only [cids_nil, List.append_nil] at s4
  obtain ⟨q, r4⟩ := w4.tree
  obtain ⟨i0, il, b1, b2, ip, rA, rB⟩ := r4
  have hnd := w4.nodup true
  simp only [ids, Bool.not_true, List.nodup_append, List.nodup_cons, List.mem_append, List.mem_cons] at hnd
  obtain ⟨⟨nA, ⟨iB, nB⟩, dAB⟩, ⟨nL, nR, dLR⟩, dT⟩ := hnd
  have iA : i ∉ A.ids := fun hh => dAB i hh i (Or.inl rfl) rfl
  have iL : i ∉ cids (S true) := fun hh => dT i (Or.inr (Or.inl rfl)) i (Or.inl hh) rfl
  have iR : i ∉ cids (S false) := fun hh => dT i (Or.inr (Or.inl rfl)) i (Or.inr hh) rfl
  have zA := rA.ne_zero
  have zB := rB.ne_zero
  have zL := (w4.sp true).ne_zero
  have zR := (w4.sp false).ne_zero
  -- close the left spine
  obtain ⟨h5, e5, r5, t5, l5, _, o5, b5, p5⟩ := close_spec (w4.sp true) rA
    (by rw [List.nodup_append]; exact ⟨nA, nL, fun a ha b hb => dT a (Or.inl ha) b (Or.inl hb)⟩) w4.live0
  have pA : pid (S true) ∉ A.ids := by
    intro hh
    rcases pid_mem_or (S true) with e | e
    · rw [e] at hh; exact zA hh
    · exact dT _ (Or.inl hh) _ (Or.inl e) rfl
  obtain ⟨H5, f5, R5, o5'⟩ := R4.link e5 ((w4.sp true).pid_live w4.live0) (rA.root_live w4.live0) (linkOk_rep rA pA)
  have sp5 : SpC h5 false (S false) := by
    refine (w4.sp false).congr (fun a _ => by rw [l5]) (by simpa using o5) ?_ ?_
    · intro a ha; exact b5 a (fun hh => dLR a hh a ha rfl) (fun hh => zR (hh ▸ ha))
    · intro a ha; exact p5 a (fun hh => dT a (Or.inl hh) a (Or.inr ha) rfl) (fun hh => zR (hh ▸ ha))
  have rB5 : Rep h5 i B := by
    refine rB.congr (fun a _ => by rw [l5]) ?_ ?_
    · intro a ha; exact b5 a (fun hh => dT a (Or.inr (Or.inr ha)) a (Or.inl hh) rfl) (fun hh => zB (hh ▸ ha))
    · intro a ha; exact p5 a (fun hh => dAB a hh a (Or.inr ha) rfl) (fun hh => zB (hh ▸ ha))
  have il5 : h5.live i = true := by rw [l5]; exact il
  have b25 : h5.br i true = B.rootId := by rw [b5 i iL i0]; exact b2
  -- close the right spine
  obtain ⟨h6, e6, r6, t6, l6, _, o6, b6, p6⟩ := close_spec sp5 rB5
    (by rw [List.nodup_append]; exact ⟨nB, nR, fun a ha b hb => dT a (Or.inr (Or.inr ha)) b (Or.inr hb)⟩)
    (by rw [l5]; exact w4.live0)
  have pB : pid (S false) ∉ B.ids := by
    intro hh
    rcases pid_mem_or (S false) with e | e
    · rw [e] at hh; exact zB hh
    · exact dT _ (Or.inr (Or.inr hh)) _ (Or.inr e) rfl
  have l50 : h5.live 0 = true := by rw [l5]; exact w4.live0
  obtain ⟨H6, f6, R6, o6'⟩ := R5.link e6 (sp5.pid_live l50) (rB5.root_live l50) (linkOk_rep rB5 pB)
  have lids : ∀ a, a ∈ (plug (S true) A).ids ↔ a ∈ A.ids ∨ a ∈ cids (S true) := by
    intro a; rw [(plug_ids_perm (S true) A).mem_iff]; simp
  have rids : ∀ a, a ∈ (plug (S false) B).ids ↔ a ∈ B.ids ∨ a ∈ cids (S false) := by
    intro a; rw [(plug_ids_perm (S false) B).mem_iff]; simp
  have dis : ∀ a, (a ∈ A.ids ∨ a ∈ cids (S true)) → ¬ (a ∈ B.ids ∨ a ∈ cids (S false)) := by
    intro a ha hb
    rcases ha with ha | ha <;> rcases hb with hb | hb
    · exact dAB a ha a (Or.inr hb) rfl
    · exact dT a (Or.inl ha) a (Or.inr hb) rfl
    · exact dT a (Or.inr (Or.inr hb)) a (Or.inl ha) rfl
    · exact dLR a ha a hb rfl
  have r6L : Rep h6 0 (plug (S true) A) := by
    refine r5.congr (fun a _ => by rw [l6]) ?_ ?_
    · intro a ha
      exact b6 a (fun hh => dis a ((lids a).1 ha) (Or.inr hh)) (fun hh => r5.ne_zero (hh ▸ ha))
    · intro a ha
      exact p6 a (fun hh => dis a ((lids a).1 ha) (Or.inl hh)) (fun hh => r5.ne_zero (hh ▸ ha))
  have t6L : h6.br 0 true = (plug (S true) A).rootId := by simp only [Bool.not_false] at o6; rw [o6]; exact t5
  have nPL : (plug (S true) A).ids.Nodup := by
    rw [(plug_ids_perm (S true) A).nodup_iff, List.nodup_append]
    exact ⟨nA, nL, fun a ha b hb => dT a (Or.inl ha) b (Or.inl hb)⟩
  have nPR : (plug (S false) B).ids.Nodup := by
    rw [(plug_ids_perm (S false) B).nodup_iff, List.nodup_append]
    exact ⟨nB, nR, fun a ha b hb => dT a (Or.inr (Or.inr ha)) b (Or.inr hb)⟩
  have iPL : i ∉ (plug (S true) A).ids := by rw [lids]; exact fun hh => hh.elim iA iL
  have iPR : i ∉ (plug (S false) B).ids := by rw [rids]; exact fun hh => hh.elim iB iR
  have dP : ∀ a ∈ (plug (S true) A).ids, a ∉ (plug (S false) B).ids := by
    intro a ha hb; exact dis a ((lids a).1 ha) ((rids a).1 hb)
  have hids : (node i k (plug (S true) A) (plug (S false) B)).ids = X.ids := by
    have : all S (node i k A B).ids = X.ids := by rw [hall]; simp [all, before, after]
    rw [← this]
    simp [ids, all, plug_ids, (w4.sp true).allDir.after, (w4.sp false).allDir.before]
  have gA : ∀ a ∈ (plug (S true) A).ids, c' a = .grt := by
    intro a ha
    rcases (lids a).1 ha with h' | h'
    · exact hA a h'
    · exact hS true a h'
  have gB : ∀ a ∈ (plug (S false) B).ids, c' a = .les := by
    intro a ha
    rcases (rids a).1 ha with h' | h'
    · exact hB a h'
    · exact hS false a h'
  have pT : plug (S true) A = P true := by simpa using hpl true
  have pF : plug (S false) B = P false := by simpa using hpl false
  generalize hL : plug (S true) A = TL at *
  generalize hR : plug (S false) B = TR at *
  have l60 : h6.live 0 = true := by rw [l6, l5]; exact w4.live0
  have l6i : h6.live i = true := by rw [l6]; exact il5
  -- hang both trees below the new root
  let h7 : Links := { h6 with
      br := fun b e => if b = i ∧ e = false then TL.rootId else h6.br b e
      par := upd h6.par TL.rootId i }
  have e7 : Splay.link h6 i false TL.rootId = some h7 := link_live l6i (r6L.root_live l60)
  let h8 : Links := { h7 with
      br := fun b e => if b = i ∧ e = true then TR.rootId else h7.br b e
      par := upd h7.par TR.rootId i }
  have e8 : Splay.link h7 i true TR.rootId = some h8 := link_live l6i (r6.root_live l60)
  let h9 : Links := { h8.setRoot i with
      br := fun b e => if b = 0 ∧ e = false then i else h8.br b e
      par := upd h8.par i 0 }
  have e9 : Splay.link (h8.setRoot i) 0 false i = some h9 := link_live l60 l6i
  obtain ⟨H7, f7, R7, o7⟩ := R6.link e7 l6i (r6L.root_live l60) (linkOk_rep r6L iPL)
  have ok8 : LinkOk h7 i true TR.rootId := by
    have := linkOk_rep (d := true) r6 iPR
    intro q1 q2
    have h2 := this q1 q2
    have ni : TR.rootId ≠ i := by
      intro hh
      rcases rootId_mem_or TR with hb | hb
      · exact q2 hb
      · rw [hh] at hb; exact iPR hb
    simp only [h7, ni, false_and, if_false]
    exact h2
  obtain ⟨H8, f8, R8, o8⟩ := R7.link e8 l6i (r6.root_live l60) ok8
  obtain ⟨H9, f9, R9, o9⟩ := (R8.setRoot i).link e9 l60 l6i linkOk_end
  have t7 : h7.br 0 false = TR.rootId := by simp [h7, i0.symm, t6]
  have ne : ∀ {T : Tree} {a : Nat}, a ≠ 0 → a ∉ T.ids → a ≠ T.rootId := by
    rintro T a h1 h2 rfl
    rcases rootId_mem_or T with hh | hh
    · exact h1 hh
    · exact h2 hh
  have zTL := r6L.ne_zero
  have zTR := r6.ne_zero
  have br9 : ∀ a, a ≠ 0 → a ≠ i → h9.br a = h6.br a := by
    intro a h1 h2; funext e; simp [h9, h8, h7, setRoot, h1, h2]
  have par9 : ∀ a, a ≠ i → a ≠ TL.rootId → a ≠ TR.rootId → h9.par a = h6.par a := by
    intro a h1 h2 h3; simp [h9, h8, h7, upd, h1, h2, h3]
  have oo : Only H H9 := by
    obtain ⟨_, _, _, rfl⟩ := o4
    obtain ⟨_, _, _, rfl⟩ := o5'
    obtain ⟨_, _, _, rfl⟩ := o6'
    obtain ⟨_, _, _, rfl⟩ := o7
    obtain ⟨_, _, _, rfl⟩ := o8
    obtain ⟨_, _, _, rfl⟩ := o9
    exact ⟨_, _, _, rfl⟩
  have cost : Costs (Omm.splayN H c X.rootId) m (H9, i) := by
    intro q
    simp only [Omm.splayN, Count.bind_run, Count.lift_run, e1, Option.map_some, Option.bind_some]
    rw [e2]
    simp only [Option.map_some, Option.bind_some]
    rw [e3]
    simp only [Option.map_some, Option.bind_some]
    rw [e4]
    simp only [Option.map_some, Count.pure_run, Option.bind_some, R4.branch il, b1, hlr, Bool.not_false,
      Bool.not_true, f5, R5.branch il5, b25, f6, R6.branch l60, t6L, f7, R7.branch (show h7.live 0 = true from l60),
      t7, f8, f9]
  refine ⟨H9, h9, i, k, TL, TR, (Omm.splayN_er _ _ _).eq cost, R9, oo, ⟨?_, ?_, ?_, l60⟩, hids, gA, gB, ?_, P, m, hsp, pT, pF, cost⟩
  · simp [RepC, h9, setRoot]
  · refine ⟨i0, l6i, ?_, ?_, by simp [h9, upd], ?_, ?_⟩
    · simp [h9, h8, h7, setRoot, i0]
    · simp [h9, h8, h7, setRoot, i0]
    · refine r6L.move nPL (fun _ _ => rfl) ?_ ?_ ?_
      · intro a ha; exact br9 a (fun hh => zTL (hh ▸ ha)) (fun hh => iPL (hh ▸ ha))
      · intro a ha hne'
        exact par9 a (fun hh => iPL (hh ▸ ha)) hne' (ne (fun hh => zTL (hh ▸ ha)) (dP a ha))
      · intro hm'
        have h1 : TL.rootId ≠ i := fun hh => iPL (hh ▸ hm')
        have h2 : TL.rootId ≠ TR.rootId := ne (fun hh => zTL (hh ▸ hm')) (dP _ hm')
        simp [h9, h8, h7, upd, h1, h2, setRoot]
    · refine r6.move nPR (fun _ _ => rfl) ?_ ?_ ?_
      · intro a ha; exact br9 a (fun hh => zTR (hh ▸ ha)) (fun hh => iPR (hh ▸ ha))
      · intro a ha hne'
        exact par9 a (fun hh => iPR (hh ▸ ha)) (ne (fun hh => zTR (hh ▸ ha)) (fun hh => dP a hh ha)) hne'
      · intro hm'
        have h1 : TR.rootId ≠ i := fun hh => iPR (hh ▸ hm')
        simp [h9, h8, h7, upd, h1, setRoot]
  · rw [cids_nil, List.append_nil, hids]; exact hn
  · refine s3.trans (s4.trans ⟨by simp only [h9, h8, h7, setRoot]; rw [l6, l5], ?_, ?_⟩)
    · intro a ha hz
      rw [← hids] at ha
      simp only [ids, List.mem_append, List.mem_cons, not_or] at ha
      obtain ⟨a1, a2, a3⟩ := ha
      rw [lids, not_or] at a1
      rw [rids, not_or] at a3
      rw [br9 a hz a2, b6 a a3.2 hz, b5 a a1.2 hz]
    · intro a ha hz
      rw [← hids] at ha
      simp only [ids, List.mem_append, List.mem_cons, not_or] at ha
      obtain ⟨a1, a2, a3⟩ := ha
      rw [par9 a a2 (ne hz a1) (ne hz a3)]
      rw [lids, not_or] at a1
      rw [rids, not_or] at a3
      rw [p6 a a3.1 hz, p5 a a1.1 hz]

theorem splay_sim {H : Omm α} {h : Links} {p : Nat} {X : Tree} {c : Nat → Option Cmp} {c' : Nat → Cmp} (R : Rel D N H h)
    (hr : Rep h p X) (hn : X.ids.Nodup) (h0 : h.live 0 = true) (hne : X ≠ nil) (hc : ∀ a ∈ X.ids, c a = some (c' a))
    (hm : Mono c' X.ids) :
    ∃ H' h' i k A B, Omm.splay H c X.rootId = some (H', i) ∧ Rel D N H' h' ∧ Only H H' ∧ Whole h' [] (node i k A B) ∧ (node i k A B).ids = X.ids ∧
      (∀ a ∈ A.ids, c' a = .grt) ∧ (∀ a ∈ B.ids, c' a = .les) ∧ Same X.ids h h' := by
  obtain ⟨H', h', i, k, A, B, e, R', o, w, hi, g1, g2, s, _⟩ := splay_simN R hr hn h0 hne hc hm
  exact ⟨H', h', i, k, A, B, e, R', o, w, hi, g1, g2, s⟩

theorem connect_sim {H : Omm α} {h : Links} {i k e : Nat} {Y C : Tree} {res : Cmp}
    (R : Rel D N H h) (w : Whole h [] (nd (decide (res = .grt)) i k Y C)) (e0 : e ≠ 0) (el : h.live e = true)
    (he : e ∉ (nd (decide (res = .grt)) i k Y C).ids) :
    ∃ H' h', Omm.connectNewRoot H e res = some H' ∧ Rel D N H' h' ∧ Only H H' ∧
      Whole h' [] (nd (decide (res = .grt)) e 0 Y (nd (decide (res = .grt)) i k nil C)) ∧ h'.live = h.live := by
  unfold Omm.connectNewRoot
  generalize decide (res = .grt) = d at w he ⊢
  obtain ⟨i0, il, b1, b2, ip, rY, rC⟩ := Rep_nd.1 w.tree
  have hroot : h.root = i := by simpa [RepC] using w.ctx
  have hn := w.nodup
  simp only [cids_nil, List.append_nil] at hn
  rw [(nd_ids_perm d i k Y C).nodup_iff] at hn
  simp only [List.nodup_cons, List.mem_append, not_or, List.nodup_append] at hn
  obtain ⟨⟨iY, iC⟩, nY, nC, dYC⟩ := hn
  simp only [mem_nd, not_or] at he
  obtain ⟨ei, eY, eC⟩ := he
  have zY := rY.ne_zero
  have zC := rC.ne_zero
  have ne : ∀ {T : Tree} {a : Nat}, a ≠ 0 → a ∉ T.ids → a ≠ T.rootId := by
    rintro T a h1 h2 rfl
    rcases rootId_mem_or T with hh | hh
    · exact h1 hh
    · exact h2 hh
  have Yl := rY.root_live w.live0
  let h1 : Links := { h with br := fun b x => if b = e ∧ x = d then Y.rootId else h.br b x, par := upd h.par Y.rootId e }
  have e1 : Splay.link h e d Y.rootId = some h1 := link_live el Yl
  let h2 : Links := { h1 with br := fun b x => if b = e ∧ x = !d then i else h1.br b x, par := upd h1.par i e }
  have e2 : Splay.link h1 e (!d) i = some h2 := link_live el il
  let h3 : Links := { h2 with br := fun b x => if b = i ∧ x = d then 0 else h2.br b x }
  have Ylive := rY.root_live w.live0
  obtain ⟨H1, f1, R1, o1⟩ := R.link e1 el Yl (linkOk_rep rY eY)
  have ok2 : LinkOk h1 e (!d) i := by
    intro q1 _
    have : ¬ (i = e ∧ d = d) := fun hh => ei hh.1.symm
    simp only [h1, Bool.not_not, if_neg this, b1]
    simp only [ite_self]
    exact fun hh => ne q1 eY hh.symm
  obtain ⟨H2, f2, R2, o2⟩ := R1.link e2 el il ok2
  have R3 : Rel D N _ h3 := R2.setBr il w.live0 linkOk_zero
  have f3 := Omm.setBr_live (d := d) (v := some 0) (R2.live i il)
  let h4 : Links := { h3.setRoot e with br := fun b x => if b = 0 ∧ x = false then e else h3.br b x,
                                        par := upd h3.par e 0 }
  have e4 : Splay.link (h3.setRoot e) 0 false e = some h4 := link_live w.live0 el
  obtain ⟨H4, f4, R4, o4⟩ := (R3.setRoot e).link e4 w.live0 el linkOk_end
  have oo : Only H H4 := by
    obtain ⟨_, _, _, rfl⟩ := o1
    obtain ⟨_, _, _, rfl⟩ := o2
    obtain ⟨_, _, _, rfl⟩ := o4
    exact ⟨_, _, _, rfl⟩
  have br4 : ∀ a, a ≠ 0 → a ≠ e → a ≠ i → h4.br a = h.br a := by
    intro a q1 q2 q3; funext x; simp [h4, h3, h2, h1, setRoot, q1, q2, q3]
  have par4 : ∀ a, a ≠ Y.rootId → a ≠ i → a ≠ e → h4.par a = h.par a := by
    intro a q1 q2 q3; simp [h4, h3, h2, h1, upd, q1, q2, q3, setRoot]
  have hr1 : h1.root = i := hroot
  have hr2 : h2.root = i := hroot
  refine ⟨H4, h4, ?_, R4, oo, ⟨?_, ?_, ?_, w.live0⟩, rfl⟩
  · have g0 : H.root = i := R.root.trans hroot
    have g1 : H1.root = i := R1.root.trans hr1
    have g2 : H2.root = i := R2.root.trans hr2
    simp only [g0, R.branch il, b1, Option.bind_eq_bind, Option.bind_some, f1, g1, f2, g2]
    rw [f3]
    exact f4
  · simp [RepC, h4, setRoot]
  · refine Rep_nd.2 ⟨e0, el, ?_, ?_, by simp [h4, upd], ?_, Rep_nd.2 ⟨i0, il, ?_, ?_, ?_, trivial, ?_⟩⟩
    · simp [h4, h3, h2, h1, setRoot, e0, ei]
    · simp [h4, h3, h2, h1, setRoot, e0]
    · refine rY.move nY (fun _ _ => rfl) ?_ ?_ ?_
      · intro a ha
        exact br4 a (fun hh => zY (hh ▸ ha)) (fun hh => eY (hh ▸ ha)) (fun hh => iY (hh ▸ ha))
      · intro a ha hne
        exact par4 a hne (fun hh => iY (hh ▸ ha)) (fun hh => eY (hh ▸ ha))
      · intro hm
        have q1 : Y.rootId ≠ i := fun hh => iY (hh ▸ hm)
        have q2 : Y.rootId ≠ e := fun hh => eY (hh ▸ hm)
        simp [h4, h3, h2, h1, upd, setRoot, q1, q2]
    · simp [h4, h3, h2, h1, setRoot, i0]
    · simp [h4, h3, h2, h1, setRoot, i0, Ne.symm ei, b2]
    · simp [h4, h3, h2, h1, upd, setRoot, Ne.symm ei]
    · refine rC.congr (fun _ _ => rfl) ?_ ?_
      · intro a ha
        exact br4 a (fun hh => zC (hh ▸ ha)) (fun hh => eC (hh ▸ ha)) (fun hh => iC (hh ▸ ha))
      · intro a ha
        exact par4 a (ne (fun hh => zC (hh ▸ ha)) (fun hh => dYC a hh a ha rfl)) (fun hh => iC (hh ▸ ha))
          (fun hh => eC (hh ▸ ha))
  · rw [cids_nil, List.append_nil, (nd_ids_perm d e 0 Y _).nodup_iff]
    simp only [List.nodup_cons, List.mem_append, mem_nd, not_or, List.nodup_append, (nd_ids_perm d i k nil C).nodup_iff]
    refine ⟨⟨eY, ei, by simp [ids], eC⟩, nY, ⟨by simp [ids, iC], by simpa [ids] using nC⟩, ?_⟩
    intro a ha b hb hab
    subst hab
    rcases hb with rfl | hb | hb
    · exact iY ha
    · simp [ids] at hb
    · exact dYC a ha a hb rfl

/-! ### Taking the root away -/

theorem remove_simN {κ : Type} {cmp : κ → κ → Cmp} {key : α → κ} {H : Omm α} {h : Links} {i k : Nat} {A B : Tree} {c' : Nat → Cmp}
    (R : Rel D N H h) (w : Whole h [] (node i k A B))
    (hc : ∀ a ∈ A.ids, cmpAt cmp key H (key (H.val i)) a = some (c' a)) (hm : Mono c' A.ids)
    (hA : ∀ a ∈ A.ids, c' a = .grt) :
    ∃ H' h' T n, Costs (Omm.removeFromTreeN cmp key H i) n (H', i) ∧ Rel D N H' h' ∧ Only H H' ∧ Whole h' [] T ∧ T.ids = A.ids ++ B.ids ∧ h'.live = h.live ∧
      ((A = nil ∧ T = B ∧ n = 0) ∨ ∃ P j m, Split c' A P j m n ∧ P false = nil ∧ T = node j m (P true) B) := by
  obtain ⟨i0, il, b1, b2, ip, rA, rB⟩ := w.tree
  have hn := w.nodup
  simp only [cids_nil, List.append_nil, ids, List.nodup_append, List.nodup_cons, List.mem_cons] at hn
  obtain ⟨nA, ⟨iB, nB⟩, dAB⟩ := hn
  have iA : i ∉ A.ids := fun hh => dAB i hh i (Or.inl rfl) rfl
  have zA := rA.ne_zero
  have zB := rB.ne_zero
  by_cases hz : A = nil
  · subst hz
    have hl := rB.root_live w.live0
    obtain ⟨H1, f1, R1, o1⟩ := (R.setRoot B.rootId).link (link_live (t := h.setRoot B.rootId) (d := false) w.live0 hl)
      w.live0 hl linkOk_end
    refine ⟨H1, _, B, 0, ?_, R1, ?_, ⟨?_, ?_, by simpa using nB, w.live0⟩, by simp [ids], ?_, Or.inl ⟨rfl, rfl, rfl⟩⟩
    · intro q
      simp only [Omm.removeFromTreeN, Count.bind_run, Count.lift_run, R.branch il, b1, b2, nil_rootId, Option.map_some,
        Option.bind_some, if_true]
      rw [f1]; rfl
    · obtain ⟨_, _, _, rfl⟩ := o1; exact ⟨_, _, _, rfl⟩
    · simp [RepC, setRoot]
    · refine rB.move nB (fun _ _ => rfl) ?_ ?_ ?_
      · intro a ha
        have : a ≠ 0 := fun hh => zB (hh ▸ ha)
        funext x; simp [setRoot, this]
      · intro a ha hne; simp [upd, setRoot, hne]
      · intro _; simp [upd]
    · rfl
  · obtain ⟨H1, h1, j, m, A', B', _, R1, o1, w1, ids1, g1, g2, s1, P, n, hsp, pA, pB, e1⟩ :=
      splay_simN R rA nA w.live0 hz hc hm
    have hB' : B' = nil := by
      cases B' with
      | nil => rfl
      | node b m' bl br =>
        exfalso
        have hb : b ∈ (node b m' bl br).ids := by simp [ids]
        have h1 := g2 b hb
        have h2 := hA b (by rw [← ids1]; simp [ids])
        rw [h1] at h2; cases h2
    subst hB'
    have hAr : A.rootId ≠ 0 := fun hh => hz ((rootId_ne rA).1 hh)
    obtain ⟨j0, jl, c1, c2, jp, rA', _⟩ := w1.tree
    have jA : j ∈ A.ids := by rw [← ids1]; simp [ids]
    have A'A : ∀ a ∈ A'.ids, a ∈ A.ids := by intro a ha; rw [← ids1]; simp [ids, ha]
    have il1 : h1.live i = true := by rw [s1.live]; exact il
    have b21 : h1.br i true = B.rootId := by rw [s1.br i iA i0]; exact b2
    have dB : ∀ a ∈ B.ids, a ∉ A.ids := fun a ha hh => dAB a hh a (Or.inr ha) rfl
    have rB1 : Rep h1 i B := by
      refine rB.congr (fun a _ => by rw [s1.live]) ?_ ?_
      · intro a ha; exact s1.br a (dB a ha) (fun hh => zB (hh ▸ ha))
      · intro a ha; exact s1.par a (dB a ha) (fun hh => zB (hh ▸ ha))
    have hroot1 : h1.root = j := by simpa [RepC] using w1.ctx
    have ne : ∀ {T : Tree} {a : Nat}, a ≠ 0 → a ∉ T.ids → a ≠ T.rootId := by
      rintro T a h1 h2 rfl
      rcases rootId_mem_or T with hh | hh
      · exact h1 hh
      · exact h2 hh
    have jB : j ∉ B.ids := fun hh => dB j hh jA
    have hn1 := w1.nodup
    simp only [cids_nil, List.append_nil, ids, List.nodup_append, List.nodup_cons, List.mem_cons] at hn1
    have jA' : j ∉ A'.ids := fun hh => hn1.2.2 j hh j (Or.inl rfl) rfl
    have hl := rB1.root_live w1.live0
    obtain ⟨H2, f2, R2, o2⟩ := (R1.setRoot j).link (link_live (t := h1.setRoot j) (d := true) jl hl) jl hl
      (linkOk_rep (show Rep (h1.setRoot j) i B from rB1.congr (fun _ _ => rfl) (fun _ _ => rfl) (fun _ _ => rfl)) jB)
    refine ⟨H2, _, node j m A' B, n, ?_, R2, ?_, ⟨?_, ⟨j0, jl, ?_, ?_, ?_, ?_, ?_⟩, ?_, w1.live0⟩, ?_, s1.live,
      Or.inr ⟨P, j, m, hsp, pB.symm, by rw [pA]⟩⟩
    · intro q
      simp only [Omm.removeFromTreeN, Count.bind_run, Count.lift_run, R.branch il, b1, Option.map_some, Option.bind_some,
        if_neg hAr, e1 q]
      rw [(R1.setRoot j).branch il1]
      simp only [Option.map_some, Option.bind_some]
      rw [show (h1.setRoot j).br i true = B.rootId from b21, f2]; rfl
    · obtain ⟨_, _, _, rfl⟩ := o1
      obtain ⟨_, _, _, rfl⟩ := o2
      exact ⟨_, _, _, rfl⟩
    · simp [RepC, setRoot]
    · simp [setRoot, c1]
    · simp
    · simp [upd, setRoot, ne j0 jB]; simpa using jp
    · refine rA'.congr (fun _ _ => rfl) ?_ ?_
      · intro a ha
        have : a ≠ j := fun hh => jA' (hh ▸ ha)
        funext x; simp [setRoot, this]
      · intro a ha
        have := ne (T := B) (fun hh => rA'.ne_zero (hh ▸ ha)) (fun hh => dB a hh (A'A a ha))
        simp [upd, setRoot, this]
    · refine rB1.move nB (fun _ _ => rfl) ?_ ?_ ?_
      · intro a ha
        have : a ≠ j := fun hh => jB (hh ▸ ha)
        funext x; simp [setRoot, this]
      · intro a ha hne; simp [upd, setRoot, hne]
      · intro _; simp [upd]
    · have e : (node j m A' B).ids = A.ids ++ B.ids := by rw [← ids1]; simp [ids]
      rw [e, cids_nil, List.append_nil, List.nodup_append]
      exact ⟨nA, nB, fun a ha b hb => dAB a ha b (Or.inr hb)⟩
    · rw [← ids1]; simp [ids]

theorem remove_sim {κ : Type} {cmp : κ → κ → Cmp} {key : α → κ} {H : Omm α} {h : Links} {i k : Nat} {A B : Tree} {c' : Nat → Cmp}
    (R : Rel D N H h) (w : Whole h [] (node i k A B))
    (hc : ∀ a ∈ A.ids, cmpAt cmp key H (key (H.val i)) a = some (c' a)) (hm : Mono c' A.ids)
    (hA : ∀ a ∈ A.ids, c' a = .grt) :
    ∃ H' h' T, Omm.removeFromTree cmp key H i = some (H', i) ∧ Rel D N H' h' ∧ Only H H' ∧ Whole h' [] T ∧ T.ids = A.ids ++ B.ids ∧ h'.live = h.live := by
  obtain ⟨H', h', T, n, e, R', o, w', hi, hl, _⟩ := remove_simN R w hc hm hA
  exact ⟨H', h', T, (removeFromTreeN_er _ _ _ _).eq e, R', o, w', hi, hl⟩

end CCC.Omm
