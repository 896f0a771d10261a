import Verif.Model.PriorityQueueCost
import Verif.Proof.PairingPotential
import Verif.Proof.Bounds
/-
The work of the calls on a pairing heap is paid by its potential.
-/
namespace CCC

/-- The program returns `r`, and so does the counted program, after `m` counts. -/
def Ret {α : Type} (x : Count α) (y : Option α) (m : Nat) (r : α) : Prop := y = some r ∧ Costs x m r

variable {α β : Type}

theorem Ret.bind {x : Count α} {y : Option α} {f : α → Count β} {g : α → Option β} {m m' : Nat} {r : α} {r' : β}
    (h : Ret x y m r) (hf : Ret (f r) (g r) m' r') : Ret (x >>= f) (y >>= g) (m + m') r' :=
  ⟨by rw [h.1]; exact hf.1, h.2.bind hf.2⟩
theorem Ret.costs {x : Count α} {y : Option α} {m : Nat} {r : α} (h : Ret x y m r) : Costs x m r := h.2
theorem Ret.pure (a : α) : Ret (Pure.pure a : Count α) (some a) 0 a := ⟨rfl, .pure a⟩
theorem Ret.eq {x : Count α} {y : Option α} {m m' : Nat} {r : α} (h : Ret x y m r) (e : m = m') : Ret x y m' r := e ▸ h
theorem Ret.acc {y : Option α} {r : α} (h : y = some r) : Ret (CCC.acc y) y 1 r := ⟨h, .acc h⟩
theorem Ret.lift {y : Option α} {r : α} (h : y = some r) : Ret (liftM y : Count α) y 0 r := ⟨h, .lift h⟩
theorem Ret.accBind {y : Option α} {f : α → Count β} {g : α → Option β} {m : Nat} {r : α} {r' : β}
    (h : y = some r) (hf : Ret (f r) (g r) m r') : Ret (CCC.acc y >>= f) (y >>= g) (1 + m) r' := (Ret.acc h).bind hf
theorem Ret.liftBind {y : Option α} {f : α → Count β} {g : α → Option β} {m : Nat} {r : α} {r' : β}
    (h : y = some r) (hf : Ret (f r) (g r) m r') : Ret ((liftM y : Count α) >>= f) (y >>= g) m r' := by
  have := (Ret.lift h).bind hf
  rwa [Nat.zero_add] at this
theorem Bd.ret {x : Count α} {y : Option α} {b : Nat} {r : α} (h : Bd x y b) (hr : y = some r) : ∃ m, m ≤ b ∧ Ret x y m r := by
  obtain ⟨m, hm, hc⟩ := h r hr
  exact ⟨m, hm, hr, hc⟩
theorem Ret.ite {p : Prop} [Decidable p] {x x' : Count α} {y y' : Option α} {m : Nat} {r : α} (h : p → Ret x y m r)
    (h' : ¬ p → Ret x' y' m r) : Ret (if p then x else x') (if p then y else y') m r := by
  split
  · exact h ‹_›
  · exact h' ‹_›
theorem Ret.pos {p : Prop} [Decidable p] {x x' : Count α} {y y' : Option α} {m : Nat} {r : α} (hp : p) (h : Ret x y m r) :
    Ret (if p then x else x') (if p then y else y') m r := by rw [if_pos hp, if_pos hp]; exact h
theorem Ret.neg {p : Prop} [Decidable p] {x x' : Count α} {y y' : Option α} {m : Nat} {r : α} (hp : ¬ p) (h : Ret x' y' m r) :
    Ret (if p then x else x') (if p then y else y') m r := by rw [if_neg hp, if_neg hp]; exact h

namespace Pq
open Splay PrioQ

variable {c : Cfg α} {s : Pq α} {S R : List Nat} {kids : Nat → List Nat} {w : Nat → Nat}

theorem linkChild_bd (s : Pq α) (p ch : Nat) : Bd (linkChildN s p ch) (linkChild s p ch) 9 := by
  unfold linkChildN linkChild
  refine Bd.accBind (by omega) ?_
  intro ep _
  refine Bd.bind (k := 6) ?_ (by omega) ?_
  · cases ep.left
    all_goals repeat bd1
  · intro _ _
    repeat bd1

theorem merge_bd (c : Cfg α) (s : Pq α) (a b : Slot) : Bd (mergeN c s a b) (merge c s a b) 12 := by
  unfold mergeN merge
  split
  · bd1
  · bd1
  · refine Bd.ite (fun _ => by bd1) (fun _ => ?_)
    bd1
    bd1
    refine Bd.workBind (y := some (c.cmp _ _)) (g := fun o => if o = c.order then _ else _) (by omega) ?_
    intro o ho
    refine Bd.ite (fun _ => ?_) (fun _ => ?_)
    · exact Bd.bind (linkChild_bd _ _ _) (by omega) (fun _ _ => by bd1)
    · exact Bd.bind (linkChild_bd _ _ _) (by omega) (fun _ _ => by bd1)

theorem cutChild_bd (s : Pq α) (ch : Nat) : Bd (cutChildN s ch) (cutChild s ch) 8 := by
  unfold cutChildN cutChild
  iterate 4 bd1
  refine Bd.accBind (by omega) ?_
  intro e _
  refine Bd.bind (k := 2) ?_ (by omega) ?_
  · cases e.par
    all_goals repeat bd1
  · intro _ _
    repeat bd1

/-- Merging two heaps costs one logarithm. -/
theorem merge_pot (c : Cfg α) {a b : Nat} (h : Shape s.v S (a :: b :: R) kids) (hw : Wt S kids w) :
    ∃ s' x kids' w' m, Ret (mergeN c s (some a) (some b)) (merge c s (some a) (some b)) m (s', some x) ∧ m ≤ 12 ∧
      s'.root = s.root ∧ s'.sz = s.sz ∧ Shape s'.v S (x :: R) kids' ∧ Keep s.v s'.v (x :: R) ∧ Wt S kids' w' ∧
      w' x = w a + w b ∧ (∀ y, y ≠ x → w' y = w y) ∧ (x = a ∨ x = b) ∧ Phi S kids' w' ≤ Phi S kids w + lg (w a + w b) := by
  have ha : a ∈ S := h.root_mem (by simp)
  have hb : b ∈ S := h.root_mem (by simp)
  have hab : a ≠ b := by
    have := h.nodup_all
    simp only [List.cons_append, List.nodup_cons, List.mem_cons] at this
    exact fun e => this.1 (.inl e)
  obtain ⟨x, hx⟩ := live_of (h.live a ha)
  obtain ⟨y, hy⟩ := live_of (h.live b hb)
  have link : ∀ (p ch : Nat), Shape s.v S (p :: ch :: R) kids →
      merge c s (some a) (some b) = (do let s ← linkChild s p ch; some (s, some p)) → w p + w ch = w a + w b → (p = a ∨ p = b) →
      ∃ s' x kids' w' m, Ret (mergeN c s (some a) (some b)) (merge c s (some a) (some b)) m (s', some x) ∧ m ≤ 12 ∧
      s'.root = s.root ∧ s'.sz = s.sz ∧ Shape s'.v S (x :: R) kids' ∧ Keep s.v s'.v (x :: R) ∧ Wt S kids' w' ∧
      w' x = w a + w b ∧ (∀ y, y ≠ x → w' y = w y) ∧ (x = a ∨ x = b) ∧ Phi S kids' w' ≤ Phi S kids w + lg (w a + w b) := by
    intro p ch sh hm hsum hpab
    have hp : p ∈ S := sh.root_mem (by simp)
    have hc : ch ∈ S := sh.root_mem (by simp)
    obtain ⟨s', h1, h2, h3, h4, h5⟩ := linkChild_spec sh
    have hm' : merge c s (some a) (some b) = some (s', some p) := by rw [hm, h1]; rfl
    obtain ⟨m, hm1, hret⟩ := (merge_bd c s (some a) (some b)).ret hm'
    have np : ∀ a ∈ S, ∀ k ∈ kids a, k ≠ p := by
      rintro a ha k hk rfl
      exact sh.root_not_kid (by simp) ha hk
    have hpc : ch ≠ p := by
      rintro rfl
      have := sh.nodup_all
      simp at this
    refine ⟨s', p, _, upd w p (w a + w b), m, hret, hm1, h2, h3, h4, h5, ?_, upd_same _ _ _, fun y hy => upd_ne _ _ hy, hpab, ?_⟩
    · intro z hz
      by_cases hzp : z = p
      · subst hzp
        rw [upd_same, upd_same, List.map_append, List.sum_append,
          sum_congr (g := w) (fun k hk => upd_ne _ _ (np z hz k hk)), ← hsum, hw z hz]
        simp only [List.map_cons, List.map_nil, List.sum_cons, List.sum_nil, upd_ne _ _ hpc]
        omega
      · rw [upd_ne _ _ hzp, upd_ne _ _ hzp, sum_congr (g := w) (fun k hk => upd_ne _ _ (np z hz k hk)), hw z hz]
    · have e1 : Phi S (upd kids p (kids p ++ [ch])) (upd w p (w a + w b)) = Phi S (upd kids p (kids p ++ [ch])) w := by
        refine Phi_congr (fun z hz => psi_congr _ _ (fun k hk => upd_ne _ _ ?_))
        by_cases hzp : z = p
        · subst hzp
          rw [upd_same] at hk
          rcases List.mem_append.1 hk with hk | hk
          · exact np z hz k hk
          · rw [List.mem_singleton.1 hk]; exact hpc
        · rw [upd_ne _ _ hzp] at hk; exact np z hz k hk
      have e2 := Phi_upd (kids := kids) (w := w) sh.nodup hp (kids p ++ [ch])
      rw [psi_append] at e2
      simp only [psi] at e2
      have e3 := hw p hp
      have e4 := lg_mono (a := 0 + ((kids p).map w).sum + w ch) (b := w a + w b) (by have := hw.pos hc; omega) (by omega)
      rw [e1]
      linarith
  by_cases hb' : c.cmp y.val x.val = c.order
  · exact link b a (h.perm_roots (List.Perm.swap b a R)) (by
      simp only [merge, if_neg hab, hx, hy, Option.bind_eq_bind, Option.bind_some, if_pos hb']) (Nat.add_comm _ _) (.inr rfl)
  · exact link a b h (by
      simp only [merge, if_neg hab, hx, hy, Option.bind_eq_bind, Option.bind_some, if_neg hb']) rfl (.inl rfl)

/-- Cutting off a heap costs one logarithm. -/
theorem cut_pot {e : Nat} (h : Shape s.v S R kids) (hw : Wt S kids w) (he : e ∈ S) (heR : e ∉ R) :
    ∃ s' kids' w' m, Ret (cutChildN s e) (cutChild s e) m s' ∧ m ≤ 8 ∧
      s'.root = s.root ∧ s'.sz = s.sz ∧ Shape s'.v S (e :: R) kids' ∧ Wt S kids' w' ∧
      Phi S kids' w' ≤ Phi S kids w + lg S.length := by
  obtain ⟨s', k', a1, b1, c1, d1, e1, f1, _, _, _, p, hp, K, rfl, hcut⟩ := cutChild_spec h he heR
  obtain ⟨m, hm, hret⟩ := (cutChild_bd s e).ret a1
  obtain ⟨w', hw'⟩ := d1.wt
  obtain ⟨rk, hrk⟩ := h.rank
  have hle := wt_smaller hrk (fun a ha k hk => h.kid_mem ha hk) (kids' := upd kids p K) (fun a ha => by
    by_cases hap : a = p
    · subst hap
      rw [upd_same]
      rcases hcut with ⟨A, B, h1, h2⟩ | ⟨n, t, h1, h2⟩
      · exact ⟨[e], by rw [h1, h2]; exact List.perm_middle⟩
      · refine ⟨[e], ?_⟩
        rw [h1, h2]
        have : (n :: (t ++ [e])).Perm ([e] ++ n :: t) := by
          rw [← List.cons_append]; exact List.perm_append_comm
        exact this.trans ((List.perm_append_comm (l₁ := [n])).append_left [e])
    · rw [upd_ne _ _ hap]; exact ⟨[], .refl _⟩) hw hw'
  refine ⟨s', _, w', m, hret, hm, b1, c1, d1, hw', ?_⟩
  have h1 : Phi S (upd kids p K) w' ≤ Phi S (upd kids p K) w := Phi_le (fun a ha => psi_mono _ _ _ (fun x hx =>
    ⟨hw'.pos (d1.kid_mem ha hx), hle x (d1.kid_mem ha hx)⟩) (Nat.le_refl _))
  have h2 := Phi_upd (kids := kids) (w := w) h.nodup hp K
  have h3 := psi_cut (w := w) hcut (fun x hx => hw.pos (h.kid_mem hp hx))
  have hep : e ∈ kids p := by rcases hcut with ⟨A, B, h1, _⟩ | ⟨n, t, h1, _⟩ <;> rw [h1] <;> simp
  have h4 : 1 ≤ ((kids p).map w).sum := by
    obtain ⟨A, B, hAB⟩ := List.append_of_mem hep
    have := hw.pos he
    rw [hAB]; simp; omega
  have h5 := lg_mono (b := S.length) h4 (by have := hw p hp; have := h.wt_le hw p hp; omega)
  linarith

/-- The loop of `delete_min`. -/
theorem pairLoop_pot (c : Cfg α) {eldest : Nat} : ∀ (n : Nat) {s : Pq α} {S R rest : List Nat} {kids : Nat → List Nat} {w : Nat → Nat} {acc : Nat},
    rest.length ≤ n → Shape s.v S (acc :: (rest ++ R)) kids → Wt S kids w → Chain s.v eldest rest → eldest ∉ rest →
    ∃ s' acc' rest' kids' w' m p, Ret (pairLoopN c s (some eldest) (some acc) (cursor eldest rest))
        (pairLoop c s (some eldest) (some acc) (cursor eldest rest)) m (s', some acc', cursor eldest rest') ∧
      (m ≤ 28 * p + 1 ∧ p ≤ m ∧ rest.length ≤ 2 * p + 1) ∧ rest'.length ≤ 1 ∧ eldest ∉ rest' ∧ s'.root = s.root ∧ s'.sz = s.sz ∧
      Shape s'.v S (acc' :: (rest' ++ R)) kids' ∧ Keep s.v s'.v R ∧ Wt S kids' w' ∧
      Phi S kids' w' + psi w' (w' acc') rest' + 2 * p + 2 * lg (w acc) ≤ Phi S kids w + psi w (w acc) rest + 2 * lg (w' acc')
  | n, s, S, R, [], kids, w, acc, _, h, hw, _, _ =>
    ⟨s, acc, [], kids, w, 0, 0, by rw [pairLoopN, pairLoop]; simp only [cursor, if_true]; exact .pure _, ⟨by simp, by simp, by simp⟩, by simp, by simp,
      rfl, rfl, h, Keep.refl _ _, hw, by simp⟩
  | n, s, S, R, [a], kids, w, acc, _, h, hw, hc, he => by
    have hne : a ≠ eldest := fun e => he (by simp [e])
    obtain ⟨e, hae⟩ := live_of (h.live a (h.root_mem (by simp)))
    have hc' : e.next = some eldest := (view_mem hae).1.symm.trans hc
    refine ⟨s, acc, [a], kids, w, 1, 0, ?_, ⟨by simp, by simp, by simp⟩, by simp, he, rfl, rfl, h, Keep.refl _ _, hw, by simp⟩
    rw [pairLoopN, pairLoop]
    refine Ret.neg (by simp [cursor, hne]) ?_
    refine Ret.liftBind rfl ?_
    refine Ret.accBind (m := 0) hae ?_
    exact Ret.pos hc' (.pure _)
  | 0, s, S, R, a :: b :: rest, kids, w, acc, hn, _, _, _, _ => by simp at hn
  | n + 1, s, S, R, a :: b :: rest, kids, w, acc, hn, h, hw, hc, he => by
    have hae : a ≠ eldest := fun e => he (by simp [e])
    have hbe : b ≠ eldest := fun e => he (by simp [e])
    have hnd := h.nodup_all
    simp only [List.cons_append, List.nodup_cons, List.mem_cons, not_or, List.mem_append] at hnd
    obtain ⟨x, hx⟩ := live_of (h.live a (h.root_mem (by simp)))
    obtain ⟨y, hy⟩ := live_of (h.live b (h.root_mem (by simp)))
    have hxn : x.next = some b := (view_mem hx).1.symm.trans hc.1
    have hyn : y.next = cursor eldest rest := by
      refine (view_mem hy).1.symm.trans ?_
      cases rest with
      | nil => exact hc.2
      | cons d r => exact hc.2.1
    have hcr : Chain s.v eldest rest := by
      cases rest with
      | nil => trivial
      | cons d r => exact hc.2.2
    obtain ⟨s1, a1, b1, c1, d1⟩ := mod_sibs (h.live b (h.root_mem (by simp))) none none
    obtain ⟨s2, a2, b2, c2, d2⟩ := mod_sibs (s := s1) (a := a) (by rw [d1]; exact h.live a (h.root_mem (by simp))) none none
    have hR : ∀ x, x ∉ acc :: (a :: b :: rest ++ R) → x ≠ a ∧ x ≠ b := by
      intro x hx
      constructor
      · rintro rfl; exact hx (by simp)
      · rintro rfl; exact hx (by simp)
    have k2 : ∀ x, x ≠ a → x ≠ b → s2.v.nx x = s.v.nx x ∧ s2.v.pv x = s.v.pv x := by
      intro x h1 h2
      rw [d2, d1]
      exact ⟨by show upd (upd _ _ _) _ _ _ = _; rw [upd_ne _ _ h1, upd_ne _ _ h2],
        by show upd (upd _ _ _) _ _ _ = _; rw [upd_ne _ _ h1, upd_ne _ _ h2]⟩
    have v2 : s2.v.vl = s.v.vl ∧ s2.v.lf = s.v.lf ∧ s2.v.pr = s.v.pr := by rw [d2, d1]; exact ⟨rfl, rfl, rfl⟩
    have sh2 : Shape s2.v S (acc :: (a :: b :: rest ++ R)) kids := by
      refine h.roots_free (by rw [v2.2.1]; exact fun _ _ => rfl) (by rw [v2.1]; exact h.live) (fun x _ hx => ?_) (fun x _ hx => ?_)
        (by rw [v2.2.2]; exact fun _ _ _ => rfl)
      · exact (k2 x (hR x hx).1 (hR x hx).2).1
      · exact (k2 x (hR x hx).1 (hR x hx).2).2
    have sh2' : Shape s2.v S (a :: b :: (acc :: (rest ++ R))) kids := by
      refine sh2.perm_roots ?_
      exact (List.Perm.swap a acc _).trans ((List.Perm.swap b acc _).cons a)
    obtain ⟨s3, x3, k3, w3, m3, a3, hm3, b3, c3, d3, f3, hw3, wx3, wo3, hab3, hphi3⟩ := merge_pot c sh2' hw
    have hacc3 : w3 acc = w acc := wo3 acc (by
      rcases hab3 with rfl | rfl
      · exact hnd.1.1
      · exact hnd.1.2.1)
    have hrest3 : ∀ z ∈ rest ++ R, z ≠ x3 := by
      intro z hz
      have hz' := List.mem_append.1 hz
      rcases hab3 with rfl | rfl
      · rintro rfl; simp_all
      · rintro rfl; simp_all
    obtain ⟨s4, x4, k4, w4, m4, a4, hm4, b4, c4, d4, f4, hw4, wx4, wo4, hab4, hphi4⟩ :=
      merge_pot c (d3.perm_roots (List.Perm.swap acc x3 _)) hw3
    have hrest4 : ∀ z ∈ rest, w4 z = w z := by
      intro z hz
      have hzx : z ≠ x4 := by
        rcases hab4 with rfl | rfl
        · rintro rfl; simp_all
        · exact hrest3 z (List.mem_append_left _ hz)
      rw [wo4 z hzx, wo3 z (hrest3 z (List.mem_append_left _ hz))]
    have hrest : ∀ x ∈ rest ++ R, x ≠ a ∧ x ≠ b := by
      intro z hz
      have hz' := List.mem_append.1 hz
      constructor
      · intro e; subst e
        simp_all
      · intro e; subst e
        simp_all
    have keep2 : Keep s.v s2.v (rest ++ R) :=
      ⟨v2.1, fun x hx => (k2 x (hrest x hx).1 (hrest x hx).2).1, fun x hx => (k2 x (hrest x hx).1 (hrest x hx).2).2,
        by rw [v2.2.2]; exact fun _ _ => rfl⟩
    have keep4 : Keep s.v s4.v (rest ++ R) :=
      (keep2.trans (f3.mono (fun x hx => List.mem_cons_of_mem _ (List.mem_cons_of_mem _ hx)))).trans
        (f4.mono (fun x hx => List.mem_cons_of_mem _ hx))
    obtain ⟨s5, acc5, rest5, k5, w5, m5, p5, a5, hm5, b5, c5, d5, e5, f5, g5, hw5, hphi5⟩ := pairLoop_pot c n (s := s4) (S := S) (R := R)
      (rest := rest) (by simp at hn ⊢; omega) d4 hw4 (chain_congr (fun x hx => keep4.nx x (List.mem_append_left _ hx)) hcr)
      (fun h => he (by simp [h]))
    refine ⟨s5, acc5, rest5, k5, w5, 1 + (1 + (1 + (1 + (m3 + (m4 + m5))))), p5 + 1, ?_, ⟨by omega, by omega, by simp; omega⟩, b5, c5, by rw [d5, b4, b3, b2, b1],
      by rw [e5, c4, c3, c2, c1], f5, (keep4.mono (fun x hx => List.mem_append_right _ hx)).trans g5, hw5, ?_⟩
    · rw [pairLoopN, pairLoop]
      refine Ret.neg (by simp [cursor, hae]) ?_
      refine Ret.liftBind rfl ?_
      refine Ret.accBind hx ?_
      refine Ret.neg (by simp [hxn, hbe]) ?_
      refine Ret.liftBind hxn ?_
      refine Ret.accBind hy ?_
      refine Ret.accBind a1 ?_
      refine Ret.accBind a2 ?_
      refine Ret.bind a3 ?_
      refine Ret.bind a4 ?_
      rw [hyn]
      exact a5
    · have pa := hw.pos (h.root_mem (a := a) (by simp))
      have pb := hw.pos (h.root_mem (a := b) (by simp))
      have pc := hw.pos (h.root_mem (a := acc) (by simp))
      rw [wx4, hacc3, wx3] at hphi5
      rw [hacc3, wx3] at hphi4
      rw [psi_congr rest _ hrest4] at hphi5
      have l1 := lg_add pc (show 1 ≤ w a + w b by omega)
      have l2 := lg_mono (a := w acc) (b := w acc + w a) pc (by omega)
      simp only [psi]
      rw [show w acc + w a + w b = w acc + (w a + w b) by omega]
      push_cast
      linarith

theorem Phi_erase (h : Shape s.v S (r :: R) kids) : Phi S kids w = psi w 0 (kids r) + Phi (S.erase r) kids w := by
  rw [Phi_perm (List.perm_cons_erase (h.root_mem (a := r) (by simp)))]
  simp [Phi]

theorem deleteMin_pot (c : Cfg α) {r : Nat} (h : Shape s.v S (r :: R) kids) (hw : Wt S kids w) :
    ∃ s' res kids' w' m, Ret (deleteMinN c s r) (deleteMin c s r) m (s', res) ∧ s'.root = s.root ∧ s'.sz = s.sz ∧
      Shape s'.v (S.erase r) (res.toList ++ R) kids' ∧ Wt (S.erase r) kids' w' ∧ Keep s.v s'.v R ∧
      (kids r).length ≤ 2 * m ∧ m + 14 * Phi (S.erase r) kids' w' ≤ 14 * Phi S kids w + 28 * lg S.length + 18 := by
  have hr : r ∈ S := h.root_mem (by simp)
  have hlen : 1 ≤ S.length := List.length_pos_of_mem hr
  have hlg := lg_nonneg hlen
  obtain ⟨e, he⟩ := live_of (h.live r hr)
  have hel : e.left = (kids r).getLast? := (view_mem he).2.2.1.symm.trans (h.left r hr)
  have hd := h.delete
  have hwd : Wt (S.erase r) kids w := fun x hx => hw x (List.mem_of_mem_erase hx)
  have hphi := Phi_erase (w := w) h
  by_cases hk : kids r = []
  · refine ⟨s, none, kids, w, 1, ?_, rfl, rfl, ?_, hwd, Keep.refl _ _, by simp [hk], ?_⟩
    · unfold deleteMinN deleteMin
      refine Ret.accBind (m := 0) he ?_
      rw [hel, hk]
      exact .pure _
    · rw [hk] at hd; exact hd
    · rw [hk] at hphi
      simp only [psi] at hphi
      push_cast
      linarith
  · obtain ⟨f, t, q, z, ht, hq⟩ := head_last hk
    have hz : z ∈ kids r := by rw [hq]; simp
    have hf : f ∈ kids r := by rw [ht]; simp
    obtain ⟨el, hzl⟩ := live_of (h.live z (h.kid_mem hr hz))
    obtain ⟨ef, hfl⟩ := live_of (h.live f (h.kid_mem hr hf))
    have hzn : el.next = some f := (view_mem hzl).1.symm.trans (ring_last (h.ring r hr) ht hq)
    have hring := h.ring r hr
    have hknd := h.kids_nodup hr
    rw [ht] at hring hknd hd
    have hlink : Link s.v (f :: t ++ [f]) := hring
    have hfn : ef.next = cursor f t := by
      refine (view_mem hfl).1.symm.trans ?_
      cases t with
      | nil => exact hlink.1.1
      | cons y t => exact hlink.1.1
    have hch : Chain s.v f t := by
      cases t with
      | nil => trivial
      | cons y t => exact ring_chain hlink.2
    obtain ⟨s1, acc, rest, k1, w1, m1, p1, a1, hm1, b1, c1, d1, e1, f1, h1, hw1, hphi1⟩ :=
      pairLoop_pot c t.length (s := s) (Nat.le_refl _) hd hwd hch (List.nodup_cons.1 hknd).1
    have hpf : 1 ≤ w f := hw.pos (h.kid_mem hr hf)
    have hlf := lg_nonneg hpf
    have hacc : lg (w1 acc) ≤ lg S.length := by
      have hm := f1.root_mem (a := acc) (by simp)
      refine lg_mono (hw1.pos hm) ((f1.wt_le hw1 acc hm).trans ?_)
      rw [List.length_erase_of_mem hr]; omega
    rw [ht] at hphi
    simp only [psi, Nat.zero_add] at hphi
    have fin : ∀ (s2 : Pq α) (x : Nat) (k2 : Nat → List Nat) (w2 : Nat → Nat) (m2 : Nat), Shape s2.v (S.erase r) (x :: R) k2 →
        Wt (S.erase r) k2 w2 → Keep s.v s2.v R → s2.root = s.root → s2.sz = s.sz → p1 ≤ m2 →
        m2 + 14 * Phi (S.erase r) k2 w2 ≤ 28 * p1 + 13 + 14 * (Phi (S.erase r) k1 w1 + psi w1 (w1 acc) rest) →
        (∀ m s3, Ret (do let s ← CCC.acc (s2.mod (some x) (fun y => { y with prev := some x, next := some x }))
                         let s ← CCC.acc (s.mod (some x) (fun x => { x with par := none }))
                         Pure.pure (s, some x))
                     (do let s ← (s2.mod (some x) (fun y => { y with prev := some x, next := some x }))
                         let s ← s.mod (some x) (fun x => { x with par := none })
                         some (s, some x)) m (s3, some x) →
          Ret (deleteMinN c s r) (deleteMin c s r) (3 + (m2 + m)) (s3, some x)) →
        ∃ s' res kids' w' m, Ret (deleteMinN c s r) (deleteMin c s r) m (s', res) ∧ s'.root = s.root ∧ s'.sz = s.sz ∧
          Shape s'.v (S.erase r) (res.toList ++ R) kids' ∧ Wt (S.erase r) kids' w' ∧ Keep s.v s'.v R ∧
          (kids r).length ≤ 2 * m ∧ m + 14 * Phi (S.erase r) kids' w' ≤ 14 * Phi S kids w + 28 * lg S.length + 18 := by
      intro s2 x k2 w2 m2 sh hw2 kp r2 z2 hp2 hm2 heq
      have hx : s2.v.vl x ≠ none := sh.live x (sh.root_mem (by simp))
      obtain ⟨s3, a3, b3, c3, d3⟩ := mod_sibs hx (some x) (some x)
      obtain ⟨s4, a4, b4, c4, d4⟩ := mod_par (s := s3) (a := x) (by rw [d3]; exact hx) none
      have hwR : ∀ y ∈ R, y ≠ x := by
        rintro y hy rfl
        have := sh.nodup_all
        simp only [List.cons_append, List.nodup_cons, List.mem_append, not_or] at this
        exact this.1.1 hy
      refine ⟨s4, some x, k2, w2, _, heq _ s4 (Ret.accBind a3 (Ret.accBind a4 (.pure _))), by rw [b4, b3, r2], by rw [c4, c3, z2], ?_,
        hw2, ?_, by rw [ht, List.length_cons]; omega, ?_⟩
      · refine sh.roots_free (by rw [d4, d3]; exact fun _ _ => rfl) (by rw [d4, d3]; exact sh.live) (fun x _ hx => ?_) (fun x _ hx => ?_)
          (fun x _ hx => ?_)
        · rw [d4, d3]; exact upd_ne _ _ (fun e => hx (by simp [e]))
        · rw [d4, d3]; exact upd_ne _ _ (fun e => hx (by simp [e]))
        · rw [d4, d3]; exact upd_ne _ _ (fun e => hx (by simp [e]))
      · refine kp.trans ⟨by rw [d4, d3], fun x hx => ?_, fun x hx => ?_, fun x hx => ?_⟩
        · rw [d4, d3]; exact upd_ne _ _ (hwR x hx)
        · rw [d4, d3]; exact upd_ne _ _ (hwR x hx)
        · rw [d4, d3]; exact upd_ne _ _ (hwR x hx)
      · push_cast
        linarith
    have hm1' : (m1 : ℝ) ≤ 28 * p1 + 1 := by exact_mod_cast hm1.1
    match rest, b1, c1, a1, f1, hphi1, fin with
    | [], _, _, a1, f1, hphi1, fin =>
      refine fin s1 acc k1 w1 m1 f1 hw1 h1 d1 e1 hm1.2.1 ?_ (fun m s3 hret => ?_)
      · simp only [psi]; linarith
      · refine Ret.eq (m := 1 + (1 + (1 + (m1 + (0 + m))))) ?_ (by omega)
        unfold deleteMinN deleteMin
        refine Ret.accBind he ?_
        rw [hel, hq, List.getLast?_concat]
        refine Ret.accBind hzl ?_
        refine Ret.liftBind hzn ?_
        refine Ret.accBind hfl ?_
        rw [hfn]
        refine Ret.bind a1 ?_
        refine Ret.bind (Ret.neg (by simp [cursor]) (.pure _)) ?_
        exact hret
    | [d], _, c1, a1, f1, hphi1, fin =>
      have hdf : d ≠ f := fun e => c1 (by simp [e])
      obtain ⟨s2, x2, k2, w2, m2, a2, hm2, b2, c2, d2, f2, hw2, wx2, wo2, hab2, hphi2⟩ := merge_pot c f1 hw1
      refine fin s2 x2 k2 w2 (m1 + m2) d2 hw2 (h1.trans (f2.mono (fun x hx => List.mem_cons_of_mem _ hx))) (by rw [b2, d1])
        (by rw [c2, e1]) (by omega) ?_ (fun m s3 hret => ?_)
      · have hm2' : (m2 : ℝ) ≤ 12 := by exact_mod_cast hm2
        simp only [psi]
        push_cast
        linarith
      · refine Ret.eq (m := 1 + (1 + (1 + (m1 + (m2 + m))))) ?_ (by omega)
        unfold deleteMinN deleteMin
        refine Ret.accBind he ?_
        rw [hel, hq, List.getLast?_concat]
        refine Ret.accBind hzl ?_
        refine Ret.liftBind hzn ?_
        refine Ret.accBind hfl ?_
        rw [hfn]
        refine Ret.bind a1 ?_
        refine Ret.bind (Ret.pos (by simp [cursor, hdf]) a2) ?_
        exact hret
    | _ :: _ :: _, b1, _, _, _, _, _ => simp at b1

theorem deleteNode_pot (c : Cfg α) {e : Nat} (h : Shape s.v S s.root.toList kids) (hw : Wt S kids w) (he : e ∈ S) :
    ∃ s' res kids' w' m, Ret (deleteNodeN c s e) (deleteNode c s e) m (s', res) ∧ s'.sz = s.sz ∧
      Shape s'.v (S.erase e) res.toList kids' ∧ Wt (S.erase e) kids' w' ∧ s'.v.vl e ≠ none ∧
      m + 14 * Phi (S.erase e) kids' w' ≤ 14 * Phi S kids w + 56 * lg S.length + 38 := by
  have hlen : 1 ≤ S.length := List.length_pos_of_mem he
  have hlg := lg_nonneg hlen
  cases hr : s.root with
  | none =>
    have := h.roots_ne he
    rw [hr] at this; simp at this
  | some r =>
    rw [hr] at h
    by_cases hre : r = e
    · subst hre
      obtain ⟨s', res, k', w', m, a1, b1, c1, d1, hw1, f1, _, hp⟩ := deleteMin_pot c h hw
      refine ⟨s', res, k', w', m, ?_, c1, by simpa using d1, hw1, by rw [f1.vl]; exact h.live r he, by linarith⟩
      unfold deleteNodeN deleteNode
      exact Ret.pos hr a1
    · have hne : e ∉ (some r).toList := by simp; exact fun h => hre h.symm
      have hre' : ¬ s.root = some e := by rw [hr]; simpa using hre
      obtain ⟨s1, k1, w1, m1, a1, hm1, b1, c1, d1, hw1, hp1⟩ := cut_pot h hw he hne
      obtain ⟨s2, res, k2, w2, m2, a2, b2, c2, d2, hw2, f2, _, hp2⟩ := deleteMin_pot c d1 hw1
      have hroot : s2.root = some r := by rw [b2, b1, hr]
      have hl2 : s2.v.vl e ≠ none := by rw [f2.vl]; exact d1.live e he
      have hm1' : (m1 : ℝ) ≤ 8 := by exact_mod_cast hm1
      cases res with
      | none =>
        refine ⟨s2, some r, k2, w2, m1 + (m2 + 0), ?_, by rw [c2, c1], by simpa using d2, hw2, hl2, by push_cast; linarith⟩
        unfold deleteNodeN deleteNode
        refine Ret.neg hre' ?_
        refine Ret.bind a1 ?_
        refine Ret.bind a2 ?_
        simp only [hroot, mergeN, merge]
        exact .pure _
      | some x =>
        have d2' : Shape s2.v (S.erase e) (r :: x :: []) k2 := d2.perm_roots (by simpa using List.Perm.swap r x [])
        obtain ⟨s3, x3, k3, w3, m3, a3, hm3, b3, c3, d3, f3, hw3, wx3, _, _, hp3⟩ := merge_pot c d2' hw2
        have hm3' : (m3 : ℝ) ≤ 12 := by exact_mod_cast hm3
        have hx : lg (w2 r + w2 x) ≤ lg S.length := by
          rw [← wx3]
          have hm := d3.root_mem (a := x3) (by simp)
          refine lg_mono (hw3.pos hm) ((d3.wt_le hw3 x3 hm).trans ?_)
          rw [List.length_erase_of_mem he]; omega
        refine ⟨s3, some x3, k3, w3, m1 + (m2 + m3), ?_, by rw [c3, c2, c1], by simpa using d3, hw3, by rw [f3.vl]; exact hl2,
          by push_cast; linarith⟩
        unfold deleteNodeN deleteNode
        refine Ret.neg hre' ?_
        refine Ret.bind a1 ?_
        refine Ret.bind a2 ?_
        show Ret (mergeN c s2 s2.root (some x)) (merge c s2 s2.root (some x)) _ _
        rw [hroot]
        exact a3

/-- `merge` of a new element with the root. -/
theorem insert_pot (c : Cfg α) {e : Nat} (h : Shape s.v S s.root.toList kids) (hw : Wt S kids w) (he : e ∉ S) (hl : s.v.vl e ≠ none) :
    ∃ s1 s2 x kids' w' m, initNode s e = some s1 ∧
      Ret (mergeN c s1 s1.root (some e)) (merge c s1 s1.root (some e)) m (s2, some x) ∧ m ≤ 12 ∧
      Shape s2.v (e :: S) [x] kids' ∧ Wt (e :: S) kids' w' ∧
      Phi (e :: S) kids' w' ≤ Phi S kids w + lg (S.length + 1) := by
  obtain ⟨s1, a1, b1, c1, d1⟩ := initNode_view hl
  have hne : ∀ a ∈ S, a ≠ e := by rintro a ha rfl; exact he ha
  have sh : Shape s1.v (e :: S) (e :: s.root.toList) (upd kids e []) := by
    refine h.add he (fun a ha => ?_) (fun a ha => ?_) (fun a ha => ?_) (fun a ha => ?_) (fun a ha => ?_) ?_ ?_ <;> rw [d1]
    · exact upd_ne _ _ (hne a ha)
    · exact upd_ne _ _ (hne a ha)
    · exact upd_ne _ _ (hne a ha)
    · exact upd_ne _ _ (hne a ha)
    · exact h.live a ha
    · exact upd_same _ _ _
    · exact hl
  have ne_kid : ∀ a ∈ S, ∀ k ∈ kids a, k ≠ e := fun a ha k hk => hne k (h.kid_mem ha hk)
  have hw1 : Wt (e :: S) (upd kids e []) (upd w e 1) := by
    intro x hx
    by_cases hxe : x = e
    · subst hxe; rw [upd_same, upd_same]; rfl
    · have hxS : x ∈ S := (List.mem_cons.1 hx).resolve_left hxe
      rw [upd_ne _ _ hxe, upd_ne _ _ hxe, sum_congr (g := w) (fun k hk => upd_ne _ _ (ne_kid x hxS k hk)), hw x hxS]
  have hp1 : Phi (e :: S) (upd kids e []) (upd w e 1) = Phi S kids w := by
    have : Phi S (upd kids e []) (upd w e 1) = Phi S kids w := Phi_congr (fun a ha => by
      rw [upd_ne _ _ (hne a ha)]
      exact psi_congr _ _ (fun k hk => upd_ne _ _ (ne_kid a ha k hk)))
    simp only [Phi, List.map_cons, List.sum_cons, upd_same, psi] at *
    linarith
  have hlg := lg_nonneg (a := S.length + 1) (by omega)
  cases hr : s.root with
  | none =>
    rw [hr] at sh
    refine ⟨s1, s1, e, _, _, 0, a1, ?_, by omega, by simpa using sh, hw1, by linarith⟩
    rw [b1, hr]
    exact .pure _
  | some r =>
    rw [hr] at sh
    obtain ⟨s2, x, k2, w2, m, a2, hm, b2, c2, d2, f2, hw2, wx, _, _, hp2⟩ := merge_pot c (sh.perm_roots (List.Perm.swap r e [])) hw1
    refine ⟨s1, s2, x, k2, w2, m, a1, by rw [b1, hr]; exact a2, hm, d2, hw2, ?_⟩
    have hx := d2.root_mem (a := x) (by simp)
    have := lg_mono (b := S.length + 1) (hw2.pos hx) (d2.wt_le hw2 x hx)
    rw [wx] at this
    linarith

/-- `cut_child` and `merge` with the root. -/
theorem raise_pot (c : Cfg α) {e : Nat} (h : Shape s.v S s.root.toList kids) (hw : Wt S kids w) (he : e ∈ S)
    (ht : s.root = some e → s.v.nx e = some e ∧ s.v.pv e = some e ∧ s.v.pr e = none) :
    ∃ s1 s2 x kids' w' m m', Ret (cutChildN s e) (cutChild s e) m s1 ∧
      Ret (mergeN c s1 s1.root (some e)) (merge c s1 s1.root (some e)) m' (s2, some x) ∧ m ≤ 8 ∧ m' ≤ 12 ∧
      Shape s2.v S [x] kids' ∧ Wt S kids' w' ∧ Phi S kids' w' ≤ Phi S kids w + 2 * lg S.length := by
  have hlg := lg_nonneg (a := S.length) (List.length_pos_of_mem he)
  cases hr : s.root with
  | none =>
    have := h.roots_ne he
    rw [hr] at this; simp at this
  | some r =>
    rw [hr] at h
    by_cases hre : r = e
    · subst hre
      obtain ⟨hs1, hs2, hs3⟩ := ht hr
      obtain ⟨s1, a1, b1, c1, d1⟩ := cutChild_view (h.live r he) hs1 hs2 (h.live r he) (h.live r he) (by rw [hs3]; simp)
      have hv : s1.v = s.v := by
        rw [d1, hs3]
        simp only []
        rw [upd_id' hs1.symm, upd_id' hs2.symm, upd_id' hs3.symm]
      obtain ⟨m, hm, hret⟩ := (cutChild_bd s r).ret a1
      refine ⟨s1, s1, r, kids, w, m, 0, hret, ?_, hm, by omega, by rw [hv]; exact h, hw, by linarith⟩
      rw [b1, hr]
      unfold mergeN merge
      exact Ret.pos rfl (.pure _)
    · have hne : e ∉ (some r).toList := by simp; exact fun h => hre h.symm
      obtain ⟨s1, k1, w1, m1, a1, hm1, b1, c1, d1, hw1, hp1⟩ := cut_pot h hw he hne
      obtain ⟨s2, x, k2, w2, m2, a2, hm2, b2, c2, d2, f2, hw2, wx, _, _, hp2⟩ := merge_pot c (d1.perm_roots (List.Perm.swap r e [])) hw1
      refine ⟨s1, s2, x, k2, w2, m1, m2, a1, by rw [b1, hr]; exact a2, hm1, hm2, d2, hw2, ?_⟩
      have hx := d2.root_mem (a := x) (by simp)
      have := lg_mono (b := S.length) (hw2.pos hx) (d2.wt_le hw2 x hx)
      rw [wx] at this
      linarith

/-- The program returns, and its work and the new potential are paid by the old potential and `b`. -/
def Paid {β : Type} (S : List Nat) (kids : Nat → List Nat) (w : Nat → Nat) (xN : Count (Pq α × β)) (x : Option (Pq α × β))
    (S' : List Nat) (b : ℝ) : Prop :=
  ∃ s' r m kids' w', Ret xN x m (s', r) ∧ Shape s'.v S' s'.root.toList kids' ∧ Wt S' kids' w' ∧
    (m : ℝ) + 14 * Phi S' kids' w' ≤ 14 * Phi S kids w + b

theorem Shape.outside {s' : Pq α} {e : Nat} (h : Shape s.v S R kids) (he : e ∉ S) (hm : ∀ a, a ≠ e → s'.mem a = s.mem a) :
    Shape s'.v S R kids := by
  have hne : ∀ a ∈ S, a ≠ e := by rintro a ha rfl; exact he ha
  refine h.congr (fun a ha => ?_) (fun a ha => ?_) (fun a ha => ?_) (fun a ha => ?_) (fun a ha => ?_)
  all_goals simp only [Pq.v, hm a (hne a ha)]
  exact h.live a ha

theorem push_pays (ha : c.alloc = false) {e : Nat} (ans : Slot) (h : Shape s.v S s.root.toList kids) (hw : Wt S kids w) (he : e ∉ S)
    (hl : s.v.vl e ≠ none) : Paid S kids w (pushN c s e ans) (push c s e ans) (e :: S) (14 * lg (S.length + 1) + 13) := by
  obtain ⟨s1, s2, x, k, w', m, a1, a2, hm, sh, hw', hp⟩ := insert_pot c h hw he hl
  have hm' : (m : ℝ) ≤ 12 := by exact_mod_cast hm
  refine ⟨{ s2 with root := some x, sz := s2.sz + 1 }, some e, 1 + (m + 0), k, w', ?_, sh, hw', by push_cast; linarith⟩
  unfold pushN push
  refine Ret.accBind a1 ?_
  refine Ret.neg (by simp [ha]) ?_
  refine Ret.bind a2 ?_
  exact .pure _

theorem pop_pays (ha : c.alloc = false) {e : Nat} (h : Shape s.v S s.root.toList kids) (hw : Wt S kids w) (hr : s.root = some e) :
    Paid S kids w (popN c s) (pop c s) (S.erase e) (28 * lg S.length + 19) := by
  have h' := h
  rw [hr] at h'
  obtain ⟨s1, res, k, w', m, a1, b1, c1, d1, hw', f1, _, hp⟩ := deleteMin_pot c h' hw
  have he : e ∈ S := h'.root_mem (by simp)
  obtain ⟨s2, a2, b2, c2, d2⟩ := clearNode_view (s := { s1 with root := res, sz := s1.sz - 1 }) (a := e) (by
    show s1.v.vl e ≠ none; rw [f1.vl]; exact h.live e he)
  have hnot : e ∉ S.erase e := by rw [h.nodup.mem_erase_iff]; simp
  refine ⟨s2, .ok, m + (1 + 0), k, w', ?_, ?_, hw', by push_cast; linarith⟩
  · unfold popN pop
    rw [hr]
    refine Ret.bind a1 ?_
    refine Ret.accBind a2 ?_
    simp only [ha, Bool.false_eq_true, if_false]
    exact .pure _
  · rw [b2]
    exact Shape.outside (s := { s1 with root := res, sz := s1.sz - 1 }) (by rw [List.append_nil] at d1; exact d1) hnot (mod_mem a2).2.2

theorem extract_pays {e : Nat} {x : Elem α} (h : Shape s.v S s.root.toList kids) (hw : Wt S kids w) (he : e ∈ S)
    (hx : s.mem e = some x) (hn : ¬ (x.next = none ∨ x.prev = none)) (hrn : ¬ s.root = none) :
    Paid S kids w (extractN c s e) (extract c s e) (S.erase e) (56 * lg S.length + 40) := by
  obtain ⟨s1, res, k, w', m, a1, c1, d1, hw', l1, hp⟩ := deleteNode_pot c h hw he
  obtain ⟨s2, a2, b2, c2, d2⟩ := clearNode_view (s := { s1 with root := res, sz := s1.sz - 1 }) (a := e) l1
  have hnot : e ∉ S.erase e := by rw [h.nodup.mem_erase_iff]; simp
  refine ⟨s2, some e, 1 + (m + (1 + 0)), k, w', ?_, ?_, hw', by push_cast; linarith⟩
  · unfold extractN extract
    refine Ret.neg hrn ?_
    refine Ret.accBind hx ?_
    refine Ret.neg hn ?_
    refine Ret.bind a1 ?_
    refine Ret.accBind a2 ?_
    exact .pure _
  · rw [b2]
    exact Shape.outside (s := { s1 with root := res, sz := s1.sz - 1 }) d1 hnot (mod_mem a2).2.2

theorem erase_pays (ha : c.alloc = false) {e : Nat} {x : Elem α} (h : Shape s.v S s.root.toList kids) (hw : Wt S kids w) (he : e ∈ S)
    (hx : s.mem e = some x) (hn : ¬ (x.next = none ∨ x.prev = none)) (hrn : ¬ s.root = none) :
    Paid S kids w (eraseN c s e) (erase c s e) (S.erase e) (56 * lg S.length + 40) := by
  obtain ⟨s1, res, k, w', m, a1, c1, d1, hw', l1, hp⟩ := deleteNode_pot c h hw he
  refine ⟨{ s1 with root := res, sz := s1.sz - 1 }, .ok, 1 + (m + 0), k, w', ?_, d1, hw', by push_cast; linarith⟩
  unfold eraseN erase
  refine Ret.neg hrn ?_
  refine Ret.accBind hx ?_
  refine Ret.neg hn ?_
  refine Ret.bind a1 ?_
  simp only [ha, Bool.false_eq_true, if_false]
  exact .pure _

/-- Deleting an element and putting it back. -/
theorem slow_pot (c : Cfg α) {e : Nat} (h : Shape s.v S s.root.toList kids) (hw : Wt S kids w) (he : e ∈ S) :
    ∃ s1 r1 s2 s3 x kids' w' m m', Ret (deleteNodeN c s e) (deleteNode c s e) m (s1, r1) ∧
      initNode { s1 with root := r1 } e = some s2 ∧
      Ret (mergeN c s2 s2.root (some e)) (merge c s2 s2.root (some e)) m' (s3, some x) ∧
      Shape s3.v S [x] kids' ∧ Wt S kids' w' ∧
      (m : ℝ) + m' + 14 * Phi S kids' w' ≤ 14 * Phi S kids w + 70 * lg S.length + 50 := by
  obtain ⟨s1, r1, k1, w1, m, a1, c1, d1, hw1, l1, hp⟩ := deleteNode_pot c h hw he
  have hnot : e ∉ S.erase e := by rw [h.nodup.mem_erase_iff]; simp
  obtain ⟨s2, s3, x, k, w', m', a2, a3, hm', sh, hw', hp'⟩ := insert_pot (s := { s1 with root := r1 }) c d1 hw1 hnot l1
  have hpm : (e :: S.erase e).Perm S := (List.perm_cons_erase he).symm
  rw [Phi_perm hpm, List.length_erase_of_mem he, Nat.sub_add_cancel (List.length_pos_of_mem he)] at hp'
  have hm'' : (m' : ℝ) ≤ 12 := by exact_mod_cast hm'
  exact ⟨s1, r1, s2, s3, x, k, w', m, m', a1, a2, a3, sh.perm_set hpm, fun x hx => hw' x (hpm.symm.subset hx), by linarith⟩

theorem change_pays {e : Nat} {x : Elem α} (f : α → α) (fixN : Pq α → Count (Pq α)) (fix : Pq α → Option (Pq α)) {b : ℝ}
    (h : Shape s.v S s.root.toList kids) (he : e ∈ S)
    (hx : s.mem e = some x) (hn : ¬ (x.next = none ∨ x.prev = none))
    (hf : ∀ s1, s.mod (some e) (fun x => { x with val := f x.val }) = some s1 → s1.root = s.root →
      s1.v.nx = s.v.nx → s1.v.pv = s.v.pv → s1.v.pr = s.v.pr → Shape s1.v S s1.root.toList kids →
      ∃ s' m kids' w', Ret (fixN s1) (fix s1) m s' ∧ Shape s'.v S s'.root.toList kids' ∧ Wt S kids' w' ∧
      (m : ℝ) + 14 * Phi S kids' w' ≤ 14 * Phi S kids w + b) :
    Paid S kids w (changeN s e f fixN) (change s e f fix) S (b + 2) := by
  obtain ⟨s1, a1, b1, c1, d1⟩ := mod_val (h.live e he) f
  have sh1 : Shape s1.v S s1.root.toList kids := by
    rw [b1]
    refine h.congr (by rw [d1]; simp) (by rw [d1]; simp) (by rw [d1]; simp) (by rw [d1]; simp) (fun a ha => ?_)
    rw [d1]
    show upd _ _ _ a ≠ none
    by_cases hae : a = e
    · subst hae; rw [upd_same]
      obtain ⟨y, hy⟩ := Option.ne_none_iff_exists'.1 (h.live a ha)
      rw [hy]; simp
    · rw [upd_ne _ _ hae]; exact h.live a ha
  obtain ⟨s', m, k, w', a2, sh, hw', hp⟩ := hf s1 a1 b1 (by rw [d1]) (by rw [d1]) (by rw [d1]) sh1
  refine ⟨s', true, 1 + (1 + (m + 0)), k, w', ?_, sh, hw', by push_cast; linarith⟩
  unfold changeN change
  refine Ret.accBind hx ?_
  refine Ret.neg hn ?_
  refine Ret.accBind a1 ?_
  refine Ret.bind a2 ?_
  exact .pure _

theorem updateFixup_pot (c : Cfg α) {e : Nat} (h : Shape s.v S s.root.toList kids) (hw : Wt S kids w) (he : e ∈ S)
    (ht : s.root = some e → s.v.pr e = none) :
    ∃ s' m kids' w', Ret (updateFixupN c s e) (updateFixup c s e) m s' ∧ Shape s'.v S s'.root.toList kids' ∧ Wt S kids' w' ∧
      (m : ℝ) + 14 * Phi S kids' w' ≤ 14 * Phi S kids w + (70 * lg S.length + 54) := by
  have hlg := lg_nonneg (a := S.length) (List.length_pos_of_mem he)
  obtain ⟨x, hx⟩ := live_of (h.live e he)
  have hpar : x.par = s.v.pr e := (view_mem hx).2.2.2.1.symm
  obtain ⟨s1, r1, s2, s3, x3, k, w', m, m', a1, a2, a3, sh, hw', hp⟩ := slow_pot c h hw he
  have slow : ∀ (y : Count Bool) (y' : Option Bool) (n : Nat), Ret y y' n false → n ≤ 2 →
      ∃ s' m kids' w', Ret (do
        let beats ← y
        if beats then do
          let s ← cutChildN s e
          let (s, r) ← mergeN c s s.root (some e)
          pure { s with root := r }
        else do
          let (s, r) ← deleteNodeN c s e
          let s : Pq α := { s with root := r }
          let s ← CCC.acc (initNode s e)
          let (s, r) ← mergeN c s s.root (some e)
          pure { s with root := r }) (do
        let beats ← y'
        if beats then do
          let s ← cutChild s e
          let (s, r) ← merge c s s.root (some e)
          some { s with root := r }
        else do
          let (s, r) ← deleteNode c s e
          let s : Pq α := { s with root := r }
          let s ← initNode s e
          let (s, r) ← merge c s s.root (some e)
          some { s with root := r }) m s' ∧ Shape s'.v S s'.root.toList kids' ∧ Wt S kids' w' ∧
      (m : ℝ) + 14 * Phi S kids' w' ≤ 14 * Phi S kids w + (70 * lg S.length + 53) := by
    intro y y' n hy hn
    have hn' : (n : ℝ) ≤ 2 := by exact_mod_cast hn
    refine ⟨{ s3 with root := some x3 }, n + (m + (1 + (m' + 0))), k, w', ?_, sh, hw', by push_cast; linarith⟩
    refine Ret.bind hy ?_
    refine Ret.neg (by simp) ?_
    refine Ret.bind a1 ?_
    refine Ret.accBind a2 ?_
    refine Ret.bind a3 ?_
    exact .pure _
  have fast : s.root ≠ some e → ∀ (y : Count Bool) (y' : Option Bool) (n : Nat), Ret y y' n true → n ≤ 2 →
      ∃ s' m kids' w', Ret (do
        let beats ← y
        if beats then do
          let s ← cutChildN s e
          let (s, r) ← mergeN c s s.root (some e)
          pure { s with root := r }
        else do
          let (s, r) ← deleteNodeN c s e
          let s : Pq α := { s with root := r }
          let s ← CCC.acc (initNode s e)
          let (s, r) ← mergeN c s s.root (some e)
          pure { s with root := r }) (do
        let beats ← y'
        if beats then do
          let s ← cutChild s e
          let (s, r) ← merge c s s.root (some e)
          some { s with root := r }
        else do
          let (s, r) ← deleteNode c s e
          let s : Pq α := { s with root := r }
          let s ← initNode s e
          let (s, r) ← merge c s s.root (some e)
          some { s with root := r }) m s' ∧ Shape s'.v S s'.root.toList kids' ∧ Wt S kids' w' ∧
      (m : ℝ) + 14 * Phi S kids' w' ≤ 14 * Phi S kids w + (70 * lg S.length + 53) := by
    intro hre y y' n hy hn
    have hn' : (n : ℝ) ≤ 2 := by exact_mod_cast hn
    obtain ⟨s1, s2, x2, k, w', m, m', a1, a2, hm, hm', sh, hw', hp⟩ := raise_pot c h hw he (fun h => absurd h hre)
    have h1 : (m : ℝ) ≤ 8 := by exact_mod_cast hm
    have h2 : (m' : ℝ) ≤ 12 := by exact_mod_cast hm'
    refine ⟨{ s2 with root := some x2 }, n + (m + (m' + 0)), k, w', ?_, sh, hw', by push_cast; linarith⟩
    refine Ret.bind hy ?_
    refine Ret.pos rfl ?_
    refine Ret.bind a1 ?_
    refine Ret.bind a2 ?_
    exact .pure _
  have wrap : ∀ {xN : Elem α → Count (Pq α)} {y : Elem α → Option (Pq α)}, (∃ s' m kids' w', Ret (xN x) (y x) m s' ∧ Shape s'.v S s'.root.toList kids' ∧ Wt S kids' w' ∧
      (m : ℝ) + 14 * Phi S kids' w' ≤ 14 * Phi S kids w + (70 * lg S.length + 53)) →
      ∃ s' m kids' w', Ret (CCC.acc (s.mem e) >>= xN) (s.mem e >>= y) m s' ∧ Shape s'.v S s'.root.toList kids' ∧ Wt S kids' w' ∧
      (m : ℝ) + 14 * Phi S kids' w' ≤ 14 * Phi S kids w + (70 * lg S.length + 54) := by
    rintro xN y ⟨s', m, k, w', a, b, c, d⟩
    exact ⟨s', 1 + m, k, w', Ret.accBind hx a, b, c, by push_cast; linarith⟩
  unfold updateFixupN updateFixup
  refine wrap ?_
  rw [hpar]
  cases hp0 : s.v.pr e with
  | none => exact slow _ _ 0 (.pure _) (by omega)
  | some p =>
    have hre : s.root ≠ some e := fun h => by rw [ht h] at hp0; cases hp0
    rcases h.root_or_kid he with hr | ⟨p', hp', hk⟩
    · exact absurd (by simpa using hr) hre
    have := h.par p' hp' e hk
    rw [hp0] at this
    cases this
    obtain ⟨z, hz⟩ := live_of (h.live p hp')
    have hret : Ret (do
        let y ← CCC.acc (s.mem p)
        let o ← cmpN c x.val y.val
        pure (decide (o = c.order))) (do
        let y ← s.mem p
        some (decide (c.cmp x.val y.val = c.order))) 2 (decide (c.cmp x.val z.val = c.order)) := by
      refine Ret.accBind (m := 1) hz ?_
      exact ⟨rfl, (Costs.work (n := 1) rfl).bind (m' := 0) (.pure _)⟩
    by_cases hb : c.cmp x.val z.val = c.order
    · rw [decide_eq_true hb] at hret
      exact fast hre _ _ 2 hret (by omega)
    · rw [decide_eq_false hb] at hret
      exact slow _ _ 2 hret (by omega)

theorem fixup_pot (c : Cfg α) {e : Nat} (up : Bool) (h : Shape s.v S s.root.toList kids) (hw : Wt S kids w) (he : e ∈ S)
    (ht : up = true → s.root = some e → s.v.nx e = some e ∧ s.v.pv e = some e ∧ s.v.pr e = none) :
    ∃ s' m kids' w', Ret (fixupN c s e up) (fixup c s e up) m s' ∧ Shape s'.v S s'.root.toList kids' ∧ Wt S kids' w' ∧
      (m : ℝ) + 14 * Phi S kids' w' ≤ 14 * Phi S kids w + (70 * lg S.length + 54) := by
  have hlg := lg_nonneg (a := S.length) (List.length_pos_of_mem he)
  cases up with
  | true =>
    obtain ⟨s1, s2, x2, k, w', m, m', a1, a2, hm, hm', sh, hw', hp⟩ := raise_pot c h hw he (ht rfl)
    have h1 : (m : ℝ) ≤ 8 := by exact_mod_cast hm
    have h2 : (m' : ℝ) ≤ 12 := by exact_mod_cast hm'
    refine ⟨{ s2 with root := some x2 }, m + (m' + 0), k, w', ?_, sh, hw', by push_cast; linarith⟩
    unfold fixupN fixup
    refine Ret.bind (Ret.pos rfl a1) ?_
    refine Ret.bind a2 ?_
    exact .pure _
  | false =>
    obtain ⟨s1, r1, s2, s3, x3, k, w', m, m', a1, a2, a3, sh, hw', hp⟩ := slow_pot c h hw he
    refine ⟨{ s3 with root := some x3 }, (m + 1) + (m' + 0), k, w', ?_, sh, hw', by push_cast; linarith⟩
    unfold fixupN fixup
    refine Ret.bind (r := s2) (Ret.neg (by simp) ?_) ?_
    · exact Ret.bind a1 (Ret.acc a2)
    · refine Ret.bind a3 ?_
      exact .pure _

/-! ### Calls -/

theorem Paid.mono {β : Type} {xN : Count (Pq α × β)} {x : Option (Pq α × β)} {S' : List Nat} {b b' : ℝ}
    (h : Paid S kids w xN x S' b) (hb : b ≤ b') : Paid S kids w xN x S' b' := by
  obtain ⟨s', r, m, k, w', h1, h2, h3, h4⟩ := h
  exact ⟨s', r, m, k, w', h1, h2, h3, by linarith⟩

theorem Paid.map {β γ : Type} {xN : Count (Pq α × β)} {x : Option (Pq α × β)} {S' : List Nat} {b : ℝ} (g : β → γ)
    (h : Paid S kids w xN x S' b) :
    Paid S kids w (do let (s, r) ← xN; pure (s, g r)) (do let (s, r) ← x; some (s, g r)) S' b := by
  obtain ⟨s', r, m, k, w', h1, h2, h3, h4⟩ := h
  exact ⟨s', g r, m + 0, k, w', Ret.bind h1 (.pure _), h2, h3, by simpa using h4⟩

theorem Paid.none {β : Type} (x : Option (Pq α × β)) {b : ℝ} {s' : Pq α} {r : β} (hx : x = some (s', r))
    (h : Shape s'.v S s'.root.toList kids) (hw : Wt S kids w) (hb : 0 ≤ b) :
    Paid S kids w (do let r ← x; pure r) x S b := by
  subst hx
  exact ⟨s', r, 0, kids, w, Ret.lift rfl, h, hw, by simpa using hb⟩

theorem clearLoop_pays (ha : c.alloc = false) (hg : Good c) (d : Bool) {N : Nat} : ∀ (n : Nat) {s : Pq α} {st : St α} {kids w}, Sim c s st →
    st.q.length = n → n ≤ N → Shape s.v st.q s.root.toList kids → Wt st.q kids w →
    Paid st.q kids w (clearLoopN c s d) (clearLoop c s d) [] (n * (28 * lg (N + 1) + 19))
  | 0, s, st, kids, w, h, hn, _, sh, hw => by
    have hq : st.q = [] := List.eq_nil_of_length_eq_zero hn
    have he : isEmpty s = true := by simp [isEmpty, h.sz, hn]
    rw [hq] at sh ⊢
    refine ⟨s, [], 0, kids, w, ?_, sh, by intro x hx; simp at hx, by simp⟩
    rw [clearLoopN, clearLoop]
    exact Ret.pos he (.pure _)
  | n + 1, s, st, kids, w, h, hn, hN, sh, hw => by
    have he : ¬ isEmpty s = true := by simp [isEmpty, h.sz, hn]
    obtain ⟨e, hr⟩ : ∃ e, s.root = some e := by
      apply Option.ne_none_iff_exists'.1
      intro h0
      obtain ⟨a, t, ht⟩ := List.exists_cons_of_ne_nil (l := st.q) (by rintro h0; rw [h0] at hn; simp at hn)
      have := sh.roots_ne (a := a) (by rw [ht]; simp)
      rw [h0] at this; simp at this
    have hf : st.front = some e := by rw [← h.root, hr]
    have heq : e ∈ st.q := by have := sh; rw [hr] at this; exact this.root_mem (by simp)
    obtain ⟨s1, f, h1, h2⟩ := pop_sim hg ha h hf
    obtain ⟨s1', r1, m1, k1, w1, p1, p2, p3, p4⟩ := pop_pays ha sh hw hr
    obtain ⟨rfl, rfl⟩ : s1 = s1' ∧ Res.ok = r1 := by
      have := h1.symm.trans p1.1
      simpa using this
    obtain ⟨s2, ds, m2, k2, w2, q1, q2, q3, q4⟩ := clearLoop_pays ha hg d (N := N) n h2
      (by show (st.q.erase e).length = n; rw [List.length_erase_of_mem heq, hn]; rfl) (by omega) p2 p3
    have hlg : lg (st.q.length) ≤ lg (N + 1) := lg_mono (by omega) (by omega)
    have hq4 : (m2 : ℝ) + 14 * Phi [] k2 w2 ≤ 14 * Phi (st.q.erase e) k1 w1 + n * (28 * lg (N + 1) + 19) := q4
    cases d with
    | true =>
      refine ⟨s2, [e] ++ ds, m1 + (m2 + 0), k2, w2, ?_, q2, q3, by push_cast; linarith⟩
      rw [clearLoopN, clearLoop]
      refine Ret.neg he ?_
      refine Ret.liftBind (r := [e]) (by simp [front, hr]) ?_
      refine Ret.bind p1 ?_
      refine Ret.bind q1 ?_
      exact .pure _
    | false =>
      refine ⟨s2, [] ++ ds, m1 + (m2 + 0), k2, w2, ?_, q2, q3, by push_cast; linarith⟩
      rw [clearLoopN, clearLoop]
      refine Ret.neg he ?_
      refine Ret.liftBind (r := []) (by simp) ?_
      refine Ret.bind p1 ?_
      refine Ret.bind q1 ?_
      exact .pure _

/-- What one call may cost, the credit for the elements it adds included. -/
theorem stepN_pays (hl : LawfulCmp c.cmp) (hi : IsOrder c.order) (ha : c.alloc = false) {st : St α} (h : Sim c s st) (op : Op α)
    (hok : okOp c.cmp st op) (hsafe : safeOp c.order st op) {N : Nat} (hN : st.q.length ≤ N)
    (sh : Shape s.v st.q s.root.toList kids) (hw : Wt st.q kids w) (f : Slot) :
    Paid st.q kids w (stepN c s op) (step c s op) (specStep c.order st f op).1.q
      (70 * lg (N + 1) + 56 + (28 * lg (N + 1) + 19) * (st.q.length - (specStep c.order st f op).1.q.length)) := by
  have hg : Good c := ⟨hl.swo hi⟩
  have hlg : 0 ≤ lg (N + 1) := lg_nonneg (by omega)
  have hlen : ∀ {k : Nat}, 1 ≤ k → k ≤ N + 1 → lg k ≤ lg (N + 1) := fun h1 h2 => lg_mono h1 h2
  have hone : ∀ {e}, e ∈ st.q → 1 ≤ st.q.length := fun he => List.length_pos_of_mem he
  have hcast : ∀ {e}, e ∈ st.q → ((st.q.erase e).length : ℝ) = st.q.length - 1 := by
    intro e he
    rw [List.length_erase_of_mem he, Nat.cast_sub (hone he)]; simp
  have read : ∀ {x : Option (Pq α × Out)} {o}, x = some (s, o) → (specStep c.order st f op).1.q = st.q →
      Paid st.q kids w (do let r ← x; pure r) x (specStep c.order st f op).1.q
        (70 * lg (N + 1) + 56 + (28 * lg (N + 1) + 19) * (st.q.length - (specStep c.order st f op).1.q.length)) := by
    intro x o hx hq
    rw [hq]
    refine Paid.none x hx sh hw ?_
    rw [sub_self]; linarith
  obtain ⟨s', f', hst, _, _⟩ := step_sim hl hi ha h op hok hsafe
  have changes : ∀ {e : Nat} (fixN : Pq α → Count (Pq α)) (fix : Pq α → Option (Pq α)) (g : α → α), e ∈ st.q →
      (∀ s1 : Pq α, s1.root = s.root → (∀ r, s1.root = some r → Top s1.v r st.stale) → Shape s1.v st.q s1.root.toList kids →
      ∃ s' m kids' w', Ret (fixN s1) (fix s1) m s' ∧ Shape s'.v st.q s'.root.toList kids' ∧ Wt st.q kids' w' ∧
      (m : ℝ) + 14 * Phi st.q kids' w' ≤ 14 * Phi st.q kids w + (70 * lg st.q.length + 54)) →
      Paid st.q kids w (do let (s, b) ← changeN s e g fixN; pure (s, Out.flag b)) (do let (s, b) ← change s e g fix; some (s, Out.flag b)) st.q
        (70 * lg (N + 1) + 56 + (28 * lg (N + 1) + 19) * (st.q.length - st.q.length)) := by
    intro e fixN fix g he hf
    obtain ⟨x, hx, hn, hrn⟩ := h.sibs he
    refine ((change_pays (w := w) g fixN fix sh he hx hn (fun s1 _ b1 c1 d1 e1 sh1 => hf s1 b1 ?_ sh1)).map _).mono ?_
    · intro r hr
      exact (h.top r (by rw [← b1]; exact hr)).congr (by rw [c1]) (by rw [d1]) (by rw [e1])
    · have := hlen (hone he) (by omega)
      rw [sub_self]; linarith
  cases op with
  | make e x l n p r =>
    refine Paid.none _ rfl ?_ hw ?_
    · exact Shape.outside (e := e) sh hok (fun a ha => upd_ne _ _ ha)
    · simp only [specStep, sub_self]; linarith
  | drop e =>
    refine Paid.none _ rfl ?_ hw ?_
    · exact Shape.outside (e := e) sh hok (fun a ha => upd_ne _ _ ha)
    · simp only [specStep, sub_self]; linarith
  | push e =>
    refine ((push_pays ha none sh hw hok.1 (by rw [h.val]; exact hok.2)).map _).mono ?_
    have := hlen (k := st.q.length + 1) (by omega) (by omega)
    simp only [specStep, List.length_cons]
    push_cast at this ⊢
    linarith
  | pop =>
    cases hf : st.front with
    | none =>
      have hr : s.root = none := by rw [h.root, hf]
      have : (specStep c.order st f .pop).1.q = st.q := by simp only [specStep, hf]
      rw [this]
      refine ⟨s, .res .inputErr, 0 + 0, kids, w, ?_, sh, hw, ?_⟩
      · simp only [stepN, step, popN, pop, hr]
        exact Ret.bind (.pure _) (.pure _)
      · rw [sub_self]; push_cast; linarith
    | some e =>
      have hr : s.root = some e := by rw [h.root, hf]
      have he : e ∈ st.q := by have := sh; rw [hr] at this; exact this.root_mem (by simp)
      have : (specStep c.order st f .pop).1.q = st.q.erase e := by simp only [specStep, hf]; rfl
      rw [this]
      refine ((pop_pays ha sh hw hr).map _).mono ?_
      have := hlen (hone he) (by omega)
      rw [hcast he]
      linarith
  | extract e =>
    obtain ⟨x, hx, hn, hrn⟩ := h.sibs hok
    refine ((extract_pays sh hw hok hx hn hrn).map _).mono ?_
    have := hlen (hone hok) (by omega)
    simp only [specStep, St.without, hcast hok]
    linarith
  | erase e =>
    obtain ⟨x, hx, hn, hrn⟩ := h.sibs hok
    refine ((erase_pays ha sh hw hok hx hn hrn).map _).mono ?_
    have := hlen (hone hok) (by omega)
    simp only [specStep, St.without, hcast hok]
    linarith
  | update e g =>
    refine changes _ _ g hok (fun s1 hr ht sh1 => updateFixup_pot c sh1 hw hok (fun hr1 => (ht e hr1).2.2.1))
  | increase e g =>
    refine changes _ _ g hok.1 (fun s1 hr ht sh1 => fixup_pot c _ sh1 hw hok.1 (fun hu hr1 => ?_))
    have hs := hsafe (by simpa using hu) (by rw [← h.root, ← hr, hr1])
    obtain ⟨_, _, h3, h4⟩ := ht e hr1
    exact ⟨(h4 hs).1, (h4 hs).2, h3⟩
  | decrease e g =>
    refine changes _ _ g hok.1 (fun s1 hr ht sh1 => fixup_pot c _ sh1 hw hok.1 (fun hu hr1 => ?_))
    have hs := hsafe (by simpa using hu) (by rw [← h.root, ← hr, hr1])
    obtain ⟨_, _, h3, h4⟩ := ht e hr1
    exact ⟨(h4 hs).1, (h4 hs).2, h3⟩
  | clear d =>
    obtain ⟨s1, ds, m1, k1, w1, p1, p2, p3, p4⟩ := clearLoop_pays ha hg d _ h rfl hN sh hw
    refine ⟨s1, .res .ok, m1 + 0 + 0, k1, w1, ?_, p2, p3, ?_⟩
    · simp only [stepN, step, clearN, clear]
      exact Ret.bind (Ret.bind p1 (.pure _)) (.pure _)
    · simp only [specStep, List.length_nil]
      push_cast
      linarith
  | front => exact read rfl rfl
  | size => exact read rfl rfl
  | isEmpty => exact read rfl rfl
  | validate => exact read (o := .flag true) (by simp [step, validate_sim hl hi h hsafe]) rfl
  | order => exact read rfl rfl

theorem runN_pays (hl : LawfulCmp c.cmp) (hi : IsOrder c.order) (ha : c.alloc = false) {N : Nat} :
    ∀ (ops : List (Op α)) {s : Pq α} {st : St α} {kids w}, Sim c s st → safeRun c.cmp c.order st ops →
    Shape s.v st.q s.root.toList kids → Wt st.q kids w →
    (∀ pre s' outs, pre <+: ops → run c s pre = some (s', outs) → size s' ≤ N) →
    ∃ s' outs m, Ret (runN c s ops) (run c s ops) m (s', outs) ∧
      (m : ℝ) ≤ 14 * Phi st.q kids w + (28 * lg (N + 1) + 19) * st.q.length + ops.length * (70 * lg (N + 1) + 56)
  | [], s, st, kids, w, h, _, sh, hw, _ => by
    refine ⟨s, [], 0, .pure _, ?_⟩
    have h1 := Phi_nonneg hw (fun a ha k hk => sh.kid_mem ha hk)
    have h2 : 0 ≤ lg (N + 1) := lg_nonneg (by omega)
    have h3 : (0 : ℝ) ≤ (28 * lg (N + 1) + 19) * st.q.length := by positivity
    push_cast
    simp only [List.length_nil, Nat.cast_zero, zero_mul]
    linarith
  | op :: ops, s, st, kids, w, h, hr, sh, hw, hN => by
    have hg : Good c := ⟨hl.swo hi⟩
    obtain ⟨s1, f, h1, h2, h3⟩ := step_sim hl hi ha h op hr.1 hr.2.1
    have hq : st.q.length ≤ N := by
      have := hN [] s [] (List.nil_prefix) rfl
      rw [size, h.sz] at this; exact this
    obtain ⟨s1', o1, m1, k1, w1, p1, p2, p3, p4⟩ := stepN_pays hl hi ha h op hr.1 hr.2.1 hq sh hw f
    obtain ⟨rfl, rfl⟩ : s1 = s1' ∧ (specStep c.order st f op).2 = o1 := by
      have := h1.symm.trans p1.1
      simpa using this
    obtain ⟨s2, outs, m2, q1, q2⟩ := runN_pays hl hi ha (N := N) ops h3 (hr.2.2 f h2 (h3.isFront hg)) p2 p3
      (fun pre s' outs hp hrun => hN (op :: pre) s' ((specStep c.order st f op).2 :: outs) (List.cons_prefix_cons.2 ⟨rfl, hp⟩) (by simp [run, h1, hrun]))
    refine ⟨s2, (specStep c.order st f op).2 :: outs, m1 + (m2 + 0), ?_, ?_⟩
    · show Ret (do
        let (s, r) ← stepN c s op
        let (s, rs) ← runN c s ops
        pure (s, r :: rs)) (do
        let (s, r) ← step c s op
        let (s, rs) ← run c s ops
        some (s, r :: rs)) _ _
      refine Ret.bind p1 ?_
      refine Ret.bind q1 ?_
      exact .pure _
    · push_cast
      rw [List.length_cons]
      push_cast
      linarith

end Pq
end CCC
