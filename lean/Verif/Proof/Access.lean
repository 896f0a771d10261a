import Verif.Proof.Bounds
import Verif.Model.WavlCost
import Verif.Proof.WavlErase
import Verif.Proof.WavlBalance
import Verif.Proof.WavlFind
/-
The functions of the weak AVL trees, with their accesses bounded.
-/
namespace CCC

namespace Wavl
open Links Tree

theorem relink_bd (t : Links) (p o n : Nat) : Bd (t.relinkN p o n) (t.relink p o n) 2 := by
  unfold relinkN relink getBrN setBrN
  repeat' bd1
theorem is2child_bd (t : Links) (p x : Nat) : Bd (is2childN t p x) (is2child t p x) 2 := by
  unfold is2childN is2child getParityN
  repeat' bd1
theorem is1child_bd (t : Links) (p x : Nat) : Bd (is1childN t p x) (is1child t p x) 2 := by
  unfold is1childN is1child getParityN
  repeat' bd1
theorem is01parent_bd (t : Links) (x p y : Nat) : Bd (is01parentN t x p y) (is01parent t x p y) 3 := by
  unfold is01parentN is01parent getParityN
  repeat' bd1
theorem is11parent_bd (t : Links) (x p y : Nat) : Bd (is11parentN t x p y) (is11parent t x p y) 3 := by
  unfold is11parentN is11parent getParityN
  repeat' bd1
theorem is22parent_bd (t : Links) (x p y : Nat) : Bd (is22parentN t x p y) (is22parent t x p y) 3 := by
  unfold is22parentN is22parent getParityN
  repeat' bd1
theorem promote_bd (t : Links) (x : Nat) : Bd (promoteN t x) (promote t x) 2 := by
  unfold promoteN promote getParityN setParityN
  repeat' bd1
theorem isLeaf_bd (t : Links) (x : Nat) : Bd (isLeafN t x) (isLeaf t x) 2 := by
  unfold isLeafN isLeaf getBrN
  repeat' bd1
theorem siblingOf_bd (t : Links) (x : Nat) : Bd (siblingOfN t x) (siblingOf t x) 3 := by
  unfold siblingOfN siblingOf getBrN getParN
  repeat' bd1

macro "bd2" : tactic => `(tactic| first
  | bd1
  | exact (promote_bd _ _).mono (by omega)
  | (refine Bd.bind (relink_bd _ _ _ _) (by omega) ?_; intro _ _)
  | (refine Bd.bind (is2child_bd _ _ _) (by omega) ?_; intro _ _)
  | (refine Bd.bind (is1child_bd _ _ _) (by omega) ?_; intro _ _)
  | (refine Bd.bind (is01parent_bd _ _ _ _) (by omega) ?_; intro _ _)
  | (refine Bd.bind (is11parent_bd _ _ _ _) (by omega) ?_; intro _ _)
  | (refine Bd.bind (is22parent_bd _ _ _ _) (by omega) ?_; intro _ _)
  | (refine Bd.bind (promote_bd _ _) (by omega) ?_; intro _ _)
  | (refine Bd.bind (isLeaf_bd _ _) (by omega) ?_; intro _ _)
  | (refine Bd.bind (siblingOf_bd _ _) (by omega) ?_; intro _ _))

theorem rotate_bd (t : Links) (z x y : Nat) (d : Bool) : Bd (rotateN t z x y d) (rotate t z x y d) 8 := by
  unfold rotateN rotate getParN setParN setBrN
  repeat' bd2
theorem doubleRotate_bd (t : Links) (z x y : Nat) (d : Bool) :
    Bd (doubleRotateN t z x y d) (doubleRotate t z x y d) 14 := by
  unfold doubleRotateN doubleRotate getParN setParN setBrN getBrN
  repeat' bd2
theorem transplant_bd (t : Links) (rm rep : Nat) : Bd (transplantN t rm rep) (transplant t rm rep) 15 := by
  unfold transplantN transplant getParN setParN setBrN getBrN getParityN setParityN
  repeat' bd2
theorem initNode_bd (t : Links) (e : Nat) : Bd (initNodeN t e) (initNode t e) 4 := by
  unfold initNodeN initNode setParN setBrN setParityN
  repeat' bd2

theorem insertTail_bd (t : Links) (z x : Nat) : Bd (insertTailN t z x) (insertTail t z x) 34 := by
  unfold insertTailN insertTail getBrN
  repeat' first
    | bd2
    | (refine Bd.bind (rotate_bd _ _ _ _ _) (by omega) ?_; intro _ _)
    | (refine Bd.bind (doubleRotate_bd _ _ _ _ _) (by omega) ?_; intro _ _)
    | (refine Bd.bind (k := 2) (Bd.ite (fun _ => Bd.pure _ _) (fun _ => is2child_bd _ _ _)) (by omega) ?_; intro _ _)

theorem rebalanceRotate_bd (t : Links) (z x y : Nat) :
    Bd (rebalanceRotateN t z x y) (rebalanceRotate t z x y) 48 := by
  unfold rebalanceRotateN rebalanceRotate getBrN
  repeat' first
    | bd2
    | (refine Bd.bind (rotate_bd _ _ _ _ _) (by omega) ?_; intro _ _)
    | (refine Bd.bind (doubleRotate_bd _ _ _ _ _) (by omega) ?_; intro _ _)
    | (refine Bd.bind (k := 3) (Bd.ite (fun _ => is11parent_bd _ _ _ _) (fun _ => Bd.pure _ _)) (by omega) ?_; intro _ _)

/-- Parent links lead from `a` to the sentinel in at most `n` steps. -/
def Within (par : Nat → Nat) : Nat → Nat → Prop
  | 0, a => a = 0
  | n + 1, a => a = 0 ∨ Within par n (par a)

theorem promote_par {t t' : Links} {x : Nat} (h : promote t x = some t') : t'.par = t.par := by
  unfold promote at h
  split at h
  · simp only [getParity, setParity] at h
    split at h
    · simp at h; rw [← h]
    · simp at h
  · cases h; rfl

theorem getPar_eq {t : Links} {a p : Nat} (h : t.getPar a = some p) : t.par a = p := by
  unfold getPar at h
  split at h
  · cases h; rfl
  · cases h

theorem getBr_eq {t : Links} {a b : Nat} {d : Bool} (h : t.getBr a d = some b) : t.br a d = b := by
  unfold getBr at h
  split at h
  · exact Option.some.inj h
  · cases h

theorem insertFixup_bd (n : Nat) : ∀ (t : Links) (z : Nat), Within t.par n z → z ≠ 0 →
    Bd (insertFixupN t z) (insertFixup t z) (9 * n + 34) := by
  induction n with
  | zero => intro t z h hz; exact absurd h hz
  | succ n ih =>
    intro t z h hz
    rw [insertFixupN, insertFixup]
    refine Bd.bind (promote_bd _ _) (by omega) ?_
    intro t' ht
    unfold getParN
    refine Bd.accBind (by omega) ?_
    intro p hp
    refine Bd.ite (fun _ => Bd.pure _ _) (fun hp0 => ?_)
    refine Bd.bind (siblingOf_bd _ _) (by omega) ?_
    intro s _
    refine Bd.bind (is01parent_bd _ _ _ _) (by omega) ?_
    intro zo _
    refine Bd.ite (fun _ => ?_) (fun _ => ?_)
    · refine (ih t' p ?_ hp0).mono (by omega)
      rw [promote_par ht]
      have := h.resolve_left hz
      rwa [← getPar_eq hp, promote_par ht]
    · exact (insertTail_bd _ _ _).mono (by omega)

theorem rebalance3child_bd (n : Nat) : ∀ (t : Links) (z x : Nat), Within t.par n z →
    Bd (rebalance3childN t z x) (rebalance3child t z x) (16 * n + 60) := by
  induction n with
  | zero =>
    intro t z x h
    rw [rebalance3childN, rebalance3child, show z = 0 from h]
    intro r hr
    simp [req] at hr
  | succ n ih =>
    intro t z x h
    rw [rebalance3childN, rebalance3child]
    refine Bd.liftBind ?_
    intro _ hz
    have hz : z ≠ 0 := by rintro rfl; simp [req] at hz
    unfold getParN getBrN
    refine Bd.accBind (by omega) ?_
    intro pp hp
    refine Bd.accBind (by omega) ?_
    intro l _
    refine Bd.accBind (by omega) ?_
    intro y _
    refine Bd.bind (is2child_bd _ _ _) (by omega) ?_
    intro made _
    refine Bd.bind (is2child_bd _ _ _) (by omega) ?_
    intro two _
    have hw : ∀ t' : Links, t'.par = t.par → Within t'.par n pp := by
      intro t' e
      rw [e, ← getPar_eq hp]
      exact h.resolve_left hz
    refine Bd.ite (fun _ => ?_) (fun _ => ?_)
    · refine Bd.bind (promote_bd _ _) (by omega) ?_
      intro t' ht
      refine Bd.ite (fun _ => ?_) (fun _ => Bd.pure _ _)
      exact (ih t' pp z (hw t' (promote_par ht))).mono (by omega)
    · refine Bd.accBind (by omega) ?_
      intro yl _
      refine Bd.accBind (by omega) ?_
      intro yr _
      refine Bd.bind (is22parent_bd _ _ _ _) (by omega) ?_
      intro tt _
      refine Bd.ite (fun _ => ?_) (fun _ => ?_)
      · refine Bd.bind (promote_bd _ _) (by omega) ?_
        intro t' ht
        refine Bd.bind (promote_bd _ _) (by omega) ?_
        intro t2 ht2
        refine Bd.ite (fun _ => ?_) (fun _ => Bd.pure _ _)
        exact (ih t2 pp z (hw t2 ((promote_par ht2).trans (promote_par ht)))).mono (by omega)
      · exact (rebalanceRotate_bd _ _ _ _).mono (by omega)

/-! ### Walking down -/

theorem minMaxLoop_bd {t : Links} (d : Bool) {T : Tree} : ∀ {p : Nat}, Rep t p T → Valid T → T ≠ nil →
    Bd (minMaxLoopN t T.rootId d) (minMaxLoop t T.rootId d) T.rk := by
  induction T with
  | nil => intro p _ _ h; exact absurd rfl h
  | node i k l r il ir =>
    intro p hr hv _
    obtain ⟨h1, h2, _, vl, vr⟩ := hv
    obtain ⟨i0, _, b0, b1, _, rl, rr⟩ := hr
    rw [node_rootId, minMaxLoopN, minMaxLoop]
    unfold getBrN
    rw [node_rk]
    refine Bd.accBind (by omega) ?_
    intro b hb
    have hb := getBr_eq hb
    refine Bd.ite (fun _ => Bd.pure _ _) (fun hb0 => ?_)
    cases d with
    | false =>
      rw [b0] at hb
      subst hb
      exact (il rl vl (by rintro rfl; exact hb0 rfl)).mono (by omega)
    | true =>
      rw [b1] at hb
      subst hb
      exact (ir rr vr (by rintro rfl; exact hb0 rfl)).mono (by omega)

theorem minMaxFrom_bd {t : Links} (d : Bool) {T : Tree} {p : Nat} (hr : Rep t p T) (hv : Valid T) :
    Bd (minMaxFromN t T.rootId d) (minMaxFrom t T.rootId d) T.rk := by
  unfold minMaxFromN minMaxFrom
  refine Bd.ite (fun _ => Bd.pure _ _) (fun h0 => ?_)
  exact minMaxLoop_bd d hr hv (by rintro rfl; exact h0 rfl)

theorem findLoop_bd {t : Links} {c : Nat → Cmp} {T : Tree} : ∀ {p : Nat} (q : Nat) (last : Cmp), Rep t p T → Valid T →
    Bd (findLoopN t c q T.rootId last) (findLoop t c q T.rootId last) (2 * T.rk) := by
  induction T with
  | nil =>
    intro p q last _ _
    rw [nil_rootId, findLoopN, findLoop]
    exact Bd.pure _ _
  | node i k l r il ir =>
    intro p q last hr hv
    obtain ⟨h1, h2, _, vl, vr⟩ := hv
    obtain ⟨i0, li, b0, b1, _, rl, rr⟩ := hr
    rw [node_rootId, findLoopN, findLoop, if_neg i0, if_neg i0, node_rk, li]
    simp only [Bool.not_true, Bool.false_eq_true, if_false]
    intro res hres
    have : Bd (do
        let last ← (acc (some (c i)) : Count Cmp)
        if last = .eql then pure (last, i)
        else do
          let nxt ← t.getBrN i (decide (last = .grt))
          findLoopN t c i nxt last) (do
        let last ← some (c i)
        if last = .eql then some (last, i)
        else do
          let nxt ← t.getBr i (decide (last = .grt))
          findLoop t c i nxt last) (2 * k) := by
      refine Bd.accBind (by omega) ?_
      intro a _
      refine Bd.ite (fun _ => Bd.pure _ _) (fun _ => ?_)
      unfold getBrN
      refine Bd.accBind (by omega) ?_
      intro b hb
      unfold getBr at hb
      rw [li, if_pos rfl] at hb
      cases hb
      cases decide (a = .grt) with
      | false => rw [b0]; exact (il i a rl vl).mono (by omega)
      | true => rw [b1]; exact (ir i a rr vr).mono (by omega)
    exact this res hres

theorem find_bd {t : Links} {c : Nat → Cmp} {T : Tree} (hr : Rep t 0 T) (hroot : t.root = T.rootId) (hv : Valid T) :
    Bd (findN t c) (find t c) (2 * T.rk) := by
  unfold findN find
  rw [hroot]
  exact findLoop_bd 0 .err hr hv

/-! ### Walking up -/

theorem climb_bd (n : Nat) : ∀ (t : Links) (a : Nat) (d : Bool), Within t.par n a → a ≠ 0 →
    Bd (climbN t a d) (climb t a d) (2 * n) := by
  induction n with
  | zero => intro t a d h ha; exact absurd h ha
  | succ n ih =>
    intro t a d h ha
    rw [climbN, climb]
    unfold getParN getBrN
    refine Bd.accBind (by omega) ?_
    intro p hp
    refine Bd.ite (fun _ => Bd.pure _ _) (fun hp0 => ?_)
    refine Bd.accBind (by omega) ?_
    intro b _
    refine Bd.ite (fun _ => Bd.pure _ _) (fun _ => ?_)
    refine (ih t p d ?_ hp0).mono (by omega)
    rw [← getPar_eq hp]
    exact h.resolve_left ha

theorem Within.mono {par : Nat → Nat} : ∀ {n m a : Nat}, Within par n a → n ≤ m → Within par m a := by
  intro n
  induction n with
  | zero =>
    intro m a h _
    cases m with
    | zero => exact h
    | succ m => exact Or.inl h
  | succ n ih =>
    intro m a h hm
    cases m with
    | zero => omega
    | succ m => exact h.imp id (fun h => ih h (by omega))

theorem RepC.within {t : Links} {par : Nat → Nat} {c : Ctx} : ∀ {x : Nat}, RepC t c x → (∀ a ∈ cids c, par a = t.par a) →
    Within par c.length (pid c) := by
  induction c with
  | nil => intro x _ _; rfl
  | cons f c ih =>
    intro x h hp
    obtain ⟨_, _, _, _, hq, _, h⟩ := h
    refine Or.inr ?_
    rw [pid_cons, hp f.id (by simp), hq]
    exact ih h (fun a ha => hp a (by simp [ha]))

theorem plug_rk {c : Ctx} : ∀ {T : Tree}, Valid (plug c T) → c.length + T.rk ≤ (plug c T).rk := by
  induction c with
  | nil => intro T _; simp
  | cons f c ih =>
    intro T h
    have h1 := ih h
    have h2 := ((Valid_plug c _).1 h).2
    rw [Frame.fill, Valid_nd] at h2
    rw [plug_cons]
    simp only [Frame.fill, nd_rk] at h1 ⊢
    simp only [List.length_cons]
    omega

/-- Every element of a valid tree is within the rank of the root of the sentinel. -/
theorem within_of_mem {t : Links} {par : Nat → Nat} {T : Tree} (w : Whole t [] T) (hv : Valid T) {a : Nat} (ha : a ∈ T.ids)
    (hp : ∀ a ∈ T.ids, par a = t.par a) : Within par T.rk a := by
  obtain ⟨c, k, l, r, rfl⟩ := mem_split ha
  have hw : Whole t c (node a k l r) := by
    have : ∀ (c : Ctx) (T : Tree), Whole t [] (plug c T) → Whole t c T := by
      intro c
      induction c with
      | nil => intro T h; exact h
      | cons f c ih => intro T h; exact Whole.up.2 (ih _ h)
    exact this c _ w
  have h1 := plug_rk hv
  have h2 := ((Valid_plug c _).1 hv).2
  have hk : 1 ≤ k := by obtain ⟨h, _⟩ := h2; omega
  rw [node_rk] at h1
  have : Within par (c.length + 1) a := by
    refine Or.inr ?_
    rw [hp a ha, hw.tree.2.2.2.2.1]
    exact RepC.within hw.ctx (fun b hb => hp b ((plug_ids_perm c _).mem_iff.2 (by simp [hb])))
  exact this.mono (by omega)

theorem next_bd {t : Links} {T : Tree} (w : Whole t [] T) (hv : Valid T) {a : Nat} (ha : a = 0 ∨ a ∈ T.ids) (d : Bool) :
    Bd (nextN t a d) (next t a d) (2 * T.rk + 2) := by
  unfold nextN next
  refine Bd.ite (fun _ => Bd.pure _ _) (fun h0 => ?_)
  have ha := ha.resolve_left h0
  unfold getParN getBrN
  refine Bd.accBind (by omega) ?_
  intro rp _
  refine Bd.liftBind ?_
  intro _ _
  refine Bd.accBind (by omega) ?_
  intro b hb
  refine Bd.ite (fun hb0 => ?_) (fun _ => ?_)
  · obtain ⟨c, k, l, r, e⟩ := mem_split ha
    subst e
    have hv' := (Valid_plug c _).1 hv
    have h1 := plug_rk hv
    obtain ⟨g1, g2, _, vl, vr⟩ := hv'.2
    have hr : ∃ p, Rep t p (node a k l r) := by
      have := (Rep_plug c (node a k l r)).1 ⟨by simpa using w.tree, w.ctx⟩
      exact ⟨_, this.2⟩
    obtain ⟨p, _, li, b0, b1, _, rl, rr⟩ := hr
    rw [node_rk] at h1
    unfold getBr at hb
    rw [li, if_pos rfl] at hb
    cases hb
    cases d with
    | false =>
      rw [b0] at hb0 ⊢
      exact (minMaxLoop_bd _ rl vl (by rintro rfl; exact hb0 rfl)).mono (by omega)
    | true =>
      rw [b1] at hb0 ⊢
      exact (minMaxLoop_bd _ rr vr (by rintro rfl; exact hb0 rfl)).mono (by omega)
  · exact (climb_bd T.rk t a d (within_of_mem w hv ha (fun _ _ => rfl)) h0).mono (by omega)

theorem equalRange_bd {t : Links} {T : Tree} (w : Whole t [] T) (hv : Valid T) (cb ce : Nat → Cmp)
    (hb : ∀ q, find t cb = some q → q.2 = 0 ∨ q.2 ∈ T.ids) (he : ∀ q, find t ce = some q → q.2 = 0 ∨ q.2 ∈ T.ids) (d : Bool) :
    Bd (equalRangeN t cb ce d) (equalRange t cb ce d) (8 * T.rk + 4) := by
  have fb := fun c => find_bd (c := c) (by simpa using w.tree) w.ctx hv
  unfold equalRangeN equalRange
  refine Bd.bind (fb _) (by omega) ?_
  intro q hq
  refine Bd.bind (k := 2 * T.rk + 2) (Bd.ite (fun _ => next_bd w hv (hb q hq) _) (fun _ => Bd.pure _ _)) (by omega) ?_
  intro b _
  refine Bd.bind (fb _) (by omega) ?_
  intro q hq
  refine Bd.bind (k := 2 * T.rk + 2) (Bd.ite (fun _ => next_bd w hv (he q hq) _) (fun _ => Bd.pure _ _)) (by omega) ?_
  intro e _
  exact Bd.pure _ _

theorem insertBelow_bd {t t0 : Links} {T : Tree} (w : Whole t0 [] T) (hv : Valid T) {p e : Nat} (hp : p ∈ T.ids)
    (he : e ∉ T.ids) (hpar : ∀ a ∈ T.ids, t.par a = t0.par a) (last : Cmp) :
    Bd (insertBelowN t p last e) (insertBelow t p last e) (9 * T.rk + 38) := by
  unfold insertBelowN insertBelow getBrN setBrN setParN
  refine Bd.liftBind ?_
  intro _ _
  refine Bd.accBind (by omega) ?_
  intro l _
  refine Bd.accBind (by omega) ?_
  intro r _
  refine Bd.accBind (by omega) ?_
  intro t1 h1
  refine Bd.accBind (by omega) ?_
  intro t2 h2
  refine Bd.ite (fun _ => ?_) (fun _ => Bd.pure _ _)
  have p0 : p ≠ 0 := by rintro rfl; exact w.tree.ne_zero hp
  refine (insertFixup_bd T.rk t2 p (within_of_mem w hv hp ?_) p0).mono (by omega)
  intro a ha
  have e1 : t1.par = t.par := by
    unfold setBr at h1
    split at h1
    · rw [← Option.some.inj h1]
    · cases h1
  have e2 : t2.par = upd t1.par e p := by
    unfold setPar at h2
    split at h2
    · rw [← Option.some.inj h2]
    · cases h2
  have hae : a ≠ e := fun hh => he (hh ▸ ha)
  rw [e2, upd_ne _ _ hae, e1]
  exact hpar a ha

theorem removeRebalance_bd {t : Links} {p x n : Nat} {two : Bool} (hw : Within t.par n p) :
    Bd (removeRebalanceN t p x two) (removeRebalance t p x two) (16 * n + 71) := by
  unfold removeRebalanceN removeRebalance getBrN getParN getParityN
  refine Bd.ite (fun hp => ?_) (fun _ => Bd.pure _ _)
  have fin : ∀ t' : Links, Bd (do
      let leaf ← isLeafN t' p
      let b ← acc (t'.getParity p)
      req (!leaf || !b)
      pure t' : Count Links) (do
      let leaf ← isLeaf t' p
      let b ← t'.getParity p
      req (!leaf || !b)
      some t') 3 := by
    intro t'
    repeat' bd2
  refine Bd.bind (k := 16 * n + 68) (Bd.ite (fun _ => ?_) (fun _ => ?_)) (by omega) (fun t' _ => (fin t').mono (by omega))
  · exact (rebalance3child_bd n t p x hw).mono (by omega)
  · refine Bd.accBind (by omega) ?_
    intro l _
    refine Bd.accBind (by omega) ?_
    intro r _
    refine Bd.ite (fun _ => ?_) (fun _ => Bd.pure _ _)
    refine Bd.accBind (by omega) ?_
    intro pp _
    refine Bd.bind (is2child_bd _ _ _) (by omega) ?_
    intro three _
    refine Bd.bind (promote_bd _ _) (by omega) ?_
    intro t' ht
    refine Bd.ite (fun _ => ?_) (fun _ => Bd.pure _ _)
    refine Bd.accBind (by omega) ?_
    intro q hq
    have hq' : Within t'.par n q := by
      rw [promote_par ht, ← getPar_eq hq, promote_par ht]
      cases n with
      | zero => exact absurd hw hp
      | succ n => exact (hw.resolve_left hp).mono (by omega)
    exact (rebalance3child_bd n t' q p hq').mono (by omega)

theorem removeUnlink_bd {t : Links} {c : Ctx} {rm k : Nat} {L R : Tree} (w : Wv t c (node rm k L R))
    (v : Valid (plug c (node rm k L R))) :
    Bd (removeUnlinkN t rm) (removeUnlink t rm) ((plug c (node rm k L R)).rk + 25) := by
  obtain ⟨vc, vn⟩ := (Valid_plug c _).1 v
  have hk := plug_rk v
  rw [node_rk] at hk
  obtain ⟨k1, k2, k3, vL, vR⟩ := vn
  obtain ⟨rm0, rml, b0, b1, rp, repL, repR⟩ := w.whole.tree
  unfold removeUnlinkN removeUnlink getBrN getParN setParN setBrN
  refine Bd.accBind (by omega) ?_
  intro l _
  refine Bd.accBind (by omega) ?_
  intro r hr
  refine Bd.ite (fun _ => ?_) (fun _ => ?_)
  · repeat' bd2
  · have hr := getBr_eq hr
    rw [b1] at hr
    subst hr
    refine Bd.bind (minMaxFrom_bd _ repR vR) (by omega) ?_
    intro y _
    repeat' first
      | bd2
      | (refine Bd.bind (transplant_bd _ _ _) (by omega) ?_; intro _ _)

theorem removeLinks_bd {t : Links} {T : Tree} (w : Wv t [] T) (v : Valid T) {rm : Nat} (hm : rm ∈ T.ids) :
    Bd (removeLinksN t rm) (removeLinks t rm) (17 * T.rk + 96) := by
  obtain ⟨c, k, L, R, rfl⟩ := mem_split hm
  have w' := Wv.plug.2 w
  obtain ⟨h', C, X, run, wX, vX, vC, _, _, c', T', e, hlen⟩ := removeUnlink_spec w' v
  unfold removeLinksN removeLinks
  refine Bd.bind (removeUnlink_bd w' v) (by omega) ?_
  intro a ha
  rw [run] at ha
  cases ha
  have hc : C.length ≤ (plug c (node rm k L R)).rk := by
    rw [e] at v ⊢
    have := plug_rk v
    omega
  exact (removeRebalance_bd ((RepC.within wX.whole.ctx (fun _ _ => rfl)).mono hc)).mono (by omega)

end Wavl
end CCC
