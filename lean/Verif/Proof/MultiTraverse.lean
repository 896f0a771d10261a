import Verif.Proof.Traverse
import Verif.Proof.MultiIter
/-
The cost of a traversal of the multimap: the steps through the tree as in `Proof/Traverse.lean`, those through a ring constant.
-/
namespace CCC
open Lean.Order

/-- `y` does what `x` does, with at least as much work and at most `a` times as much and `b`. -/
def Dom {α : Type} (x y : Count α) (a b : Nat) : Prop :=
  ∀ n r, x n = some r → ∃ m, Costs y m r.1 ∧ r.2 ≤ n + m ∧ m + a * n ≤ a * r.2 + b

theorem Dom.admissible {α : Type} (y : Count α) (a b : Nat) : admissible (fun x : Count α => Dom x y a b) := by
  refine admissible_pi_apply (P := fun n (g : Option (α × Nat)) => ∀ r, g = some r →
    ∃ m, Costs y m r.1 ∧ r.2 ≤ n + m ∧ m + a * n ≤ a * r.2 + b) (fun n => ?_)
  refine admissible_pi _ (fun r => ?_)
  exact Option.admissible_eq_some _ _

theorem dom_imp {α : Type} (P : Prop) (y : Count α) (a b : Nat) : admissible (fun x : Count α => P → Dom x y a b) := by
  exact admissible_pi _ (fun _ => Dom.admissible y a b)

theorem Dom.run {α : Type} {x y : Count α} {a b m : Nat} {r : α} (h : Dom x y a b) (hx : Costs x m r) :
    ∃ m', Costs y m' r ∧ m ≤ m' ∧ m' ≤ a * m + b := by
  obtain ⟨m', h1, h2, h3⟩ := h 0 _ (hx 0)
  simp only [Nat.zero_add, Nat.mul_zero, Nat.add_zero] at h2 h3
  exact ⟨m', h1, h2, h3⟩

end CCC

namespace CCC.Omm
open CCC Links Tree Wavl Splay MultiSpec Lean.Order

set_option linter.unusedSimpArgs false

variable {α κ : Type} {cmp : κ → κ → Cmp} {key : α → κ}
variable {H : Omm α} {A : List Nat} {N : Nat → Prop} {D : Nat → List Nat} {h : Links} {T : Tree}

theorem inRingA_bd (s : Omm α) (i : Nat) : Bd (inRingA s i) (inRing s i) 2 := by
  unfold inRingA inRing
  refine Bd.accBind (by omega) (fun p _ => Bd.ite (fun _ => Bd.pure _ _) (fun _ => Bd.accBind (by omega) (fun q _ => Bd.pure _ _)))

theorem hasDupsA_bd (s : Omm α) (i : Nat) : Bd (hasDupsA s i) (hasDups s i) 3 := by
  unfold hasDupsA hasDups
  exact Bd.ite (fun _ => Bd.pure _ _) (fun _ => Bd.accBind (by omega) (fun p _ => Bd.ite (fun _ => Bd.pure _ _) (fun _ => inRingA_bd _ _)))

theorem isDupHeadA_bd (s : Omm α) (i : Nat) : Bd (isDupHeadA s i) (isDupHead s i) 2 := by
  unfold isDupHeadA isDupHead
  exact Bd.ite (fun _ => Bd.pure _ _) (fun _ => inRingA_bd _ _)

theorem isDupHeadNextA_bd (s : Omm α) (i : Nat) : Bd (isDupHeadNextA s i) (isDupHeadNext s i) 2 := by
  unfold isDupHeadNextA isDupHeadNext
  exact Bd.accBind (by omega) (fun p _ => Bd.accBind (by omega) (fun q _ => Bd.pure _ _))

theorem leadsToA_bd (s : Omm α) (i j : Nat) : Bd (leadsToA s i j) (leadsTo s i j) 1 := by
  unfold leadsToA leadsTo
  exact Bd.ite (fun _ => Bd.pure _ _) (fun _ => Bd.accBind (by omega) (fun q _ => Bd.pure _ _))

theorem Rel.parentRA (w : Rel D N H h) {n : Nat} (hn : h.live n = true) :
    ∃ m, Costs (Omm.parentRA H n) m (h.par n) ∧ 1 ≤ m ∧ m ≤ 5 := by
  obtain ⟨m1, l1, c1⟩ := hasDupsA_bd H n _ (w.hasDups hn)
  have hp := w.parentR hn
  unfold Omm.parentR at hp
  rw [w.hasDups hn] at hp
  simp only [Option.bind_eq_bind, Option.bind_some] at hp
  unfold Omm.parentRA
  cases hd : (!(D n).isEmpty) with
  | true =>
    rw [hd] at c1 hp
    simp only [if_true, Option.bind_eq_some_iff] at hp
    obtain ⟨q, hp, hq⟩ := hp
    refine ⟨m1 + (1 + 1), c1.bind ?_, by omega, by omega⟩
    simp only [if_true]
    exact (Costs.acc hp).bind (Costs.acc hq)
  | false =>
    rw [hd] at c1 hp
    simp only [Bool.false_eq_true, if_false] at hp
    refine ⟨m1 + 1, c1.bind ?_, by omega, by omega⟩
    simp only [Bool.false_eq_true, if_false]
    exact Costs.acc hp

theorem runDownA_dom (w : Rel D N H h) (d : Bool) (b : Nat) (b0 : b ≠ 0) (bl : h.live b = true) :
    Dom (minMaxLoopN h b d) (runDownA H b d) 1 0 := by
  revert b
  apply minMaxLoopN.fixpoint_induct (t := h) (dir := d)
    (motive := fun f => ∀ b, b ≠ 0 → h.live b = true → Dom (f b) (runDownA H b d) 1 0)
  · exact admissible_pi_apply (P := fun b (g : Count Nat) => b ≠ 0 → h.live b = true → Dom g (runDownA H b d) 1 0) (fun b =>
      admissible_pi _ (fun _ => dom_imp _ _ _ _))
  · intro f ih b b0 bl n r hr
    have hx : Costs (h.getBrN b d) 1 (h.br b d) := Costs.acc (Links.getBr_live bl)
    simp only [] at hr
    rw [Count.bind_run, hx n, Option.bind_some] at hr
    have hy : Costs (acc (Omm.branch H b d)) 1 (h.br b d) := Costs.acc (w.branch bl)
    rw [runDownA]
    by_cases hz : h.br b d = 0
    · rw [if_pos hz] at hr
      cases hr
      refine ⟨1 + 0, hy.bind ?_, by simp, by simp; omega⟩
      rw [if_pos hz]; exact .pure _
    · rw [if_neg hz] at hr
      obtain ⟨m, c, l1, l2⟩ := ih _ hz (w.brl b d bl b0) _ _ hr
      refine ⟨1 + m, hy.bind ?_, by omega, by omega⟩
      rw [if_neg hz]; exact c

theorem climbA_dom (w : Rel D N H h) (trav : Bool) (b : Nat) (b0 : b ≠ 0) (bl : h.live b = true) :
    Dom (climbN h b trav) (climbA H b trav) 3 2 := by
  revert b
  apply climbN.fixpoint_induct (t := h) (trav := trav)
    (motive := fun f => ∀ b, b ≠ 0 → h.live b = true → Dom (f b) (climbA H b trav) 3 2)
  · exact admissible_pi_apply (P := fun b (g : Count Nat) => b ≠ 0 → h.live b = true → Dom g (climbA H b trav) 3 2) (fun b =>
      admissible_pi _ (fun _ => dom_imp _ _ _ _))
  · intro f ih b b0 bl n r hr
    have hx : Costs (h.getParN b) 1 (h.par b) := Costs.acc (Links.getPar_live bl)
    simp only [] at hr
    rw [Count.bind_run, hx n, Option.bind_some] at hr
    obtain ⟨m1, hy, l1, l2⟩ := w.parentRA bl
    rw [climbA]
    by_cases hz : h.par b = 0
    · rw [if_pos hz] at hr
      cases hr
      refine ⟨m1 + 0, hy.bind ?_, by simp; omega, by simp; omega⟩
      rw [if_pos hz]; exact .pure _
    · have pl := w.parl b bl b0
      rw [if_neg hz] at hr
      have hx : Costs (h.getBrN (h.par b) (!trav)) 1 (h.br (h.par b) (!trav)) := Costs.acc (Links.getBr_live pl)
      rw [Count.bind_run, hx _, Option.bind_some] at hr
      have hy2 : Costs (acc (Omm.getBr H (h.par b) (!trav))) 1 (some (h.br (h.par b) (!trav))) := Costs.acc (w.getBr pl)
      by_cases hb : h.br (h.par b) (!trav) = b
      · rw [if_pos hb] at hr
        cases hr
        refine ⟨m1 + (1 + 0), hy.bind ?_, by simp; omega, by simp; omega⟩
        rw [if_neg hz]
        refine hy2.bind ?_
        rw [if_pos (by rw [hb])]; exact .pure _
      · rw [if_neg hb] at hr
        obtain ⟨m, c, k1, k2⟩ := ih _ hz pl _ _ hr
        refine ⟨m1 + (1 + m), hy.bind ?_, by omega, by omega⟩
        rw [if_neg hz]
        refine hy2.bind ?_
        rw [if_neg (by simp [hb])]; exact c

/-- A step through the tree of the multimap costs at most three times the step through the bare tree. -/
theorem nextTreeA_dom (w : Rel D N H h) (trav : Bool) {n : Nat} (n0 : n ≠ 0) (nl : h.live n = true) (rl : h.live h.root = true) :
    Dom (Wavl.nextN h n trav) (nextTreeA H n trav) 3 2 := by
  intro k r hr
  rw [Wavl.nextN, if_neg n0] at hr
  have hx : Costs (h.getParN h.root) 1 (h.par h.root) := Costs.acc (Links.getPar_live rl)
  rw [Count.bind_run, hx _, Option.bind_some] at hr
  obtain ⟨m1, hy, l1, l2⟩ := w.parentRA rl
  rw [nextTreeA, if_neg n0, w.root]
  by_cases hp : h.par h.root = 0
  · have hq : Costs (liftM (req (h.par h.root == 0)) : Count Unit) 0 () := Costs.lift (by simp [req, hp])
    rw [Count.bind_run, hq _, Option.bind_some] at hr
    have hb : Costs (h.getBrN n trav) 1 (h.br n trav) := Costs.acc (Links.getBr_live nl)
    rw [Count.bind_run, hb _, Option.bind_some] at hr
    have hy2 : Costs (acc (Omm.branch H n trav)) 1 (h.br n trav) := Costs.acc (w.branch nl)
    by_cases hz : h.br n trav = 0
    · rw [if_neg (by simp [hz])] at hr
      obtain ⟨m, c, k1, k2⟩ := climbA_dom w trav n n0 nl _ _ hr
      refine ⟨m1 + (1 + m), hy.bind ?_, by omega, by omega⟩
      rw [if_neg (by simp [hp])]
      refine hy2.bind ?_
      rw [if_neg (by simp [hz])]; exact c
    · rw [if_pos hz] at hr
      obtain ⟨m, c, k1, k2⟩ := runDownA_dom w (!trav) _ hz (w.brl n trav nl n0) _ _ hr
      refine ⟨m1 + (1 + m), hy.bind ?_, by omega, ?_⟩
      · rw [if_neg (by simp [hp])]
        refine hy2.bind ?_
        rw [if_pos hz]; exact c
      · omega
  · rw [Count.bind_run] at hr
    have : (liftM (req (h.par h.root == 0)) : Count Unit) (k + 1) = none := by
      rw [Count.lift_run]; simp [req, hp]
    rw [this] at hr
    cases hr

/-- From the ring back to the tree. -/
theorem Core.nextTreeNodeA (c : Core cmp key H A N D h T) {n x : Nat} {xs : List Nat} (hn : n ∈ T.ids) (e : D n = x :: xs)
    (d : Bool) {m r : Nat} (hm : Costs (nextTreeA H n d) m r) : ∃ k, Costs (Omm.nextTreeNodeA H x d) (k + m) r ∧ k ≤ 5 := by
  have hx : x ∈ D n := by rw [e]; simp
  have nl := c.whole.tree.live n hn
  have n0 : n ≠ 0 := fun hh => c.whole.tree.ne_zero (hh ▸ hn)
  have hp := (c.rel.head n x xs nl e).2.1
  have h1 : Costs (acc (Omm.parent H x)) 1 (h.par n) := Costs.acc (by rw [parent_live (c.rel.dnl n x hx).2.1, hp])
  unfold Omm.nextTreeNodeA
  by_cases hroot : n = T.rootId
  · have : h.par n = 0 := by rw [hroot]; exact Rep.root_par c.whole.tree (hroot ▸ hn)
    refine ⟨1, h1.bind ?_, by omega⟩
    rw [if_pos this, c.root, ← hroot]; exact hm
  · obtain ⟨hmm, b, hb⟩ := Rep.par_br c.whole.tree n hn hroot
    have p0 : h.par n ≠ 0 := fun hh => c.whole.tree.ne_zero (hh ▸ hmm)
    have pl := c.whole.tree.live _ hmm
    have h2 : Costs (acc (Omm.branch H (h.par n) false)) 1 _ := Costs.acc (c.rel.branch pl)
    obtain ⟨k1, l1, c1⟩ := leadsToA_bd H _ x _ (c.rel.leadsTo (c.rel.brl _ false pl p0) nl n0 e)
    by_cases hl : h.br (h.par n) false = n
    · refine ⟨1 + (1 + k1), ?_, by omega⟩
      rw [show 1 + (1 + k1) + m = 1 + (1 + (k1 + m)) by omega]
      refine h1.bind ?_
      rw [if_neg p0]
      refine h2.bind (c1.bind ?_)
      rw [hl]; simpa using hm
    · have hr : h.br (h.par n) true = n := by cases b <;> simp_all
      have hf : (h.br (h.par n) false == n) = false := by simpa using hl
      have h3 : Costs (acc (Omm.branch H (h.par n) true)) 1 _ := Costs.acc (c.rel.branch pl)
      obtain ⟨k2, l2, c2⟩ := leadsToA_bd H _ x _ (c.rel.leadsTo nl nl n0 e)
      refine ⟨1 + (1 + (k1 + (1 + k2))), ?_, by omega⟩
      rw [show 1 + (1 + (k1 + (1 + k2))) + m = 1 + (1 + (k1 + (1 + (k2 + m)))) by omega]
      refine h1.bind ?_
      rw [if_neg p0]
      refine h2.bind (c1.bind ?_)
      rw [hf, if_neg (by simp)]
      refine h3.bind ?_
      rw [hr]
      refine c2.bind ?_
      simpa using hm

/-- The tree node an element hangs at. -/
def owner (D : Nat → List Nat) (T : Tree) (a : Nat) : Nat := (T.ids.find? (fun n => decide (a ∈ n :: D n))).getD 0

theorem Core.owner_eq (c : Core cmp key H A N D h T) {n a : Nat} (hn : n ∈ T.ids) (ha : a ∈ n :: D n) : owner D T a = n := by
  have notD : ∀ n ∈ T.ids, ∀ m, n ∉ D m := by
    intro n hn m hm
    have := (c.rel.dnl m n hm).2.2
    rw [c.whole.tree.live n hn] at this; cases this
  unfold owner
  cases hf : T.ids.find? (fun n => decide (a ∈ n :: D n)) with
  | none =>
    have := List.find?_eq_none.1 hf n hn
    simp only [decide_eq_true_eq] at this
    exact absurd ha this
  | some x =>
    have hx := List.mem_of_find?_eq_some hf
    have hxa : a ∈ x :: D x := by simpa using List.find?_some hf
    simp only [Option.getD_some]
    rcases List.mem_cons.1 hxa with rfl | h1
    · rcases List.mem_cons.1 ha with h2 | h2
      · exact h2
      · exact absurd h2 (notD _ hx _)
    · rcases List.mem_cons.1 ha with rfl | h2
      · exact absurd h1 (notD _ hn _)
      · exact c.rel.ddj _ _ _ h1 h2

/-- The potential of a pointer. -/
def mphi (trav : Bool) (D : Nat → List Nat) (T : Tree) : Slot → Int
  | none => 0
  | some a => 3 * pos trav T (owner D T a)

theorem mphi_head (c : Core cmp key H A N D h T) (d : Bool) {q : List Nat} (hq : ∀ n ∈ q, n ∈ T.ids) :
    mphi d D T (q.flatMap (fun n => n :: D n)).head? = 3 * pos d T (q.headD 0) := by
  cases q with
  | nil => simp [mphi, pos]
  | cons n q =>
    simp only [List.flatMap_cons, List.cons_append, List.head?_cons, mphi, List.headD_cons]
    rw [c.owner_eq (hq n (by simp)) (by simp)]

/-- One step costs at most thirty accesses, amortised. -/
theorem Core.nextA (c : Core cmp key H A N D h T) (hc : LawfulCmp cmp) (d : Bool) {pre post : List Nat} {a : Nat}
    (e : flat d D T = pre ++ a :: post) :
    ∃ m, Costs (Omm.nextA H a d) m post.head? ∧ (m : Int) ≤ 30 + mphi d D T (some a) - mphi d D T post.head? := by
  have tu : toUser (post.headD 0) = post.head? := by
    refine toUser_headD (fun b hb => c.ne_zero ((c.flat_mem hc d).1 (by rw [e]; simp [hb])))
  suffices hs : ∃ m, Costs (multimapNextA H a d) m (post.headD 0) ∧ (m : Int) ≤ 30 + mphi d D T (some a) - mphi d D T post.head? by
    obtain ⟨m, h1, h2⟩ := hs
    refine ⟨m, ?_, h2⟩
    rw [← tu]; exact h1.out toUser
  obtain ⟨p, n, q, u, v, e1, e2, rfl, rfl⟩ := flatMap_split e
  have hq : ∀ n ∈ q, n ∈ T.ids := by
    intro x hx
    have : x ∈ (if d then T.ids else T.ids.reverse) := by rw [e1]; simp [hx]
    cases d <;> simpa using this
  have hn : n ∈ T.ids := by
    have : n ∈ (if d then T.ids else T.ids.reverse) := by rw [e1]; simp
    cases d <;> simpa using this
  have hown : owner D T a = n := c.owner_eq hn (by rw [e2]; simp)
  have hphi : mphi d D T (some a) = 3 * pos d T n := by rw [mphi, hown]
  have nl := c.whole.tree.live n hn
  have n0 : n ≠ 0 := fun hh => c.whole.tree.ne_zero (hh ▸ hn)
  have rl : h.live h.root = true := by rw [show h.root = T.rootId from c.whole.ctx]; exact c.whole.tree.root_live c.whole.live0
  have hw : Wavl.next h n d = some (q.headD 0) := by
    cases d
    · simp only [Bool.false_eq_true, if_false] at e1
      have e1' : T.ids = q.reverse ++ n :: p.reverse := by
        have := congrArg List.reverse e1
        simpa using this
      rw [next_whole c.whole e1']
      simp
    · simp only [if_true] at e1
      rw [next_whole c.whole e1]
      simp
  obtain ⟨mt, ct, lt⟩ : ∃ m, Costs (nextTreeA H n d) m (q.headD 0) ∧ (m : Int) ≤ 20 + 3 * pos d T n - 3 * pos d T (q.headD 0) := by
    obtain ⟨m, h1, h2⟩ := nextN_le c.whole hn d _ hw
    obtain ⟨m', h3, _, h4⟩ := (nextTreeA_dom c.rel d n0 nl rl).run h1
    exact ⟨m', h3, by omega⟩
  cases u with
  | nil =>
    simp only [List.nil_append, List.cons.injEq] at e2
    obtain ⟨rfl, e2⟩ := e2
    obtain ⟨k1, l1, c1⟩ := isDupHeadA_bd H n false (by unfold isDupHead; rw [if_neg n0]; exact c.rel.notRing nl n0)
    obtain ⟨k2, l2, c2⟩ := hasDupsA_bd H n _ (c.rel.hasDups nl)
    have h1 : Costs (acc (Omm.getPar H n)) 1 (H.par n) := Costs.acc (getPar_live (c.rel.live _ nl))
    unfold Omm.multimapNextA
    cases hv : v with
    | nil =>
      rw [hv] at e2
      rw [e2, List.isEmpty_nil] at c2
      refine ⟨1 + (k1 + (k2 + mt)), h1.bind ?_, ?_⟩
      · rw [c.rel.plain n nl e2, if_neg (by simp)]
        refine c1.bind ?_
        rw [if_neg (by simp)]
        refine c2.bind ?_
        rw [if_neg (by simp), List.nil_append, head_flatMap]
        exact ct
      · rw [hphi, List.nil_append, mphi_head c d hq]
        push_cast
        omega
    | cons x xs =>
      rw [hv] at e2
      have hh := (c.rel.head n x xs nl e2).1
      rw [e2, List.isEmpty_cons] at c2
      have hx : owner D T x = n := c.owner_eq hn (by rw [e2]; simp)
      have h2 : Costs (acc (Omm.parent H n)) 1 x := Costs.acc (by rw [parent_live (c.rel.live _ nl), hh])
      refine ⟨1 + (k1 + (k2 + 1)), h1.bind ?_, ?_⟩
      · rw [hh, if_neg (by simp)]
        refine c1.bind ?_
        rw [if_neg (by simp)]
        refine c2.bind ?_
        rw [if_pos (by simp)]
        exact h2
      · rw [hphi, List.cons_append, List.head?_cons, mphi, hx]
        push_cast
        omega
  | cons n' u =>
    simp only [List.cons_append, List.cons.injEq] at e2
    obtain ⟨rfl, e2⟩ := e2
    have ha : a ∈ D n := by rw [e2]; simp
    have al := (c.rel.dnl n a ha).2.1
    have a0 := c.rel.dne ha
    obtain ⟨x, xs, ex⟩ : ∃ x xs, D n = x :: xs := by
      cases hx : D n with
      | nil => rw [hx] at ha; simp at ha
      | cons x xs => exact ⟨x, xs, rfl⟩
    obtain ⟨q1, q2, q3, q4⟩ := c.rel.head n x xs nl ex
    have hs := q4.succ (ex.symm.trans e2)
    have hxD : x ∈ D n := by rw [ex]; simp
    have xl := (c.rel.dnl n x hxD).2.1
    have hnx : isDupHeadNext H a = some v.isEmpty := by
      unfold isDupHeadNext
      rw [branch_live al, hs]
      simp only [Option.bind_eq_bind, Option.bind_some]
      cases v with
      | nil =>
        simp only [List.headD_nil]
        rw [getPar_live xl, q2]; rfl
      | cons y v =>
        simp only [List.headD_cons]
        have hy : y ∈ D n := by rw [e2]; simp
        rw [getPar_live (c.rel.dnl n y hy).2.1]
        have : y ∈ xs := by
          have h1 : x :: xs = (u ++ [a]) ++ y :: v := by rw [← ex, e2]; simp
          cases u with
          | nil => simp at h1; rw [h1.2]; simp
          | cons z u => simp at h1; rw [h1.2]; simp
        rw [q3 y this]; rfl
    obtain ⟨k1, l1, c1⟩ := isDupHeadNextA_bd H a _ hnx
    have hbr : Costs (acc (Omm.branch H a true)) 1 (v.headD x) := Costs.acc (by rw [branch_live al, hs])
    have h1 : Costs (acc (Omm.getPar H a)) 1 (H.par a) := Costs.acc (getPar_live al)
    obtain ⟨kt, cn, lk⟩ := c.nextTreeNodeA hn ex d ct
    have stay : ∀ y w, v = y :: w → mphi d D T (v ++ q.flatMap (fun n => n :: D n)).head? = 3 * pos d T n := by
      intro y w hv
      rw [hv, List.cons_append, List.head?_cons, mphi, c.owner_eq hn (by rw [e2, hv]; simp)]
    unfold Omm.multimapNextA
    cases u with
    | nil =>
      have : a = x := by rw [ex] at e2; simp at e2; exact e2.1.symm
      subst this
      obtain ⟨k2, l2, c2⟩ := isDupHeadA_bd H a true (by unfold isDupHead; rw [if_neg a0]; exact c.rel.inRing nl ex)
      cases v with
      | nil =>
        refine ⟨1 + (k2 + (k1 + (kt + mt))), h1.bind ?_, ?_⟩
        · rw [q2, if_neg (by simp)]
          refine c2.bind ?_
          rw [if_pos rfl]
          refine c1.bind ?_
          rw [List.isEmpty_nil, if_pos rfl, List.nil_append, head_flatMap]
          exact cn
        · rw [hphi, List.nil_append, mphi_head c d hq]
          push_cast
          omega
      | cons y v =>
        refine ⟨1 + (k2 + (k1 + 1)), h1.bind ?_, ?_⟩
        · rw [q2, if_neg (by simp)]
          refine c2.bind ?_
          rw [if_pos rfl]
          refine c1.bind ?_
          rw [List.isEmpty_cons, if_neg (by simp)]
          exact hbr
        · rw [hphi, stay y v rfl]
          push_cast
          omega
    | cons z u =>
      have hax : a ∈ xs := by
        rw [ex] at e2; simp at e2; rw [e2.2]; simp
      cases v with
      | nil =>
        refine ⟨1 + (k1 + (1 + (kt + mt))), h1.bind ?_, ?_⟩
        · rw [q3 a hax, if_pos rfl]
          refine c1.bind ?_
          rw [List.isEmpty_nil, if_pos rfl, List.nil_append, head_flatMap]
          exact hbr.bind cn
        · rw [hphi, List.nil_append, mphi_head c d hq]
          push_cast
          omega
      | cons y v =>
        refine ⟨1 + (k1 + 1), h1.bind ?_, ?_⟩
        · rw [q3 a hax, if_pos rfl]
          refine c1.bind ?_
          rw [List.isEmpty_cons, if_neg (by simp)]
          exact hbr
        · rw [hphi, stay y v rfl]
          push_cast
          omega

/-- A loop over elements of the multimap. -/
theorem Core.walk_le (c : Core cmp key H A N D h T) (hc : LawfulCmp cmp) (d : Bool) {stop p : Slot} {L : List Nat}
    (hi : iterate (fun a => Omm.next H a d) stop p = some L) (hp : ∀ a, p = some a → a ∈ A) :
    ∃ m, Costs (iterateN (fun a => Omm.nextA H a d) stop p) m L ∧
      (m : Int) ≤ 30 * L.length + mphi d D T p - mphi d D T stop := by
  refine iterateN_le (c := 30) (V := fun q => ∀ a, q = some a → a ∈ A) (φ := mphi d D T) (fun a ha q hq => ?_) hi hp
  obtain ⟨pre, post, e⟩ := List.append_of_mem ((c.flat_mem hc d).2 (ha a rfl))
  rw [c.next hc d e] at hq
  cases hq
  refine ⟨?_, c.nextA hc d e⟩
  intro b hb
  rw [← c.flat_mem hc d, e]
  have := List.mem_of_mem_head? (by rw [hb]; rfl : b ∈ post.head?)
  simp [this]

/-- A whole loop over the multimap. -/
theorem Core.tour_le (c : Core cmp key H A N D h T) (hc : LawfulCmp cmp) (hsz : H.sz = A.length) (d : Bool) :
    ∃ m, Costs (do let p ← beginA H (!d); iterateN (fun a => Omm.nextA H a d) none p) m (flat d D T) ∧
      m ≤ 30 * (flat d D T).length := by
  by_cases hne : T = nil
  · refine ⟨0 + 0, ?_, by simp⟩
    rw [beginA, if_pos ((c.sz_zero hsz).2 hne), hne, flat_nil]
    refine (Costs.pure none).bind ?_
    rw [iterateN.eq_def, if_pos rfl]; exact .pure _
  · have hroot : h.root = T.rootId := c.whole.ctx
    obtain ⟨m1, c1, b1⟩ := first_le c.whole hne d
    have r0 : h.root ≠ 0 := by
      rw [hroot]
      exact fun hh => hne ((rootId_ne c.whole.tree).1 hh)
    obtain ⟨m2, c2, _, b2⟩ := (runDownA_dom c.rel (!d) h.root r0
      (by rw [hroot]; exact c.whole.tree.root_live c.whole.live0)).run c1
    have hh := flat_head (D := D) d hne
    have hi : iterate (fun a => Omm.next H a d) none (some (endOf (!d) T.ids)) = some (flat d D T) := by
      have := iterate_spec (c.flat_nodup d) (fun pre a post e => c.next hc d e) (pre := []) (m := flat d D T) (post := []) (by simp)
      simpa [hh] using this
    have hm : endOf (!d) T.ids ∈ T.ids := by
      rcases within_end T (!d) _ rfl with h0 | h0
      · exfalso
        obtain ⟨x, hx⟩ := minMaxLoopN_cost (!d) c.whole.tree hne
        obtain ⟨y, k, X, e1, e2, e3⟩ := hx
        have h2 := (minMaxLoopN_er h T.rootId (!d)).eq e3
        rw [minMaxLoop_ids c.whole.tree hne, h0] at h2
        cases h2
        have : (0 : Nat) ∈ T.ids := by rw [e1, plug_ids]; cases d <;> simp [nd, ids]
        exact c.whole.tree.ne_zero this
      · exact h0
    obtain ⟨m3, c3, b3⟩ := c.walk_le hc d hi (by intro a ha; cases ha; exact c.memT hm)
    refine ⟨m2 + m3, ?_, ?_⟩
    · rw [beginA, if_neg (fun hh => hne ((c.sz_zero hsz).1 hh)), c.rel.root]
      exact (c2.out some).bind c3
    · simp only [mphi] at b3
      rw [c.owner_eq hm (by simp)] at b3
      omega

end CCC.Omm
