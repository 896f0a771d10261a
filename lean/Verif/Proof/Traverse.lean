import Verif.Model.Traverse
import Verif.Spec.Iter
import Verif.Proof.Bounds
import Verif.Proof.WavlFind
import Verif.Proof.Access
/-
The cost of steps of an iteration, amortised: the links a step follows are two, less the change of (elements above that come
earlier) - (elements above that come later).
-/
namespace CCC

/-- A loop whose steps are paid for by a potential. -/
theorem iterateN_le {nx : Nat → Option Slot} {nxN : Nat → Count Slot} {φ : Slot → Int} {c : Nat} {stop : Slot} {V : Slot → Prop}
    (h : ∀ a, V (some a) → ∀ q, nx a = some q → V q ∧ ∃ m, Costs (nxN a) m q ∧ (m : Int) ≤ c + φ (some a) - φ q) : ∀ {L : List Nat} {p : Slot},
    iterate nx stop p = some L → V p →
    ∃ m, Costs (iterateN nxN stop p) m L ∧ (m : Int) ≤ c * L.length + φ p - φ stop := by
  intro L
  induction L with
  | nil =>
    intro p hp _
    rw [iterate.eq_def] at hp
    by_cases e : p = stop
    · refine ⟨0, ?_, by simp [e]⟩
      rw [iterateN.eq_def, if_pos e]; exact .pure _
    · rw [if_neg e] at hp
      cases p with
      | none => simp at hp
      | some a =>
        simp only [Option.bind_eq_bind] at hp
        cases h1 : nx a with
        | none => simp [h1] at hp
        | some q =>
          cases h2 : iterate nx stop q with
          | none => simp [h1, h2] at hp
          | some r => simp [h1, h2] at hp
  | cons a L ih =>
    intro p hp hP
    rw [iterate.eq_def] at hp
    by_cases e : p = stop
    · simp [e] at hp
    · rw [if_neg e] at hp
      cases p with
      | none => simp at hp
      | some b =>
        simp only [Option.bind_eq_bind] at hp
        cases h1 : nx b with
        | none => simp [h1] at hp
        | some q =>
          cases h2 : iterate nx stop q with
          | none => simp [h1, h2] at hp
          | some r =>
            simp only [h1, h2, Option.bind_some, Option.some.injEq, List.cons.injEq] at hp
            obtain ⟨rfl, rfl⟩ := hp
            obtain ⟨v, m1, c1, l1⟩ := h b hP q h1
            obtain ⟨m2, c2, l2⟩ := ih h2 v
            refine ⟨m1 + m2, ?_, ?_⟩
            · rw [iterateN.eq_def, if_neg e]
              exact c1.bind (c2.out (b :: ·))
            · rw [List.length_cons, Int.natCast_add m1, show ((r.length + 1 : Nat) : Int) = (r.length : Int) + 1 from rfl, Int.mul_add]
              omega

namespace Wavl
open CCC Links Tree Lean.Order

/-- (Elements above the hole that come earlier) - (elements above that come later). -/
def psiC (trav : Bool) : Ctx → Int
  | [] => 0
  | f :: c => psiC trav c + (if f.dir = trav then 1 else -1)

/-- The same for an element of a tree, the end of the iteration standing above the whole tree. -/
def psi (trav : Bool) : Tree → Nat → Int
  | nil, _ => 0
  | node i _ l r, a => if a = i then -1
      else if a ∈ l.ids then psi trav l a + (if trav then -1 else 1)
      else psi trav r a + (if trav then 1 else -1)

theorem psi_fill {trav : Bool} {f : Frame} {t : Tree} {a : Nat} (ha : a ∈ t.ids) (hn : (f.fill t).ids.Nodup) :
    psi trav (f.fill t) a = psi trav t a + (if f.dir = trav then 1 else -1) := by
  obtain ⟨d, i, k, sib⟩ := f
  cases d with
  | false =>
    simp only [Frame.fill, nd_false, ids] at hn ⊢
    have h1 : a ≠ i := by
      rintro rfl
      exact (List.nodup_append.1 hn).2.2 a ha a (by simp) rfl
    simp only [psi, if_neg h1, if_pos ha]
    cases trav <;> rfl
  | true =>
    simp only [Frame.fill, nd_true, ids] at hn ⊢
    have h0 := List.nodup_append.1 hn
    have h1 : a ≠ i := by
      rintro rfl
      have := h0.2.1
      simp [ha] at this
    have h2 : a ∉ sib.ids := fun hh => h0.2.2 a hh a (by simp [ha]) rfl
    simp only [psi, if_neg h1, if_neg h2]
    cases trav <;> rfl

theorem psi_plug {trav : Bool} {c : Ctx} : ∀ {t : Tree} {a : Nat}, a ∈ t.ids → (plug c t).ids.Nodup →
    psi trav (plug c t) a = psiC trav c + psi trav t a := by
  induction c with
  | nil => intro t a _ _; simp [psiC]
  | cons f c ih =>
    intro t a ha hn
    rw [plug_cons] at hn ⊢
    have hf : (f.fill t).ids.Nodup := by
      rw [plug_ids, List.append_assoc] at hn
      exact (List.nodup_append.1 (List.nodup_append.1 hn).2.1).1
    have hm : a ∈ (f.fill t).ids := by
      rw [(fill_ids_perm f t).mem_iff]; simp [ha]
    rw [ih hm hn, psi_fill ha hf, psiC]
    omega

theorem psi_root (trav : Bool) (i k : Nat) (l r : Tree) : psi trav (node i k l r) i = -1 := by simp [psi]

theorem psiC_append (trav : Bool) (a b : Ctx) : psiC trav (a ++ b) = psiC trav a + psiC trav b := by
  induction a with
  | nil => simp [psiC]
  | cons f a ih => simp only [List.cons_append, psiC, ih]; omega

theorem AllDir.psiC_eq {trav : Bool} {c : Ctx} (h : AllDir trav c) : psiC trav c = c.length := by
  induction c with
  | nil => rfl
  | cons f c ih =>
    have h1 : f.dir = trav := h f (by simp)
    simp [psiC, h1, ih (fun g hg => h g (by simp [hg]))]

theorem AllDir.psiC_neg {trav : Bool} {c : Ctx} (h : AllDir (!trav) c) : psiC trav c = - (c.length : Int) := by
  induction c with
  | nil => rfl
  | cons f c ih =>
    have h1 : f.dir = !trav := h f (by simp)
    simp [psiC, h1, ih (fun g hg => h g (by simp [hg]))]
    omega

/-- Walking down a spine costs one access per element on it. -/
theorem minMaxLoopN_cost {h : Links} (d : Bool) {t : Tree} : ∀ {p : Nat}, Rep h p t → t ≠ nil →
    ∃ c y k X, t = plug c (nd d y k nil X) ∧ AllDir d c ∧ Costs (minMaxLoopN h t.rootId d) (c.length + 1) y := by
  induction t with
  | nil => intro p _ hne; exact absurd rfl hne
  | node i k l r il ir =>
    intro p hr _
    have e : node i k l r = nd d i k (if d then r else l) (if d then l else r) := by cases d <;> rfl
    have hr' := hr
    rw [e] at hr'
    obtain ⟨i0, il', b1, b2, _, ra, rb⟩ := Rep_nd.1 hr'
    have key : ∀ a : Tree, a = (if d then r else l) → Rep h i a →
        (a ≠ nil → ∃ c y k X, a = plug c (nd d y k nil X) ∧ AllDir d c ∧ Costs (minMaxLoopN h a.rootId d) (c.length + 1) y) →
        ∃ c y k' X, node i k l r = plug c (nd d y k' nil X) ∧ AllDir d c ∧ Costs (minMaxLoopN h i d) (c.length + 1) y := by
      intro a ha hra hih
      rw [← ha] at b1
      by_cases hn : a = nil
      · refine ⟨[], i, k, (if d then l else r), ?_, by simp [AllDir], ?_⟩
        · rw [e, ← ha, hn]; rfl
        · rw [minMaxLoopN]
          refine (Costs.acc (getBr_live il')).bind (m' := 0) ?_
          rw [b1, hn, nil_rootId, if_pos rfl]
          exact .pure _
      · obtain ⟨c, y, k', X, e1, e2, e3⟩ := hih hn
        refine ⟨c ++ [⟨d, i, k, (if d then l else r)⟩], y, k', X, ?_, ?_, ?_⟩
        · rw [plug_append, ← e1, e, ← ha]; rfl
        · intro f hf
          rw [List.mem_append, List.mem_singleton] at hf
          rcases hf with hf | rfl
          · exact e2 f hf
          · rfl
        · have ha0 : a.rootId ≠ 0 := by
            cases a with
            | nil => exact absurd rfl hn
            | node => exact hra.1
          rw [minMaxLoopN, List.length_append, List.length_singleton, Nat.add_comm]
          refine (Costs.acc (getBr_live il')).bind ?_
          rw [b1, if_neg ha0]
          exact e3
    cases d with
    | false => exact key l rfl (by simpa using ra) (fun hne => il (by simpa using ra) hne)
    | true => exact key r rfl (by simpa using ra) (fun hne => ir (by simpa using ra) hne)

/-- Climbing costs two accesses per element passed. -/
theorem climbN_cost {h : Links} {c : Ctx} (trav : Bool) : ∀ {t : Tree}, Whole h c t → t ≠ nil →
    (∃ c1 f c2, c = c1 ++ f :: c2 ∧ AllDir trav c1 ∧ f.dir = !trav ∧ Costs (climbN h t.rootId trav) (2 * c1.length + 2) f.id) ∨
    (AllDir trav c ∧ Costs (climbN h t.rootId trav) (2 * c.length + 1) 0) := by
  induction c with
  | nil =>
    intro t w hne
    have hl : h.live t.rootId = true := w.tree.root_live w.live0
    have hp : h.par t.rootId = 0 := by
      cases t with
      | nil => exact absurd rfl hne
      | node => exact w.tree.2.2.2.2.1
    refine Or.inr ⟨by simp [AllDir], ?_⟩
    rw [climbN]
    refine (Costs.acc (getPar_live hl)).bind (m' := 0) ?_
    rw [hp, if_pos rfl]
    exact .pure _
  | cons f c ih =>
    intro t w hne
    have hl : h.live t.rootId = true := w.tree.root_live w.live0
    have hp : h.par t.rootId = f.id := by
      cases t with
      | nil => exact absurd rfl hne
      | node => exact w.tree.2.2.2.2.1
    obtain ⟨f0, fl, b1, b2, _, rs, _⟩ := w.ctx
    have hns : t.rootId ≠ f.sib.rootId := by
      intro hh
      have t0 : t.rootId ≠ 0 := by
        cases t with
        | nil => exact absurd rfl hne
        | node => exact w.tree.1
      have m1 := (rootId_mem_or t).resolve_left t0
      have m2 := (rootId_mem_or f.sib).resolve_left (hh ▸ t0)
      have := w.disj m1
      rw [hh] at this
      simp [m2] at this
    have hb : (h.br f.id (!trav) == t.rootId) = (f.dir == !trav) := by
      cases trav with
      | true => rw [show (!true) = false from rfl, w.dir_false hns]; cases f.dir <;> rfl
      | false => rw [show (!false) = true from rfl, w.dir_true hns]; cases f.dir <;> rfl
    have hb' : (h.br f.id (!trav) = t.rootId) ↔ f.dir = !trav := by
      rw [← beq_iff_eq, hb, beq_iff_eq]
    have step : ∀ m r, Costs (if h.br f.id (!trav) = t.rootId then pure f.id else climbN h f.id trav) m r →
        Costs (climbN h t.rootId trav) (m + 2) r := by
      intro m r hc
      rw [climbN, show m + 2 = 1 + (1 + m) by omega]
      refine (Costs.acc (getPar_live hl)).bind ?_
      rw [hp, if_neg f0]
      exact (Costs.acc (getBr_live fl)).bind hc
    by_cases hd : f.dir = !trav
    · refine Or.inl ⟨[], f, c, rfl, by simp [AllDir], hd, ?_⟩
      refine step 0 _ ?_
      rw [if_pos (hb'.2 hd)]
      exact .pure _
    · have hd' : f.dir = trav := by revert hd; cases f.dir <;> cases trav <;> simp
      have := ih (Whole.up.1 w) (by cases hf : f.dir <;> simp [Frame.fill, hf])
      rw [fill_rootId] at this
      rcases this with ⟨c1, g, c2, e1, e2, e3, e4⟩ | ⟨e1, e2⟩
      · refine Or.inl ⟨f :: c1, g, c2, by rw [e1]; rfl, ?_, e3, ?_⟩
        · intro x hx
          rcases List.mem_cons.1 hx with rfl | hx
          · exact hd'
          · exact e2 x hx
        · refine (step _ _ ?_)
          rw [if_neg (fun hh => hd (hb'.1 hh))]
          exact e4
      · refine Or.inr ⟨?_, ?_⟩
        · intro x hx
          rcases List.mem_cons.1 hx with rfl | hx
          · exact hd'
          · exact e1 x hx
        · rw [List.length_cons, show 2 * (c.length + 1) + 1 = (2 * c.length + 1) + 2 by omega]
          refine (step _ _ ?_)
          rw [if_neg (fun hh => hd (hb'.1 hh))]
          exact e2

theorem Er.acc {α : Type} (y : Option α) : Er (CCC.acc y) y := by
  intro n r h
  rw [Count.acc_run] at h
  cases y with
  | none => cases h
  | some a => cases h; rfl

theorem minMaxLoopN_er (t : Links) (s : Nat) (d : Bool) : Er (minMaxLoopN t s d) (minMaxLoop t s d) := by
  apply minMaxLoopN.fixpoint_induct (t := t) (dir := d) (motive := fun f => ∀ s, Er (f s) (minMaxLoop t s d))
  · exact admissible_pi_apply (P := fun s (g : Count Nat) => Er g (minMaxLoop t s d)) (fun s => Er.admissible _)
  · intro f ih s
    rw [minMaxLoop]
    exact (Er.acc _).bind (fun b => .ite (.pure _) (ih _))

theorem climbN_er (t : Links) (n : Nat) (d : Bool) : Er (climbN t n d) (climb t n d) := by
  apply climbN.fixpoint_induct (t := t) (trav := d) (motive := fun f => ∀ s, Er (f s) (climb t s d))
  · exact admissible_pi_apply (P := fun s (g : Count Nat) => Er g (climb t s d)) (fun s => Er.admissible _)
  · intro f ih s
    rw [climb]
    exact (Er.acc _).bind (fun b => .ite (.pure _) ((Er.acc _).bind (fun b => .ite (.pure _) (ih _))))

theorem nextN_er (t : Links) (n : Nat) (d : Bool) : Er (nextN t n d) (next t n d) := by
  refine .ite (.pure _) ((Er.acc _).bind (fun b => (Er.lift _).bind (fun _ => (Er.acc _).bind (fun b => .ite ?_ ?_))))
  · exact minMaxLoopN_er _ _ _
  · exact climbN_er _ _ _

/-- The potential of a position; 0 is the end. -/
def pos (trav : Bool) (T : Tree) (a : Nat) : Int := if a = 0 then 0 else 2 * psi trav T a

/-- One step costs at most six accesses, amortised. -/
theorem nextN_le {h : Links} {T : Tree} (w : Whole h [] T) {a : Nat} (ha : a ∈ T.ids) (trav : Bool) :
    ∀ b, next h a trav = some b → ∃ m, Costs (nextN h a trav) m b ∧ (m : Int) ≤ 6 + pos trav T a - pos trav T b := by
  intro b hb
  suffices hs : ∃ m b, Costs (nextN h a trav) m b ∧ (m : Int) ≤ 6 + pos trav T a - pos trav T b by
    obtain ⟨m, b', c, l⟩ := hs
    have := (nextN_er h a trav).eq c
    rw [hb] at this; cases this
    exact ⟨m, c, l⟩
  obtain ⟨c, k, l, r, rfl⟩ := mem_split ha
  have wc := Whole.plug.2 w
  have hnd : (plug c (node a k l r)).ids.Nodup := by simpa using w.nodup
  obtain ⟨n0, nl, b0, b1, _, rl, rr⟩ := wc.tree
  have hrp : h.getPar h.root = some 0 := by
    have hr := w.tree
    have hroot : h.root = (plug c (node a k l r)).rootId := w.ctx
    rw [hroot, getPar_live (w.tree.root_live w.live0)]
    congr 1
    apply hr.root_par
    rcases rootId_mem_or (plug c (node a k l r)) with h0 | h0
    · exfalso
      cases hp : plug c (node a k l r) with
      | nil => rw [hp] at ha; simp [ids] at ha
      | node i k l r => rw [hp] at hr h0; exact hr.1 h0
    · exact h0
  have start : ∀ m q, Costs (if h.br a trav ≠ 0 then minMaxLoopN h (h.br a trav) (!trav) else climbN h a trav) m q →
      Costs (nextN h a trav) (m + 2) q := by
    intro m q hc
    rw [nextN, if_neg n0, show m + 2 = 1 + (0 + (1 + m)) by omega]
    refine (Costs.acc hrp).bind ?_
    refine (Costs.lift (show req ((0 : Nat) == 0) = some () from rfl)).bind ?_
    exact (Costs.acc (getBr_live nl)).bind hc
  have pa : pos trav (plug c (node a k l r)) a = 2 * (psiC trav c - 1) := by
    rw [pos, if_neg n0, psi_plug (by simp [ids]) hnd, psi_root]; omega
  have down : ∀ (x y : Tree), plug c (node a k l r) = plug (⟨trav, a, k, y⟩ :: c) x → Rep h a x → h.br a trav = x.rootId → x ≠ nil →
      ∃ m b, Costs (nextN h a trav) m b ∧
        (m : Int) ≤ 6 + pos trav (plug c (node a k l r)) a - pos trav (plug c (node a k l r)) b := by
    intro x y hp hx hbr hne
    obtain ⟨c1, z, kz, X, e1, e2, e3⟩ := minMaxLoopN_cost (!trav) hx hne
    have x0 : x.rootId ≠ 0 := by
      cases x with
      | nil => exact absurd rfl hne
      | node => exact hx.1
    refine ⟨_, z, start _ _ (by rw [hbr, if_pos x0]; exact e3), ?_⟩
    have hz : z ∈ (plug c (node a k l r)).ids := by
      rw [hp, plug_ids, e1, plug_ids]
      cases trav <;> simp [nd, ids]
    have z0 : z ≠ 0 := fun hh => w.tree.ne_zero (hh ▸ hz)
    have pz : pos trav (plug c (node a k l r)) z = 2 * (- (c1.length : Int) + psiC trav c) := by
      rw [pos, if_neg z0]
      rw [hp] at hnd ⊢
      rw [e1, ← plug_append] at hnd ⊢
      rw [psi_plug (by cases trav <;> simp [nd, ids]) hnd, psiC_append, AllDir.psiC_neg e2]
      have : psi trav (nd (!trav) z kz nil X) z = -1 := by cases trav <;> simp [nd, psi]
      rw [this]
      simp only [psiC, if_true]
      omega
    rw [pa, pz]
    push_cast
    omega
  have up : h.br a trav = 0 → ∃ m b, Costs (nextN h a trav) m b ∧
        (m : Int) ≤ 6 + pos trav (plug c (node a k l r)) a - pos trav (plug c (node a k l r)) b := by
    intro hbr
    rcases climbN_cost trav wc (by simp) with ⟨c1, f, c2, e1, e2, e3, e4⟩ | ⟨e1, e2⟩
    · refine ⟨_, f.id, start _ _ (by rw [hbr, if_neg (by simp)]; exact e4), ?_⟩
      have hr := w.tree
      have hf : f.id ∈ (f.fill (plug c1 (node a k l r))).ids := by
        rw [(fill_ids_perm _ _).mem_iff]; simp
      have hp : plug c (node a k l r) = plug c2 (f.fill (plug c1 (node a k l r))) := by rw [e1, plug_append, plug_cons]
      have hfm : f.id ∈ (plug c (node a k l r)).ids := by rw [hp, plug_ids]; simp [hf]
      have f0 : f.id ≠ 0 := fun hh => hr.ne_zero (hh ▸ hfm)
      have pf : pos trav (plug c (node a k l r)) f.id = 2 * (psiC trav c2 - 1) := by
        rw [pos, if_neg f0]
        rw [hp] at hnd ⊢
        rw [psi_plug hf hnd]
        have : psi trav (f.fill (plug c1 (node a k l r))) f.id = -1 := by
          rw [Frame.fill]; cases f.dir <;> simp [nd, psi]
        rw [this]; omega
      rw [pa, pf, e1, psiC_append, AllDir.psiC_eq e2, psiC, if_neg (by rw [e3]; cases trav <;> simp)]
      push_cast
      omega
    · refine ⟨_, 0, start _ _ (by rw [hbr, if_neg (by simp)]; exact e2), ?_⟩
      rw [pa, AllDir.psiC_eq e1, pos, if_pos rfl]
      push_cast
      omega
  cases trav with
  | true =>
    by_cases hr : r = nil
    · exact up (by rw [b1, hr]; rfl)
    · exact down r l (by simp [Frame.fill]) rr b1 hr
  | false =>
    by_cases hl : l = nil
    · exact up (by rw [b0, hl]; rfl)
    · exact down l r (by simp [Frame.fill]) rl b0 hl

/-- The potential of a pointer: NULL and the sentinel are the end. -/
def slotPos (trav : Bool) (T : Tree) : Slot → Int
  | none => 0
  | some a => pos trav T a

/-- The pointer is the end or an element of the tree. -/
def Within' (T : Tree) (q : Slot) : Prop := ∀ a, q = some a → a = 0 ∨ a ∈ T.ids

/-- A loop over elements of a tree, in either direction, whichever way the end is written. -/
theorem walk_le {h : Links} {T : Tree} (w : Whole h [] T) (trav : Bool) {enc : Nat → Slot}
    (he : ∀ b, enc b = some b ∨ (b = 0 ∧ enc b = none)) {nx : Nat → Option Slot} {nxN : Nat → Count Slot}
    (hx : ∀ a, nx a = (next h a trav).bind (fun b => some (enc b)))
    (hxN : ∀ a, nxN a = (do let n ← nextN h a trav; pure (enc n))) {stop p : Slot} {L : List Nat}
    (hi : iterate nx stop p = some L) (hp : Within' T p) :
    ∃ m, Costs (iterateN nxN stop p) m L ∧ (m : Int) ≤ 6 * L.length + slotPos trav T p - slotPos trav T stop := by
  refine iterateN_le (c := 6) (V := Within' T) (φ := slotPos trav T) (fun a ha q hq => ?_) hi hp
  rw [hx] at hq
  have hen : ∀ b, slotPos trav T (enc b) = pos trav T b := by
    intro b
    rcases he b with e | ⟨rfl, e⟩ <;> rw [e] <;> simp [slotPos, pos]
  cases hb : next h a trav with
  | none => simp [hb] at hq
  | some b =>
    simp only [hb, Option.bind_some, Option.some.injEq] at hq
    subst hq
    have hv : ∀ b, (b = 0 ∨ b ∈ T.ids) → Within' T (enc b) := by
      intro b hb x hx
      rcases he b with e | ⟨_, e⟩
      · rw [e] at hx; cases hx; exact hb
      · rw [e] at hx; cases hx
    rw [hxN, hen, show slotPos trav T (some a) = pos trav T a from rfl]
    rcases ha a rfl with rfl | ha
    · simp only [next, if_true, Option.some.injEq] at hb
      subst hb
      refine ⟨hv 0 (Or.inl rfl), 0, ?_, by omega⟩
      have : Costs (nextN h 0 trav) 0 0 := by rw [nextN, if_pos rfl]; exact .pure _
      exact this.out enc
    · refine ⟨hv b ?_, ?_⟩
      · obtain ⟨pre, post, e⟩ := List.append_of_mem ha
        have := next_whole w e trav
        rw [hb, Option.some.injEq] at this
        rw [this, e]
        cases trav with
        | true =>
          rw [if_pos rfl]
          cases post with
          | nil => exact Or.inl rfl
          | cons x post => right; simp
        | false =>
          rw [if_neg (by simp)]
          cases hpre : pre.getLast? with
          | none => left; simp [List.getLastD_eq_getLast?, hpre]
          | some x =>
            right
            have := List.mem_of_getLast? hpre
            simp [List.getLastD_eq_getLast?, hpre, this]
      · obtain ⟨m, c, l⟩ := nextN_le w ha trav b hb
        exact ⟨m, c.out enc, l⟩

/-- Finding the first element is paid for by the potential it leaves. -/
theorem first_le {h : Links} {T : Tree} (w : Whole h [] T) (hne : T ≠ nil) (trav : Bool) :
    ∃ m, Costs (minMaxLoopN h h.root (!trav)) m (endOf (!trav) T.ids) ∧ (m : Int) + pos trav T (endOf (!trav) T.ids) ≤ 0 := by
  have hroot : h.root = T.rootId := w.ctx
  have hnd : T.ids.Nodup := by simpa using w.nodup
  obtain ⟨c, y, k, X, e1, e2, e3⟩ := minMaxLoopN_cost (!trav) w.tree hne
  have hy : endOf (!trav) T.ids = y := by
    have h1 := minMaxLoop_ids (d := !trav) w.tree hne
    have h2 := (minMaxLoopN_er h T.rootId (!trav)).eq e3
    rw [h1] at h2
    exact Option.some.inj h2
  rw [hy, hroot]
  refine ⟨_, e3, ?_⟩
  have hm : y ∈ T.ids := by rw [e1, plug_ids]; cases trav <;> simp [nd, ids]
  have y0 : y ≠ 0 := fun hh => w.tree.ne_zero (hh ▸ hm)
  rw [pos, if_neg y0]
  rw [e1] at hnd ⊢
  rw [psi_plug (by cases trav <;> simp [nd, ids]) hnd, AllDir.psiC_neg e2]
  have : psi trav (nd (!trav) y k nil X) y = -1 := by cases trav <;> simp [nd, psi]
  rw [this]
  push_cast
  omega

theorem psiC_abs (trav : Bool) (c : Ctx) : psiC trav c ≤ c.length ∧ - (c.length : Int) ≤ psiC trav c := by
  induction c with
  | nil => simp [psiC]
  | cons f c ih =>
    simp only [psiC, List.length_cons]
    push_cast
    split <;> omega

/-- In a tree in which the rank rules hold positions have at most the rank as potential. -/
theorem pos_rk {h : Links} {T : Tree} (w : Whole h [] T) (hv : Valid T) (trav : Bool) {a : Nat} (ha : a = 0 ∨ a ∈ T.ids) :
    pos trav T a ≤ 2 * T.rk ∧ - (2 * T.rk : Int) ≤ pos trav T a := by
  rw [pos]
  split
  · omega
  · have ha := ha.resolve_left ‹_›
    have hnd : T.ids.Nodup := by simpa using w.nodup
    obtain ⟨c, k, l, r, rfl⟩ := mem_split ha
    rw [psi_plug (by simp [ids]) hnd, psi_root]
    have h1 := plug_rk hv
    have h2 := (Valid_plug c _).1 hv
    have h3 : 1 ≤ k := by
      have := h2.2.1
      omega
    rw [node_rk] at h1
    have := psiC_abs trav c
    omega

theorem within_end (T : Tree) (d : Bool) : Within' T (some (endOf d T.ids)) := by
  intro a ha
  cases ha
  cases d with
  | false => cases hh : T.ids <;> simp [endOf, hh]
  | true =>
    cases hh : T.ids.getLast? with
    | none => left; simp [endOf, List.getLastD_eq_getLast?, hh]
    | some x => right; have := List.mem_of_getLast? hh; simpa [endOf, List.getLastD_eq_getLast?, hh] using this

theorem slotPos_enc {T : Tree} {trav : Bool} {enc : Nat → Slot} (he : ∀ b, enc b = some b ∨ (b = 0 ∧ enc b = none)) (b : Nat) :
    slotPos trav T (enc b) = pos trav T b := by
  rcases he b with e | ⟨rfl, e⟩ <;> rw [e] <;> simp [slotPos, pos]

/-- A whole loop over a tree, from the end the walk starts at to the end it runs to, is six accesses per element. -/
theorem tour_le {h : Links} {T : Tree} (w : Whole h [] T) (trav : Bool) {enc : Nat → Slot}
    (he : ∀ b, enc b = some b ∨ (b = 0 ∧ enc b = none)) {nx : Nat → Option Slot} {nxN : Nat → Count Slot}
    (hx : ∀ a, nx a = (next h a trav).bind (fun b => some (enc b)))
    (hxN : ∀ a, nxN a = (do let n ← nextN h a trav; pure (enc n))) {L : List Nat}
    (hi : ((minMaxFrom h h.root (!trav)).bind fun p => iterate nx (enc 0) (enc p)) = some L) :
    ∃ m, Costs (do let p ← minMaxFromN h h.root (!trav); iterateN nxN (enc 0) (enc p)) m L ∧ m ≤ 6 * L.length := by
  have hroot : h.root = T.rootId := w.ctx
  by_cases hne : T = nil
  · have h0 : h.root = 0 := by rw [hroot, hne]; rfl
    simp only [minMaxFrom, h0, if_true, Option.bind_some] at hi
    rw [iterate.eq_def, if_pos rfl] at hi
    cases hi
    refine ⟨0 + 0, ?_, by simp⟩
    rw [minMaxFromN, if_pos h0, h0]
    refine (Costs.pure 0).bind ?_
    rw [iterateN.eq_def, if_pos rfl]; exact .pure _
  · have h0 : h.root ≠ 0 := by
      rw [hroot]
      cases T with
      | nil => exact absurd rfl hne
      | node => exact w.tree.1
    obtain ⟨m1, c1, b1⟩ := first_le w hne trav
    have e1 := (minMaxLoopN_er _ _ _).eq c1
    simp only [minMaxFrom, h0, if_false, e1, Option.bind_some] at hi
    have hw : Within' T (enc (endOf (!trav) T.ids)) := by
      intro a ha
      rcases he (endOf (!trav) T.ids) with e | ⟨_, e⟩
      · rw [e] at ha; exact within_end T _ a ha
      · rw [e] at ha; cases ha
    obtain ⟨m2, c2, b2⟩ := walk_le w trav he hx hxN hi hw
    refine ⟨m1 + m2, ?_, ?_⟩
    · rw [minMaxFromN, if_neg h0]
      exact c1.bind c2
    · rw [slotPos_enc he, slotPos_enc he, show pos trav T 0 = 0 from rfl] at b2
      omega

theorem enc_toSlot (b : Nat) : Rom.toSlot b = some b ∨ (b = 0 ∧ Rom.toSlot b = none) := by
  by_cases h : b = 0 <;> simp [Rom.toSlot, h]

/-- Elements met going from the root towards one end. -/
def arm (d : Bool) : Tree → Nat
  | nil => 0
  | node _ _ l r => 1 + if d then arm d r else arm d l

theorem arm_fill (d : Bool) (f : Frame) (t : Tree) (h : f.dir = d) : arm d (f.fill t) = 1 + arm d t := by
  subst h
  rw [Frame.fill]
  cases hf : f.dir <;> simp [arm]

theorem arm_plug {d : Bool} {c : Ctx} (h : AllDir d c) : ∀ t, arm d (plug c t) = c.length + arm d t := by
  induction c with
  | nil => intro t; simp
  | cons f c ih =>
    intro t
    rw [plug_cons, ih (fun x hx => h x (List.mem_cons_of_mem _ hx)), arm_fill d f t (h f List.mem_cons_self), List.length_cons]
    omega

/-- Stepping off the end climbs all the way to the root. -/
theorem lastN_cost {h : Links} {T : Tree} (w : Whole h [] T) (hne : T ≠ nil) (d : Bool) :
    ∃ y, y ∈ T.ids ∧ Costs (nextN h y d) (2 * arm d T + 1) 0 := by
  obtain ⟨c, y, k, X, e1, e2, _⟩ := minMaxLoopN_cost d w.tree hne
  subst e1
  have hy : y ∈ (nd d y k nil X).ids := by cases d <;> simp [nd, ids]
  have wc := Whole.plug.2 w
  have hr : (nd d y k nil X).rootId = y := by cases d <;> rfl
  have hrp : h.getPar h.root = some 0 := by
    have hroot : h.root = (plug c (nd d y k nil X)).rootId := w.ctx
    rw [hroot, getPar_live (w.tree.root_live w.live0)]
    congr 1
    apply w.tree.root_par
    refine (rootId_mem_or _).resolve_left ?_
    cases hp : plug c (nd d y k nil X) with
    | nil => exact absurd hp hne
    | node => have := w.tree; rw [hp] at this; exact this.1
  have hn : y ≠ 0 ∧ h.live y = true ∧ h.br y d = 0 := by
    have := wc.tree
    cases d with
    | false => exact ⟨this.1, this.2.1, this.2.2.1⟩
    | true => exact ⟨this.1, this.2.1, this.2.2.2.1⟩
  refine ⟨y, by rw [plug_ids]; simp [hy], ?_⟩
  rcases climbN_cost d wc (by cases d <;> simp [nd]) with ⟨c1, f, c2, e3, _, e5, _⟩ | ⟨_, e3⟩
  · exfalso
    have := e2 f (by rw [e3]; simp)
    rw [e5] at this; cases d <;> cases this
  · rw [arm_plug e2, show arm d (nd d y k nil X) = 1 by cases d <;> simp [nd, arm],
      show 2 * (c.length + 1) + 1 = 1 + (0 + (1 + (2 * c.length + 1))) by omega, nextN, if_neg hn.1]
    refine (Costs.acc hrp).bind ?_
    refine (Costs.lift (show req ((0 : Nat) == 0) = some () from rfl)).bind ?_
    refine (Costs.acc (getBr_live hn.2.1)).bind ?_
    rw [hn.2.2, if_neg (by simp)]
    rw [hr] at e3
    exact e3

theorem rk_arm {T : Tree} (hv : Valid T) (d : Bool) : T.rk ≤ 2 * arm d T := by
  induction T with
  | nil => simp [arm, rk]
  | node i k l r il ir =>
    obtain ⟨h1, h2, _, vl, vr⟩ := hv
    have := il vl
    have := ir vr
    rw [arm, node_rk]
    cases d <;> simp <;> omega

/-- Walking to an end meets all of that arm. -/
theorem firstN_cost {h : Links} {T : Tree} (w : Whole h [] T) (hne : T ≠ nil) (d : Bool) :
    ∃ y, Costs (minMaxFromN h h.root d) (arm d T) y := by
  obtain ⟨c, y, k, X, e1, e2, e3⟩ := minMaxLoopN_cost d w.tree hne
  have hroot : h.root = T.rootId := w.ctx
  have h0 : h.root ≠ 0 := by
    rw [hroot]
    cases T with
    | nil => exact absurd rfl hne
    | node => exact w.tree.1
  refine ⟨y, ?_⟩
  rw [minMaxFromN, if_neg h0, hroot]
  have : arm d T = c.length + 1 := by
    rw [e1, arm_plug e2]; cases d <;> simp [nd, arm]
  rw [this]; exact e3

end Wavl
end CCC
