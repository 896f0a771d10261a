import Verif.Proof.Rotate
/-
The WAVL rank rule as a ghost invariant: a rank (shifted by one, so that the sentinel has rank 0 and a leaf
rank 1) for every node, of which the links store only the parity.
-/
namespace CCC.Wavl
open CCC Links Tree

/-- Stored parity bit of a shifted rank: the sentinel (rank 0) stores 1, a leaf (rank 1) stores 0. -/
def ev (k : Nat) : Bool := k % 2 == 0

/-- Parities of `t` are those of its ghost ranks. -/
def RP (h : Links) : Tree → Prop
  | nil => True
  | node i k l r => h.parity i = ev k ∧ RP h l ∧ RP h r

def RPC (h : Links) : Ctx → Prop
  | [] => True
  | f :: c => h.parity f.id = ev f.rk ∧ RP h f.sib ∧ RPC h c

/-- The WAVL rank rule: every rank difference is 1 or 2 and leaves have rank 1. -/
def Valid : Tree → Prop
  | nil => True
  | node _ k l r => (k = l.rk + 1 ∨ k = l.rk + 2) ∧ (k = r.rk + 1 ∨ k = r.rk + 2) ∧
      (l.rk = 0 → r.rk = 0 → k = 1) ∧ Valid l ∧ Valid r

def ValidC : Ctx → Nat → Prop
  | [], _ => True
  | f :: c, k => (f.rk = k + 1 ∨ f.rk = k + 2) ∧ (f.rk = f.sib.rk + 1 ∨ f.rk = f.sib.rk + 2) ∧
      (k = 0 → f.sib.rk = 0 → f.rk = 1) ∧ Valid f.sib ∧ ValidC c f.rk

theorem Valid_nd {d : Bool} {i k : Nat} {a b : Tree} : Valid (nd d i k a b) ↔
    (k = a.rk + 1 ∨ k = a.rk + 2) ∧ (k = b.rk + 1 ∨ k = b.rk + 2) ∧ (a.rk = 0 → b.rk = 0 → k = 1) ∧
      Valid a ∧ Valid b := by
  cases d
  · simp [Valid]
  · simp only [nd_true, Valid]
    constructor <;> (rintro ⟨h1, h2, h3, h4, h5⟩; exact ⟨h2, h1, fun a b => h3 b a, h5, h4⟩)

theorem RP_nd {h : Links} {d : Bool} {i k : Nat} {a b : Tree} : RP h (nd d i k a b) ↔
    h.parity i = ev k ∧ RP h a ∧ RP h b := by
  cases d
  · simp [RP]
  · simp only [nd_true, RP]
    constructor <;> (rintro ⟨h1, h2, h3⟩; exact ⟨h1, h3, h2⟩)

theorem Valid_plug (c : Ctx) : ∀ t : Tree, Valid (plug c t) ↔ (ValidC c t.rk ∧ Valid t) := by
  induction c with
  | nil => intro t; simp [ValidC]
  | cons f c ih =>
    intro t
    rw [plug_cons, ih]
    simp only [Frame.fill, Valid_nd, nd_rk, ValidC]
    constructor
    · rintro ⟨h0, h1, h2, h3, h4, h5⟩; exact ⟨⟨h1, h2, h3, h5, h0⟩, h4⟩
    · rintro ⟨⟨h1, h2, h3, h5, h0⟩, h4⟩; exact ⟨h0, h1, h2, h3, h4, h5⟩

theorem Valid.eq_nil {t : Tree} (h : Valid t) (h0 : t.rk = 0) : t = nil := by
  cases t with
  | nil => rfl
  | node i k l r => simp only [Tree.rk] at h0; subst h0; simp [Valid] at h

theorem Valid.rootId {h : Links} {p : Nat} {t : Tree} (hv : Valid t) (hr : Rep h p t) : t.rootId = 0 ↔ t.rk = 0 := by
  constructor
  · intro h1
    cases t with
    | nil => rfl
    | node i k l r => exact absurd h1 hr.1
  · intro h1; rw [hv.eq_nil h1]; rfl

theorem exists_nd {t : Tree} (d : Bool) (h : t.rk ≠ 0) : ∃ i k a b, t = nd d i k a b := by
  cases t with
  | nil => simp [Tree.rk] at h
  | node i k l r =>
    cases d
    · exact ⟨i, k, l, r, rfl⟩
    · exact ⟨i, k, r, l, rfl⟩

theorem RP.congr {h h' : Links} {t : Tree} (hr : RP h t) (hp : ∀ a ∈ t.ids, h'.parity a = h.parity a) : RP h' t := by
  induction t with
  | nil => trivial
  | node i k l r il ir =>
    obtain ⟨h1, h2, h3⟩ := hr
    exact ⟨by rw [hp i (by simp [ids])]; exact h1, il h2 (fun a ha => hp a (by simp [ids, ha])),
      ir h3 (fun a ha => hp a (by simp [ids, ha]))⟩

theorem RPC.congr {h h' : Links} {c : Ctx} (hr : RPC h c) (hp : ∀ a ∈ cids c, h'.parity a = h.parity a) :
    RPC h' c := by
  induction c with
  | nil => trivial
  | cons f c ih =>
    obtain ⟨h1, h2, h3⟩ := hr
    exact ⟨by rw [hp _ (by simp)]; exact h1, h2.congr (fun a ha => hp a (by simp [ha])),
      ih h3 (fun a ha => hp a (by simp [ha]))⟩

/-- The invariant with the tree split at a path. -/
structure Wv (h : Links) (c : Ctx) (t : Tree) : Prop where
  whole : Whole h c t
  rp : RP h t
  rpc : RPC h c
  par0 : h.parity 0 = true

theorem Wv.up {h : Links} {c : Ctx} {f : Frame} {t : Tree} : Wv h (f :: c) t ↔ Wv h c (f.fill t) := by
  constructor
  · rintro ⟨a, b, ⟨c1, c2, c3⟩, d⟩; exact ⟨Whole.up.1 a, RP_nd.2 ⟨c1, b, c2⟩, c3, d⟩
  · rintro ⟨a, b, c, d⟩
    obtain ⟨b1, b2, b3⟩ := RP_nd.1 b
    exact ⟨Whole.up.2 a, b2, ⟨b1, b3, c⟩, d⟩

theorem Wv.plug {h : Links} {c : Ctx} {t : Tree} : Wv h c t ↔ Wv h [] (plug c t) := by
  induction c generalizing t with
  | nil => rfl
  | cons f c ih => rw [Wv.up, ih, plug_cons]

/-- Focus on the child in direction `d`. -/
theorem Wv.down {h : Links} {c : Ctx} {d : Bool} {i k : Nat} {a b : Tree} :
    Wv h c (nd d i k a b) ↔ Wv h (⟨d, i, k, b⟩ :: c) a := (Wv.up (f := ⟨d, i, k, b⟩)).symm
/-- Focus on the child in the other direction. -/
theorem Wv.down' {h : Links} {c : Ctx} {d : Bool} {i k : Nat} {a b : Tree} :
    Wv h c (nd d i k a b) ↔ Wv h (⟨!d, i, k, a⟩ :: c) b := by
  rw [Wv.up]; cases d <;> rfl

theorem Wv.root_parity {h : Links} {c : Ctx} {t : Tree} (w : Wv h c t) : h.parity t.rootId = ev t.rk := by
  cases t with
  | nil => exact w.par0
  | node i k l r => exact w.rp.1

theorem Wv.root_live {h : Links} {c : Ctx} {t : Tree} (w : Wv h c t) : h.live t.rootId = true :=
  w.whole.tree.root_live w.whole.live0

theorem Wv.pid_live {h : Links} {c : Ctx} {t : Tree} (w : Wv h c t) : h.live (pid c) = true :=
  w.whole.ctx.pid_live w.whole.live0

theorem promote_spec {h : Links} {c : Ctx} {d : Bool} {x k : Nat} {a b : Tree} (k' : Nat)
    (w : Wv h c (nd d x k a b)) (hk : ev k' = !ev k) :
    ∃ h', promote h x = some h' ∧ Wv h' c (nd d x k' a b) ∧ h'.live = h.live := by
  have hl : h.live x = true := by have := w.root_live; simpa using this
  have hp : h.parity x = ev k := by have := w.root_parity; simpa using this
  obtain ⟨x0, _⟩ := Rep_nd.1 w.whole.tree
  have hnd := w.whole.ids_nodup
  rw [nd_nodup] at hnd
  obtain ⟨xa, xb, _⟩ := hnd
  have xc := w.whole.disj (a := x) (by simp)
  refine ⟨{ h with parity := upd h.parity x (ev k') }, ?_, ⟨?_, ?_, ?_, ?_⟩, rfl⟩
  · simp only [promote, ne_eq, x0, not_false_eq_true, if_true, getParity_live hl, Option.bind_eq_bind,
      Option.bind_some, setParity_live hl, hp, hk]
  · obtain ⟨w1, w2, w3, w4⟩ := w.whole.congr (h' := { h with parity := upd h.parity x (ev k') }) rfl rfl rfl rfl
    refine ⟨by simpa using w1, Rep_nd.2 (Rep_nd.1 w2), ?_, w4⟩
    refine List.Perm.nodup (List.Perm.append_right _ ?_) w3
    exact (nd_ids_perm _ _ _ _ _).trans (nd_ids_perm _ _ _ _ _).symm
  · obtain ⟨r1, r2, r3⟩ := RP_nd.1 w.rp
    refine RP_nd.2 ⟨by simp, r2.congr ?_, r3.congr ?_⟩
    · intro j hj; exact upd_ne _ _ (fun hh => xa (hh ▸ hj))
    · intro j hj; exact upd_ne _ _ (fun hh => xb (hh ▸ hj))
  · exact w.rpc.congr (fun j hj => upd_ne _ _ (fun hh => xc (hh ▸ hj)))
  · simp [upd, Ne.symm x0, w.par0]

/-- Links rewritten by a rotation, parities unchanged: the invariant with whatever ranks agree in parity. -/
theorem rotate_wv {h : Links} {c : Ctx} {d : Bool} {z x kz kx : Nat} {A B C : Tree}
    (w : Wv h c (nd d z kz (nd d x kx A B) C)) :
    ∃ h', rotate h z x B.rootId (!d) = some h' ∧ Wv h' c (nd d x kx A (nd d z kz B C)) ∧
      h'.live = h.live := by
  obtain ⟨h', e, w', p', l'⟩ := rotate_spec kz kx w.whole
  refine ⟨h', e, ⟨w', ?_, w.rpc.congr (by simp [p']), by rw [p']; exact w.par0⟩, l'⟩
  obtain ⟨r1, r2, r3⟩ := RP_nd.1 w.rp
  obtain ⟨r4, r5, r6⟩ := RP_nd.1 r2
  have cg : ∀ T, RP h T → RP h' T := fun T hT => hT.congr (by simp [p'])
  exact RP_nd.2 ⟨by rw [p']; exact r4, cg _ r5, RP_nd.2 ⟨by rw [p']; exact r1, cg _ r6, cg _ r3⟩⟩

theorem doubleRotate_wv {h : Links} {c : Ctx} {d : Bool} {z x y kz kx ky : Nat} {A B C D : Tree}
    (w : Wv h c (nd d z kz (nd d x kx A (nd d y ky B C)) D)) :
    ∃ h', doubleRotate h z x y d = some h' ∧ Wv h' c (nd d y ky (nd d x kx A B) (nd d z kz C D)) ∧
      h'.live = h.live := by
  obtain ⟨h', e, w', p', l'⟩ := doubleRotate_spec kz kx ky w.whole
  refine ⟨h', e, ⟨w', ?_, w.rpc.congr (by simp [p']), by rw [p']; exact w.par0⟩, l'⟩
  obtain ⟨r1, r2, r3⟩ := RP_nd.1 w.rp
  obtain ⟨r4, r5, r6⟩ := RP_nd.1 r2
  obtain ⟨r7, r8, r9⟩ := RP_nd.1 r6
  have cg : ∀ T, RP h T → RP h' T := fun T hT => hT.congr (by simp [p'])
  exact RP_nd.2 ⟨by rw [p']; exact r7, RP_nd.2 ⟨by rw [p']; exact r4, cg _ r5, cg _ r8⟩,
    RP_nd.2 ⟨by rw [p']; exact r1, cg _ r9, cg _ r3⟩⟩

/-- Which side of its parent a subtree hangs on. -/
theorem Whole.dir_true {h : Links} {c : Ctx} {f : Frame} {t : Tree} (w : Whole h (f :: c) t)
    (hne : t.rootId ≠ f.sib.rootId) : (h.br f.id true == t.rootId) = f.dir := by
  obtain ⟨_, _, hb0, hb1, _, _, _⟩ := w.ctx
  cases hf : f.dir with
  | true => rw [hf] at hb0; simp [hb0]
  | false =>
    rw [hf] at hb1
    simp only [Bool.not_false] at hb1
    rw [hb1]
    simp [Ne.symm hne]

theorem Whole.dir_false {h : Links} {c : Ctx} {f : Frame} {t : Tree} (w : Whole h (f :: c) t)
    (hne : t.rootId ≠ f.sib.rootId) : (h.br f.id false == t.rootId) = !f.dir := by
  obtain ⟨_, _, hb0, hb1, _, _, _⟩ := w.ctx
  cases hf : f.dir with
  | false => rw [hf] at hb0; simp [hb0]
  | true =>
    rw [hf] at hb1
    simp only [Bool.not_true] at hb1
    rw [hb1]
    simp [Ne.symm hne]

theorem Whole.root_ne_sib {h : Links} {c : Ctx} {f : Frame} {t : Tree} (w : Whole h (f :: c) t)
    (h0 : t.rootId ≠ 0) : t.rootId ≠ f.sib.rootId := by
  intro hh
  have h1 := (rootId_mem_or t).resolve_left h0
  have h2 := (rootId_mem_or f.sib).resolve_left (hh ▸ h0)
  exact w.disj h1 (by rw [hh]; simp [h2])

theorem Whole.sib_ne_root {h : Links} {c : Ctx} {f : Frame} {t : Tree} (w : Whole h (f :: c) t)
    (h0 : f.sib.rootId ≠ 0) : t.rootId ≠ f.sib.rootId := by
  intro hh
  exact w.root_ne_sib (hh ▸ h0) hh

theorem Wv.sib_live {h : Links} {c : Ctx} {f : Frame} {t : Tree} (w : Wv h (f :: c) t) :
    h.live f.sib.rootId = true := w.whole.ctx.2.2.2.2.2.1.root_live w.whole.live0

theorem Wv.sib_parity {h : Links} {c : Ctx} {f : Frame} {t : Tree} (w : Wv h (f :: c) t) :
    h.parity f.sib.rootId = ev f.sib.rk := by
  cases hs : f.sib with
  | nil => exact w.par0
  | node i k l r => have := w.rpc.2.1; rw [hs] at this; exact this.1

theorem siblingOf_spec {h : Links} {c : Ctx} {f : Frame} {t : Tree} (w : Wv h (f :: c) t)
    (h0 : t.rootId ≠ 0) : siblingOf h t.rootId = some f.sib.rootId := by
  have hp : h.par t.rootId = f.id := w.whole.tree.root_par ((rootId_mem_or t).resolve_left h0)
  obtain ⟨f0, fl, hb0, hb1, _, _, _⟩ := w.whole.ctx
  simp only [siblingOf, getPar_live w.root_live, hp, Option.bind_eq_bind, Option.bind_some, req, bne_zero f0,
    if_true, getBr_live fl, w.whole.dir_false (w.whole.root_ne_sib h0), hb1]

end CCC.Wavl
