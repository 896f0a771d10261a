import Verif.Proof.SplayPotential
/-
The potential of the links of a splay tree, and programs paid for by it.
-/
namespace CCC.Splay
open CCC Tree Links Wavl

/-- The links determine the shape. -/
theorem Rep.pot {h : Links} : ∀ {T T' : Tree} {p p' : Nat}, Rep h p T → Rep h p' T' → T.rootId = T'.rootId →
    Pot T = Pot T' ∧ W T = W T'
  | nil, nil, _, _, _, _, _ => ⟨rfl, rfl⟩
  | nil, node _ _ _ _, _, _, _, h', e => absurd e.symm h'.1
  | node _ _ _ _, nil, _, _, h, _, e => absurd e h.1
  | node i _ l r, node j _ l' r', _, _, h1, h2, e => by
    obtain rfl : i = j := e
    obtain ⟨_, _, a1, b1, _, c1, d1⟩ := h1
    obtain ⟨_, _, a2, b2, _, c2, d2⟩ := h2
    obtain ⟨x1, x2⟩ := Rep.pot c1 c2 (a1.symm.trans a2)
    obtain ⟨y1, y2⟩ := Rep.pot d1 d2 (b1.symm.trans b2)
    simp only [Pot, W, x1, x2, y1, y2, and_self]

open Classical in
/-- The potential of the links: twice the potential of the tree, and `K` for every element. -/
noncomputable def phi (K : ℝ) (h : Links) : ℝ :=
  if w : ∃ T, Whole h [] T then 2 * Pot w.choose + K * ((W w.choose : ℝ) - 1) else 0

theorem phi_eq {h : Links} {T : Tree} (w : Whole h [] T) (K : ℝ) : phi K h = 2 * Pot T + K * ((W T : ℝ) - 1) := by
  have hw : ∃ T, Whole h [] T := ⟨T, w⟩
  obtain ⟨e1, e2⟩ := Rep.pot hw.choose_spec.tree w.tree (hw.choose_spec.ctx.symm.trans w.ctx)
  rw [phi, dif_pos hw, e1, e2]

theorem phi_nonneg {h : Links} {T : Tree} (w : Whole h [] T) {K : ℝ} (hK : 0 ≤ K) : 0 ≤ phi K h := by
  rw [phi_eq w]
  have h1 : (1:ℝ) ≤ W T := by exact_mod_cast W_pos T
  have := Pot_nonneg T
  have := mul_nonneg hK (sub_nonneg.2 h1)
  linarith

/-- Connecting a new root. -/
theorem connect_pot {d : Bool} {i k e m : Nat} {Y C : Tree} :
    2 * Pot (nd d e m Y (nd d i k nil C)) ≤ 2 * Pot (nd d i k Y C) + 2 * lg (W (nd d i k Y C) + 1) ∧
    W (nd d e m Y (nd d i k nil C)) = W (nd d i k Y C) + 1 := by
  have hY := W_pos Y
  have hC := W_pos C
  have h1 := lg_mono (a := 1 + W C) (b := W Y + W C) (by omega) (by omega)
  simp only [Pot_nd, W_nd, W_nil, Pot_nil]
  rw [show W Y + (1 + W C) = W Y + W C + 1 by omega]
  exact ⟨by linarith, rfl⟩

/-- Removing the root. -/
theorem remove_pot {c' : Nat → Cmp} {i k n : Nat} {A B T : Tree}
    (h : (A = nil ∧ T = B ∧ n = 0) ∨ ∃ P j m, Split c' A P j m n ∧ P false = nil ∧ T = node j m (P true) B) :
    (n : ℝ) + 2 * Pot T ≤ 2 * Pot (node i k A B) + 6 * lg (W (node i k A B)) + 2 ∧ W T + 1 = W (node i k A B) := by
  have hA := W_pos A
  have hB := W_pos B
  have h0 := lg_nonneg (a := W A + W B) (by omega)
  rcases h with ⟨rfl, rfl, rfl⟩ | ⟨P, j, m, hs, hP, rfl⟩
  · simp only [Pot, W, Nat.cast_zero] at *
    exact ⟨by linarith, by omega⟩
  · have h1 := hs.splay
    have h2 := hs.W_eq
    simp only [hP, Pot, W] at *
    have h3 := lg_nonneg (a := W (P true) + 1) (by omega)
    have h4 := lg_mono (a := W (P true) + W B) (b := W A + W B) (by have := W_pos (P true); omega) (by omega)
    have h5 := lg_mono (a := W A) (b := W A + W B) hA (by omega)
    exact ⟨by linarith, by omega⟩

/-- The program returns, and its comparisons and the new potential are paid by the old potential and `b`. -/
def Paid {σ β : Type} (K : ℝ) (lk : σ → Links) (x : Count (σ × β)) (t : Links) (b : ℝ) : Prop :=
  ∃ r m, Costs x m r ∧ (m : ℝ) + phi K (lk r.1) ≤ phi K t + b

variable {σ β γ : Type} {K : ℝ} {lk : σ → Links} {t : Links}

theorem Paid.pure {r : σ × β} {b : ℝ} (h : lk r.1 = t) (hb : 0 ≤ b) : Paid K lk (Pure.pure r) t b :=
  ⟨r, 0, .pure _, by rw [h, Nat.cast_zero]; linarith⟩

theorem Paid.mono {x : Count (σ × β)} {b b' : ℝ} (h : Paid K lk x t b) (hb : b ≤ b') : Paid K lk x t b' := by
  obtain ⟨r, m, hc, h⟩ := h
  exact ⟨r, m, hc, by linarith⟩

theorem Paid.bind {x : Count (σ × β)} {y : Option (σ × β)} {f : σ × β → Count (σ × γ)} {r : σ × β} {b b' : ℝ}
    (h : Paid K lk x t b) (he : Er x y) (hy : y = some r) (hf : Paid K lk (f r) (lk r.1) b') :
    Paid K lk (x >>= f) t (b + b') := by
  obtain ⟨r1, m, hc, h⟩ := h
  have := he.eq hc
  rw [hy] at this
  cases this
  obtain ⟨r2, m', hc', h'⟩ := hf
  exact ⟨r2, m + m', hc.bind hc', by rw [Nat.cast_add]; linarith⟩

theorem Paid.lift {δ : Type} {y : Option δ} {f : δ → Count (σ × γ)} {a : δ} {b : ℝ} (hy : y = some a)
    (hf : Paid K lk (f a) t b) : Paid K lk ((liftM y : Count δ) >>= f) t b := by
  obtain ⟨r, m, hc, h⟩ := hf
  refine ⟨r, m, ?_, h⟩
  have := (Costs.lift hy).bind hc
  rwa [Nat.zero_add] at this

theorem Paid.via {δ : Type} {x : Count δ} {f : δ → Count (σ × γ)} {a : δ} {m : Nat} {t' : Links} {b b' : ℝ}
    (hx : Costs x m a) (hf : Paid K lk (f a) t' b') (h : (m : ℝ) + phi K t' + b' ≤ phi K t + b) :
    Paid K lk (x >>= f) t b := by
  obtain ⟨r, m', hc, h'⟩ := hf
  exact ⟨r, m + m', hx.bind hc, by rw [Nat.cast_add]; linarith⟩

end CCC.Splay
