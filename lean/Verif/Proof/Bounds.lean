import Verif.Proof.Count
/-
Worst case bounds for counted programs.
-/
namespace CCC

/-- Whenever the program returns, the counted program returns the same with at most `b` counts. -/
def Bd {α : Type} (x : Count α) (y : Option α) (b : Nat) : Prop := ∀ r, y = some r → ∃ m, m ≤ b ∧ Costs x m r

variable {α β : Type}

@[simp] theorem Count.acc_run (y : Option α) (n : Nat) : acc y n = y.map (fun r => (r, n + 1)) := by
  simp only [acc, Count.bind_run]
  show Option.bind (some ((), n + 1)) _ = _
  simp only [Option.bind_some]
  exact Count.lift_run y (n + 1)

theorem Costs.acc {y : Option α} {r : α} (h : y = some r) : Costs (CCC.acc y) 1 r := by
  intro n; rw [Count.acc_run, h]; rfl

theorem Bd.pure (a : α) (b : Nat) : Bd (Pure.pure a : Count α) (some a) b := by
  intro r h; cases h; exact ⟨0, Nat.zero_le _, .pure a⟩
theorem Bd.lift (y : Option α) (b : Nat) : Bd (liftM y : Count α) y b := by
  intro r h; exact ⟨0, Nat.zero_le _, .lift h⟩
theorem Bd.acc {y : Option α} {b : Nat} (hb : 1 ≤ b) : Bd (CCC.acc y) y b := by
  intro r h; exact ⟨1, hb, .acc h⟩
theorem Bd.mono {x : Count α} {y : Option α} {b b' : Nat} (h : Bd x y b) (hb : b ≤ b') : Bd x y b' := by
  intro r hr
  obtain ⟨m, hm, hc⟩ := h r hr
  exact ⟨m, Nat.le_trans hm hb, hc⟩
theorem Bd.bind {x : Count α} {y : Option α} {f : α → Count β} {g : α → Option β} {k b : Nat} (h : Bd x y k)
    (hk : k ≤ b) (hf : ∀ a, y = some a → Bd (f a) (g a) (b - k)) : Bd (x >>= f) (y >>= g) b := by
  intro r hr
  cases hy : y with
  | none => rw [hy] at hr; cases hr
  | some a =>
    rw [hy] at hr
    obtain ⟨m, hm, hc⟩ := h a hy
    obtain ⟨m', hm', hc'⟩ := hf a hy r hr
    exact ⟨m + m', by omega, hc.bind hc'⟩
theorem Bd.accBind {y : Option α} {f : α → Count β} {g : α → Option β} {b : Nat} (hk : 1 ≤ b)
    (hf : ∀ a, y = some a → Bd (f a) (g a) (b - 1)) : Bd (CCC.acc y >>= f) (y >>= g) b := (Bd.acc (Nat.le_refl _)).bind hk hf
theorem Bd.liftBind {y : Option α} {f : α → Count β} {g : α → Option β} {b : Nat}
    (hf : ∀ a, y = some a → Bd (f a) (g a) b) : Bd ((liftM y : Count α) >>= f) (y >>= g) b :=
  (Bd.lift y 0).bind (Nat.zero_le _) hf
theorem Bd.ite {p : Prop} [Decidable p] {x x' : Count α} {y y' : Option α} {b : Nat} (h : p → Bd x y b)
    (h' : ¬ p → Bd x' y' b) : Bd (if p then x else x') (if p then y else y') b := by
  split
  · exact h ‹_›
  · exact h' ‹_›

/-- Straight line code: one step of the program, one step of the counted program. -/
macro "bd1" : tactic => `(tactic| first
  | exact Bd.pure _ _
  | exact Bd.lift _ _
  | exact Bd.acc (by omega)
  | (refine Bd.accBind (by omega) ?_; intro _ _)
  | (refine Bd.liftBind ?_; intro _ _)
  | (refine Bd.ite ?_ ?_ <;> intro _))

/-- As `Bd`, with a bound that depends on the result. -/
def BdR (x : Count α) (y : Option α) (b : α → Nat) : Prop := ∀ r, y = some r → ∃ m, m ≤ b r ∧ Costs x m r

theorem Bd.toR {x : Count α} {y : Option α} {b : Nat} (h : Bd x y b) : BdR x y (fun _ => b) := h
theorem BdR.mono {x : Count α} {y : Option α} {b b' : α → Nat} (h : BdR x y b) (hb : ∀ r, y = some r → b r ≤ b' r) :
    BdR x y b' := by
  intro r hr
  obtain ⟨m, hm, hc⟩ := h r hr
  exact ⟨m, Nat.le_trans hm (hb r hr), hc⟩
theorem Bd.le {x : Count α} {y : Option α} {b : Nat} {b' : α → Nat} (h : Bd x y b) (hb : ∀ r, b ≤ b' r) : BdR x y b' :=
  h.toR.mono (fun r _ => hb r)
theorem BdR.pure (a : α) (b : α → Nat) : BdR (Pure.pure a : Count α) (some a) b := by
  intro r h; cases h; exact ⟨0, Nat.zero_le _, .pure a⟩
theorem BdR.bind {x : Count α} {y : Option α} {f : α → Count β} {g : α → Option β} {k : α → Nat} {b : α → β → Nat}
    {B : β → Nat} (h : BdR x y k) (hf : ∀ a, y = some a → BdR (f a) (g a) (b a))
    (hb : ∀ a r, y = some a → g a = some r → k a + b a r ≤ B r) : BdR (x >>= f) (y >>= g) B := by
  intro r hr
  cases hy : y with
  | none => rw [hy] at hr; cases hr
  | some a =>
    rw [hy] at hr
    obtain ⟨m, hm, hc⟩ := h a hy
    obtain ⟨m', hm', hc'⟩ := hf a hy r hr
    exact ⟨m + m', by have := hb a r hy hr; omega, hc.bind hc'⟩
theorem BdR.ite {p : Prop} [Decidable p] {x x' : Count α} {y y' : Option α} {b : α → Nat} (h : p → BdR x y b)
    (h' : ¬ p → BdR x' y' b) : BdR (if p then x else x') (if p then y else y') b := by
  split
  · exact h ‹_›
  · exact h' ‹_›

theorem Costs.work {n : Nat} {y : Option α} {r : α} (h : y = some r) : Costs (CCC.work n y) n r := by
  intro k; rw [h]; rfl
theorem Bd.work {n : Nat} {y : Option α} {b : Nat} (hb : n ≤ b) : Bd (CCC.work n y) y b := by
  intro r h; exact ⟨n, hb, .work h⟩
theorem Bd.workBind {n : Nat} {y : Option α} {f : α → Count β} {g : α → Option β} {b : Nat} (hk : n ≤ b)
    (hf : ∀ a, y = some a → Bd (f a) (g a) (b - n)) : Bd (CCC.work n y >>= f) (y >>= g) b :=
  (Bd.work (Nat.le_refl _)).bind hk hf

end CCC
