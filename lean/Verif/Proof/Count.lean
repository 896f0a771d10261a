import Verif.Model.Count
/-
Counted programs and the programs they count.
-/
namespace CCC
open Lean.Order

/-- If the counted program returns, the program returns the same. -/
def Er {α : Type} (x : Count α) (y : Option α) : Prop := ∀ n r, x n = some r → y = some r.1

/-- The counted program returns `r` after `m` comparisons. -/
def Costs {α : Type} (x : Count α) (m : Nat) (r : α) : Prop := ∀ n, x n = some (r, n + m)

variable {α β : Type}

@[simp] theorem Count.bind_run (x : Count α) (f : α → Count β) (n : Nat) :
    (x >>= f) n = (x n).bind (fun r => f r.1 r.2) := rfl
@[simp] theorem Count.pure_run (a : α) (n : Nat) : (pure a : Count α) n = some (a, n) := rfl
@[simp] theorem Count.lift_run (y : Option α) (n : Nat) : (liftM y : Count α) n = y.map (fun a => (a, n)) := by
  cases y <;> rfl
@[simp] theorem Count.cnt_run (c : Nat → Option Cmp) (a n : Nat) : cnt c a n = (c a).map (fun r => (r, n + 1)) := by
  simp only [cnt, Count.bind_run]
  show Option.bind (some ((), n + 1)) _ = _
  simp only [Option.bind_some]
  exact Count.lift_run (c a) (n + 1)

theorem Er.pure (a : α) : Er (pure a : Count α) (some a) := by
  intro n r h; rw [Count.pure_run] at h; cases h; rfl
theorem Er.lift (y : Option α) : Er (liftM y : Count α) y := by
  intro n r h
  rw [Count.lift_run] at h
  cases y with
  | none => cases h
  | some a => cases h; rfl
theorem Er.cnt (c : Nat → Option Cmp) (a : Nat) : Er (cnt c a) (c a) := by
  intro n r h
  rw [Count.cnt_run] at h
  cases hc : c a with
  | none => rw [hc] at h; cases h
  | some a => rw [hc] at h; cases h; rfl
theorem Er.bind {x : Count α} {y : Option α} {f : α → Count β} {g : α → Option β} (h : Er x y)
    (hf : ∀ a, Er (f a) (g a)) : Er (x >>= f) (y >>= g) := by
  intro n r hr
  rw [Count.bind_run] at hr
  cases hx : x n with
  | none => rw [hx] at hr; cases hr
  | some a =>
    rw [hx, Option.bind_some] at hr
    rw [h n a hx]
    exact hf a.1 a.2 r hr
theorem Er.ite {p : Prop} [Decidable p] {x x' : Count α} {y y' : Option α} (h : Er x y) (h' : Er x' y') :
    Er (if p then x else x') (if p then y else y') := by
  split <;> assumption

theorem Er.admissible (y : Option α) : admissible (fun x : Count α => Er x y) := by
  refine admissible_pi_apply (P := fun n (g : Option (α × Nat)) => ∀ r, g = some r → y = some r.1) (fun n => ?_)
  refine admissible_pi _ (fun r => ?_)
  exact Option.admissible_eq_some _ _

theorem Er.eq {x : Count α} {y : Option α} {m : Nat} {r : α} (h : Er x y) (hc : Costs x m r) : y = some r :=
  h 0 _ (hc 0)

theorem Costs.pure (a : α) : Costs (pure a : Count α) 0 a := fun _ => rfl
theorem Costs.lift {y : Option α} {a : α} (h : y = some a) : Costs (liftM y : Count α) 0 a := by
  intro n; rw [Count.lift_run, h]; rfl
theorem Costs.cnt {c : Nat → Option Cmp} {a : Nat} {r : Cmp} (h : c a = some r) : Costs (CCC.cnt c a) 1 r := by
  intro n; rw [Count.cnt_run, h]; rfl
theorem Costs.bind {x : Count α} {f : α → Count β} {m m' : Nat} {r : α} {r' : β} (h : Costs x m r)
    (hf : Costs (f r) m' r') : Costs (x >>= f) (m + m') r' := by
  intro n
  rw [Count.bind_run, h n, Option.bind_some, hf (n + m), Nat.add_assoc]

theorem Costs.out {x : Count α} {m : Nat} {r : α} (h : Costs x m r) (f : α → β) :
    Costs (x >>= fun a => Pure.pure (f a)) m (f r) :=
  h.bind (m' := 0) (f := fun a => Pure.pure (f a)) (.pure (f r))

end CCC
