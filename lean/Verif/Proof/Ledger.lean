import Verif.Model.Ledger
/-
Programs that write down the calls of the allocation function, and the programs they are.
-/
namespace CCC

/-- If the program returns, the program with the list returns the same, having written `es`. -/
def Log {α : Type} (x : Led α) (y : Option α) (es : List Ev) : Prop := ∀ r, y = some r → ∀ h, x h = some (r, h ++ es)

variable {α β : Type}

@[simp] theorem Led.bind_run (x : Led α) (f : α → Led β) (h : List Ev) :
    (x >>= f) h = (x h).bind (fun r => f r.1 r.2) := rfl
@[simp] theorem Led.lift_run (y : Option α) (h : List Ev) : (liftM y : Led α) h = y.map (fun a => (a, h)) := by
  cases y <;> rfl

theorem Log.pure (a : α) : Log (pure a : Led α) (some a) [] := by
  intro r hr h; cases hr; simp; rfl
theorem Log.lift (y : Option α) : Log (liftM y : Led α) y [] := by
  intro r hr h; rw [Led.lift_run, hr]; simp
theorem Log.bind {x : Led α} {y : Option α} {f : α → Led β} {g : α → Option β} {es es' : List Ev} (h : Log x y es)
    (hf : ∀ a, y = some a → Log (f a) (g a) es') : Log (x >>= f) (y >>= g) (es ++ es') := by
  intro r hr e
  cases hy : y with
  | none => rw [hy] at hr; cases hr
  | some a =>
    rw [hy] at hr
    rw [Led.bind_run, h a hy e, Option.bind_some, hf a hy r hr, List.append_assoc]
theorem Log.liftBind {y : Option α} {f : α → Led β} {g : α → Option β} {es : List Ev}
    (hf : ∀ a, y = some a → Log (f a) (g a) es) : Log (liftM y >>= f) (y >>= g) es := by
  have := (Log.lift y).bind hf
  simpa using this
theorem Log.out {x : Led α} {y : Option α} {es : List Ev} (h : Log x y es) (f : α → β) :
    Log (x >>= fun a => Pure.pure (f a)) (y >>= fun a => some (f a)) es := by
  have := h.bind (f := fun a => Pure.pure (f a)) (g := fun a => some (f a)) (es' := []) (fun a _ => .pure _)
  simpa using this
theorem Log.outBind {x : Led α} {y : Option α} {f : α → Led β} {g : α → Option β} {es : List Ev} (h : Log x y es)
    (hf : ∀ a, y = some a → Log (f a) (g a) []) : Log (x >>= f) (y >>= g) es := by
  have := h.bind hf
  simpa using this
theorem Log.ask (ans : Option Nat) : Log (CCC.ask ans) (some ans) [Ev.ofAns ans] := by
  intro r hr h; cases hr; rfl
theorem Log.askBind {ans : Option Nat} {f : Option Nat → Led β} {y : Option β} {es : List Ev}
    (h : Log (f ans) y es) : Log (CCC.ask ans >>= f) y (Ev.ofAns ans :: es) := by
  intro r hr e
  rw [Led.bind_run]
  show (some (ans, e ++ [Ev.ofAns ans])).bind _ = _
  rw [Option.bind_some, h r hr]
  simp
theorem Log.freeBind {a : Nat} {f : Unit → Led β} {y : Option β} {es : List Ev}
    (h : Log (f ()) y es) : Log (giveBack a >>= f) y (.freed a :: es) := by
  intro r hr e
  rw [Led.bind_run]
  show (some ((), e ++ [.freed a])).bind _ = _
  rw [Option.bind_some, h r hr]
  simp
theorem Log.ite {p : Prop} [Decidable p] {x x' : Led α} {y y' : Option α} {es : List Ev} (h : p → Log x y es)
    (h' : ¬ p → Log x' y' es) : Log (if p then x else x') (if p then y else y') es := by
  split
  · exact h ‹_›
  · exact h' ‹_›

end CCC
