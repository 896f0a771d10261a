import Verif.Model.Types
/- Helper lemmas about `window`, `upd`, `blockMove`, `blockWrite`. -/
namespace CCC
variable {α : Type}

@[simp] theorem window_length (f : Nat → α) (a n : Nat) : (window f a n).length = n := by simp [window]

@[simp] theorem window_getElem (f : Nat → α) (a n i : Nat) (h : i < (window f a n).length) :
    (window f a n)[i] = f (a + i) := by simp [window]

theorem window_zero (f : Nat → α) (a : Nat) : window f a 0 = [] := rfl

theorem window_succ (f : Nat → α) (a n : Nat) : window f a (n+1) = window f a n ++ [f (a+n)] := by
  simp [window, List.range_succ]

theorem window_congr {f g : Nat → α} {a b n : Nat} (h : ∀ i, i < n → f (a + i) = g (b + i)) :
    window f a n = window g b n := by
  apply List.ext_getElem (by simp)
  intro i h1 h2; simp at h1 ⊢; exact h i h1

theorem window_append (f : Nat → α) (a m n : Nat) :
    window f a (m + n) = window f a m ++ window f (a + m) n := by
  apply List.ext_getElem (by simp)
  intro i h1 h2
  simp [List.getElem_append] at h1 ⊢
  intro h; congr 1; omega

theorem window_take (f : Nat → α) (a n k : Nat) : (window f a n).take k = window f a (min k n) := by
  apply List.ext_getElem (by simp)
  intro i h1 h2; simp

theorem window_drop (f : Nat → α) (a n k : Nat) : (window f a n).drop k = window f (a + k) (n - k) := by
  apply List.ext_getElem (by simp)
  intro i h1 h2; simp [Nat.add_assoc]

theorem window_dropLast (f : Nat → α) (a n : Nat) : (window f a n).dropLast = window f a (n - 1) := by
  apply List.ext_getElem (by simp)
  intro i h1 h2; simp

theorem window_cons (f : Nat → α) (a n : Nat) : window f a (n+1) = f a :: window f (a+1) n := by
  rw [Nat.add_comm n 1, window_append]; simp [window]

theorem mem_window {f : Nat → α} {a n : Nat} {x : α} : x ∈ window f a n ↔ ∃ i, i < n ∧ f (a + i) = x := by
  simp [window]

end CCC
