import Verif.Model.Types
/-
Specification of the user's comparison callbacks.  These are the assumptions under which ordered containers are
proved correct; they are hypotheses of the theorems that need them.
-/
namespace CCC

/-- A lawful element comparison (`ccc_cmp_fn`, ccc/types.h:210-217): a total preorder reported three-way. -/
structure LawfulCmp {α : Type} (cmp : α → α → Cmp) : Prop where
  noErr : ∀ a b, cmp a b ≠ .err
  flip : ∀ a b, cmp a b = .les ↔ cmp b a = .grt
  trans : ∀ a b c, cmp a b ≠ .grt → cmp b c ≠ .grt → cmp a c ≠ .grt

/-- The order of a priority queue: `CCC_LES` (min) or `CCC_GRT` (max). -/
def IsOrder (o : Cmp) : Prop := o = .les ∨ o = .grt

/-- `a` is strictly ahead of `b` in the queue order. -/
def Beats {α : Type} (cmp : α → α → Cmp) (o : Cmp) (a b : α) : Prop := cmp a b = o

/-- An integer comparison is lawful: the usual `(a > b) - (a < b)`. -/
def natCmp (a b : Nat) : Cmp := if a < b then .les else if b < a then .grt else .eql

theorem natCmp_lawful : LawfulCmp natCmp := by
  constructor
  · intro a b; unfold natCmp; grind
  · intro a b; unfold natCmp; grind
  · intro a b c; unfold natCmp; grind

/-- A strict weak order, the shape in which proofs use a lawful comparison. -/
structure SWO {α : Type} (w : α → α → Prop) : Prop where
  asym : ∀ a b, w a b → ¬ w b a
  ntrans : ∀ a b c, ¬ w a b → ¬ w b c → ¬ w a c

theorem LawfulCmp.swo {α : Type} {cmp : α → α → Cmp} (h : LawfulCmp cmp) {o : Cmp} (ho : IsOrder o) :
    SWO (Beats cmp o) := by
  have hg : ∀ a b, cmp a b = .grt ↔ cmp b a = .les := fun a b => (h.flip b a).symm
  rcases ho with rfl | rfl
  · constructor
    · intro a b h1 h2; unfold Beats at *; rw [h.flip] at h1; rw [h1] at h2; cases h2
    · intro a b c h1 h2 h3
      unfold Beats at *
      rw [h.flip] at h1 h2 h3
      exact h.trans c b a h2 h1 h3
  · constructor
    · intro a b h1 h2; unfold Beats at *; rw [hg] at h1; rw [h1] at h2; cases h2
    · intro a b c h1 h2 h3
      unfold Beats at *
      exact h.trans a b c h1 h2 h3

theorem SWO.trans {α : Type} {w : α → α → Prop} (h : SWO w) {a b c : α} (h1 : w a b) (h2 : w b c) : w a c := by
  apply Classical.byContradiction
  intro h3
  have := h.asym _ _ h2
  exact h.ntrans a c b h3 this h1

theorem SWO.of_w_of_not {α : Type} {w : α → α → Prop} (h : SWO w) {a b c : α} (h1 : w a b) (h2 : ¬ w c b) :
    w a c := by
  apply Classical.byContradiction
  intro h3
  exact h.ntrans a c b h3 h2 h1

end CCC
