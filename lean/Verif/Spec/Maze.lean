import Verif.Spec.Order
import Mathlib.Data.List.Chain
/-
Specification of a perfect maze on a grid of squares: every room can be reached from every other one, by one way only.
-/
namespace CCC.Maze

/-- A square: its row and its column. -/
abbrev Pos := Int × Int

/-- Two squares share a side. -/
def Adj (a b : Pos) : Prop :=
  (a.1 = b.1 ∧ (a.2 = b.2 + 1 ∨ b.2 = a.2 + 1)) ∨ (a.2 = b.2 ∧ (a.1 = b.1 + 1 ∨ b.1 = a.1 + 1))

/-- A way from `a` to `b` over open squares that visits no square twice. -/
def Way (opened : Pos → Prop) (a b : Pos) (l : List Pos) : Prop :=
  l.IsChain Adj ∧ l.Nodup ∧ (∀ p ∈ l, opened p) ∧ l.head? = some a ∧ l.getLast? = some b

/-- The squares with odd coordinates are the rooms. -/
def Room (rows cols : Int) (p : Pos) : Prop :=
  p.1 % 2 = 1 ∧ p.2 % 2 = 1 ∧ 0 < p.1 ∧ p.1 < rows - 1 ∧ 0 < p.2 ∧ p.2 < cols - 1

/-- All rooms are open, the border is closed, and there is exactly one way between any two open squares. -/
structure Perfect (rows cols : Int) (opened : Pos → Prop) : Prop where
  rooms : ∀ p, Room rows cols p → opened p
  border : ∀ p, opened p → 0 < p.1 ∧ p.1 < rows - 1 ∧ 0 < p.2 ∧ p.2 < cols - 1
  pillars : ∀ p, opened p → p.1 % 2 = 1 ∨ p.2 % 2 = 1
  ways : ∀ a b, opened a → opened b → ∃ l, Way opened a b l ∧ ∀ l', Way opened a b l' → l' = l

end CCC.Maze
