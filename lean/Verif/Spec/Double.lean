import Mathlib.Data.Nat.Log
/-
IEEE 754 binary64 as far as it is needed here: the quotient of two whole numbers `a ≤ b`, rounded to the nearest number with
53 binary digits, ties to even.  A number is `m / 2^e`.
-/
namespace CCC.Dbl

/-- A positive number with at most 53 digits: `m / 2^e`. -/
structure Dbl where
  m : Nat
  e : Nat

/-- The whole number nearest to `a / b`; of two nearest the even one. -/
def nearest (a b : Nat) : Nat :=
  if 2 * (a % b) < b then a / b
  else if b < 2 * (a % b) then a / b + 1
  else a / b + (a / b) % 2

/-- The least `k` such that `b ≤ a * 2^k`. -/
def shift (a b : Nat) : Nat := Nat.clog 2 ((b + (a - 1)) / a)

/-- `(double)a / (double)b` for `0 < b`, `a ≤ b < 2^53` (the conversions are exact): the digits of the quotient begin at the
`shift`-th place, and 53 of them are kept. -/
def div (a b : Nat) : Dbl := ⟨nearest (a * 2 ^ (52 + shift a b)) b, 52 + shift a b⟩

/-- `x <= y`. -/
def Le (x y : Dbl) : Prop := x.m * 2 ^ y.e ≤ y.m * 2 ^ x.e

instance (x y : Dbl) : Decidable (Le x y) := inferInstanceAs (Decidable (_ ≤ _))

end CCC.Dbl
