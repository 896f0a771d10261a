import Verif.Model.Types
import Mathlib.Data.Nat.Bitwise
/-
Properties of the entry statuses (`src/types.c`).
-/
namespace CCC

/-- Each predicate reports exactly its own bit, for every status word; no entry (a NULL pointer) reports nothing. -/
theorem C45_predicates (e : Slot) (st : Nat) :
    Ent.isOccupied (some ⟨e, st⟩) = st.testBit 0 ∧ Ent.isInsertError (some ⟨e, st⟩) = st.testBit 1 ∧
    Ent.isInputError (some ⟨e, st⟩) = st.testBit 4 ∧
    Ent.isOccupied none = false ∧ Ent.isInsertError none = false ∧ Ent.isInputError none = false := by
  have h : ∀ i, Stat.has st (2 ^ i) = st.testBit i := by
    intro i
    simp only [Stat.has, Nat.and_two_pow]
    cases st.testBit i <;> simp
  exact ⟨h 0, h 1, h 4, rfl, rfl, rfl⟩

/-- Unwrapping yields the stored pointer exactly when the entry is not marked as not viewable. -/
theorem C45_unwrap (e : Slot) (st : Nat) :
    Ent.unwrap (some ⟨e, st⟩) = (if st.testBit 5 then none else e) ∧ Ent.unwrap none = none := by
  have h : Stat.has st (2 ^ 5) = st.testBit 5 := by
    simp only [Stat.has, Nat.and_two_pow]
    cases st.testBit 5 <;> simp
  exact ⟨by simp only [Ent.unwrap, show Stat.noUnwrap = 2 ^ 5 from rfl, h], rfl⟩

/-- The status words of different outcomes are told apart by the predicates. -/
theorem C45_distinct (e : Slot) (st st' : Nat) (h : st < 64) (h' : st' < 64)
    (eq : ∀ i < 6, st.testBit i = st'.testBit i) : Ent.status (some ⟨e, st⟩) = Ent.status (some ⟨e, st'⟩) := by
  show st = st'
  apply Nat.eq_of_testBit_eq
  intro i
  by_cases hi : i < 6
  · exact eq i hi
  · have hp : 2 ^ 6 ≤ 2 ^ i := Nat.pow_le_pow_right (by omega) (by omega)
    rw [Nat.testBit_lt_two_pow (by omega), Nat.testBit_lt_two_pow (by omega)]

example : Ent.isOccupied (some ⟨some 3, Stat.occupied ||| Stat.insertError⟩) = true ∧
    Ent.isInsertError (some ⟨some 3, Stat.occupied ||| Stat.insertError⟩) = true ∧
    Ent.isInputError (some ⟨some 3, Stat.occupied ||| Stat.insertError⟩) = false ∧
    Ent.unwrap (some ⟨some 3, Stat.vacant ||| Stat.noUnwrap⟩) = none := by decide

end CCC
