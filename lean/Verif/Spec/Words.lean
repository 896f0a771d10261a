import Verif.Spec.Order
/-
Specification of a word count.  A text is a list of bytes; words are separated by spaces and the ends of lines.
-/
namespace CCC.Words
open CCC

/-- A letter (in the "C" locale). -/
def Letter (c : Nat) : Prop := (65 ≤ c ∧ c ≤ 90) ∨ (97 ≤ c ∧ c ≤ 122)
instance (c : Nat) : Decidable (Letter c) := by unfold Letter; infer_instance

/-- Letters in lower case. -/
def lower (c : Nat) : Nat := if 65 ≤ c ∧ c ≤ 90 then c + 32 else c

/-- What is counted as a word: letters and hyphens, with a letter at both ends. -/
def IsWord (w : List Nat) : Prop :=
  (∀ c ∈ w, Letter c ∨ c = 45) ∧ (∃ c, w.head? = some c ∧ Letter c) ∧ ∃ c, w.getLast? = some c ∧ Letter c

/-- The words of a list of pieces of text, in lower case. -/
noncomputable def wordsOf (pieces : List (List Nat)) : List (List Nat) :=
  open Classical in (pieces.filter (fun p => decide (IsWord p))).map (·.map lower)

/-- A list cut at every separator. -/
def cut (sep : Nat → Bool) : List Nat → List (List Nat)
  | [] => [[]]
  | c :: cs => if sep c then [] :: cut sep cs
    else match cut sep cs with
      | [] => [[c]]
      | p :: ps => (c :: p) :: ps

/-- The words of a text: it is cut at spaces and at the ends of lines. -/
noncomputable def wordsIn (text : List Nat) : List (List Nat) := wordsOf (cut (fun c => c == 32 || c == 10) text)

/-- The order of a dictionary, as a three-way comparison. -/
def cmpStr : List Nat → List Nat → Cmp
  | [], [] => .eql
  | [], _ :: _ => .les
  | _ :: _, [] => .grt
  | a :: s, b :: t => if a < b then .les else if b < a then .grt else cmpStr s t

/-- A line of a report: a word and its count. -/
abbrev Line := List Nat × Int

/-- In the order of a dictionary. -/
def Alphabetic (x y : Line) : Prop := cmpStr x.1 y.1 = .les
/-- By count, greatest first; equal counts in the order of a dictionary. -/
def ByCount (x y : Line) : Prop := x.2 > y.2 ∨ (x.2 = y.2 ∧ cmpStr x.1 y.1 = .les)

/-- The complete report: every word of the text once, with the number of its occurrences, in the given order. -/
structure Report (before : Line → Line → Prop) (words : List (List Nat)) (lines : List Line) : Prop where
  order : lines.Pairwise before
  lines : ∀ w c, (w, c) ∈ lines ↔ w ∈ words ∧ c = (words.count w : Int)

/-- The part of a report that is asked for: all of it for 0, nothing for a negative number. -/
def part (n : Int) (lines : List Line) : List Line := if n = 0 then lines else lines.take n.toNat

end CCC.Words
