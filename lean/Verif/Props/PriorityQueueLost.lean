import Verif.Proof.GraphParallel
/-
A correct use of `decrease` alone makes the priority queue lose elements.
-/
namespace CCC.Pq
open CCC PrioQ

variable {α : Type} (c : Cfg α)

/-- A call, with a bound on the rounds of the loop in `pop`. -/
def stepF (k : Nat) (s : Pq α) : Op α → Option (Option (Pq α × Out))
  | .pop => match popF c k s with
    | none => none
    | some none => some none
    | some (some (s, r)) => some (some (s, .res r))
  | o => some (step c s o)

theorem stepF_eq {k : Nat} {s : Pq α} {o : Op α} {r : Option (Pq α × Out)} (h : stepF c k s o = some r) : step c s o = r := by
  unfold stepF at h
  split at h
  · split at h
    · cases h
    · next h1 => cases h; simp only [step, popF_eq c h1]; rfl
    · next h1 => cases h; simp only [step, popF_eq c h1]; rfl
  · cases h; rfl

/-- A history, with the same bound. -/
def runF (k : Nat) (s : Pq α) : List (Op α) → Option (Option (Pq α × List Out))
  | [] => some (some (s, []))
  | o :: os => match stepF c k s o with
    | none => none
    | some none => some none
    | some (some (s, r)) => match runF k s os with
      | none => none
      | some none => some none
      | some (some (s, rs)) => some (some (s, r :: rs))

theorem runF_eq (k : Nat) : ∀ (os : List (Op α)) {s : Pq α} {r : Option (Pq α × List Out)}, runF c k s os = some r → run c s os = r := by
  intro os
  induction os with
  | nil => intro s r h; cases h; rfl
  | cons o os ih =>
    intro s r h
    rw [runF] at h
    rw [run]
    split at h
    · cases h
    · next h1 => cases h; rw [stepF_eq c h1]; rfl
    · next h1 =>
      rw [stepF_eq c h1]
      simp only [Option.bind_eq_bind, Option.bind_some]
      split at h
      · cases h
      · next h2 => cases h; rw [ih h2]; rfl
      · next h2 => cases h; rw [ih h2]; rfl

/-- Four structs with the value 100 in a queue with the least at the front; the last is lowered to 9 and the third to 10. -/
def lostOps : List (Op Nat) :=
  [.make 1 100 none none none none, .make 2 100 none none none none, .make 3 100 none none none none, .make 4 100 none none none none,
   .push 1, .push 2, .push 3, .push 4, .decrease 4 (fun _ => 9), .decrease 3 (fun _ => 10)]

theorem lost_reach : ∃ s outs st, run minCfg (init fun _ => none) lostOps = some (s, outs) ∧ Reach minCfg s st ∧ st.q = [4, 3, 2, 1] ∧
    st.val 1 = some 100 ∧ st.val 2 = some 100 ∧ st.val 3 = some 10 ∧ st.val 4 = some 9 := by
  have h := Reach.init (c := minCfg)
  have h1 := Reach.step (op := .make 1 100 none none none none) h (by show (1 : Nat) ∉ []; simp) trivial rfl
  have h2 := Reach.step (op := .make 2 100 none none none none) h1 (by show (2 : Nat) ∉ []; simp) trivial rfl
  have h3 := Reach.step (op := .make 3 100 none none none none) h2 (by show (3 : Nat) ∉ []; simp) trivial rfl
  have h4 := Reach.step (op := .make 4 100 none none none none) h3 (by show (4 : Nat) ∉ []; simp) trivial rfl
  have h5 := Reach.step (op := .push 1) h4 ⟨by show (1 : Nat) ∉ []; simp, by show (some 100 : Option Nat) ≠ none; simp⟩ trivial rfl
  have h6 := Reach.step (op := .push 2) h5 ⟨by show (2 : Nat) ∉ [1]; simp, by show (some 100 : Option Nat) ≠ none; simp⟩ trivial rfl
  have h7 := Reach.step (op := .push 3) h6 ⟨by show (3 : Nat) ∉ [2, 1]; simp, by show (some 100 : Option Nat) ≠ none; simp⟩ trivial rfl
  have h8 := Reach.step (op := .push 4) h7 ⟨by show (4 : Nat) ∉ [3, 2, 1]; simp, by show (some 100 : Option Nat) ≠ none; simp⟩ trivial rfl
  have h9 := Reach.step (op := .decrease 4 (fun _ => 9)) h8 ⟨by show (4 : Nat) ∈ [4, 3, 2, 1]; simp, by
    intro v hv
    have : (some 100 : Option Nat) = some v := hv
    cases this
    show natCmp 9 100 ≠ .grt
    simp [natCmp]⟩ (by intro _ hf; cases hf) rfl
  have h10 := Reach.step (op := .decrease 3 (fun _ => 10)) h9 ⟨by show (3 : Nat) ∈ [4, 3, 2, 1]; simp, by
    intro v hv
    have : (some 100 : Option Nat) = some v := hv
    cases this
    show natCmp 10 100 ≠ .grt
    simp [natCmp]⟩ (by intro _ hf; cases hf) rfl
  exact ⟨_, _, _, rfl, h10, rfl, rfl, rfl, rfl, rfl⟩

/-- **C19 fails** though no element was removed: the element at the front, lowered once more, tears others out of the queue.
The first `pop` removes it; then the front is an element of value 100, though one of value 10 is in the queue; after another
`pop` there is no front, though two elements are left. -/
theorem C19_pq_violated_lost : ∃ s st, Reach minCfg s st ∧ st.q = [4, 3, 2, 1] ∧ st.val 2 = some 100 ∧ st.val 3 = some 10 ∧
    okOp minCfg.cmp st (.decrease 4 (fun _ => 8)) ∧
    (run minCfg s [.decrease 4 (fun _ => 8), .front, .pop, .front, .pop, .size, .front]).map Prod.snd =
      some [.flag true, .ptr (some 4), .res .ok, .ptr (some 2), .res .ok, .num 2, .ptr none] := by
  obtain ⟨s, outs, st, h1, h2, h3, _, h5, h6, h7⟩ := lost_reach
  refine ⟨s, st, h2, h3, h5, h6, ⟨by rw [h3]; simp, fun v hv => ?_⟩, ?_⟩
  · rw [h7] at hv; cases hv
    show natCmp 8 9 ≠ .grt
    simp [natCmp]
  · have h : ((run minCfg (init fun _ => none) lostOps).bind fun p =>
        (runF minCfg 6 p.1 [.decrease 4 (fun _ => 8), .front, .pop, .front, .pop, .size, .front]).map (Option.map Prod.snd)) =
        some (some [.flag true, .ptr (some 4), .res .ok, .ptr (some 2), .res .ok, .num 2, .ptr none]) := by rfl
    rw [h1] at h
    simp only [Option.bind_some] at h
    rw [Option.map_eq_some_iff] at h
    obtain ⟨a, h8, h9⟩ := h
    rw [runF_eq _ _ _ h8, h9]

end CCC.Pq
