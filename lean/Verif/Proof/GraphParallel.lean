import Verif.Proof.Graph
/-
Evaluation of the search on given graphs: variants of the functions with loops that stop after a given number of rounds.
The outer `none` means that the rounds did not suffice.
-/
namespace CCC.Pq
open CCC PrioQ

variable {α : Type} (c : Cfg α)

/-- One round of the loop of `delete_min`. -/
def pairStep (s : Pq α) (eldest acc cur : Slot) : Option ((Pq α × Slot × Slot) ⊕ (Pq α × Slot × Slot)) :=
  if cur = eldest then some (.inl (s, acc, cur))
  else do
    let a ← cur
    let e ← s.mem a
    if e.next = eldest then some (.inl (s, acc, cur))
    else do
      let n ← e.next
      let en ← s.mem n
      let nextCur := en.next
      let s ← s.mod (some n) (fun x => { x with prev := none, next := none })
      let s ← s.mod (some a) (fun x => { x with prev := none, next := none })
      let (s, m) ← merge c s (some a) (some n)
      let (s, acc) ← merge c s acc m
      some (.inr (s, acc, nextCur))

theorem pairLoop_step (s : Pq α) (eldest acc cur : Slot) : pairLoop c s eldest acc cur =
    (pairStep c s eldest acc cur).bind (fun | .inl r => some r | .inr (s, acc, cur) => pairLoop c s eldest acc cur) := by
  rw [pairLoop.eq_def, pairStep]
  split
  · rfl
  · simp only [Option.bind_eq_bind, Option.bind_assoc]
    refine congrArg _ (funext fun a => ?_)
    refine congrArg _ (funext fun e => ?_)
    split
    · rfl
    · simp only [Option.bind_assoc, Option.bind_some]

def pairF : Nat → Pq α → Slot → Slot → Slot → Option (Option (Pq α × Slot × Slot))
  | 0, _, _, _, _ => none
  | k + 1, s, eldest, acc, cur =>
    match pairStep c s eldest acc cur with
    | none => some none
    | some (.inl r) => some (some r)
    | some (.inr (s, acc, cur)) => pairF k s eldest acc cur

theorem pairF_eq : ∀ (k : Nat) {s : Pq α} {eldest acc cur : Slot} {r : Option (Pq α × Slot × Slot)},
    pairF c k s eldest acc cur = some r → pairLoop c s eldest acc cur = r := by
  intro k
  induction k with
  | zero => intro _ _ _ _ _ h; cases h
  | succ k ih =>
    intro s eldest acc cur r h
    rw [pairLoop_step]
    rw [pairF] at h
    split at h
    · next h1 => cases h; rw [h1]; rfl
    · next h1 => cases h; rw [h1]; rfl
    · next h1 => rw [h1]; exact ih h

def deleteMinF (k : Nat) (s : Pq α) (root : Nat) : Option (Option (Pq α × Slot)) :=
  match s.mem root with
  | none => some none
  | some e => match e.left with
    | none => some (some (s, none))
    | some l => match s.mem l with
      | none => some none
      | some el => match el.next with
        | none => some none
        | some eldest => match s.mem eldest with
          | none => some none
          | some ee => match pairF c k s (some eldest) (some eldest) ee.next with
            | none => none
            | some none => some none
            | some (some (s, acc, cur)) => some (do
              let (s, root) ← (if cur ≠ some eldest then merge c s acc cur else some (s, acc))
              let s ← s.mod root (fun x => { x with prev := root, next := root })
              let s ← s.mod root (fun x => { x with par := none })
              some (s, root))

theorem deleteMinF_eq {k : Nat} {s : Pq α} {root : Nat} {r : Option (Pq α × Slot)} (h : deleteMinF c k s root = some r) :
    deleteMin c s root = r := by
  unfold deleteMinF at h
  unfold deleteMin
  split at h
  · next h1 => cases h; rw [h1]; rfl
  · next h1 =>
    rw [h1]
    simp only [Option.bind_eq_bind, Option.bind_some]
    split at h
    · next h2 => cases h; rw [h2]
    · next h2 =>
      rw [h2]
      simp only
      split at h
      · next h3 => cases h; rw [h3]; rfl
      · next h3 =>
        rw [h3]
        simp only [Option.bind_some]
        split at h
        · next h4 => cases h; rw [h4]; rfl
        · next h4 =>
          rw [h4]
          simp only [Option.bind_some]
          split at h
          · next h5 => cases h; rw [h5]; rfl
          · next h5 =>
            rw [h5]
            simp only [Option.bind_some]
            split at h
            · cases h
            · next h6 => cases h; rw [pairF_eq c _ h6]; rfl
            · next h6 => cases h; rw [pairF_eq c _ h6]; rfl

def popF (k : Nat) (s : Pq α) : Option (Option (Pq α × Res)) :=
  match s.root with
  | none => some (some (s, .inputErr))
  | some p => match deleteMinF c k s p with
    | none => none
    | some none => some none
    | some (some (s, r)) => some (do
      let s : Pq α := { s with root := r, sz := s.sz - 1 }
      let s ← clearNode s p
      some (if c.alloc then free s p else s, .ok))

theorem popF_eq {k : Nat} {s : Pq α} {r : Option (Pq α × Res)} (h : popF c k s = some r) : pop c s = r := by
  unfold popF at h
  unfold pop
  split at h
  · next h1 => cases h; rw [h1]
  · next h1 =>
    rw [h1]
    simp only
    split at h
    · cases h
    · next h2 => cases h; rw [deleteMinF_eq c h2]; rfl
    · next h2 => cases h; rw [deleteMinF_eq c h2]; rfl

end CCC.Pq

namespace CCC.Graph
open CCC

/-- The search, up to the moment the destination is found. -/
def searchF (g : G) (dst : Nat) : Nat → Pq.Pq Vtx → Option (Option (Nat × List (Nat × Nat)))
  | 0, _ => none
  | k + 1, s =>
    if Pq.isEmpty s then some (some (intMax, []))
    else match Pq.front s with
      | none => some none
      | some u => match Pq.popF cfg (k + 1) s with
        | none => none
        | some none => some none
        | some (some (s, _)) => match s.mem u with
          | none => some none
          | some eu =>
            if eu.val.name = dst ∨ eu.val.dist = intMax then
              if eu.val.dist ≠ intMax then none else some (some (eu.val.dist, []))
            else match relax u s (g.edges eu.val.name) with
              | none => some none
              | some s => searchF g dst k s

theorem searchF_eq (g : G) (dst : Nat) : ∀ (k : Nat) {s : Pq.Pq Vtx} {r : Option (Nat × List (Nat × Nat))},
    searchF g dst k s = some r → search g dst s = r := by
  intro k
  induction k with
  | zero => intro _ _ h; cases h
  | succ k ih =>
    intro s r h
    rw [search.eq_def]
    rw [searchF] at h
    split at h
    · next h1 => cases h; rw [if_pos h1]
    · next h1 =>
      rw [if_neg h1]
      split at h
      · next h2 => cases h; rw [h2]; rfl
      · next h2 =>
        rw [h2]
        simp only [Option.bind_eq_bind, Option.bind_some]
        split at h
        · cases h
        · next h3 => cases h; rw [Pq.popF_eq cfg h3]; rfl
        · next h3 =>
          rw [Pq.popF_eq cfg h3]
          simp only [Option.bind_some]
          split at h
          · next h4 => cases h; rw [h4]; rfl
          · next h4 =>
            rw [h4]
            simp only [Option.bind_some]
            split at h
            · next h5 =>
              rw [if_pos h5]
              split at h
              · cases h
              · next h6 => cases h; rw [if_neg h6]
            · next h5 =>
              rw [if_neg h5]
              split at h
              · next h6 => cases h; rw [h6]; rfl
              · next h6 => rw [h6]; exact ih h

end CCC.Graph
