import Verif.Props.PriorityQueue
import Verif.Props.OrderedMultimap
/-
What validation of the pairing heap and of the multimap does not notice: memories it accepts although elements are lost or
counted twice.
-/
namespace CCC.Pq
open CCC PrioQ

/-- Two structs that are siblings of each other; the queue starts with the first. -/
def twoRoots : Pq Nat := ⟨mem4 (some ⟨5, none, some 1, some 1, none⟩) (some ⟨7, none, some 0, some 0, none⟩) none none, some 0, 2⟩

/-- **C57 is violated** for the pairing heap.  Nothing in validation requires the root to be without siblings: a queue with
two elements is accepted whose front is not the greatest, and from which a single pop takes both elements while the
size still says one. -/
theorem C57_pq_violated : ∃ s : Pq Nat, validate maxCfg s = some true ∧
    (run maxCfg s [.size, .front, .pop, .size, .front]).map Prod.snd = some [.num 2, .ptr (some 0), .res .ok, .num 1, .ptr none] := by
  refine ⟨twoRoots, ?_, rfl⟩
  have e1 : linksLoop maxCfg twoRoots none 0 (some 1) = some true := by
    rw [linksLoop.eq_def]; rfl
  have e2 : linksLoop maxCfg twoRoots none 0 (some 0) = some true := by
    rw [linksLoop.eq_def]; exact e1
  have e3 : sizeLoop twoRoots 0 1 1 = some 2 := by rw [sizeLoop.eq_def]; rfl
  have e4 : sizeLoop twoRoots 0 0 0 = some 2 := by rw [sizeLoop.eq_def]; exact e3
  simp [validate, hasValidLinks, traversalSize, twoRoots] at *
  simp [e2, e4, mem4_0]

/-- A root with two children, each of which names one and the same ring of two elements as its children. -/
def shared : Pq Nat :=
  ⟨fun i => if i = 0 then some ⟨9, some 1, some 0, some 0, none⟩
    else if i = 1 then some ⟨8, some 3, some 2, some 2, some 0⟩
    else if i = 2 then some ⟨7, some 4, some 1, some 1, some 0⟩
    else if i = 3 then some ⟨6, none, some 4, some 4, some 1⟩
    else if i = 4 then some ⟨5, none, some 3, some 3, some 2⟩
    else none, some 0, 7⟩

/-- **C57 is violated** for the pairing heap: five structs are accepted as seven elements. -/
theorem C57_pq_violated_shared : validate maxCfg shared = some true ∧ size shared = 7 ∧ ∀ i, 5 ≤ i → shared.mem i = none := by
  refine ⟨?_, rfl, ?_⟩
  · have a1 : linksLoop maxCfg shared (some 1) 3 (some 4) = some true := by rw [linksLoop.eq_def]; rfl
    have a2 : linksLoop maxCfg shared (some 1) 3 (some 3) = some true := by rw [linksLoop.eq_def]; exact a1
    have b1 : linksLoop maxCfg shared (some 2) 4 (some 3) = some true := by rw [linksLoop.eq_def]; rfl
    have b2 : linksLoop maxCfg shared (some 2) 4 (some 4) = some true := by rw [linksLoop.eq_def]; exact b1
    have c1 : linksLoop maxCfg shared (some 0) 1 (some 2) = some true := by
      rw [linksLoop.eq_def]; simp [shared, maxCfg, natCmp] at b2 ⊢; simp [b2]
    have c2 : linksLoop maxCfg shared (some 0) 1 (some 1) = some true := by
      rw [linksLoop.eq_def]; simp [shared, maxCfg, natCmp] at a2 c1 ⊢; simp [a2, c1]
    have d1 : linksLoop maxCfg shared none 0 (some 0) = some true := by
      rw [linksLoop.eq_def]; simp [shared, maxCfg, natCmp] at c2 ⊢; simp [c2]
    have s1 : sizeLoop shared 3 4 1 = some 2 := by rw [sizeLoop.eq_def]; rfl
    have s2 : sizeLoop shared 3 3 0 = some 2 := by rw [sizeLoop.eq_def]; exact s1
    have s3 : sizeLoop shared 4 3 1 = some 2 := by rw [sizeLoop.eq_def]; rfl
    have s4 : sizeLoop shared 4 4 0 = some 2 := by rw [sizeLoop.eq_def]; exact s3
    have s5 : sizeLoop shared 1 2 3 = some 6 := by
      rw [sizeLoop.eq_def]; simp [shared] at s4 ⊢; simp [s4]
    have s6 : sizeLoop shared 1 1 0 = some 6 := by
      rw [sizeLoop.eq_def]; simp [shared] at s2 s5 ⊢; simp [s2, s5]
    have s7 : sizeLoop shared 0 0 0 = some 7 := by
      rw [sizeLoop.eq_def]; simp [shared] at s6 ⊢; simp [s6]
    simp [validate, hasValidLinks, traversalSize, shared] at d1 s7 ⊢
    simp [d1, s7]
  · intro i hi
    simp only [shared]
    rw [if_neg (by omega), if_neg (by omega), if_neg (by omega), if_neg (by omega), if_neg (by omega)]

end CCC.Pq

namespace CCC.Omm
open CCC MultiSpec

/-- A root with two children that both name the struct 4 as their duplicate. -/
def sharedDup : Omm (Nat × Nat) where
  br := fun a d => if a = 1 then (if d then some 3 else some 2) else if a = 4 then some 4 else some 0
  par := fun a => if a = 1 then some 0 else if a = 2 then some 4 else if a = 3 then some 4 else if a = 4 then some 1 else some 0
  live := fun a => decide (a < 5)
  own := fun _ => false
  val := fun a => if a = 1 then (2, 0) else if a = 2 then (1, 0) else if a = 3 then (3, 0) else (3, 1)
  root := 1
  sz := 5
  alloc := false
  off := 0

/-- **C57 is violated** for the multimap: a duplicate shared by two keys is accepted.  The size says five, there are four
structs, and the iteration visits two of them. -/
theorem C57_omm_violated : validate natCmp Prod.fst sharedDup = some true ∧ size sharedDup = 5 ∧
    (do let p ← begin_ sharedDup; iterate (fun a => next sharedDup a false) none p) = some [3, 4] := by
  refine ⟨?_, rfl, ?_⟩
  · have z : ∀ l h, areSubtreesValid natCmp Prod.fst sharedDup l (some 0) h = some true := by
      intro l h; rw [areSubtreesValid.eq_def]; rfl
    have v2 : areSubtreesValid natCmp Prod.fst sharedDup 0 (some 2) 1 = some true := by
      rw [areSubtreesValid.eq_def]; simp [sharedDup, cmpAt, natCmp, getBr] at z ⊢; simp [z]
    have v3 : areSubtreesValid natCmp Prod.fst sharedDup 1 (some 3) 0 = some true := by
      rw [areSubtreesValid.eq_def]; simp [sharedDup, cmpAt, natCmp, getBr] at z ⊢; simp [z]
    have v1 : areSubtreesValid natCmp Prod.fst sharedDup 0 (some 1) 0 = some true := by
      rw [areSubtreesValid.eq_def]; simp [sharedDup, cmpAt, natCmp, getBr] at v2 v3 ⊢; simp [v2, v3]
    have p0 : ∀ q, isStoringParent sharedDup q 0 = some true := by intro q; rw [isStoringParent.eq_def]; rfl
    have p2 : isStoringParent sharedDup 1 2 = some true := by
      rw [isStoringParent.eq_def]
      simp [sharedDup, childTracksParent, hasDups, parent, getPar, inRing, branch, getBr] at p0 ⊢; simp [p0]
    have p3 : isStoringParent sharedDup 1 3 = some true := by
      rw [isStoringParent.eq_def]
      simp [sharedDup, childTracksParent, hasDups, parent, getPar, inRing, branch, getBr] at p0 ⊢; simp [p0]
    have p1 : isStoringParent sharedDup 0 1 = some true := by
      rw [isStoringParent.eq_def]
      simp [sharedDup, childTracksParent, hasDups, parent, getPar, inRing, branch, getBr] at p2 p3 ⊢; simp [p2, p3]
    have c1 : countLoop sharedDup 4 4 1 = some 1 := by rw [countLoop.eq_def]; rfl
    have r0 : recursiveSize sharedDup 0 = some 0 := by rw [recursiveSize.eq_def]; rfl
    have r2 : recursiveSize sharedDup 2 = some 2 := by
      rw [recursiveSize.eq_def]
      simp [sharedDup, countDups, hasDups, parent, getPar, inRing, branch, getBr] at c1 r0 ⊢; simp [c1, r0]
    have r3 : recursiveSize sharedDup 3 = some 2 := by
      rw [recursiveSize.eq_def]
      simp [sharedDup, countDups, hasDups, parent, getPar, inRing, branch, getBr] at c1 r0 ⊢; simp [c1, r0]
    have r1 : recursiveSize sharedDup 1 = some 5 := by
      rw [recursiveSize.eq_def]
      simp [sharedDup, countDups, hasDups, parent, getPar, inRing, branch, getBr] at r2 r3 ⊢; simp [r2, r3]
    simp only [validate, show sharedDup.root = 1 from rfl, v1, p1, r1]
    rfl
  · have d3 : runDown sharedDup 3 true = some 3 := by rw [runDown.eq_def]; rfl
    have d1 : runDown sharedDup 1 true = some 3 := by rw [runDown.eq_def]; exact d3
    have hb : begin_ sharedDup = some (some 3) := by
      simp only [begin_, show sharedDup.root = 1 from rfl, d1]; rfl
    have k1 : climb sharedDup 1 false = some 0 := by rw [climb.eq_def]; rfl
    have k2 : climb sharedDup 2 false = some 0 := by rw [climb.eq_def]; exact k1
    have n3 : next sharedDup 3 false = some (some 4) := rfl
    have n4 : next sharedDup 4 false = some none := by
      have : nextTree sharedDup 2 false = some 0 := by simp only [nextTree]; exact k2
      have t : multimapNext sharedDup 4 false = nextTree sharedDup 2 false := rfl
      simp [next, t, this, toUser]
    simp only [hb, Option.bind_eq_bind, Option.bind_some]
    rw [iterate.eq_def]
    simp only [n3, Option.bind_eq_bind, Option.bind_some]
    rw [iterate.eq_def]
    simp only [n4, Option.bind_eq_bind, Option.bind_some]
    rw [iterate.eq_def]
    rfl

end CCC.Omm
