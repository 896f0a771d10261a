import Verif.Proof.MultiSplay
/-
Iterating over the tree nodes of the multimap.
-/
namespace CCC.Omm
open CCC Links Tree Splay Wavl

set_option linter.unusedSimpArgs false

variable {α : Type} {D : Nat → List Nat} {N : Nat → Prop} {H : Omm α} {h : Links}

theorem runDown_sim (w : Rel D N H h) (b : Nat) (d : Bool) (r : Nat) (e : minMaxLoop h b d = some r) (b0 : b ≠ 0)
    (bl : h.live b = true) : runDown H b d = some r := by
  have key := minMaxLoop.partial_correctness h d
    (fun b r => b ≠ 0 → h.live b = true → runDown H b d = some r) ?_ b r e b0 bl
  · exact key
  · intro f ih b r hr b0 bl
    rw [runDown, w.branch bl]
    simp only [Links.getBr_live bl, Option.bind_eq_bind, Option.bind_some] at hr ⊢
    by_cases hz : h.br b d = 0
    · rw [if_pos hz] at hr ⊢; exact hr
    · rw [if_neg hz] at hr ⊢
      exact ih _ _ hr hz (w.brl b d bl b0)

theorem climb_sim (w : Rel D N H h) (n : Nat) (trav : Bool) (r : Nat) (e : Wavl.climb h n trav = some r) (n0 : n ≠ 0)
    (nl : h.live n = true) : Omm.climb H n trav = some r := by
  have key := Wavl.climb.partial_correctness h trav
    (fun n r => n ≠ 0 → h.live n = true → Omm.climb H n trav = some r) ?_ n r e n0 nl
  · exact key
  · intro f ih n r hr n0 nl
    rw [Omm.climb, w.parentR nl]
    simp only [Links.getPar_live nl, Option.bind_eq_bind, Option.bind_some] at hr ⊢
    by_cases hz : h.par n = 0
    · rw [if_pos hz] at hr ⊢; exact hr
    · have pl := w.parl n nl n0
      rw [if_neg hz] at hr ⊢
      simp only [Links.getBr_live pl, w.getBr pl, Option.bind_some] at hr ⊢
      by_cases hb : h.br (h.par n) (!trav) = n
      · rw [if_pos hb] at hr; rw [if_pos (by rw [hb])]; exact hr
      · rw [if_neg hb] at hr; rw [if_neg (by simp [hb])]
        exact ih _ _ hr hz pl

theorem nextTree_sim (w : Rel D N H h) (n : Nat) (trav : Bool) (r : Nat) (e : Wavl.next h n trav = some r) (n0 : n ≠ 0)
    (nl : h.live n = true) (rl : h.live h.root = true) : nextTree H n trav = some r := by
  unfold nextTree
  rw [if_neg n0, w.root, w.parentR rl]
  simp only [Wavl.next, if_neg n0, Links.getPar_live rl, Option.bind_eq_bind, Option.bind_some, req] at e ⊢
  by_cases hp : h.par h.root = 0
  · simp only [hp, BEq.rfl, if_true, Option.bind_some, Links.getBr_live nl] at e
    rw [if_neg (by simp [hp]), w.branch nl]
    simp only [Option.bind_some]
    by_cases hb : h.br n trav = 0
    · rw [if_neg (by simp [hb])] at e ⊢
      exact climb_sim w n trav r e n0 nl
    · rw [if_pos hb] at e ⊢
      exact runDown_sim w _ _ r e hb (w.brl n trav nl n0)
  · simp [hp] at e

theorem nextTree_whole {T : Tree} (R : Rel D N H h) (w : Whole h [] T) {pre post : List Nat} {n : Nat}
    (e : T.ids = pre ++ n :: post) (trav : Bool) :
    nextTree H n trav = some (if trav then post.headD 0 else pre.getLastD 0) := by
  have hn : n ∈ T.ids := by rw [e]; simp
  have hroot : h.root = T.rootId := w.ctx
  exact nextTree_sim R n trav _ (next_whole w e trav) (fun hh => w.tree.ne_zero (hh ▸ hn)) (w.tree.live n hn)
    (by rw [hroot]; exact w.tree.root_live w.live0)

theorem runDown_whole {T : Tree} (R : Rel D N H h) (w : Whole h [] T) (hne : T ≠ nil) (d : Bool) :
    runDown H H.root d = some (endOf d T.ids) := by
  have hroot : h.root = T.rootId := w.ctx
  rw [R.root, hroot]
  refine runDown_sim R _ _ _ (minMaxLoop_ids w.tree hne) ?_ (w.tree.root_live w.live0)
  exact fun hh => hne ((rootId_ne w.tree).1 hh)

end CCC.Omm
