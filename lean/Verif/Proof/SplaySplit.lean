import Verif.Model.SplayCost
import Verif.Proof.Count
import Verif.Proof.Tree
/-
What the loop of `splay` does, on trees.  `Split c X P x k n`: the tree `X` becomes the two trees `P true` (smaller keys) and
`P false` (greater keys) and the root `x`, with `n` comparisons.
-/
namespace CCC.Splay
open CCC Tree Links

/-- The comparison that sends the search in direction `d`. -/
def dirCmp (d : Bool) : Cmp := if d then .grt else .les

def setP (P : Bool → Tree) (d : Bool) (t : Tree) : Bool → Tree := fun e => if e = d then t else P e

inductive Split (c : Nat → Cmp) : Tree → (Bool → Tree) → Nat → Nat → Nat → Prop
  | found {i k l r} : c i = .eql → Split c (node i k l r) (fun d => if d then l else r) i k 1
  | last {d i k A} : c i = dirCmp d → Split c (nd d i k nil A) (setP (fun _ => nil) d A) i k 1
  | zzLast {d i k j m A B} : c i = dirCmp d → c j = dirCmp d →
      Split c (nd d i k (nd d j m nil B) A) (setP (fun _ => nil) d (nd d i k B A)) j m 2
  | zz {d i k j m A B Z P x kx n} : c i = dirCmp d → c j = dirCmp d → Z ≠ nil → Split c Z P x kx n →
      Split c (nd d i k (nd d j m Z B) A) (setP P d (nd d j m (P d) (nd d i k B A))) x kx (n + 2)
  | zig {d i k A Y P x kx n} : c i = dirCmp d → Y ≠ nil → c Y.rootId ≠ dirCmp d → Split c Y P x kx n →
      Split c (nd d i k Y A) (setP P d (nd d i k (P d) A)) x kx (n + 2)

/-! The counter is the only difference between the counted functions and the functions. -/

open Lean.Order in
theorem splayLoopN_er (c : Nat → Option Cmp) : ∀ (t : Links) (lr : Bool → Nat) (root : Nat),
    Er (splayLoopN t c lr root) (splayLoop t c lr root) := by
  apply splayLoopN.fixpoint_induct (motive := fun f => ∀ t lr root, Er (f t lr root) (splayLoop t c lr root))
  · refine admissible_pi_apply (P := fun t (g : (Bool → Nat) → Nat → Count (Links × (Bool → Nat) × Nat)) =>
      ∀ lr root, Er (g lr root) (splayLoop t c lr root)) (fun t => ?_)
    refine admissible_pi_apply (P := fun lr (g : Nat → Count (Links × (Bool → Nat) × Nat)) =>
      ∀ root, Er (g root) (splayLoop t c lr root)) (fun lr => ?_)
    refine admissible_pi_apply (P := fun root (g : Count (Links × (Bool → Nat) × Nat)) =>
      Er g (splayLoop t c lr root)) (fun root => ?_)
    exact Er.admissible _
  · intro f ih t lr root
    rw [splayLoop]
    refine (Er.cnt _ _).bind (fun rc => .ite (.pure _) ?_)
    refine (Er.lift _).bind (fun child => .ite (.pure _) ?_)
    refine (Er.cnt _ _).bind (fun cc => .ite ?_ ?_)
    · refine (Er.lift _).bind (fun b => (Er.lift _).bind (fun t => (Er.lift _).bind (fun t => (Er.lift _).bind
        (fun nx => .ite (.pure _) ?_))))
      exact (Er.lift _).bind (fun t => (Er.lift _).bind (fun nx => ih _ _ _))
    · exact (Er.lift _).bind (fun t => (Er.lift _).bind (fun nx => ih _ _ _))

theorem splayN_er (t : Links) (c : Nat → Option Cmp) (root : Nat) : Er (splayN t c root) (splay t c root) := by
  refine (Er.lift _).bind (fun _ => (Er.lift _).bind (fun _ => (Er.lift _).bind (fun _ => (splayLoopN_er _ _ _ _).bind ?_)))
  rintro ⟨t, lr, root⟩
  exact (Er.lift _).bind (fun _ => (Er.lift _).bind (fun _ => (Er.lift _).bind (fun _ => (Er.lift _).bind (fun _ =>
    (Er.lift _).bind (fun _ => (Er.lift _).bind (fun _ => (Er.lift _).bind (fun _ => (Er.lift _).bind (fun _ =>
    (Er.lift _).bind (fun _ => .pure _)))))))))

theorem removeFromTreeN_er (t : Links) (c : Nat → Option Cmp) (ret : Nat) :
    Er (removeFromTreeN t c ret) (removeFromTree t c ret) := by
  refine (Er.lift _).bind (fun l => .ite ((Er.lift _).bind (fun r => .lift _)) ((splayN_er _ _ _).bind ?_))
  rintro ⟨t, root⟩
  exact (Er.lift _).bind (fun _ => .lift _)

theorem equalRangeN_er (t : Links) (cb ce : Nat → Option Cmp) (trav : Bool) :
    Er (equalRangeN t cb ce trav) (equalRange t cb ce trav) := by
  refine (splayN_er _ _ _).bind ?_
  rintro ⟨t, b⟩
  refine (Er.cnt _ _).bind (fun q => (Er.lift _).bind (fun b => (splayN_er _ _ _).bind ?_))
  rintro ⟨t, e⟩
  exact (Er.cnt _ _).bind (fun q => (Er.lift _).bind (fun b => .pure _))

/-- The loop with the counter in view. -/
theorem splayLoopN_eq (t : Links) (c : Nat → Option Cmp) (lr : Bool → Nat) (root n : Nat) :
    splayLoopN t c lr root n = (do
      let rc ← c root
      if rc = .eql then some ((t, lr, root), n + 1) else
      let dir := decide (rc = .grt)
      let child ← t.getBr root dir
      if child = 0 then some ((t, lr, root), n + 1) else
      let cc ← c child
      if cc ≠ .eql ∧ dir = decide (cc = .grt) then do
        let b ← t.getBr child (!dir)
        let t ← link t root dir b
        let t ← link t child (!dir) root
        let nx ← t.getBr child dir
        if nx = 0 then some ((t, lr, child), n + 1 + 1)
        else do
          let t ← link t (lr (!dir)) dir child
          let nx ← t.getBr child dir
          splayLoopN t c (fun b => if b = !dir then child else lr b) nx (n + 1 + 1)
      else do
        let t ← link t (lr (!dir)) dir root
        let nx ← t.getBr root dir
        splayLoopN t c (fun b => if b = !dir then root else lr b) nx (n + 1 + 1)) := by
  have st : ∀ {α : Type} (p : Prop) [Decidable p] (x y : Count α) (n : Nat), (if p then x else y) n = if p then x n else y n := by
    intro α p _ x y n; split <;> rfl
  rw [splayLoopN]
  simp only [Count.bind_run, Count.cnt_run, Count.lift_run, st, Count.pure_run, Option.bind_eq_bind,
    Option.bind_map, Function.comp_def]

end CCC.Splay
