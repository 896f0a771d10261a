import Verif.Props.SplayAny
import Verif.Props.OrderedMultimap
/-
C81 fails for the ordered multimap: removals lose other elements, as in the ordered map, and `extract` and `update` count
an element as gone that they did not find.
-/
namespace CCC.Omm
open CCC MapSpec PtrMap MultiSpec

variable {α κ : Type} {key : α → κ}

/-- The stored elements, as the user's iteration loop finds them. -/
def seen (s : Omm α) : Option (List (Nat × α)) := do
  let p ← begin_ s
  let l ← iterate (fun a => next s a false) none p
  some (l.map (fun a => (a, s.val a)))

/-- What can happen: a call with the answers the comparison function gives during it, or the user overwrites the data of an
element through a pointer. -/
inductive Ev (α κ : Type) where
  | call (cmp : κ → κ → Cmp) (op : MultiSpec.Op α κ)
  | poke (a : Nat) (x : α)

/-- One event. -/
def stepEv (key : α → κ) (s : Omm α) : Ev α κ → Option (Omm α × Option (Out α))
  | .call cmp op => (step cmp key s op).map (fun r => (r.1, some r.2))
  | .poke a x => some (put s a x, none)

/-- A history of events. -/
def runEv (key : α → κ) (s : Omm α) : List (Ev α κ) → Option (Omm α × List (Option (Out α)))
  | [] => some (s, [])
  | ev :: evs => do
    let (s, o) ← stepEv key s ev
    let (s, os) ← runEv key s evs
    some (s, o :: os)

local macro "ev" : tactic => `(tactic| simp [splayTo, splay, link, hasDups, inRing, branch, parent, parentR, getBr, setBr, getPar, setPar,
  initNode, connectNewRoot, removeFromTree, takeRoot, clearNode, cmpAt, natCmp, upd, init, put, isEmpty, insertNode,
  find, insert, tryInsert, entry, removeEntry, erase, eraseNode, update, step, stepEv, seen, begin_, next, nextTree, multimapNext, isDupHead, toUser,
  Om.lessNe, view, unwrap, Ent.unwrap, Stat.occupied, Stat.vacant, size])
local macro "ev1" : tactic => `(tactic| first | rw [runEv] | rw [splayLoop] | rw [runDown] | rw [iterate] | rw [climb])

set_option maxHeartbeats 4000000 in
/-- C81 fails for the ordered multimap.  Three elements are inserted.  The key of the third is overwritten, and it is
removed under its new key, all with a lawful comparison: one of the other two is gone, though the size still counts it. -/
theorem C81_omm_violated (br : Nat → Bool → Slot) (par : Nat → Slot) :
    (do let (s, _) ← runEv id (init br par (fun _ => 0) false 0)
          [.call natCmp (.insert 1 1 none), .call natCmp (.insert 2 2 none), .call natCmp (.insert 3 3 none),
           .poke 3 0, .call natCmp (.removeEntry 0)]
        let l ← seen s
        some (size s, l)) = some (2, [(1, 1)]) := by
  repeat (ev1; ev)

set_option maxHeartbeats 4000000 in
/-- The same with a comparison function that lies in a single call. -/
theorem C81_omm_liar_violated (br : Nat → Bool → Slot) (par : Nat → Slot) :
    (do let (s, _) ← runEv id (init br par (fun _ => 0) false 0)
          [.call natCmp (.insert 1 1 none), .call natCmp (.insert 2 2 none), .call natCmp (.insert 3 3 none),
           .call Om.lessNe (.removeEntry 3)]
        let l ← seen s
        some (size s, l)) = some (2, [(1, 1)]) := by
  repeat (ev1; ev)

/-- `extract` of a stored element that the search does not find answers NULL and leaves it where it is, but the size no
longer counts it. -/
theorem C81_omm_extract_violated (br : Nat → Bool → Slot) (par : Nat → Slot) :
    (do let (s, os) ← runEv id (init br par (fun _ => 0) false 0)
          [.call natCmp (.insert 1 1 none), .call natCmp (.insert 2 2 none), .poke 1 9, .call natCmp (.extract 1)]
        let l ← seen s
        some (size s, l, os.getLast?)) = some (1, [(2, 2), (1, 9)], some (some (.ptr none))) := by
  repeat (ev1; ev)

/-- In the same way `update` answers that there is no such element and drops it from the size. -/
theorem C81_omm_update_violated (br : Nat → Bool → Slot) (par : Nat → Slot) :
    (do let (s, os) ← runEv id (init br par (fun _ => 0) false 0)
          [.call natCmp (.insert 1 1 none), .call natCmp (.insert 2 2 none), .poke 1 9,
           .call natCmp (.update 1 (fun _ => 5))]
        let l ← seen s
        some (size s, l, os.getLast?)) = some (1, [(2, 2), (1, 9)], some (some (.flag false))) := by
  repeat (ev1; ev)

end CCC.Omm
