import Verif.Spec.PtrMapAny
import Verif.Spec.FlatMapAny
import Verif.Props.OrderedMap
import Verif.Props.FlatOrderedMap
/-
C81 fails for the splay tree maps: when the comparison function lies about an element that is being removed, or the key
of an element was overwritten before its removal, other elements are lost.

`remove_from_tree` splays the left subtree of the removed element for its key and then overwrites the right link of the
new root, relying on the key being greater than everything there.
-/
namespace CCC.Om
open CCC MapSpec PtrMap

variable {α κ : Type} {key : α → κ}

/-- The stored elements, as the user's iteration loop finds them. -/
def seen (s : Om α) : Option (List (Nat × α)) := do
  let p ← begin_ s
  let l ← iterate (next s) end_ p
  some (l.map (fun a => (a, s.val a)))

/-- One event. -/
def stepEv (key : α → κ) (s : Om α) : Ev α κ → Option (Om α × Option (Out α))
  | .call cmp op => (step cmp key s op).map (fun r => (r.1, some r.2))
  | .poke a x => some (Rom.put s a x, none)

/-- A history of events. -/
def runEv (key : α → κ) (s : Om α) : List (Ev α κ) → Option (Om α × List (Option (Out α)))
  | [] => some (s, [])
  | ev :: evs => do
    let (s, o) ← stepEv key s ev
    let (s, os) ← runEv key s evs
    some (s, o :: os)

/-- A comparison function that calls every other key less. -/
def lessNe (a b : Nat) : Cmp := if a = b then .eql else .les

local macro "ev" : tactic => `(tactic| simp [splayTo, Splay.splay, Splay.link, Splay.initNode, Splay.connectNewRoot, Splay.removeFromTree,
  Links.getBr, Links.setBr, Links.getPar, Links.setPar, Links.setRoot, cmpAt, natCmp, upd, req, empty, init, Rom.init, Rom.put,
  find, allocInsert, tryInsert, entry, removeEntry, erase, step, stepEv, seen, begin_, next, end_, Wavl.next, Rom.toSlot, lessNe,
  Stat.occupied, Stat.vacant, size])
local macro "ev1" : tactic => `(tactic| first | rw [runEv] | rw [Splay.splayLoop] | rw [Wavl.minMaxLoop] | rw [iterate] |
  rw [Wavl.climb])

/-- C81 fails for the ordered map.  Three elements are inserted.  The key of the third is overwritten, and it is removed
under its new key, all with a lawful comparison: one of the other two is gone, though the size still counts it. -/
theorem C81_om_violated :
    (do let (s, _) ← runEv id (init (fun _ => 0) false)
          [.call natCmp (.tryInsert 1 1 none), .call natCmp (.tryInsert 2 2 none), .call natCmp (.tryInsert 3 3 none),
           .poke 3 0, .call natCmp (.removeEntry 0)]
        let l ← seen s
        some (size s, l)) = some (2, [(1, 1)]) := by
  repeat (ev1; ev)

/-- The same with a comparison function that lies in a single call. -/
theorem C81_om_liar_violated :
    (do let (s, _) ← runEv id (init (fun _ => 0) false)
          [.call natCmp (.tryInsert 1 1 none), .call natCmp (.tryInsert 2 2 none), .call natCmp (.tryInsert 3 3 none),
           .call lessNe (.removeEntry 3)]
        let l ← seen s
        some (size s, l)) = some (2, [(1, 1)]) := by
  repeat (ev1; ev)

end CCC.Om

namespace CCC.Fom
open CCC MapSpec FlatMap
open CCC.Frm (Junk)

variable {α κ : Type} {key : α → κ}

/-- The stored elements, as the user's iteration loop finds them. -/
def seen (s : Fom α) : Option (List (Nat × α)) := do
  let p ← begin_ s false
  let l ← iterate (next s · true) (end_ s) p
  some (l.map (fun a => (a, s.val a)))

/-- One event. -/
def stepEv (key : α → κ) (s : Fom α) : Ev α κ (Junk α) → Option (Fom α × Option (Out α))
  | .call cmp op => (step cmp key s op).map (fun r => (r.1, some r.2))
  | .poke a x => some ({ s with val := upd s.val a x }, none)

/-- A history of events. -/
def runEv (key : α → κ) (s : Fom α) : List (Ev α κ (Junk α)) → Option (Fom α × List (Option (Out α)))
  | [] => some (s, [])
  | ev :: evs => do
    let (s, o) ← stepEv key s ev
    let (s, os) ← runEv key s evs
    some (s, o :: os)

local macro "ev" : tactic => `(tactic| simp [splayTo, Splay.splay, Splay.link, Splay.initNode, Splay.connectNewRoot, Splay.removeFromTree,
  Links.getBr, Links.setBr, Links.getPar, Links.setPar, Links.setRoot, cmpAt, natCmp, upd, req, init, Frm.init, Frm.inUse, Frm.setSize,
  Frm.bufAllocBack, Frm.setVal, allocBack, swapAndPop, maybeAllocInsert, insertNode, isEmpty,
  find, tryInsert, entry, removeEntry, erase, step, stepEv, seen, begin_, next, end_, Wavl.next, Wavl.minMaxFrom, Om.lessNe,
  Stat.occupied, Stat.vacant, size])
local macro "ev1" : tactic => `(tactic| first | rw [runEv] | rw [Splay.splayLoop] | rw [Wavl.minMaxLoop] | rw [iterate] |
  rw [Wavl.climb])

/-- C81 fails for the flat ordered map in the same way. -/
theorem C81_fom_violated (j : Junk Nat) :
    (do let (s, _) ← runEv id (init j 8 false)
          [.call natCmp (.tryInsert 1 none), .call natCmp (.tryInsert 2 none), .call natCmp (.tryInsert 3 none),
           .poke 3 0, .call natCmp (.removeEntry 0)]
        let l ← seen s
        some (size s, l)) = some (2, [(1, 1)]) := by
  repeat (ev1; ev)

/-- The same with a comparison function that lies in a single call. -/
theorem C81_fom_liar_violated (j : Junk Nat) :
    (do let (s, _) ← runEv id (init j 8 false)
          [.call natCmp (.tryInsert 1 none), .call natCmp (.tryInsert 2 none), .call natCmp (.tryInsert 3 none),
           .call Om.lessNe (.removeEntry 3)]
        let l ← seen s
        some (size s, l)) = some (2, [(1, 1)]) := by
  repeat (ev1; ev)

end CCC.Fom
