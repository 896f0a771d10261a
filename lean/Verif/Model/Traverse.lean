import Verif.Model.Messages
import Verif.Model.OrderedMap
import Verif.Model.FlatOrderedMap
import Verif.Model.RealtimeMapCost
import Verif.Model.FlatRealtimeMapCost
import Verif.Model.OrderedMultimap
/-
Iteration with every access to an element counted.
-/
namespace CCC

/-- The loop `for (p = first; p != stop; p = next(p))` of a user, with the work of the library's steps added up; as
`iterate` of `Verif/Spec/Iter.lean`. -/
def iterateN (next : Nat → Count Slot) (stop p : Slot) : Count (List Nat) :=
  if p = stop then pure []
  else match p with
    | none => liftM (none : Option (List Nat))
    | some a => do
      let q ← next a
      let r ← iterateN next stop q
      pure (a :: r)
partial_fixpoint

/-- The loop over a range a container has answered; as `overRange` of `Verif/Spec/Iter.lean`. -/
def overRangeN (next : Nat → Count Slot) (r : Slot × Slot) : Count (List Nat) :=
  iterateN next (Range.end_ (some ⟨r.1, r.2⟩)) (Range.begin_ (some ⟨r.1, r.2⟩))

/-- The same call `k` times in a row. -/
def againN {β : Type} (x : Count β) : Nat → Count Unit
  | 0 => pure ()
  | k + 1 => do
    let _ ← x
    againN x k

namespace Om
open CCC Rom
variable {α : Type}

/-- As `begin_`, src/ordered_map.c:340-344, 541-552. -/
def beginA (s : Om α) : Count Slot :=
  if s.sz = 0 then pure none
  else do
    let m ← Wavl.minMaxLoopN s.t s.t.root false
    pure (some m)
/-- As `rbegin`, src/ordered_map.c:346-350, 528-539. -/
def rbeginA (s : Om α) : Count Slot :=
  if s.sz = 0 then pure none
  else do
    let m ← Wavl.minMaxLoopN s.t s.t.root true
    pure (some m)
/-- As `next`, src/ordered_map.c:364-373, 554-577. -/
def nextA (s : Om α) (e : Nat) : Count Slot := do
  let n ← Wavl.nextN s.t e true
  pure (toSlot n)
/-- As `rnext`, src/ordered_map.c:375-385, 554-577. -/
def rnextA (s : Om α) (e : Nat) : Count Slot := do
  let n ← Wavl.nextN s.t e false
  pure (toSlot n)

end Om

namespace Fom
open CCC
variable {α : Type}

/-- As `begin_`: `ccc_fom_begin` (`dir = false`) and `ccc_fom_rbegin`. -/
def beginA (s : Fom α) (dir : Bool) : Count Slot :=
  if s.sz = 0 then pure none else do
    let m ← Wavl.minMaxFromN s.t s.t.root dir
    pure (some m)
/-- As `next`: src/flat_ordered_map.c:383-405, 830-853. -/
def nextA (s : Fom α) (e : Nat) (trav : Bool) : Count Slot :=
  if s.sz = 0 then pure none else do
    let n ← Wavl.nextN s.t e trav
    pure (some n)

end Fom

namespace Omm
open CCC
variable {α : Type}

/-- As `inRing`, src/ordered_multimap.c:715 and 1185-1186. -/
def inRingA (s : Omm α) (i : Nat) : Count Bool := do
  let p ← acc (branch s i false)
  if p = 0 then pure false
  else do
    let q ← acc (getBr s p true)
    pure (q == some i)

/-- As `hasDups`, src/ordered_multimap.c:1182-1187. -/
def hasDupsA (s : Omm α) (n : Nat) : Count Bool :=
  if n = 0 then pure false
  else do
    let h ← acc (parent s n)
    if h = 0 then pure false else inRingA s h

/-- As `isDupHead`, src/ordered_multimap.c:712-716. -/
def isDupHeadA (s : Omm α) (i : Nat) : Count Bool := if i = 0 then pure false else inRingA s i

/-- As `isDupHeadNext`, src/ordered_multimap.c:706-710. -/
def isDupHeadNextA (s : Omm α) (i : Nat) : Count Bool := do
  let n ← acc (branch s i true)
  let p ← acc (getPar s n)
  pure p.isSome

/-- As `parentR`, src/ordered_multimap.c:1189-1193. -/
def parentRA (s : Omm α) (n : Nat) : Count Nat := do
  let b ← hasDupsA s n
  if b then do
    let h ← acc (parent s n)
    acc (parent s h)
  else acc (parent s n)

/-- As `runDown`, src/ordered_multimap.c:676-677, 689-690, 783-785. -/
def runDownA (s : Omm α) (m : Nat) (d : Bool) : Count Nat := do
  let b ← acc (branch s m d)
  if b = 0 then pure m else runDownA s b d
partial_fixpoint

/-- As `begin_`: `ccc_omm_begin` (`d = true`, 345-353) and `ccc_omm_rbegin` (355-363), src/ordered_multimap.c:668-692. -/
def beginA (s : Omm α) (d : Bool) : Count Slot :=
  if s.sz = 0 then pure none
  else do
    let m ← runDownA s s.root d
    pure (some m)

/-- As `climb`, src/ordered_multimap.c:789-793. -/
def climbA (s : Omm α) (n : Nat) (trav : Bool) : Count Nat := do
  let p ← parentRA s n
  if p = 0 then pure p
  else do
    let b ← acc (getBr s p (!trav))
    if b = some n then pure p else climbA s p trav
partial_fixpoint

/-- As `nextTree`, src/ordered_multimap.c:770-794. -/
def nextTreeA (s : Omm α) (n : Nat) (trav : Bool) : Count Nat :=
  if n = 0 then liftM (none : Option Nat)
  else do
    let r ← parentRA s s.root
    if r ≠ 0 then liftM (none : Option Nat)
    else do
      let b ← acc (branch s n trav)
      if b ≠ 0 then runDownA s b (!trav) else climbA s n trav

/-- As `leadsTo`, src/ordered_multimap.c:759 and 763. -/
def leadsToA (s : Omm α) (child head : Nat) : Count Bool :=
  if child = 0 then pure false
  else do
    let h ← acc (getPar s child)
    pure (h == some head)

/-- As `nextTreeNode`, src/ordered_multimap.c:749-768. -/
def nextTreeNodeA (s : Omm α) (head : Nat) (trav : Bool) : Count Nat := do
  let p ← acc (parent s head)
  if p = 0 then nextTreeA s s.root trav
  else do
    let l ← acc (branch s p false)
    let a ← leadsToA s l head
    if a then nextTreeA s l trav
    else do
      let r ← acc (branch s p true)
      let b ← leadsToA s r head
      if b then nextTreeA s r trav
      else pure 0

/-- As `multimapNext`, src/ordered_multimap.c:718-747. -/
def multimapNextA (s : Omm α) (i : Nat) (trav : Bool) : Count Nat := do
  let p ← acc (getPar s i)
  if p = none then do
    let b ← isDupHeadNextA s i
    if b then do
      let h ← acc (branch s i true)
      nextTreeNodeA s h trav
    else acc (branch s i true)
  else do
    let b ← isDupHeadA s i
    if b then do
      let b ← isDupHeadNextA s i
      if b then nextTreeNodeA s i trav
      else acc (branch s i true)
    else do
      let b ← hasDupsA s i
      if b then acc (parent s i)
      else nextTreeA s i trav

/-- As `next`: `ccc_omm_next` (`trav = false`), src/ordered_multimap.c:365-376, and `ccc_omm_rnext`, 378-389. -/
def nextA (s : Omm α) (i : Nat) (trav : Bool) : Count Slot := do
  let n ← multimapNextA s i trav
  pure (toUser n)

end Omm

end CCC
