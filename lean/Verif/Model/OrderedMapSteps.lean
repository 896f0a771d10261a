import Verif.Model.OrderedMap
import Verif.Model.Count
/-
`ccc_om_begin` and `ccc_om_rbegin` with the links they follow counted.
-/
namespace CCC.Wavl
open CCC

/-- As `minMaxLoop`; the counter moves with every link followed: `min`, `max`, src/ordered_map.c:528-552. -/
def minMaxLoopB (t : Links) (s : Nat) (dir : Bool) : Count Nat := do
  let b ← t.getBr s dir
  if b = 0 then pure s
  else do
    modify (· + 1)
    minMaxLoopB t b dir
partial_fixpoint

end CCC.Wavl

namespace CCC.Om
open CCC Splay Rom PtrMap

variable {α κ : Type} (cmp : κ → κ → Cmp) (key : α → κ)

/-- As `begin_`, src/ordered_map.c:340-344, 541-552. -/
def beginN (s : Om α) : Count Slot :=
  if s.sz = 0 then pure none
  else do
    let m ← Wavl.minMaxLoopB s.t s.t.root false
    pure (some m)
/-- As `rbegin`, src/ordered_map.c:346-350, 528-539. -/
def rbeginN (s : Om α) : Count Slot :=
  if s.sz = 0 then pure none
  else do
    let m ← Wavl.minMaxLoopB s.t s.t.root true
    pure (some m)

/-- As `step`; only `begin` and `rbegin` are counted. -/
def stepB (s : Om α) : Op α κ → Count (Om α × Out α)
  | .begin => do
    let p ← beginN s
    pure (s, .ptr (view s p))
  | .rbegin => do
    let p ← rbeginN s
    pure (s, .ptr (view s p))
  | o => step cmp key s o

/-- As `run`. -/
def runB (s : Om α) : List (Op α κ) → Count (Om α × List (Out α))
  | [] => pure (s, [])
  | o :: os => do
    let (s, r) ← stepB cmp key s o
    let (s, rs) ← runB s os
    pure (s, r :: rs)

end CCC.Om
