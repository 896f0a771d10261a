import Verif.Model.OrderedMultimap
import Verif.Model.Count
/-
`ccc_omm_begin` and `ccc_omm_rbegin` with the links they follow counted.
-/
namespace CCC.Omm
open CCC PtrMap MultiSpec

variable {α κ : Type} (cmp : κ → κ → Cmp) (key : α → κ)

/-- As `runDown`; the counter moves with every link followed: src/ordered_multimap.c:676-677, 689-690. -/
def runDownB (s : Omm α) (m : Nat) (d : Bool) : Count Nat := do
  let b ← branch s m d
  if b = 0 then pure m
  else do
    modify (· + 1)
    runDownB s b d
partial_fixpoint

/-- As `begin_`, src/ordered_multimap.c:345-353, 668-679. -/
def beginN (s : Omm α) : Count Slot :=
  if s.sz = 0 then pure none
  else do
    let m ← runDownB s s.root true
    pure (some m)

/-- As `rbegin`, src/ordered_multimap.c:355-363, 681-692. -/
def rbeginN (s : Omm α) : Count Slot :=
  if s.sz = 0 then pure none
  else do
    let m ← runDownB s s.root false
    pure (some m)

/-- As `step`; only `begin` and `rbegin` are counted. -/
def stepB (s : Omm α) : MultiSpec.Op α κ → Count (Omm α × Out α)
  | .begin => do
    let p ← beginN s
    pure (s, .ptr (view s p))
  | .rbegin => do
    let p ← rbeginN s
    pure (s, .ptr (view s p))
  | o => step cmp key s o

/-- As `run`. -/
def runB (s : Omm α) : List (MultiSpec.Op α κ) → Count (Omm α × List (Out α))
  | [] => pure (s, [])
  | o :: os => do
    let (s, r) ← stepB cmp key s o
    let (s, rs) ← runB s os
    pure (s, r :: rs)

end CCC.Omm
