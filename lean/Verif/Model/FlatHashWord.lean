import Verif.Model.FlatHashMap
import Verif.Model.FlatDequeWord
import Verif.Spec.Double
/-
The flat hash map once more, with `size_t` arithmetic modulo 2^64 wherever the source adds, subtracts or multiplies, the
128-bit product of `to_i`, and the load test in `double`.  The data structure, memory accesses, the allocator and the
simplifications are those of `Model/FlatHashMap.lean`.  The counters `n` of slots looked at, which are not part of the
program, stay as they are.  `(double)sz / (double)cap` with `cap` not zero and `sz <= cap` is `Dbl.div` (Spec/Double.lean;
the conversions are exact below 2^53), and the literal `0.8` is the double nearest to 4/5.
-/
namespace CCC.Fhm
open CCC HashMap CCC.Word
variable {α κ : Type} (c : Cfg κ α)

/-- `ccc_buf_size_plus`, src/buffer.c:306-321. -/
def sizePlus64 (s : Fhm α) (n : Nat) : Fhm α := { s with sz := if s.sz +ʷ n > s.cap then s.cap else s.sz +ʷ n }
/-- `ccc_buf_size_minus`, src/buffer.c:323-337. -/
def sizeMinus64 (s : Fhm α) (n : Nat) : Fhm α := { s with sz := if n > s.sz then 0 else s.sz -ʷ n }
/-- `to_i`, src/flat_hash_map.c:1016-1025; 1 is `last_swap_slot`. -/
def toI64 (cap : Nat) (hash : UInt64) : Nat :=
  let h := if c.wide then hash.toNat * cap % 2 ^ 128 / 2 ^ 64 % 2 ^ 64 else hash.toNat % cap
  if h ≤ 1 then 2 else h
/-- `increment`, src/flat_hash_map.c:974-978. -/
def increment64 (cap i : Nat) : Nat := if i +ʷ 1 ≥ cap then 2 else i +ʷ 1
/-- `decrement`, src/flat_hash_map.c:980-985. -/
def decrement64 (cap i : Nat) : Nat :=
  let i := if i ≠ 0 then i -ʷ 1 else cap -ʷ 1
  if i ≤ 1 then cap -ʷ 1 else i
/-- `distance`, src/flat_hash_map.c:968-972. -/
def distance64 (cap i j : Nat) : Nat := if i < j then (cap -ʷ j) +ʷ i -ʷ 2 else i -ʷ j
/-- The loop of `find`, src/flat_hash_map.c:750-768.  The number returned beside the entry is not part of the program: it
counts the slots that were looked at. -/
def findLoop64 (s : Fhm α) (k : κ) (hash : UInt64) (i dist : Nat) : Option (Ent × Nat) := do
  let x ← at_ s i
  if x.hash = 0 ∨ dist > distance64 s.cap i (toI64 c s.cap x.hash) then
    some (⟨some i, Stat.vacant ||| Stat.noUnwrap⟩, dist + 1)
  else if hash = x.hash ∧ c.eq k (c.key x.val) = true then some (⟨some i, Stat.occupied⟩, dist + 1)
  else findLoop64 s k hash (increment64 s.cap i) (dist +ʷ 1)
partial_fixpoint
/-- `find`, src/flat_hash_map.c:732-769; `ccc_impl_fhm_find`, 655-660. -/
def find64 (s : Fhm α) (k : κ) (hash : UInt64) : Option (Ent × Nat) :=
  if s.cap = 0 then some (⟨none, Stat.vacant⟩, 0)
  else if s.sz ≥ s.cap then some (⟨none, Stat.inputError⟩, 0)
  else findLoop64 c s k hash (toI64 c s.cap hash) 0
/-- The loop of `insert`, src/flat_hash_map.c:789-809: slot 0 holds the element without a place, slot 1 is used for
swapping.  `n` counts the slots looked at; it is not part of the program. -/
def insertLoop64 (s : Fhm α) (i dist n : Nat) : Option (Fhm α × Nat) := do
  let x ← at_ s i
  if x.hash = 0 then do
    let f ← at_ s 0
    let s ← put s i f
    let s := sizePlus64 s 1
    let s ← putHash s 0 0
    let s ← putHash s 1 0
    some (s, n + 1)
  else if dist > distance64 s.cap i (toI64 c s.cap x.hash) then do
    let s' ← swap s 1 0 i
    insertLoop64 s' (increment64 s'.cap i) (distance64 s.cap i (toI64 c s.cap x.hash) +ʷ 1) (n + 1)
  else insertLoop64 s (increment64 s.cap i) (dist +ʷ 1) (n + 1)
partial_fixpoint
/-- `insert`, src/flat_hash_map.c:774-810; `ccc_impl_fhm_insert`, 662-667. -/
def insertAt64 (s : Fhm α) (x : α) (hash : UInt64) (i : Nat) : Option (Fhm α × Nat) := do
  let s ← put s 0 ⟨hash, x⟩
  insertLoop64 c s i (distance64 s.cap i (toI64 c s.cap hash)) 0
/-- The loop of `erase`, src/flat_hash_map.c:824-838.  `n` counts the slots looked at. -/
def eraseLoop64 (s : Fhm α) (i next n : Nat) : Option (Fhm α × Nat) := do
  let x ← at_ s next
  if x.hash = 0 ∨ distance64 s.cap next (toI64 c s.cap x.hash) = 0 then do
    let s ← putHash s 0 0
    some (sizeMinus64 s 1, n + 1)
  else do
    let s ← swap s 0 next i
    eraseLoop64 s next (increment64 s.cap next) (n + 1)
partial_fixpoint
/-- `erase`, src/flat_hash_map.c:815-839. -/
def erase64 (s : Fhm α) (i : Nat) : Option (Fhm α × Nat) := do
  let s ← putHash s i 0
  eraseLoop64 c s i (increment64 s.cap i) 0
/-- The loop of `maybe_resize`, src/flat_hash_map.c:903-915: move the elements of `old` from slot `i` on to `s`. -/
def rehashLoop64 (old s : Fhm α) (i : Nat) : Option (Fhm α) :=
  if i = old.cap then some s
  else do
    let x ← at_ old i
    if x.hash ≠ 0 then do
      let (e, _) ← find64 c s (c.key x.val) x.hash
      let p ← e.e
      let (s, _) ← insertAt64 c s x.val x.hash p
      rehashLoop64 old s (i +ʷ 1)
    else rehashLoop64 old s (i +ʷ 1)
partial_fixpoint
/-- `maybe_resize`, src/flat_hash_map.c:862-923; `ccc_impl_fhm_maybe_resize`, 669-673.  Freeing the old memory
(`ccc_buf_alloc` with capacity 0, 916-920) cannot fail since `alloc_` is not NULL there. -/
def maybeResize64 (s : Fhm α) (ans : AllocAns α) : Option (Fhm α × Res) :=
  let s := if s.cap ≠ 0 ∧ s.sz < 2 then sizeSet { s with mem := wipe s.mem } 2 else s
  if s.cap ≠ 0 ∧ Dbl.Le (Dbl.div s.sz s.cap) (Dbl.div 4 5) then some (s, .ok)
  else if !s.hasAlloc then some (s, .noAlloc)
  else
    let cap' := if s.cap ≠ 0 then nextPrime (s.sz *ʷ 2) else 11
    if cap' ≤ s.cap then some (s, .memErr)
    else match ans with
      | none => some (s, .memErr)
      | some junk => do
        let t : Fhm α := { mem := wipe (fun i => ⟨0, junk i⟩), sz := 0, cap := cap', hasAlloc := s.hasAlloc }
        let t ← rehashLoop64 c s (sizeSet t 2) 0
        some (t, .ok)
/-- `entry` and `container_entry`, src/flat_hash_map.c:719-730, 841-850; `ccc_fhm_entry`, 200-208;
`ccc_impl_fhm_entry`, 642-646. -/
def entry64 (s : Fhm α) (k : κ) (ans : AllocAns α) : Option (Fhm α × FEnt) := do
  let (s, r) ← maybeResize64 c s ans
  let (e, _) ← find64 c s k (filter c k)
  some (s, ⟨⟨e.e, if r ≠ .ok then e.stats ||| Stat.insertError else e.stats⟩, filter c k⟩)
/-- `ccc_fhm_size`, src/flat_hash_map.c:189-198: the subtraction wraps around. -/
def size64 (s : Fhm α) : Nat := if s.sz = 0 then 0 else s.sz -ʷ 2
/-- `ccc_fhm_is_empty`, src/flat_hash_map.c:169-177. -/
def isEmpty64 (s : Fhm α) : Bool := size64 s == 0
/-- `ccc_fhm_contains`, src/flat_hash_map.c:179-187. -/
def contains64 (s : Fhm α) (k : κ) (ans : AllocAns α) : Option (Fhm α × Bool) := do
  let (s, e) ← entry64 c s k ans
  some (s, Stat.has e.ent.stats Stat.occupied)
/-- `ccc_fhm_get_key_val`, src/flat_hash_map.c:234-247. -/
def get64 (s : Fhm α) (k : κ) : Option Slot :=
  if s.cap = 0 then some none
  else do
    let (e, _) ← find64 c s k (filter c k)
    some (if Stat.has e.stats Stat.occupied then e.e else none)
/-- `ccc_fhm_insert_entry`, src/flat_hash_map.c:210-232. -/
def insertEntry64 (s : Fhm α) (e : FEnt) (x : α) : Option (Fhm α × Slot) :=
  if Stat.has e.ent.stats Stat.occupied then do
    let i ← e.ent.e
    let s ← put s i ⟨e.hash, x⟩
    some (s, some i)
  else if Stat.has e.ent.stats Stat.insertError then some (s, none)
  else do
    let i ← e.ent.e
    let (s, _) ← insertAt64 c s x e.hash i
    some (s, some i)
/-- `ccc_fhm_remove_entry`, src/flat_hash_map.c:249-262. -/
def removeEntry64 (s : Fhm α) (e : FEnt) : Option (Fhm α × Ent) :=
  if e.ent.stats ≠ Stat.occupied then some (s, ⟨none, Stat.vacant⟩)
  else do
    let i ← e.ent.e
    let (s, _) ← erase64 c s i
    some (s, ⟨none, Stat.occupied⟩)
/-- `ccc_fhm_insert`, src/flat_hash_map.c:285-310.  The last component is the user's struct after the call; an entry that
points to it has `toHandle`. -/
def insert64 (s : Fhm α) (x : α) (ans : AllocAns α) : Option (Fhm α × Nat × Bool × α) := do
  let (s, e) ← entry64 c s (c.key x) ans
  if Stat.has e.ent.stats Stat.occupied then do
    let i ← e.ent.e
    let old ← at_ s i
    let s ← put s 0 old
    let s ← put s i ⟨e.hash, x⟩
    let s ← putHash s 0 0
    some (s, Stat.occupied, true, old.val)
  else if Stat.has e.ent.stats Stat.insertError then some (s, Stat.insertError, false, x)
  else do
    let i ← e.ent.e
    let (s, _) ← insertAt64 c s x e.hash i
    some (s, Stat.vacant, false, x)
/-- `ccc_fhm_try_insert`, src/flat_hash_map.c:312-332. -/
def tryInsert64 (s : Fhm α) (x : α) (ans : AllocAns α) : Option (Fhm α × Ent) := do
  let (s, e) ← entry64 c s (c.key x) ans
  if Stat.has e.ent.stats Stat.occupied then some (s, ⟨e.ent.e, Stat.occupied⟩)
  else if Stat.has e.ent.stats Stat.insertError then some (s, ⟨none, Stat.insertError⟩)
  else do
    let i ← e.ent.e
    let (s, _) ← insertAt64 c s x e.hash i
    some (s, ⟨some i, Stat.vacant⟩)
/-- `ccc_fhm_insert_or_assign`, src/flat_hash_map.c:334-355. -/
def insertOrAssign64 (s : Fhm α) (x : α) (ans : AllocAns α) : Option (Fhm α × Ent) := do
  let (s, e) ← entry64 c s (c.key x) ans
  if Stat.has e.ent.stats Stat.occupied then do
    let i ← e.ent.e
    let s ← put s i ⟨e.hash, x⟩
    some (s, ⟨some i, Stat.occupied⟩)
  else if Stat.has e.ent.stats Stat.insertError then some (s, ⟨none, Stat.insertError⟩)
  else do
    let i ← e.ent.e
    let (s, _) ← insertAt64 c s x e.hash i
    some (s, ⟨some i, Stat.vacant⟩)
/-- `ccc_fhm_remove`, src/flat_hash_map.c:357-374.  The last component is the user's struct after the call; the entry
points to it if the status is occupied. -/
def remove64 (s : Fhm α) (x : α) : Option (Fhm α × Nat × Bool × α) := do
  let (e, _) ← find64 c s (c.key x) (filter c (c.key x))
  if Stat.has e.stats Stat.occupied then do
    let i ← e.e
    let old ← at_ s i
    let (s, _) ← erase64 c s i
    some (s, Stat.occupied, true, old.val)
  else some (s, Stat.vacant, false, x)
/-- `ccc_fhm_or_insert`, src/flat_hash_map.c:376-396. -/
def orInsert64 (s : Fhm α) (e : FEnt) (x : α) : Option (Fhm α × Slot) :=
  if Stat.has e.ent.stats Stat.occupied then some (s, e.ent.e)
  else if Stat.has e.ent.stats Stat.insertError then some (s, none)
  else do
    let i ← e.ent.e
    let (s, _) ← insertAt64 c s x e.hash i
    some (s, some i)
/-- `ccc_impl_fhm_swaps`, ccc/impl/impl_flat_hash_map.h:110-141: `x` is the value of the lazy expression. -/
def swaps64 (s : Fhm α) (e : FEnt) (x : α) : Option (Fhm α × Slot) := do
  let i ← e.ent.e
  let y ← at_ s i
  if y.hash = 0 then do
    let s ← put s i ⟨e.hash, x⟩
    some (sizePlus64 s 1, some i)
  else do
    let s ← put s i ⟨e.hash, x⟩
    let (s, _) ← insertAt64 c s y.val y.hash (increment64 s.cap i)
    some (s, some i)
/-- `ccc_impl_fhm_or_insert_w`, ccc/impl/impl_flat_hash_map.h:166-188. -/
def orInsertW64 (s : Fhm α) (e : FEnt) (x : α) : Option (Fhm α × Slot) :=
  if !Stat.has e.ent.stats Stat.insertError then
    if Stat.has e.ent.stats Stat.occupied then some (s, e.ent.e) else swaps64 c s e x
  else some (s, none)
/-- `ccc_impl_fhm_insert_entry_w`, ccc/impl/impl_flat_hash_map.h:190-219. -/
def insertEntryW64 (s : Fhm α) (e : FEnt) (x : α) : Option (Fhm α × Slot) :=
  if !Stat.has e.ent.stats Stat.insertError then
    if Stat.has e.ent.stats Stat.occupied then do
      let i ← e.ent.e
      let s ← put s i ⟨e.hash, x⟩
      some (s, some i)
    else swaps64 c s e x
  else some (s, none)
/-- `ccc_impl_fhm_try_insert_w`, ccc/impl/impl_flat_hash_map.h:221-248: `x` is the lazy value after the key was copied into
it (the code does this after `swaps`, which does not look at the key). -/
def tryInsertW64 (s : Fhm α) (k : κ) (x : α) (ans : AllocAns α) : Option (Fhm α × Ent) := do
  let (s, e) ← entry64 c s k ans
  if Stat.has e.ent.stats Stat.occupied || Stat.has e.ent.stats Stat.insertError then some (s, e.ent)
  else do
    let (s, p) ← swaps64 c s e x
    some (s, ⟨p, Stat.vacant⟩)
/-- `ccc_impl_fhm_insert_or_assign_w`, ccc/impl/impl_flat_hash_map.h:250-291. -/
def insertOrAssignW64 (s : Fhm α) (k : κ) (x : α) (ans : AllocAns α) : Option (Fhm α × Ent) := do
  let (s, e) ← entry64 c s k ans
  if Stat.has e.ent.stats Stat.occupied then do
    let i ← e.ent.e
    let s ← put s i ⟨e.hash, x⟩
    some (s, e.ent)
  else if Stat.has e.ent.stats Stat.insertError then some (s, ⟨none, Stat.insertError⟩)
  else do
    let (s, p) ← swaps64 c s e x
    some (s, ⟨p, Stat.vacant⟩)
/-- The loop of `valid_distance_from_home`, src/flat_hash_map.c:616-636. -/
def validLoop64 (s : Fhm α) (end_ i dth : Nat) : Option Bool :=
  if i = end_ then some true
  else do
    let x ← at_ s i
    if x.hash = 0 then some false
    else if dth > distance64 s.cap i (toI64 c s.cap x.hash) then some false
    else validLoop64 s end_ (decrement64 s.cap i) (dth -ʷ 1)
partial_fixpoint
/-- `valid_distance_from_home`, src/flat_hash_map.c:609-638. -/
def validDistance64 (s : Fhm α) (i : Nat) (hash : UInt64) : Option Bool :=
  let home := toI64 c s.cap hash
  validLoop64 c s (decrement64 s.cap home) i (distance64 s.cap i home)
/-- The loop of `ccc_fhm_validate`, src/flat_hash_map.c:586-606. -/
def validateLoop64 (s : Fhm α) (i empties occ : Nat) : Option Bool :=
  if i = s.cap then some (occ == size64 s && empties == s.cap -ʷ occ)
  else do
    let x ← at_ s i
    if x.hash = 0 then validateLoop64 s (i +ʷ 1) (empties +ʷ 1) occ
    else do
      let b ← validDistance64 c s i x.hash
      if !b then some false else validateLoop64 s (i +ʷ 1) empties (occ +ʷ 1)
partial_fixpoint
/-- `ccc_fhm_validate`, src/flat_hash_map.c:579-607. -/
def validate64 (s : Fhm α) : Option Bool := validateLoop64 c s 0 0 0
/-- One call of the interface. -/
def step64 (s : Fhm α) : Op α κ → Option (Fhm α × Out α)
  | .insert x ans => do
    let (s, st, b, h) ← insert64 c s x ans
    some (s, .insEnt st (if b then some h else none) h)
  | .tryInsert x ans => do
    let (s, e) ← tryInsert64 c s x ans
    some (s, .ent (shown e.stats) (view s (Ent.unwrap (some e))))
  | .insertOrAssign x ans => do
    let (s, e) ← insertOrAssign64 c s x ans
    some (s, .ent (shown e.stats) (view s (Ent.unwrap (some e))))
  | .remove x => do
    let (s, st, b, h) ← remove64 c s x
    some (s, .insEnt st (if b then some h else none) h)
  | .orInsert k x f ans => do
    let (s, e) ← entry64 c s k ans
    let (s, p) ← orInsert64 c s e x
    let s' ← poke s p f
    some (s', .ptr (view s p))
  | .insertEntry k x ans => do
    let (s, e) ← entry64 c s k ans
    let (s, p) ← insertEntry64 c s e x
    some (s, .ptr (view s p))
  | .removeEntry k ans => do
    let (s, e) ← entry64 c s k ans
    let (s, e) ← removeEntry64 c s e
    some (s, .ent (shown e.stats) (view s (Ent.unwrap (some e))))
  | .andModify k f ans => do
    let (s, e) ← entry64 c s k ans
    let s ← andModify s e f
    some (s, .ptr (view s (unwrap e)))
  | .occupied k ans => do
    let (s, e) ← entry64 c s k ans
    some (s, .flag (occupied e))
  | .insertError k ans => do
    let (s, e) ← entry64 c s k ans
    some (s, .flag (insertError e))
  | .orInsertW k x ans => do
    let (s, e) ← entry64 c s k ans
    let (s, p) ← orInsertW64 c s e x
    some (s, .ptr (view s p))
  | .insertEntryW k x ans => do
    let (s, e) ← entry64 c s k ans
    let (s, p) ← insertEntryW64 c s e x
    some (s, .ptr (view s p))
  | .tryInsertW k x ans => do
    let (s, e) ← tryInsertW64 c s k x ans
    some (s, .ent (shown e.stats) (view s (Ent.unwrap (some e))))
  | .insertOrAssignW k x ans => do
    let (s, e) ← insertOrAssignW64 c s k x ans
    some (s, .ent (shown e.stats) (view s (Ent.unwrap (some e))))
  | .contains k ans => do
    let (s, b) ← contains64 c s k ans
    some (s, .flag b)
  | .get k f => do
    let p ← get64 c s k
    let s' ← poke s p f
    some (s', .ptr (view s p))
  | .size => some (s, .num (size64 s))
  | .isEmpty => some (s, .flag (isEmpty64 s))
  | .capacity => some (s, .num (capacity s))
  | .validate => do
    let b ← validate64 c s
    some (s, .flag b)
  | .clear => do
    let (s, _, r) ← clear s false
    some (s, .result r)
/-- A history of calls. -/
def run64 (s : Fhm α) : List (Op α κ) → Option (Fhm α × List (Out α))
  | [] => some (s, [])
  | o :: os => do
    let (s, r) ← step64 c s o
    let (s, rs) ← run64 s os
    some (s, r :: rs)

end CCC.Fhm
