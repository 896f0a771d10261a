import Verif.Spec.HashMap
/-
Model of `src/flat_hash_map.c` and of the macros of `ccc/impl/impl_flat_hash_map.h`.

The buffer of user structs is an array of cells: the hash field of the struct and the user's data.  `struct_base`,
`elem_in_slot`, `key_in_slot` (src/flat_hash_map.c:956-966, 987-992) and `ccc_buf_i` are offset arithmetic and are not
modelled; a slot is named by its index.  Pointer arguments are taken to be non-NULL.  The user's struct is outside the
buffer.  `size_t` is `Nat`: no memory holds 2^64 slots.  The load test `(double)sz / (double)cap <= 0.8` is modelled by
exact rational arithmetic; the two agree below 2^50 slots.
-/
namespace CCC.Fhm
open CCC HashMap

/-- One user struct in the table: the field of type `struct ccc_fhmap_elem_` (ccc/impl/impl_flat_hash_map.h:22-25) and
the rest.  Hash 0 is `CCC_FHM_EMPTY`. -/
structure Cell (α : Type) where
  hash : UInt64
  val : α

/-- `struct ccc_fhmap_`, ccc/impl/impl_flat_hash_map.h:28-35, with its buffer: `sz` is `sz_`, `cap` is `capacity_`,
`hasAlloc` says whether `alloc_` is non-NULL. -/
structure Fhm (α : Type) where
  mem : Nat → Cell α
  sz : Nat
  cap : Nat
  hasAlloc : Bool

/-- `ccc_impl_fhm_init`, `ccc_impl_fhm_zero_init`, `ccc_impl_fhm_static_init`, ccc/impl/impl_flat_hash_map.h:51-83:
`capacity` slots of arbitrary memory. -/
def init {α : Type} (mem : Nat → Cell α) (capacity : Nat) (alloc : Bool) : Fhm α :=
  { mem := mem, sz := 0, cap := capacity, hasAlloc := alloc }

variable {α κ : Type} (c : Cfg κ α)

/-- Read a slot: `ccc_buf_at`, src/buffer.c:38-46, is NULL at or beyond the capacity, and is dereferenced. -/
def at_ (s : Fhm α) (i : Nat) : Option (Cell α) := if i < s.cap then some (s.mem i) else none
/-- Write a slot. -/
def put (s : Fhm α) (i : Nat) (x : Cell α) : Option (Fhm α) :=
  if i < s.cap then some { s with mem := upd s.mem i x } else none
/-- `*hash_at(h, i) = x`, src/flat_hash_map.c:940-946. -/
def putHash (s : Fhm α) (i : Nat) (x : UInt64) : Option (Fhm α) := do
  let y ← at_ s i
  put s i { y with hash := x }

/-- `ccc_buf_size_plus`, src/buffer.c:306-321. -/
def sizePlus (s : Fhm α) (n : Nat) : Fhm α := { s with sz := if s.sz + n > s.cap then s.cap else s.sz + n }
/-- `ccc_buf_size_minus`, src/buffer.c:323-337. -/
def sizeMinus (s : Fhm α) (n : Nat) : Fhm α := { s with sz := if n > s.sz then 0 else s.sz - n }
/-- `ccc_buf_size_set`, src/buffer.c:339-353. -/
def sizeSet (s : Fhm α) (n : Nat) : Fhm α := { s with sz := if n > s.cap then s.cap else n }

/-- `swap`, src/flat_hash_map.c:994-1004, of two slots. -/
def swap (s : Fhm α) (tmp a b : Nat) : Option (Fhm α) :=
  if a = b then some s
  else do
    let x ← at_ s a
    let s ← put s tmp x
    let y ← at_ s b
    let s ← put s a y
    let t ← at_ s tmp
    put s b t

/-- `to_i`, src/flat_hash_map.c:1016-1025; 1 is `last_swap_slot`. -/
def toI (cap : Nat) (hash : UInt64) : Nat :=
  let h := if c.wide then hash.toNat * cap / 2 ^ 64 else hash.toNat % cap
  if h ≤ 1 then 2 else h
/-- `increment`, src/flat_hash_map.c:974-978. -/
def increment (cap i : Nat) : Nat := if i + 1 ≥ cap then 2 else i + 1
/-- `decrement`, src/flat_hash_map.c:980-985. -/
def decrement (cap i : Nat) : Nat :=
  let i := if i ≠ 0 then i - 1 else cap - 1
  if i ≤ 1 then cap - 1 else i
/-- `distance`, src/flat_hash_map.c:968-972. -/
def distance (cap i j : Nat) : Nat := if i < j then (cap - j) + i - 2 else i - j
/-- `filter`, src/flat_hash_map.c:948-954. -/
def filter (k : κ) : UInt64 := if c.hash k = 0 then c.hash k + 1 else c.hash k
/-- `next_prime`, src/flat_hash_map.c:925-938; `ccc_fhm_next_prime`, 475-479. -/
def nextPrime (n : Nat) : Nat := (primes.find? (fun p => decide (p > n))).getD 0

/-- The loop of `find`, src/flat_hash_map.c:750-768.  The number returned beside the entry is not part of the program: it
counts the slots that were looked at. -/
def findLoop (s : Fhm α) (k : κ) (hash : UInt64) (i dist : Nat) : Option (Ent × Nat) := do
  let x ← at_ s i
  if x.hash = 0 ∨ dist > distance s.cap i (toI c s.cap x.hash) then
    some (⟨some i, Stat.vacant ||| Stat.noUnwrap⟩, dist + 1)
  else if hash = x.hash ∧ c.eq k (c.key x.val) = true then some (⟨some i, Stat.occupied⟩, dist + 1)
  else findLoop s k hash (increment s.cap i) (dist + 1)
partial_fixpoint

/-- `find`, src/flat_hash_map.c:732-769; `ccc_impl_fhm_find`, 655-660. -/
def find (s : Fhm α) (k : κ) (hash : UInt64) : Option (Ent × Nat) :=
  if s.cap = 0 then some (⟨none, Stat.vacant⟩, 0)
  else if s.sz ≥ s.cap then some (⟨none, Stat.inputError⟩, 0)
  else findLoop c s k hash (toI c s.cap hash) 0

/-- The loop of `insert`, src/flat_hash_map.c:789-809: slot 0 holds the element without a place, slot 1 is used for
swapping.  `n` counts the slots looked at; it is not part of the program. -/
def insertLoop (s : Fhm α) (i dist n : Nat) : Option (Fhm α × Nat) := do
  let x ← at_ s i
  if x.hash = 0 then do
    let f ← at_ s 0
    let s ← put s i f
    let s := sizePlus s 1
    let s ← putHash s 0 0
    let s ← putHash s 1 0
    some (s, n + 1)
  else if dist > distance s.cap i (toI c s.cap x.hash) then do
    let s' ← swap s 1 0 i
    insertLoop s' (increment s'.cap i) (distance s.cap i (toI c s.cap x.hash) + 1) (n + 1)
  else insertLoop s (increment s.cap i) (dist + 1) (n + 1)
partial_fixpoint

/-- `insert`, src/flat_hash_map.c:774-810; `ccc_impl_fhm_insert`, 662-667. -/
def insertAt (s : Fhm α) (x : α) (hash : UInt64) (i : Nat) : Option (Fhm α × Nat) := do
  let s ← put s 0 ⟨hash, x⟩
  insertLoop c s i (distance s.cap i (toI c s.cap hash)) 0

/-- The loop of `erase`, src/flat_hash_map.c:824-838.  `n` counts the slots looked at. -/
def eraseLoop (s : Fhm α) (i next n : Nat) : Option (Fhm α × Nat) := do
  let x ← at_ s next
  if x.hash = 0 ∨ distance s.cap next (toI c s.cap x.hash) = 0 then do
    let s ← putHash s 0 0
    some (sizeMinus s 1, n + 1)
  else do
    let s ← swap s 0 next i
    eraseLoop s next (increment s.cap next) (n + 1)
partial_fixpoint

/-- `erase`, src/flat_hash_map.c:815-839. -/
def erase (s : Fhm α) (i : Nat) : Option (Fhm α × Nat) := do
  let s ← putHash s i 0
  eraseLoop c s i (increment s.cap i) 0

/-- Fill `capacity` slots with zero bytes, `memset` in src/flat_hash_map.c:867-868, 899-901.  The hash fields become
`CCC_FHM_EMPTY`; the data, which are not looked at while the hash is 0, are left as they are here. -/
def wipe (mem : Nat → Cell α) : Nat → Cell α := fun i => ⟨0, (mem i).val⟩

/-- The loop of `maybe_resize`, src/flat_hash_map.c:903-915: move the elements of `old` from slot `i` on to `s`. -/
def rehashLoop (old s : Fhm α) (i : Nat) : Option (Fhm α) :=
  if i = old.cap then some s
  else do
    let x ← at_ old i
    if x.hash ≠ 0 then do
      let (e, _) ← find c s (c.key x.val) x.hash
      let p ← e.e
      let (s, _) ← insertAt c s x.val x.hash p
      rehashLoop old s (i + 1)
    else rehashLoop old s (i + 1)
partial_fixpoint

/-- `maybe_resize`, src/flat_hash_map.c:862-923; `ccc_impl_fhm_maybe_resize`, 669-673.  Freeing the old memory
(`ccc_buf_alloc` with capacity 0, 916-920) cannot fail since `alloc_` is not NULL there. -/
def maybeResize (s : Fhm α) (ans : AllocAns α) : Option (Fhm α × Res) :=
  let s := if s.cap ≠ 0 ∧ s.sz < 2 then sizeSet { s with mem := wipe s.mem } 2 else s
  if s.cap ≠ 0 ∧ 5 * s.sz ≤ 4 * s.cap then some (s, .ok)
  else if !s.hasAlloc then some (s, .noAlloc)
  else
    let cap' := if s.cap ≠ 0 then nextPrime (s.sz * 2) else 11
    if cap' ≤ s.cap then some (s, .memErr)
    else match ans with
      | none => some (s, .memErr)
      | some junk => do
        let t : Fhm α := { mem := wipe (fun i => ⟨0, junk i⟩), sz := 0, cap := cap', hasAlloc := s.hasAlloc }
        let t ← rehashLoop c s (sizeSet t 2) 0
        some (t, .ok)

/-- `struct ccc_fhash_entry_`, ccc/impl/impl_flat_hash_map.h:38-43; the map it points to is a separate argument here. -/
structure FEnt where
  ent : Ent
  hash : UInt64

/-- `entry` and `container_entry`, src/flat_hash_map.c:719-730, 841-850; `ccc_fhm_entry`, 200-208;
`ccc_impl_fhm_entry`, 642-646. -/
def entry (s : Fhm α) (k : κ) (ans : AllocAns α) : Option (Fhm α × FEnt) := do
  let (s, r) ← maybeResize c s ans
  let (e, _) ← find c s k (filter c k)
  some (s, ⟨⟨e.e, if r ≠ .ok then e.stats ||| Stat.insertError else e.stats⟩, filter c k⟩)

/-- `ccc_fhm_size`, src/flat_hash_map.c:189-198: the subtraction wraps around. -/
def size (s : Fhm α) : Nat := if s.sz = 0 then 0 else if s.sz < 2 then 2 ^ 64 - (2 - s.sz) else s.sz - 2
/-- `ccc_fhm_is_empty`, src/flat_hash_map.c:169-177. -/
def isEmpty (s : Fhm α) : Bool := size s == 0
/-- `ccc_fhm_capacity`, src/flat_hash_map.c:563-571. -/
def capacity (s : Fhm α) : Nat := s.cap

/-- `ccc_fhm_contains`, src/flat_hash_map.c:179-187. -/
def contains (s : Fhm α) (k : κ) (ans : AllocAns α) : Option (Fhm α × Bool) := do
  let (s, e) ← entry c s k ans
  some (s, Stat.has e.ent.stats Stat.occupied)

/-- `ccc_fhm_get_key_val`, src/flat_hash_map.c:234-247. -/
def get (s : Fhm α) (k : κ) : Option Slot :=
  if s.cap = 0 then some none
  else do
    let (e, _) ← find c s k (filter c k)
    some (if Stat.has e.stats Stat.occupied then e.e else none)

/-- `ccc_fhm_insert_entry`, src/flat_hash_map.c:210-232. -/
def insertEntry (s : Fhm α) (e : FEnt) (x : α) : Option (Fhm α × Slot) :=
  if Stat.has e.ent.stats Stat.occupied then do
    let i ← e.ent.e
    let s ← put s i ⟨e.hash, x⟩
    some (s, some i)
  else if Stat.has e.ent.stats Stat.insertError then some (s, none)
  else do
    let i ← e.ent.e
    let (s, _) ← insertAt c s x e.hash i
    some (s, some i)

/-- `ccc_fhm_remove_entry`, src/flat_hash_map.c:249-262. -/
def removeEntry (s : Fhm α) (e : FEnt) : Option (Fhm α × Ent) :=
  if e.ent.stats ≠ Stat.occupied then some (s, ⟨none, Stat.vacant⟩)
  else do
    let i ← e.ent.e
    let (s, _) ← erase c s i
    some (s, ⟨none, Stat.occupied⟩)

/-- `and_modify`, `ccc_fhm_and_modify`, `ccc_fhm_and_modify_aux`, src/flat_hash_map.c:264-283, 852-860, and the macro
`ccc_impl_fhm_and_modify_w`, ccc/impl/impl_flat_hash_map.h:145-164. -/
def andModify (s : Fhm α) (e : FEnt) (f : α → α) : Option (Fhm α) :=
  if e.ent.stats = Stat.occupied then do
    let i ← e.ent.e
    let x ← at_ s i
    put s i { x with val := f x.val }
  else some s

/-- `ccc_fhm_insert`, src/flat_hash_map.c:285-310.  The last component is the user's struct after the call; an entry that
points to it has `toHandle`. -/
def insert (s : Fhm α) (x : α) (ans : AllocAns α) : Option (Fhm α × Nat × Bool × α) := do
  let (s, e) ← entry c s (c.key x) ans
  if Stat.has e.ent.stats Stat.occupied then do
    let i ← e.ent.e
    let old ← at_ s i
    let s ← put s 0 old
    let s ← put s i ⟨e.hash, x⟩
    let s ← putHash s 0 0
    some (s, Stat.occupied, true, old.val)
  else if Stat.has e.ent.stats Stat.insertError then some (s, Stat.insertError, false, x)
  else do
    let i ← e.ent.e
    let (s, _) ← insertAt c s x e.hash i
    some (s, Stat.vacant, false, x)

/-- `ccc_fhm_try_insert`, src/flat_hash_map.c:312-332. -/
def tryInsert (s : Fhm α) (x : α) (ans : AllocAns α) : Option (Fhm α × Ent) := do
  let (s, e) ← entry c s (c.key x) ans
  if Stat.has e.ent.stats Stat.occupied then some (s, ⟨e.ent.e, Stat.occupied⟩)
  else if Stat.has e.ent.stats Stat.insertError then some (s, ⟨none, Stat.insertError⟩)
  else do
    let i ← e.ent.e
    let (s, _) ← insertAt c s x e.hash i
    some (s, ⟨some i, Stat.vacant⟩)

/-- `ccc_fhm_insert_or_assign`, src/flat_hash_map.c:334-355. -/
def insertOrAssign (s : Fhm α) (x : α) (ans : AllocAns α) : Option (Fhm α × Ent) := do
  let (s, e) ← entry c s (c.key x) ans
  if Stat.has e.ent.stats Stat.occupied then do
    let i ← e.ent.e
    let s ← put s i ⟨e.hash, x⟩
    some (s, ⟨some i, Stat.occupied⟩)
  else if Stat.has e.ent.stats Stat.insertError then some (s, ⟨none, Stat.insertError⟩)
  else do
    let i ← e.ent.e
    let (s, _) ← insertAt c s x e.hash i
    some (s, ⟨some i, Stat.vacant⟩)

/-- `ccc_fhm_remove`, src/flat_hash_map.c:357-374.  The last component is the user's struct after the call; the entry
points to it if the status is occupied. -/
def remove (s : Fhm α) (x : α) : Option (Fhm α × Nat × Bool × α) := do
  let (e, _) ← find c s (c.key x) (filter c (c.key x))
  if Stat.has e.stats Stat.occupied then do
    let i ← e.e
    let old ← at_ s i
    let (s, _) ← erase c s i
    some (s, Stat.occupied, true, old.val)
  else some (s, Stat.vacant, false, x)

/-- `ccc_fhm_or_insert`, src/flat_hash_map.c:376-396. -/
def orInsert (s : Fhm α) (e : FEnt) (x : α) : Option (Fhm α × Slot) :=
  if Stat.has e.ent.stats Stat.occupied then some (s, e.ent.e)
  else if Stat.has e.ent.stats Stat.insertError then some (s, none)
  else do
    let i ← e.ent.e
    let (s, _) ← insertAt c s x e.hash i
    some (s, some i)

/-- `ccc_fhm_unwrap`, src/flat_hash_map.c:398-406. -/
def unwrap (e : FEnt) : Slot := if Stat.has e.ent.stats Stat.occupied then e.ent.e else none
/-- `ccc_fhm_occupied`, src/flat_hash_map.c:408-416. -/
def occupied (e : FEnt) : Bool := Stat.has e.ent.stats Stat.occupied
/-- `ccc_fhm_insert_error`, src/flat_hash_map.c:418-426. -/
def insertError (e : FEnt) : Bool := Stat.has e.ent.stats Stat.insertError
/-- `ccc_fhm_entry_status`, src/flat_hash_map.c:428-436. -/
def entryStatus (e : FEnt) : Nat := e.ent.stats

/-- `ccc_impl_fhm_swaps`, ccc/impl/impl_flat_hash_map.h:110-141: `x` is the value of the lazy expression. -/
def swaps (s : Fhm α) (e : FEnt) (x : α) : Option (Fhm α × Slot) := do
  let i ← e.ent.e
  let y ← at_ s i
  if y.hash = 0 then do
    let s ← put s i ⟨e.hash, x⟩
    some (sizePlus s 1, some i)
  else do
    let s ← put s i ⟨e.hash, x⟩
    let (s, _) ← insertAt c s y.val y.hash (increment s.cap i)
    some (s, some i)

/-- `ccc_impl_fhm_or_insert_w`, ccc/impl/impl_flat_hash_map.h:166-188. -/
def orInsertW (s : Fhm α) (e : FEnt) (x : α) : Option (Fhm α × Slot) :=
  if !Stat.has e.ent.stats Stat.insertError then
    if Stat.has e.ent.stats Stat.occupied then some (s, e.ent.e) else swaps c s e x
  else some (s, none)

/-- `ccc_impl_fhm_insert_entry_w`, ccc/impl/impl_flat_hash_map.h:190-219. -/
def insertEntryW (s : Fhm α) (e : FEnt) (x : α) : Option (Fhm α × Slot) :=
  if !Stat.has e.ent.stats Stat.insertError then
    if Stat.has e.ent.stats Stat.occupied then do
      let i ← e.ent.e
      let s ← put s i ⟨e.hash, x⟩
      some (s, some i)
    else swaps c s e x
  else some (s, none)

/-- `ccc_impl_fhm_try_insert_w`, ccc/impl/impl_flat_hash_map.h:221-248: `x` is the lazy value after the key was copied into
it (the code does this after `swaps`, which does not look at the key). -/
def tryInsertW (s : Fhm α) (k : κ) (x : α) (ans : AllocAns α) : Option (Fhm α × Ent) := do
  let (s, e) ← entry c s k ans
  if Stat.has e.ent.stats Stat.occupied || Stat.has e.ent.stats Stat.insertError then some (s, e.ent)
  else do
    let (s, p) ← swaps c s e x
    some (s, ⟨p, Stat.vacant⟩)

/-- `ccc_impl_fhm_insert_or_assign_w`, ccc/impl/impl_flat_hash_map.h:250-291. -/
def insertOrAssignW (s : Fhm α) (k : κ) (x : α) (ans : AllocAns α) : Option (Fhm α × Ent) := do
  let (s, e) ← entry c s k ans
  if Stat.has e.ent.stats Stat.occupied then do
    let i ← e.ent.e
    let s ← put s i ⟨e.hash, x⟩
    some (s, e.ent)
  else if Stat.has e.ent.stats Stat.insertError then some (s, ⟨none, Stat.insertError⟩)
  else do
    let (s, p) ← swaps c s e x
    some (s, ⟨p, Stat.vacant⟩)

/-- The scan of `ccc_fhm_begin` and `ccc_fhm_next`, src/flat_hash_map.c:446-450, 461-466. -/
def scan (s : Fhm α) (i : Nat) : Option Slot :=
  if i = s.cap then some none
  else do
    let x ← at_ s i
    if x.hash = 0 then scan s (i + 1) else some (some i)
partial_fixpoint

/-- `ccc_fhm_begin`, src/flat_hash_map.c:438-451. -/
def begin_ (s : Fhm α) : Option Slot := if s.sz = 0 then some none else scan s 0
/-- `ccc_fhm_next`, src/flat_hash_map.c:453-467. -/
def next (s : Fhm α) (i : Nat) : Option Slot := scan s (i + 1)
/-- `ccc_fhm_end`, src/flat_hash_map.c:469-473. -/
def end_ (_ : Fhm α) : Slot := none

/-- The destructor loop of `ccc_fhm_clear` and `ccc_fhm_clear_and_free`, src/flat_hash_map.c:527-535, 551-559, from slot
`i`: what the destructor is called with. -/
def destroyLoop (s : Fhm α) (i : Nat) : Option (List (Nat × α)) :=
  if i = s.cap then some []
  else do
    let x ← at_ s i
    let d ← destroyLoop s (i + 1)
    some (if x.hash ≠ 0 then (i, x.val) :: d else d)
partial_fixpoint

/-- `ccc_fhm_clear`, src/flat_hash_map.c:515-537; `destroy` says whether `fn` is non-NULL. -/
def clear (s : Fhm α) (destroy : Bool) : Option (Fhm α × List (Nat × α) × Res) :=
  if !destroy then some ({ s with sz := 0 }, [], .ok)
  else do
    let d ← destroyLoop s 0
    some (s, d, .ok)

/-- `ccc_fhm_clear_and_free`, src/flat_hash_map.c:539-561.  `ccc_buf_alloc` with capacity 0 (src/buffer.c:16-36) frees the
memory and does not touch `sz_`. -/
def clearAndFree (s : Fhm α) (destroy : Bool) : Option (Fhm α × List (Nat × α) × Res) := do
  let (s, d) ← (if !destroy then some ({ s with sz := 0 }, [])
    else do
      let d ← destroyLoop s 0
      some (s, d))
  if s.hasAlloc then some ({ s with cap := 0 }, d, .ok) else some (s, d, .noAlloc)

/-- `ccc_fhm_copy`, src/flat_hash_map.c:481-513.  `fn` is the allocation function passed to the call (`none` for NULL) with
its answer.  The memory obtained is overwritten in full. -/
def copy (dst src : Fhm α) (fn : Option Bool) : Fhm α × Res :=
  if dst.cap < src.cap ∧ fn = none then (dst, .inputErr)
  else
    let d : Fhm α := { dst with sz := src.sz }
    if d.cap < src.cap then
      if fn = some true then ({ d with cap := src.cap, mem := fun i => if i < src.cap then src.mem i else d.mem i }, .ok)
      else (d, .memErr)
    else ({ d with mem := fun i => if i < src.cap then src.mem i else d.mem i }, .ok)

/-- The loop of `valid_distance_from_home`, src/flat_hash_map.c:616-636. -/
def validLoop (s : Fhm α) (end_ i dth : Nat) : Option Bool :=
  if i = end_ then some true
  else do
    let x ← at_ s i
    if x.hash = 0 then some false
    else if dth > distance s.cap i (toI c s.cap x.hash) then some false
    else validLoop s end_ (decrement s.cap i) (if dth = 0 then 2 ^ 64 - 1 else dth - 1)
partial_fixpoint

/-- `valid_distance_from_home`, src/flat_hash_map.c:609-638. -/
def validDistance (s : Fhm α) (i : Nat) (hash : UInt64) : Option Bool :=
  let home := toI c s.cap hash
  validLoop c s (decrement s.cap home) i (distance s.cap i home)

/-- The loop of `ccc_fhm_validate`, src/flat_hash_map.c:586-606. -/
def validateLoop (s : Fhm α) (i empties occ : Nat) : Option Bool :=
  if i = s.cap then some (occ == size s && empties == s.cap - occ)
  else do
    let x ← at_ s i
    if x.hash = 0 then validateLoop s (i + 1) (empties + 1) occ
    else do
      let b ← validDistance c s i x.hash
      if !b then some false else validateLoop s (i + 1) empties (occ + 1)
partial_fixpoint

/-- `ccc_fhm_validate`, src/flat_hash_map.c:579-607. -/
def validate (s : Fhm α) : Option Bool := validateLoop c s 0 0 0

/-! ### Histories -/

/-- What the user sees of a pointer. -/
def view (s : Fhm α) (p : Slot) : Option α := p.map (fun i => (s.mem i).val)

/-- What the user sees of a status: the bit `CCC_ENTRY_NO_UNWRAP` (32) is private to the library. -/
def shown (stats : Nat) : Nat := stats &&& 31

/-- The user writes through a pointer. -/
def poke (s : Fhm α) (p : Slot) (f : α → α) : Option (Fhm α) :=
  match p with
  | none => some s
  | some i => do
    let x ← at_ s i
    put s i { x with val := f x.val }

/-- One call of the interface. -/
def step (s : Fhm α) : Op α κ → Option (Fhm α × Out α)
  | .insert x ans => do
    let (s, st, b, h) ← insert c s x ans
    some (s, .insEnt st (if b then some h else none) h)
  | .tryInsert x ans => do
    let (s, e) ← tryInsert c s x ans
    some (s, .ent (shown e.stats) (view s (Ent.unwrap (some e))))
  | .insertOrAssign x ans => do
    let (s, e) ← insertOrAssign c s x ans
    some (s, .ent (shown e.stats) (view s (Ent.unwrap (some e))))
  | .remove x => do
    let (s, st, b, h) ← remove c s x
    some (s, .insEnt st (if b then some h else none) h)
  | .orInsert k x f ans => do
    let (s, e) ← entry c s k ans
    let (s, p) ← orInsert c s e x
    let s' ← poke s p f
    some (s', .ptr (view s p))
  | .insertEntry k x ans => do
    let (s, e) ← entry c s k ans
    let (s, p) ← insertEntry c s e x
    some (s, .ptr (view s p))
  | .removeEntry k ans => do
    let (s, e) ← entry c s k ans
    let (s, e) ← removeEntry c s e
    some (s, .ent (shown e.stats) (view s (Ent.unwrap (some e))))
  | .andModify k f ans => do
    let (s, e) ← entry c s k ans
    let s ← andModify s e f
    some (s, .ptr (view s (unwrap e)))
  | .occupied k ans => do
    let (s, e) ← entry c s k ans
    some (s, .flag (occupied e))
  | .insertError k ans => do
    let (s, e) ← entry c s k ans
    some (s, .flag (insertError e))
  | .orInsertW k x ans => do
    let (s, e) ← entry c s k ans
    let (s, p) ← orInsertW c s e x
    some (s, .ptr (view s p))
  | .insertEntryW k x ans => do
    let (s, e) ← entry c s k ans
    let (s, p) ← insertEntryW c s e x
    some (s, .ptr (view s p))
  | .tryInsertW k x ans => do
    let (s, e) ← tryInsertW c s k x ans
    some (s, .ent (shown e.stats) (view s (Ent.unwrap (some e))))
  | .insertOrAssignW k x ans => do
    let (s, e) ← insertOrAssignW c s k x ans
    some (s, .ent (shown e.stats) (view s (Ent.unwrap (some e))))
  | .contains k ans => do
    let (s, b) ← contains c s k ans
    some (s, .flag b)
  | .get k f => do
    let p ← get c s k
    let s' ← poke s p f
    some (s', .ptr (view s p))
  | .size => some (s, .num (size s))
  | .isEmpty => some (s, .flag (isEmpty s))
  | .capacity => some (s, .num (capacity s))
  | .validate => do
    let b ← validate c s
    some (s, .flag b)
  | .clear => do
    let (s, _, r) ← clear s false
    some (s, .result r)

/-- A history of calls. -/
def run (s : Fhm α) : List (Op α κ) → Option (Fhm α × List (Out α))
  | [] => some (s, [])
  | o :: os => do
    let (s, r) ← step c s o
    let (s, rs) ← run s os
    some (s, r :: rs)

end CCC.Fhm
