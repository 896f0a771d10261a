import Verif.Model.Types
/-
Specification of the flat hash map (`ccc/flat_hash_map.h`): what every call must answer, as a function of the list of
stored elements.  The order of the list means nothing.  Nothing here refers to slots, hashes or probing.
-/
namespace CCC.HashMap
open CCC

/-- What the user gives to the map: the hash function, the key equality, the key of an element.  `wide` says whether the
compiler has a 128 bit integer type (it selects one of two ways to map a hash to a slot). -/
structure Cfg (κ α : Type) where
  wide : Bool
  hash : κ → UInt64
  eq : κ → κ → Bool
  key : α → κ

/-- What is asked of these functions: key equality is an equivalence and equal keys have equal hashes.  The hash function
may otherwise be as bad as can be. -/
structure Lawful {κ α : Type} (c : Cfg κ α) : Prop where
  refl : ∀ a, c.eq a a = true
  symm : ∀ a b, c.eq a b = true → c.eq b a = true
  trans : ∀ a b d, c.eq a b = true → c.eq b d = true → c.eq a d = true
  hash : ∀ a b, c.eq a b = true → c.hash a = c.hash b

/-- The calls of the interface.  `x` is the data in the user's struct handed to the call, `ans` the answer of the user's
allocation function if it is called.  `f` is a user callback, or what the user does with the returned pointer.  An
operation on an entry is the call of `entry` with the key followed by the call on the entry. -/
inductive Op (α κ : Type) where
  | insert (x : α) (ans : AllocAns α)
  | tryInsert (x : α) (ans : AllocAns α)
  | insertOrAssign (x : α) (ans : AllocAns α)
  | remove (x : α)
  | orInsert (k : κ) (x : α) (f : α → α) (ans : AllocAns α)
  | insertEntry (k : κ) (x : α) (ans : AllocAns α)
  | removeEntry (k : κ) (ans : AllocAns α)
  | andModify (k : κ) (f : α → α) (ans : AllocAns α)
  | occupied (k : κ) (ans : AllocAns α)
  | insertError (k : κ) (ans : AllocAns α)
  | orInsertW (k : κ) (x : α) (ans : AllocAns α)
  | insertEntryW (k : κ) (x : α) (ans : AllocAns α)
  | tryInsertW (k : κ) (x : α) (ans : AllocAns α)
  | insertOrAssignW (k : κ) (x : α) (ans : AllocAns α)
  | contains (k : κ) (ans : AllocAns α)
  | get (k : κ) (f : α → α)
  | size
  | isEmpty
  | capacity
  | validate
  | clear

/-- What the user observes.  A pointer is seen as `none` (NULL) or the data it points to. -/
inductive Out (α : Type) where
  /-- a returned entry: its status and what it unwraps to -/
  | ent (stats : Nat) (v : Option α)
  /-- the same, and the contents of the user's struct after the call -/
  | insEnt (stats : Nat) (v : Option α) (handle : α)
  | ptr (v : Option α)
  | flag (b : Bool)
  | num (n : Nat)
  | result (r : Res)

/-- The stored elements, the capacity, and whether the memory of the map may hold garbage: it does from initialisation
over arbitrary memory, and from `clear`, until the first call that looks for an entry. -/
structure St (α : Type) where
  l : List α
  cap : Nat
  stale : Bool

variable {α κ : Type} (c : Cfg κ α)

/-- The stored element with key `k`. -/
def lookup (k : κ) (l : List α) : Option α := l.find? (fun x => c.eq k (c.key x))
/-- All elements but the one with key `k`. -/
def without (k : κ) (l : List α) : List α := l.filter (fun x => !c.eq k (c.key x))
/-- Replace the element with key `k`. -/
def assign (k : κ) (x : α) (l : List α) : List α := l.map (fun y => if c.eq k (c.key y) then x else y)

/-- The capacities the map can grow to, src/flat_hash_map.c:68-127. -/
def primes : List Nat :=
  [11, 37, 79, 163, 331, 691, 1439, 2999, 6079, 12263, 25717, 53611, 111697, 232499, 483611, 1005761, 2091191, 4347799,
   9039167, 18792019, 39067739, 81219493, 168849973, 351027263, 729760741, 1517120861, 3153985903, 6556911073,
   13631348041, 28338593999, 58913902231, 122477772247, 254622492793, 529341875947, 1100463743389, 2287785087839,
   4756140888377, 9887675318611, 20555766849589, 42733962953639, 88840839803449, 184693725350723, 383964990193007,
   798235638020831, 1659474561692683, 3449928429320413, 7172153428667531, 14910391869919981, 30997633824443711,
   64441854452711651, 133969987155270011, 278513981492471381, 579010564484755961, 1203721378684243091,
   2502450294306576181, 5202414434410211531, 10815445968671840317, 17617221824571301183]

/-- The capacity wanted next by a map of `n` elements and capacity `cap`. -/
def wanted (n cap : Nat) : Nat := if cap = 0 then 11 else (primes.find? (fun p => decide (p > 2 * (n + 2)))).getD 0

/-- A call that looks for an entry first makes sure that there is room: two slots belong to the map, and these and the
elements may take up to 80 percent of the capacity.  Otherwise the map must grow.  The flag says whether there is room
for one more element. -/
def room (al ok : Bool) (s : St α) : St α × Bool :=
  if s.cap ≠ 0 ∧ 5 * (s.l.length + 2) ≤ 4 * s.cap then ({ s with stale := false }, true)
  else if al && ok && decide (s.cap < wanted s.l.length s.cap) then
    ({ s with cap := wanted s.l.length s.cap, stale := false }, true)
  else ({ s with stale := false }, false)

/-- One call: new contents and what is observed. -/
def specStep (al : Bool) (s : St α) : Op α κ → St α × Out α
  | .insert x ans =>
    let r := room al ans.isSome s
    match lookup c (c.key x) s.l, r.2 with
    | some v, _ => ({ r.1 with l := assign c (c.key x) x s.l }, .insEnt Stat.occupied (some v) v)
    | none, true => ({ r.1 with l := x :: s.l }, .insEnt Stat.vacant none x)
    | none, false => (r.1, .insEnt Stat.insertError none x)
  | .tryInsert x ans =>
    let r := room al ans.isSome s
    match lookup c (c.key x) s.l, r.2 with
    | some v, _ => (r.1, .ent Stat.occupied (some v))
    | none, true => ({ r.1 with l := x :: s.l }, .ent Stat.vacant (some x))
    | none, false => (r.1, .ent Stat.insertError none)
  | .tryInsertW k x ans =>
    let r := room al ans.isSome s
    match lookup c k s.l, r.2 with
    | some v, _ => (r.1, .ent Stat.occupied (some v))
    | none, true => ({ r.1 with l := x :: s.l }, .ent Stat.vacant (some x))
    | none, false => (r.1, .ent Stat.insertError none)
  | .insertOrAssign x ans =>
    let r := room al ans.isSome s
    match lookup c (c.key x) s.l, r.2 with
    | some _, _ => ({ r.1 with l := assign c (c.key x) x s.l }, .ent Stat.occupied (some x))
    | none, true => ({ r.1 with l := x :: s.l }, .ent Stat.vacant (some x))
    | none, false => (r.1, .ent Stat.insertError none)
  | .insertOrAssignW k x ans =>
    let r := room al ans.isSome s
    match lookup c k s.l, r.2 with
    | some _, _ => ({ r.1 with l := assign c k x s.l }, .ent Stat.occupied (some x))
    | none, true => ({ r.1 with l := x :: s.l }, .ent Stat.vacant (some x))
    | none, false => (r.1, .ent Stat.insertError none)
  | .remove x =>
    match lookup c (c.key x) s.l with
    | some v => ({ s with l := without c (c.key x) s.l }, .insEnt Stat.occupied (some v) v)
    | none => (s, .insEnt Stat.vacant none x)
  | .orInsert k x f ans =>
    let r := room al ans.isSome s
    match lookup c k s.l, r.2 with
    | some v, _ => ({ r.1 with l := assign c k (f v) s.l }, .ptr (some v))
    | none, true => ({ r.1 with l := f x :: s.l }, .ptr (some x))
    | none, false => (r.1, .ptr none)
  | .orInsertW k x ans =>
    let r := room al ans.isSome s
    match lookup c k s.l, r.2 with
    | some v, _ => (r.1, .ptr (some v))
    | none, true => ({ r.1 with l := x :: s.l }, .ptr (some x))
    | none, false => (r.1, .ptr none)
  | .insertEntry k x ans | .insertEntryW k x ans =>
    let r := room al ans.isSome s
    match lookup c k s.l, r.2 with
    | some _, _ => ({ r.1 with l := assign c k x s.l }, .ptr (some x))
    | none, true => ({ r.1 with l := x :: s.l }, .ptr (some x))
    | none, false => (r.1, .ptr none)
  | .removeEntry k ans =>
    let r := room al ans.isSome s
    match lookup c k s.l with
    | some _ => ({ r.1 with l := without c k s.l }, .ent Stat.occupied none)
    | none => (r.1, .ent Stat.vacant none)
  | .andModify k f ans =>
    let r := room al ans.isSome s
    match lookup c k s.l with
    | some v => ({ r.1 with l := assign c k (f v) s.l }, .ptr (some (f v)))
    | none => (r.1, .ptr none)
  | .occupied k ans | .contains k ans => ((room al ans.isSome s).1, .flag (lookup c k s.l).isSome)
  | .insertError _ ans => ((room al ans.isSome s).1, .flag (!(room al ans.isSome s).2))
  | .get k f =>
    match lookup c k s.l with
    | some v => ({ s with l := assign c k (f v) s.l }, .ptr (some v))
    | none => (s, .ptr none)
  | .size => (s, .num s.l.length)
  | .isEmpty => (s, .flag s.l.isEmpty)
  | .capacity => (s, .num s.cap)
  | .validate => (s, .flag true)
  | .clear => ({ s with l := [], stale := true }, .result .ok)

/-- What the documentation demands of the caller: the struct stored under an entry has the entry's key, and a callback
does not change the key. -/
def okOp (s : St α) : Op α κ → Prop
  | .insertEntry k x _ | .orInsertW k x _ | .insertEntryW k x _ | .tryInsertW k x _
  | .insertOrAssignW k x _ => c.eq k (c.key x) = true
  | .orInsert k x f _ => c.eq k (c.key x) = true ∧ c.eq k (c.key (f x)) = true ∧
      ∀ v ∈ s.l, c.eq k (c.key v) = true → c.eq k (c.key (f v)) = true
  | .andModify k f _ | .get k f => ∀ v ∈ s.l, c.eq k (c.key v) = true → c.eq k (c.key (f v)) = true
  | _ => True

/-- What must be avoided because the code gets it wrong: `get`, `remove` and `validate` while the memory may hold garbage,
and some operations on the entry of a stored key when the map would have to grow but does not. -/
def safeOp (al : Bool) (s : St α) : Op α κ → Prop
  | .get _ _ | .remove _ | .validate => s.cap = 0 ∨ s.stale = false
  | .removeEntry k ans | .andModify k _ ans | .orInsertW k _ ans | .insertEntryW k _ ans | .tryInsertW k _ ans
  | .insertOrAssignW k _ ans => lookup c k s.l = none ∨ (room al ans.isSome s).2 = true
  | _ => True

/-- A history. -/
def specRun (al : Bool) : St α → List (Op α κ) → St α × List (Out α)
  | s, [] => (s, [])
  | s, o :: os =>
    let (s', r) := specStep c al s o
    let (s'', rs) := specRun al s' os
    (s'', r :: rs)

def safeRun (al : Bool) : St α → List (Op α κ) → Prop
  | _, [] => True
  | s, o :: os => okOp c s o ∧ safeOp c al s o ∧ safeRun al (specStep c al s o).1 os

end CCC.HashMap
