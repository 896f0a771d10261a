import Verif.Spec.PtrMap
import Verif.Spec.FlatMap
import Verif.Spec.HashMap
/-
What the five maps of the library have in common: a dictionary, i.e. a partial function from keys to user data and the number of its
elements.  Addresses, slots, capacities, trees, hashes and answers of allocation functions do not occur here.  The second half
says how a call on each kind of map and what it shows are read as a call on a dictionary and its answer.
-/
namespace CCC.Dictionary
open CCC

/-- What is stored under each key, and how many elements there are. -/
structure Dict (κ α : Type) where
  get : κ → Option α
  n : Nat

/-- Calls on a dictionary.  `f` is a callback, or what the user does through the returned reference. -/
inductive Op (α κ : Type) where
  | insert (x : α)
  | tryInsert (x : α)
  | insertOrAssign (x : α)
  | remove (x : α)
  | orInsert (k : κ) (x : α) (f : α → α)
  | insertEntry (k : κ) (x : α)
  | removeEntry (k : κ)
  | andModify (k : κ) (f : α → α)
  | has (k : κ)
  | get (k : κ) (f : α → α)
  | first
  | last
  | range (b e : κ)
  | rrange (b e : κ)
  | size
  | isEmpty
  | clear
  /-- a call that is about one kind of map only and must leave the contents alone -/
  | look

/-- Answers. -/
inductive Out (α : Type) where
  /-- a status and the data it comes with -/
  | ent (stats : Nat) (v : Option α)
  | val (v : Option α)
  | flag (b : Bool)
  | num (n : Nat)
  | range (b e : Option α)
  | done
  /-- there was no memory for a new element -/
  | refused

variable {α κ : Type} (cmp : κ → κ → Cmp) (key : α → κ)

namespace Dict
def empty : Dict κ α := ⟨fun _ => none, 0⟩
/-- Replace what is stored under `k`. -/
def set (d : Dict κ α) (k : κ) (x : α) : Dict κ α := ⟨fun k' => if cmp k' k = .eql then some x else d.get k', d.n⟩
/-- Store something under the new key `k`. -/
def put (d : Dict κ α) (k : κ) (x : α) : Dict κ α := ⟨fun k' => if cmp k' k = .eql then some x else d.get k', d.n + 1⟩
/-- Drop what is stored under `k`. -/
def del (d : Dict κ α) (k : κ) : Dict κ α := ⟨fun k' => if cmp k' k = .eql then none else d.get k', d.n - 1⟩

/-- `v` is the stored element with the least key among those with `P`, or nothing if there is none. -/
def Least (d : Dict κ α) (P : α → Prop) : Option α → Prop
  | none => ∀ k x, d.get k = some x → ¬ P x
  | some x => d.get (key x) = some x ∧ P x ∧ ∀ k y, d.get k = some y → P y → cmp (key x) (key y) ≠ .grt
/-- The same for the greatest key. -/
def Greatest (d : Dict κ α) (P : α → Prop) : Option α → Prop
  | none => ∀ k x, d.get k = some x → ¬ P x
  | some x => d.get (key x) = some x ∧ P x ∧ ∀ k y, d.get k = some y → P y → cmp (key x) (key y) ≠ .les
end Dict

/-- A new element `x` is stored under `k` and the answer is `a`, or there is no memory. -/
def Adds (d : Dict κ α) (k : κ) (x : α) (a out : Out α) (d' : Dict κ α) : Prop :=
  (out = a ∧ d' = d.put cmp k x) ∨ (out = .refused ∧ d' = d)

/-- One call on dictionary `d` may answer `out` and leave `d'`. -/
def Step (d : Dict κ α) (op : Op α κ) (out : Out α) (d' : Dict κ α) : Prop :=
  match op with
  | .insert x =>
    match d.get (key x) with
    | some v => out = .ent Stat.occupied (some v) ∧ d' = d.set cmp (key x) x
    | none => Adds cmp d (key x) x (.ent Stat.vacant none) out d'
  | .tryInsert x =>
    match d.get (key x) with
    | some v => out = .ent Stat.occupied (some v) ∧ d' = d
    | none => Adds cmp d (key x) x (.ent Stat.vacant (some x)) out d'
  | .insertOrAssign x =>
    match d.get (key x) with
    | some _ => out = .ent Stat.occupied (some x) ∧ d' = d.set cmp (key x) x
    | none => Adds cmp d (key x) x (.ent Stat.vacant (some x)) out d'
  | .remove x =>
    match d.get (key x) with
    | some v => out = .ent Stat.occupied (some v) ∧ d' = d.del cmp (key x)
    | none => out = .ent Stat.vacant none ∧ d' = d
  | .orInsert k x f =>
    match d.get k with
    | some v => out = .val (some v) ∧ d' = d.set cmp k (f v)
    | none => Adds cmp d k (f x) (.val (some x)) out d'
  | .insertEntry k x =>
    match d.get k with
    | some _ => out = .val (some x) ∧ d' = d.set cmp k x
    | none => Adds cmp d k x (.val (some x)) out d'
  | .removeEntry k =>
    match d.get k with
    | some _ => out = .ent Stat.occupied none ∧ d' = d.del cmp k
    | none => out = .ent Stat.vacant none ∧ d' = d
  | .andModify k f =>
    match d.get k with
    | some v => out = .val (some (f v)) ∧ d' = d.set cmp k (f v)
    | none => out = .val none ∧ d' = d
  | .has k => out = .flag (d.get k).isSome ∧ d' = d
  | .get k f =>
    match d.get k with
    | some v => out = .val (some v) ∧ d' = d.set cmp k (f v)
    | none => out = .val none ∧ d' = d
  | .first => (∃ v, out = .val v ∧ d.Least cmp key (fun _ => True) v) ∧ d' = d
  | .last => (∃ v, out = .val v ∧ d.Greatest cmp key (fun _ => True) v) ∧ d' = d
  | .range b e => (∃ v w, out = .range v w ∧ d.Least cmp key (fun x => cmp b (key x) ≠ .grt) v ∧
      d.Least cmp key (fun x => cmp e (key x) = .les) w) ∧ d' = d
  | .rrange b e => (∃ v w, out = .range v w ∧ d.Greatest cmp key (fun x => cmp b (key x) ≠ .les) v ∧
      d.Greatest cmp key (fun x => cmp e (key x) = .grt) w) ∧ d' = d
  | .size => out = .num d.n ∧ d' = d
  | .isEmpty => out = .flag (d.n == 0) ∧ d' = d
  | .clear => out = .done ∧ d' = .empty
  | .look => out = .done ∧ d' = d

/-- A history and its answers. -/
inductive Trace : Dict κ α → List (Op α κ) → List (Out α) → Prop
  | nil (d : Dict κ α) : Trace d [] []
  | cons (d : Dict κ α) (op : Op α κ) (out : Out α) (d' : Dict κ α) (ops : List (Op α κ)) (outs : List (Out α)) :
      Step cmp key d op out d' → Trace d' ops outs → Trace d (op :: ops) (out :: outs)

/-! ### Reading calls on the pointer based ordered maps -/

def ofPtr : PtrMap.Op α κ → Op α κ
  | .insert _ x _ _ _ => .insert x
  | .tryInsert _ x _ => .tryInsert x
  | .insertOrAssign _ x _ => .insertOrAssign x
  | .remove _ x => .remove x
  | .orInsert k _ x _ | .orInsertW k x _ | .tryInsertW k x _ => .orInsert k x id
  | .insertEntry k _ x _ | .insertEntryW k x _ | .insertOrAssignW k x _ => .insertEntry k x
  | .removeEntry k => .removeEntry k
  | .andModify k f => .andModify k f
  | .occupied k | .contains k => .has k
  | .get k => .get k id
  | .begin => .first
  | .rbegin => .last
  | .equalRange b e => .range b e
  | .equalRrange b e => .rrange b e
  | .size => .size
  | .isEmpty => .isEmpty
  | .clear => .clear
  | .next _ | .rnext _ | .validate => .look

/-- A status with data, or a refusal. -/
def entOut (st : Nat) (v : Option α) : Out α := if st = Stat.insertError then .refused else .ent st v
/-- The data a call of the `insert` kind leaves in the user's struct, if it says that there was an element. -/
def oldOut (st : Nat) (h : α) : Out α := entOut st (if st = Stat.occupied then some h else none)
/-- The element a call of the `or_insert` kind refers to, or a refusal. -/
def refOut : Option α → Out α
  | some v => .val (some v)
  | none => .refused

def ptrOut (op : PtrMap.Op α κ) (out : PtrMap.Out α) : Out α :=
  match ofPtr op, out with
  | .insert _, .insEnt st _ tmp => oldOut st tmp
  | .removeEntry _, .ent st _ => .ent st none
  | .orInsert .., .ptr v | .insertEntry .., .ptr v => refOut (v.map Prod.snd)
  | .look, _ => .done
  | _, .ent st v => entOut st (v.map Prod.snd)
  | _, .ptr v => .val (v.map Prod.snd)
  | _, .flag b => .flag b
  | _, .num n => .num n
  | _, .range b e => .range (b.map Prod.snd) (e.map Prod.snd)
  | _, _ => .done

/-! ### Reading calls on the flat ordered maps -/

variable {J : Type}

def ofFlat : FlatMap.Op α κ J → Op α κ
  | .insert x _ => .insert x
  | .tryInsert x _ => .tryInsert x
  | .insertOrAssign x _ => .insertOrAssign x
  | .remove x => .remove x
  | .orInsert k x _ | .orInsertW k x _ | .tryInsertW k x _ => .orInsert k x id
  | .insertEntry k x _ | .insertEntryW k x _ | .insertOrAssignW k x _ => .insertEntry k x
  | .removeEntry k => .removeEntry k
  | .andModify k f => .andModify k f
  | .occupied k | .contains k => .has k
  | .get k => .get k id
  | .begin => .first
  | .rbegin => .last
  | .equalRange b e => .range b e
  | .equalRrange b e => .rrange b e
  | .size => .size
  | .isEmpty => .isEmpty
  | .clear => .clear
  | .next _ | .rnext _ | .end_ | .capacity | .validate => .look

/-- The data behind a reference; NULL and the end position have none. -/
def viewVal : FlatMap.View α → Option α
  | .elem _ v => some v
  | _ => none

def flatOut (op : FlatMap.Op α κ J) (out : FlatMap.Out α) : Out α :=
  match ofFlat op, out with
  | .insert _, .insEnt st _ h => oldOut st h
  | .remove _, .remEnt st own h => .ent st (if own then some h else none)
  | .removeEntry _, .ent st _ => .ent st none
  | .orInsert .., .ptr v | .insertEntry .., .ptr v => refOut (viewVal v)
  | .orInsert .., .ent _ v | .insertEntry .., .ent _ v => refOut (viewVal v)
  | .look, _ => .done
  | _, .ent st v => entOut st (viewVal v)
  | _, .ptr v => .val (viewVal v)
  | _, .flag b => .flag b
  | _, .num n => .num n
  | _, .range b e => .range (viewVal b) (viewVal e)
  | _, _ => .done

/-! ### Reading calls on the flat hash map -/

def ofHash : HashMap.Op α κ → Op α κ
  | .insert x _ => .insert x
  | .tryInsert x _ => .tryInsert x
  | .insertOrAssign x _ => .insertOrAssign x
  | .remove x => .remove x
  | .orInsert k x f _ => .orInsert k x f
  | .orInsertW k x _ | .tryInsertW k x _ => .orInsert k x id
  | .insertEntry k x _ | .insertEntryW k x _ | .insertOrAssignW k x _ => .insertEntry k x
  | .removeEntry k _ => .removeEntry k
  | .andModify k f _ => .andModify k f
  | .occupied k _ | .contains k _ => .has k
  | .get k f => .get k f
  | .size => .size
  | .isEmpty => .isEmpty
  | .clear => .clear
  | .insertError .. | .capacity | .validate => .look

def hashOut (op : HashMap.Op α κ) (out : HashMap.Out α) : Out α :=
  match ofHash op, out with
  | .insert _, .insEnt st _ h => oldOut st h
  | .remove _, .insEnt st v _ => .ent st v
  | .orInsert .., .ptr v | .insertEntry .., .ptr v => refOut v
  | .orInsert .., .ent _ v | .insertEntry .., .ent _ v => refOut v
  | .look, _ => .done
  | _, .ent st v => entOut st v
  | _, .ptr v => .val v
  | _, .flag b => .flag b
  | _, .num n => .num n
  | _, _ => .done

end CCC.Dictionary
