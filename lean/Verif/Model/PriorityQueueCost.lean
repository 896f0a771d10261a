import Verif.Model.PriorityQueue
import Verif.Model.Count
/-
The functions of `Verif/Model/PriorityQueue.lean` with their work counted: every call of the user's comparison function
and every access to an element.  They are the same functions, statement for statement.
-/
namespace CCC.Pq
open CCC PrioQ

variable {α : Type} (c : Cfg α)

/-- A call of the user's comparison function, src/priority_queue.c:301-308. -/
def cmpN (x y : α) : Count Cmp := work 1 (some (c.cmp x y))

/-- As `linkChild`, src/priority_queue.c:403-424. -/
def linkChildN (s : Pq α) (p ch : Nat) : Count (Pq α) := do
  let ep ← acc (s.mem p)
  let s ← (match ep.left with
    | some l => do
      let el ← acc (s.mem l)
      let s ← acc (s.mod (some ch) (fun x => { x with next := el.next }))
      let s ← acc (s.mod (some ch) (fun x => { x with prev := some l }))
      let el ← acc (s.mem l)
      let s ← acc (s.mod el.next (fun x => { x with prev := some ch }))
      acc (s.mod (some l) (fun x => { x with next := some ch }))
    | none => do
      let s ← acc (s.mod (some ch) (fun x => { x with prev := some ch }))
      acc (s.mod (some ch) (fun x => { x with next := some ch })))
  let s ← acc (s.mod (some p) (fun x => { x with left := some ch }))
  acc (s.mod (some ch) (fun x => { x with par := some p }))

/-- As `merge`, src/priority_queue.c:386-401. -/
def mergeN (s : Pq α) (old new : Slot) : Count (Pq α × Slot) :=
  match old, new with
  | none, new => pure (s, new)
  | some a, none => pure (s, some a)
  | some a, some b =>
    if a = b then pure (s, some a)
    else do
      let x ← acc (s.mem a)
      let y ← acc (s.mem b)
      let o ← cmpN c y.val x.val
      if o = c.order then do
        let s ← linkChildN s b a
        pure (s, some b)
      else do
        let s ← linkChildN s a b
        pure (s, some a)

/-- As `cutChild`, src/priority_queue.c:335-346. -/
def cutChildN (s : Pq α) (ch : Nat) : Count (Pq α) := do
  let e ← acc (s.mem ch)
  let s ← acc (s.mod e.next (fun x => { x with prev := e.prev }))
  let e ← acc (s.mem ch)
  let s ← acc (s.mod e.prev (fun x => { x with next := e.next }))
  let e ← acc (s.mem ch)
  let s ← (match e.par with
    | none => pure s
    | some p => do
      let ep ← acc (s.mem p)
      if ep.left = some ch then
        acc (s.mod (some p) (fun x => { x with left := if e.next = some ch then none else e.next }))
      else pure s)
  acc (s.mod (some ch) (fun x => { x with par := none }))

/-- As `pairLoop`, src/priority_queue.c:369-377. -/
def pairLoopN (s : Pq α) (eldest accu cur : Slot) : Count (Pq α × Slot × Slot) :=
  if cur = eldest then pure (s, accu, cur)
  else do
    let a ← cur
    let e ← acc (s.mem a)
    if e.next = eldest then pure (s, accu, cur)
    else do
      let n ← e.next
      let en ← acc (s.mem n)
      let nextCur := en.next
      let s ← acc (s.mod (some n) (fun x => { x with prev := none, next := none }))
      let s ← acc (s.mod (some a) (fun x => { x with prev := none, next := none }))
      let (s, m) ← mergeN c s (some a) (some n)
      let (s, accu) ← mergeN c s accu m
      pairLoopN s eldest accu nextCur
partial_fixpoint

/-- As `deleteMin`, src/priority_queue.c:359-384. -/
def deleteMinN (s : Pq α) (root : Nat) : Count (Pq α × Slot) := do
  let e ← acc (s.mem root)
  match e.left with
  | none => pure (s, none)
  | some l => do
    let el ← acc (s.mem l)
    let eldest ← el.next
    let ee ← acc (s.mem eldest)
    let (s, accu, cur) ← pairLoopN c s (some eldest) (some eldest) ee.next
    let (s, root) ← (if cur ≠ some eldest then mergeN c s accu cur else pure (s, accu))
    let s ← acc (s.mod root (fun x => { x with prev := root, next := root }))
    let s ← acc (s.mod root (fun x => { x with par := none }))
    pure (s, root)

/-- As `deleteNode`, src/priority_queue.c:348-357. -/
def deleteNodeN (s : Pq α) (e : Nat) : Count (Pq α × Slot) :=
  if s.root = some e then deleteMinN c s e
  else do
    let s ← cutChildN s e
    let (s, r) ← deleteMinN c s e
    mergeN c s s.root r

/-- As `push`, src/priority_queue.c:45-68. -/
def pushN (s : Pq α) (e : Nat) (ans : Slot) : Count (Pq α × Slot) := do
  let s ← acc (initNode s e)
  if c.alloc then
    match ans with
    | none => pure (s, none)
    | some n => do
      let x ← acc (s.mem e)
      let s : Pq α := { s with mem := upd s.mem n (some x) }
      if c.off ≠ 0 then (none : Option _)
      else do
        let (s, r) ← mergeN c s s.root (some e)
        pure ({ s with root := r, sz := s.sz + 1 }, some n)
  else do
    let (s, r) ← mergeN c s s.root (some e)
    pure ({ s with root := r, sz := s.sz + 1 }, some e)

/-- As `pop`, src/priority_queue.c:70-86. -/
def popN (s : Pq α) : Count (Pq α × Res) :=
  match s.root with
  | none => pure (s, .inputErr)
  | some p => do
    let (s, r) ← deleteMinN c s p
    let s : Pq α := { s with root := r, sz := s.sz - 1 }
    let s ← acc (clearNode s p)
    pure (if c.alloc then free s p else s, .ok)

/-- As `extract`, src/priority_queue.c:88-99. -/
def extractN (s : Pq α) (e : Nat) : Count (Pq α × Slot) :=
  if s.root = none then pure (s, none)
  else do
    let x ← acc (s.mem e)
    if x.next = none ∨ x.prev = none then pure (s, none)
    else do
      let (s, r) ← deleteNodeN c s e
      let s : Pq α := { s with root := r, sz := s.sz - 1 }
      let s ← acc (clearNode s e)
      pure (s, some e)

/-- As `erase`, src/priority_queue.c:101-115. -/
def eraseN (s : Pq α) (e : Nat) : Count (Pq α × Res) :=
  if s.root = none then pure (s, .inputErr)
  else do
    let x ← acc (s.mem e)
    if x.next = none ∨ x.prev = none then pure (s, .inputErr)
    else do
      let (s, r) ← deleteNodeN c s e
      let s : Pq α := { s with root := r, sz := s.sz - 1 }
      pure (if c.alloc then free s e else s, .ok)

/-- As `clearLoop`, src/priority_queue.c:124-131. -/
def clearLoopN (s : Pq α) (destroy : Bool) : Count (Pq α × List Nat) :=
  if isEmpty s then pure (s, [])
  else do
    let d ← (if destroy then do let f ← front s; some [f] else some [] : Option (List Nat))
    let (s, _) ← popN c s
    let (s, ds) ← clearLoopN s destroy
    pure (s, d ++ ds)
partial_fixpoint

/-- As `clear`, src/priority_queue.c:117-133. -/
def clearN (s : Pq α) (destroy : Bool) : Count (Pq α × List Nat × Res) := do
  let (s, d) ← clearLoopN c s destroy
  pure (s, d, .ok)

/-- As `updateFixup`, src/priority_queue.c:256-269. -/
def updateFixupN (s : Pq α) (e : Nat) : Count (Pq α) := do
  let x ← acc (s.mem e)
  let beats ← (match x.par with
    | none => pure false
    | some p => do
      let y ← acc (s.mem p)
      let o ← cmpN c x.val y.val
      pure (decide (o = c.order)))
  if beats then do
    let s ← cutChildN s e
    let (s, r) ← mergeN c s s.root (some e)
    pure { s with root := r }
  else do
    let (s, r) ← deleteNodeN c s e
    let s : Pq α := { s with root := r }
    let s ← acc (initNode s e)
    let (s, r) ← mergeN c s s.root (some e)
    pure { s with root := r }

/-- As `fixup`, src/priority_queue.c:271-299. -/
def fixupN (s : Pq α) (e : Nat) (up : Bool) : Count (Pq α) := do
  let s ← (if up then cutChildN s e
    else do
      let (s, r) ← deleteNodeN c s e
      acc (initNode { s with root := r } e))
  let (s, r) ← mergeN c s s.root (some e)
  pure { s with root := r }

/-- As `change`. -/
def changeN (s : Pq α) (e : Nat) (f : α → α) (fix : Pq α → Count (Pq α)) : Count (Pq α × Bool) := do
  let x ← acc (s.mem e)
  if x.next = none ∨ x.prev = none then pure (s, false)
  else do
    let s ← acc (s.mod (some e) (fun x => { x with val := f x.val }))
    let s ← fix s
    pure (s, true)

/-- As `update`, src/priority_queue.c:153-164. -/
def updateN (s : Pq α) (e : Nat) (f : α → α) : Count (Pq α × Bool) := changeN s e f (updateFixupN c · e)

/-- As `increase`, src/priority_queue.c:168-179. -/
def increaseN (s : Pq α) (e : Nat) (f : α → α) : Count (Pq α × Bool) :=
  changeN s e f (fixupN c · e (decide (c.order = .grt)))

/-- As `decrease`, src/priority_queue.c:183-194. -/
def decreaseN (s : Pq α) (e : Nat) (f : α → α) : Count (Pq α × Bool) :=
  changeN s e f (fixupN c · e (decide (c.order = .les)))

/-- As `step`.  The validation of a queue, which is not for production, is not counted. -/
def stepN (s : Pq α) : Op α → Count (Pq α × Out)
  | .push e => do
    let (s, p) ← pushN c s e none
    pure (s, .ptr p)
  | .pop => do
    let (s, r) ← popN c s
    pure (s, .res r)
  | .extract e => do
    let (s, p) ← extractN c s e
    pure (s, .ptr p)
  | .erase e => do
    let (s, r) ← eraseN c s e
    pure (s, .res r)
  | .update e f => do
    let (s, b) ← updateN c s e f
    pure (s, .flag b)
  | .increase e f => do
    let (s, b) ← increaseN c s e f
    pure (s, .flag b)
  | .decrease e f => do
    let (s, b) ← decreaseN c s e f
    pure (s, .flag b)
  | .clear d => do
    let (s, _, r) ← clearN c s d
    pure (s, .res r)
  | op => do
    let r ← step c s op
    pure r

/-- As `run`. -/
def runN (s : Pq α) : List (Op α) → Count (Pq α × List Out)
  | [] => pure (s, [])
  | o :: os => do
    let (s, r) ← stepN c s o
    let (s, rs) ← runN s os
    pure (s, r :: rs)

end CCC.Pq
