import Verif.Model.FlatOrderedMap
import Verif.Model.FlatPQ
import Verif.Spec.Words
/-
Model of the word count sample, `samples/words.c`, as a client of the flat ordered map and the flat priority queue.

Bytes are numbers; a byte of 128 or more is a negative `char`, for which `isalpha` and `tolower` are undefined, `none`, as are
accesses outside of the arena, an overflow of a count and a failed `PROG_ASSERT`, except the one that the map is not empty,
which is an answer of its own.  Requests for memory are taken to succeed.  The lines of the text are counted from the list of
all their pieces between spaces, instead of piece by piece; of `util/str_view.c` the functions that find the pieces are modelled, for
a delimiter of one byte, as it is here.

The two comparison functions get offsets into the arena and compare the strings there.  In the map a word carries, besides its
offset, the string that was there when it was inserted, and this string is compared: that it stays there is shown.
-/
namespace CCC.Words
open CCC

/-- `INT_MAX`. -/
def intMax : Int := 2147483647

/-- `struct str_arena`, samples/words.c:58-63. -/
structure Arena where
  mem : Nat → Nat
  next : Nat
  cap : Nat

/-- `str_arena_create`, samples/words.c:533-545, with `arena_start_cap`, 106. -/
def Arena.create : Arena := ⟨fun _ => 0, 0, 4096⟩

/-- `str_arena_maybe_resize_pos`, samples/words.c:598-618: new memory is zeroed. -/
def Arena.resize (a : Arena) (pos : Nat) : Arena :=
  if pos ≥ a.cap then { a with mem := fun i => if a.cap ≤ i ∧ i < pos * 2 then 0 else a.mem i, cap := pos * 2 } else a

/-- A store to the arena. -/
def Arena.put (a : Arena) (i c : Nat) : Option Arena := if i < a.cap then some { a with mem := upd a.mem i c } else none

/-- `str_arena_push_back`, samples/words.c:568-586. -/
def Arena.pushBack (a : Arena) (str len c : Nat) : Option Arena := do
  let pos := str + len + 1
  let a := a.resize pos
  if str ≥ a.cap then none else                                         -- 577-578 str_arena_at
  let a ← a.put (str + len) c
  let a ← a.put (str + len + 1) 0
  some (if pos ≥ a.next then { a with next := pos + 1 } else a)

/-- `str_arena_free_to_pos`, samples/words.c:624-637. -/
def Arena.freeTo (a : Arena) (str len : Nat) : Option Arena :=
  if a.cap = 0 ∨ a.next = 0 then some a
  else if len ≠ 0 ∧ str + len > a.cap then none
  else some { a with mem := fun i => if str ≤ i ∧ i < str + len then 0 else a.mem i, next := str }

/-- The string at a position, as `strcmp` and `printf` read it: up to the byte 0, which must be in the arena. -/
def readStr (mem : Nat → Nat) (i : Nat) : Nat → Option (List Nat)
  | 0 => none
  | k + 1 => if mem i = 0 then some [] else (readStr mem (i + 1) k).map (mem i :: ·)

/-- `str_arena_at`, samples/words.c:655-663, and the string there. -/
def Arena.str (a : Arena) (i : Nat) : Option (List Nat) := if i ≥ a.cap then none else readStr a.mem i (a.cap - i)

/-- `isalpha`. -/
def isAlpha (c : Nat) : Option Bool := if c < 128 then some (decide (Letter c)) else none

/-- The loop of `clean_word`, samples/words.c:504-516: the number of bytes, or `none` if a byte does not belong to a word. -/
def cleanLoop (str : Nat) : Arena → Nat → List Nat → Option (Arena × Option Nat)
  | a, len, [] => some (a, some len)
  | a, len, c :: cs => do
    if !(← isAlpha c) && c != 45 then do
      let a ← a.freeTo str len
      some (a, none)
    else do
      let a ← a.pushBack str len (lower c)
      cleanLoop str a (len + 1) cs

/-- `clean_word`, samples/words.c:494-529, with `str_arena_alloc` of 0 bytes, 549-559. -/
def cleanWord (a : Arena) (w : List Nat) : Option (Arena × Slot) := do
  let a := a.resize (a.next + 0)
  let str := a.next
  let (a, r) ← cleanLoop str a 0 w
  match r with
  | none => some (a, none)
  | some 0 => some (a, none)
  | some (n + 1) => do
    if str ≥ a.cap then none else                                       -- 521-522
    if !(← isAlpha (a.mem str)) || !(← isAlpha (a.mem (str + n))) then do
      let a ← a.freeTo str (n + 1)
      some (a, none)
    else some (a, some str)

/-- `word`, samples/words.c:74-80, with the string at the offset. -/
structure Wd where
  ofs : Nat
  str : List Nat
  cnt : Int

/-- The step of `create_frequency_map` for one piece of text, samples/words.c:467-487: `fom_or_insert_w(fom_and_modify_w(entry_r(
...)))`. -/
def countPiece (fresh : Nat → Frm.Junk Wd) (a : Arena) (m : Fom.Fom Wd) (p : List Nat) : Option (Arena × Fom.Fom Wd) := do
  let (a, r) ← cleanWord a p
  match r with
  | none => some (a, m)
  | some o => do
    let s ← a.str o
    let (m, e) ← Fom.entry cmpStr Wd.str m s
    if Fom.occupied e ∧ (m.val e.i).cnt ≥ intMax then none else
    let m ← Fom.andModify m e (fun w => { w with cnt := w.cnt + 1 })
    let (m, p) ← Fom.orInsertW cmpStr Wd.str m e ⟨o, s, 1⟩ (some (fresh m.sz))
    let _ ← p                                                           -- 486
    some (a, m)

/-- `create_frequency_map`, samples/words.c:452-492, for all pieces of all lines. -/
def countAll (fresh : Nat → Frm.Junk Wd) : Arena → Fom.Fom Wd → List (List Nat) → Option (Arena × Fom.Fom Wd)
  | a, m, [] => some (a, m)
  | a, m, p :: ps => do
    let (a, m) ← countPiece fresh a m p
    countAll fresh a m ps

/-- The map as `fom_init` leaves it: no memory yet, samples/words.c:458-459. -/
def create (fresh : Nat → Frm.Junk Wd) (ps : List (List Nat)) : Option (Arena × Fom.Fom Wd) :=
  countAll fresh Arena.create (Fom.init (fresh 0) 0 true) ps

/-- `sv_after_find`, util/str_view.c:796-812, for a delimiter `d` of one byte (`delim_i` is always 0): the number of delimiters at
the beginning of the `n` bytes from `i` on.  A byte outside of `buf` is `none`. -/
def afterFind (buf : List Nat) (d : Nat) : Nat → Nat → Option Nat
  | _, 0 => some 0
  | i, n + 1 => do
    let b ← buf[i]?
    if d = b then do
      let k ← afterFind buf d (i + 1) n
      some (k + 1)
    else some 0

/-- `sv_strnchr`, util/str_view.c:1451-1458, which is `sv_strnstrn`, 945-960, and `sv_find` from 0, 681-691, for one byte. -/
def strnchr (buf : List Nat) (d : Nat) : Nat → Nat → Option Nat
  | _, 0 => some 0
  | i, n + 1 => do
    let b ← buf[i]?
    if b ≠ d then do
      let k ← strnchr buf d (i + 1) n
      some (k + 1)
    else some 0

/-- A `str_view` into the buffer of the line: position and length. -/
abbrev Tok := Nat × Nat

/-- `sv_begin_tok`, util/str_view.c:447-467, of the first `len` bytes of the buffer. -/
def beginTok (buf : List Nat) (d len : Nat) : Option Tok := do
  let k ← afterFind buf d 0 len
  if len = k then some (k, 0) else
  let l ← strnchr buf d k (len - k)
  some (k, l)

/-- `sv_end_tok`, util/str_view.c:469-473. -/
def endTok (len : Nat) (t : Tok) : Bool := t.2 == 0 || decide (t.1 ≥ len)

/-- `sv_next_tok`, util/str_view.c:475-505. -/
def nextTok (buf : List Nat) (d len : Nat) (t : Tok) : Option Tok := do
  let b ← buf[t.1 + t.2]?
  if b = 0 then some (t.1 + t.2, 0)
  else if t.1 + t.2 ≥ len then some (len, 0)
  else
    let s := t.1 + t.2 + 1
    let k ← afterFind buf d s (len - s)
    if s + k ≥ len then some (len, 0) else
    let l ← strnchr buf d (s + k) (len - s - k)
    some (s + k, l)

/-- The loop over the pieces of a line, samples/words.c:463-465. -/
def tokLoop (buf : List Nat) (d len : Nat) (t : Tok) : Option (List (List Nat)) :=
  if endTok len t then some [] else do
    let t' ← nextTok buf d len t
    let r ← tokLoop buf d len t'
    some ((buf.drop t.1).take t.2 :: r)
partial_fixpoint

/-- `getline`: the lines of a text, each with the end of the line, if it has one. -/
def getLines : List Nat → List (List Nat)
  | [] => []
  | c :: cs => if c = 10 then [c] :: getLines cs
    else match getLines cs with
      | [] => [[c]]
      | l :: ls => (c :: l) :: ls

/-- The pieces of the lines, samples/words.c:460-465: the last byte of each line is left out, and a byte 0 follows the line in
the buffer. -/
def pieces : List (List Nat) → Option (List (List Nat))
  | [] => some []
  | l :: ls => do
    let t ← beginTok (l ++ [0]) 32 (l.length - 1)
    let ps ← tokLoop (l ++ [0]) 32 (l.length - 1) t
    let r ← pieces ls
    some (ps ++ r)

/-- The end of the program: it refuses a text without words, or prints lines. -/
inductive Outcome where
  | refused
  | printed (lines : List Line)

/-- `print_found`, samples/words.c:299-317. -/
def printFound (fresh : Nat → Frm.Junk Wd) (ps : List (List Nat)) (w : List Nat) : Option Outcome := do
  let (a, m) ← create fresh ps
  if Fom.isEmpty m then some .refused else
  let (a, r) ← cleanWord a w
  match r with
  | none => some (.printed [])
  | some o => do
    let s ← a.str o
    let (m, p) ← Fom.get cmpStr Wd.str m s
    match p with
    | none => some (.printed [])
    | some i => do
      let t ← a.str (m.val i).ofs
      some (.printed [(t, (m.val i).cnt)])

/-- The loops of `print_alpha_n` and `print_ralpha_n`, samples/words.c:382-386, 404-408: `i` lines were printed. -/
def walk (a : Arena) (m : Fom.Fom Wd) (fwd : Bool) (n i : Int) (p : Slot) : Option (List Line) :=
  if p ≠ Fom.end_ m ∧ i < n then do
    let j ← p
    let t ← a.str (m.val j).ofs
    let q ← Fom.next m j fwd
    let r ← walk a m fwd n (i + 1) q
    some ((t, (m.val j).cnt) :: r)
  else some []
partial_fixpoint

/-- `print_alpha_n` (`fwd`), samples/words.c:369-389, and `print_ralpha_n`, 391-411. -/
def printAlpha (fresh : Nat → Frm.Junk Wd) (ps : List (List Nat)) (fwd : Bool) (n : Int) : Option Outcome := do
  let (a, m) ← create fresh ps
  if Fom.isEmpty m then some .refused else
  let n : Int := if n = 0 then (Fom.size m : Int) else n
  let p ← Fom.begin_ m (!fwd)
  let r ← walk a m fwd n 0 p
  some (.printed r)

/-- `struct frequency`, samples/words.c:66-72. -/
structure Freq where
  ofs : Nat
  freq : Int

/-- `cmp_freqs`, samples/words.c:688-716; `strOf` is the string at an offset. -/
def cmpFreqs (strOf : Nat → List Nat) (x y : Freq) : Cmp :=
  if x.freq > y.freq then .grt
  else if x.freq < y.freq then .les
  else match cmpStr (strOf x.ofs) (strOf y.ofs) with
    | .grt => .les
    | .les => .grt
    | c => c

/-- The loop of `copy_frequencies`, samples/words.c:420-426: the array after element `i` on was written; its length is `len`. -/
def copyLoop (m : Fom.Fom Wd) (cap len : Nat) (arr : Nat → Freq) (i : Nat) (p : Slot) : Option (Nat → Freq) :=
  if p ≠ Fom.end_ m ∧ i < cap then do
    let j ← p
    if i ≥ len then none else
    let q ← Fom.next m j true
    copyLoop m cap len (upd arr i ⟨(m.val j).ofs, (m.val j).cnt⟩) (i + 1) q
  else some arr
partial_fixpoint

/-- `print_n`, samples/words.c:430-448, with `w` lines printed: `k` more. -/
def printN (a : Arena) : Nat → Fpq Freq → Option (List Line)
  | 0, _ => some []
  | k + 1, q => do
    if q.size = 0 then some [] else
    let s ← q.front
    let x ← q.load s
    let t ← a.str x.ofs
    let (q, _) ← q.pop
    let r ← printN a k q
    some ((t, x.freq) :: r)

/-- `print_top_n` (`.grt`), samples/words.c:319-345, and `print_last_n` (`.les`), 347-367, with `copy_frequencies`, 413-428.  The
array has one element more than the map, and its capacity is given to the queue in bytes: 16 for each element. -/
def printTop (fresh : Nat → Frm.Junk Wd) (arr : Nat → Freq) (ps : List (List Nat)) (order : Cmp) (n : Int) : Option Outcome := do
  let (a, m) ← create fresh ps
  if Fom.isEmpty m then some .refused else
  let len := Fom.size m + 1
  let cap := 16 * len
  let p ← Fom.begin_ m false
  let arr ← copyLoop m cap len arr 0 p
  let q : Fpq Freq := ⟨⟨arr, len, 0, cap, true⟩, cmpFreqs (fun i => (a.str i).getD []), order⟩
  let q ← q.inPlaceHeapify (Fom.size m)
  if q.size ≠ Fom.size m then none else                                 -- 336
  let n : Int := if n = 0 then (q.size : Int) else n
  let r ← printN a n.toNat q
  some (.printed r)

/-- The program for a text, samples/words.c:281-288: a request and its answer. -/
inductive Request where
  | alpha (fwd : Bool) (n : Int)
  | count (order : Cmp) (n : Int)
  | find (w : List Nat)

/-- The whole program after the reading of its arguments, samples/words.c:275-295. -/
def main (fresh : Nat → Frm.Junk Wd) (arr : Nat → Freq) (text : List Nat) (r : Request) : Option Outcome := do
  let ps ← pieces (getLines text)
  match r with
  | .alpha fwd n => printAlpha fresh ps fwd n
  | .count order n => printTop fresh arr ps order n
  | .find w => printFound fresh ps w

end CCC.Words
