import Verif.Proof.RealtimeMapAny
import Verif.Props.RealtimeMap
/-
C81 for the realtime ordered map: a comparison function that obeys no rule, that changes between calls, and keys
overwritten in place cost the user the order of the elements and nothing else.
-/
namespace CCC.Rom
open CCC MapSpec PtrMap

variable {α κ : Type} {key : α → κ}

/-- The stored elements, as the user's iteration loop finds them. -/
def seen (s : Rom α) : Option (List (Nat × α)) := do
  let p ← begin_ s
  let l ← iterate (next s) end_ p
  some (l.map (fun a => (a, s.val a)))

/-- One event. -/
def stepEv (key : α → κ) (s : Rom α) : Ev α κ → Option (Rom α × Option (Out α))
  | .call cmp op => (step cmp key s op).map (fun r => (r.1, some r.2))
  | .poke a x => some (put s a x, none)

/-- A history of events. -/
def runEv (key : α → κ) (s : Rom α) : List (Ev α κ) → Option (Rom α × List (Option (Out α)))
  | [] => some (s, [])
  | ev :: evs => do
    let (s, o) ← stepEv key s ev
    let (s, os) ← runEv key s evs
    some (s, o :: os)

/-- The caller does what they may do, judged by the elements stored at the time. -/
def EvsOk (key : α → κ) (s : Rom α) : List (Ev α κ) → Prop
  | [] => True
  | ev :: evs => (∀ l, seen s = some l → okEv s.alloc l ev) ∧ ∀ s' o, stepEv key s ev = some (s', o) → EvsOk key s' evs

/-- The specification of a history. -/
def SpecEvs (key : α → κ) (al : Bool) : List (Nat × α) → List (Ev α κ) → List (Option (Out α)) → List (Nat × α) → Prop
  | l, [], os, l' => os = [] ∧ l' = l
  | l, ev :: evs, os, l' => ∃ o os' m, os = o :: os' ∧ SpecEv key al l ev o m ∧ SpecEvs key al m evs os' l'

theorem Kept.seen {s : Rom α} {l : List (Nat × α)} {T : Tree} (o : Kept s l T) :
    seen s = some l ∧ (do let p ← rbegin s; iterate (rnext s) end_ p) = some (l.map Prod.fst).reverse := by
  obtain ⟨hn, hnx, hrn, hb, hrb⟩ := o.next_walk
  constructor
  · have := iterate_spec hn hnx (pre := []) (m := l.map Prod.fst) (post := []) (by simp)
    simp only [List.append_nil, List.head?_nil] at this
    simp only [Rom.seen, hb, Option.bind_eq_bind, Option.bind_some, end_, this, List.map_map, Option.some.injEq]
    have : ∀ e ∈ l, ((fun a => (a, s.val a)) ∘ Prod.fst) e = e := by
      intro e he
      rw [o.list, mem_elems] at he
      exact Prod.ext rfl he.2.symm
    rw [List.map_congr_left this, List.map_id']
  · simp only [hrb, Option.bind_eq_bind, Option.bind_some]
    have := iterate_spec (nodup_reverse' hn) hrn (pre := []) (m := (l.map Prod.fst).reverse) (post := []) (by simp)
    simpa [end_] using this

theorem event_any {s : Rom α} {l : List (Nat × α)} {T : Tree} (o : Kept s l T) (ev : Ev α κ) (ok : okEv s.alloc l ev) :
    ∃ s' out l' T', stepEv key s ev = some (s', out) ∧ SpecEv key s.alloc l ev out l' ∧ Kept s' l' T' ∧
      s'.alloc = s.alloc := by
  cases ev with
  | call cmp op =>
    obtain ⟨s', c, T', hc, run, o', a'⟩ := step_any (key := key) ok.1 o op ok.2
    exact ⟨s', _, _, T', by simp [stepEv, run], ⟨c, hc, rfl, rfl⟩, o', a'⟩
  | poke a x => exact ⟨_, none, setAt a x l, T, rfl, ⟨rfl, rfl⟩, o.set a x, rfl⟩

theorem history_any (evs : List (Ev α κ)) : ∀ {s : Rom α} {l : List (Nat × α)} {T : Tree}, Kept s l T →
    EvsOk key s evs → ∃ s' os l' T', runEv key s evs = some (s', os) ∧ SpecEvs key s.alloc l evs os l' ∧
      Kept s' l' T' ∧ s'.alloc = s.alloc := by
  induction evs with
  | nil => intro s l T o _; exact ⟨s, [], l, T, rfl, ⟨rfl, rfl⟩, o, rfl⟩
  | cons ev evs ih =>
    intro s l T o ok
    obtain ⟨s1, out, l1, T1, r1, sp1, o1, a1⟩ := event_any (key := key) o ev (ok.1 l o.seen.1)
    obtain ⟨s2, os, l2, T2, r2, sp2, o2, a2⟩ := ih o1 (ok.2 s1 out r1)
    refine ⟨s2, out :: os, l2, T2, ?_, ⟨out, os, l1, rfl, sp1, ?_⟩, o2, by rw [a2, a1]⟩
    · simp only [runEv, r1, r2, Option.bind_eq_bind, Option.bind_some]
    · rw [← a1]; exact sp2

theorem init_kept (mem : Nat → α) (al : Bool) : Kept (init mem al) [] Tree.nil :=
  (init_ok (cmp := fun _ _ => .eql) (key := fun _ : α => ()) mem al).shape

/-- **C81.**  Every history of a realtime ordered map, with comparison functions that obey no rule and change between
calls and with elements overwritten in place, runs to completion without undefined behaviour; its answers and the
elements stored are those of the specification without order; iterating forwards visits exactly those elements, each
once, iterating backwards the same in reverse; the tree is as balanced as ever. -/
theorem C81_rom_history (mem : Nat → α) (al : Bool) (evs : List (Ev α κ)) (ok : EvsOk key (init mem al) evs) :
    ∃ s os l, runEv key (init mem al) evs = some (s, os) ∧ SpecEvs key al [] evs os l ∧
      seen s = some l ∧ (l.map Prod.fst).Nodup ∧
      (do let p ← rbegin s; iterate (rnext s) end_ p) = some (l.map Prod.fst).reverse ∧
      RankRules (l.map Prod.fst) s.t.br s.t.parity ∧
      ∀ ds, descend s.t.br s.t.root ds ≠ 0 → 2 ^ (ds.length + 1) ≤ (l.length + 1) ^ 2 := by
  obtain ⟨s, os, l, T, run, sp, o, _⟩ := history_any evs (init_kept mem al) ok
  have hids : l.map Prod.fst = T.ids := by rw [o.list]; exact ids_elems _ _
  refine ⟨s, os, l, run, sp, o.seen.1, o.next_walk.1, o.seen.2, ?_, fun ds hd => ?_⟩
  · rw [hids]; exact Wavl.rank_rules o.valid o.wv
  · have hroot : s.t.root = T.rootId := o.wv.whole.ctx
    rw [hroot] at hd
    have h1 := o.valid.descend_le o.wv.whole.tree ds hd
    have h2 := o.valid.size_bound
    have h3 : l.length = T.ids.length := by rw [o.list]; simp [elems]
    rw [h3]
    exact Nat.le_trans (Nat.pow_le_pow_right (by omega) h1) h2

/-- After every such history clearing hands every stored element to the destructor exactly once. -/
theorem C81_rom_clear (mem : Nat → α) (al : Bool) (evs : List (Ev α κ)) (ok : EvsOk key (init mem al) evs) :
    ∃ s os l s' d, runEv key (init mem al) evs = some (s, os) ∧ seen s = some l ∧ clear s = some (s', d, .ok) ∧ d.Perm l ∧
      seen s' = some [] := by
  obtain ⟨s, os, l, T, run, _, o, _⟩ := history_any evs (init_kept mem al) ok
  obtain ⟨s', d, hr, hp, o', _, _⟩ := clearLoop_any l.length [] o rfl
  exact ⟨s, os, l, s', d, run, o.seen.1, by simp [clear, hr], hp, o'.seen.1⟩

/-- A comparison function that calls everything less, one that calls everything greater, and an element overwritten
with a key that is out of order. -/
def liars : List (Ev (Nat × Nat) Nat) :=
  [.call (fun _ _ => .les) (.tryInsert 1 (5, 0) none), .call (fun _ _ => .les) (.tryInsert 2 (5, 1) none),
   .poke 1 (9, 9), .call (fun _ _ => .grt) (.tryInsert 3 (5, 2) none), .call (fun _ _ => .eql) (.contains 7),
   .call (fun _ _ => .les) .size]

/-- The hypotheses are met by a history with such functions, in which three elements with one key are stored. -/
theorem liars_ok : EvsOk (Prod.fst : Nat × Nat → Nat) (init (fun _ => (0, 0)) false) liars := by
  have step1 : ∀ {s s' : Rom (Nat × Nat)} {l T out} {cmp : Nat → Nat → Cmp} {h x}, Kept s l T → s.alloc = false →
      (∀ a b, cmp a b ≠ .err) → (∀ k v, cmp k v ≠ .eql) → fresh l h →
      stepEv Prod.fst s (.call cmp (.tryInsert h x none)) = some (s', out) →
      s'.alloc = false ∧ ∃ i T', Kept s' (putAt i (h, x) l) T' := by
    intro s s' l T out cmp h x o hal h1 h2 hf hs
    obtain ⟨s1, o1, l1, T1, r1, ⟨c, hc, hl, _⟩, sh, a1⟩ := event_any (key := Prod.fst) o
      (.call cmp (.tryInsert h x none)) ⟨h1, hf, fun n hn => by cases hn⟩
    rw [r1] at hs
    simp only [Option.some.injEq, Prod.mk.injEq] at hs
    obtain ⟨rfl, rfl⟩ := hs
    refine ⟨by rw [a1, hal], c.pos, T1, ?_⟩
    have hn : c.found = none := by
      cases hcf : c.found with
      | none => rfl
      | some e => obtain ⟨_, k, _, hk⟩ := hc.1 e hcf; exact absurd hk (h2 _ _)
    rw [← hl] at sh
    simpa [specAny, hn, addAt, hal] using sh
  have o0 := init_kept (fun _ => ((0, 0) : Nat × Nat)) false
  refine ⟨fun l hl => ?_, fun s1 r1 e1 => ?_⟩
  · rw [o0.seen.1] at hl; cases hl
    exact ⟨by simp, by simp [okAny, fresh, goodAns]⟩
  obtain ⟨a1, i1, T1, o1⟩ := step1 o0 rfl (by simp) (by simp) (by simp [fresh]) e1
  simp only [putAt, List.take_nil, List.drop_nil, List.nil_append] at o1
  refine ⟨fun l hl => ?_, fun s2 r2 e2 => ?_⟩
  · rw [o1.seen.1] at hl; cases hl
    exact ⟨by simp, by simp [okAny, fresh, goodAns]⟩
  obtain ⟨a2, i2, T2, o2⟩ := step1 o1 a1 (by simp) (by simp) (by simp [fresh]) e2
  have hm : ∀ e, e ∈ putAt i2 (2, (5, 1)) [(1, (5, 0))] ↔ e = (2, (5, 1)) ∨ e = (1, (5, 0)) := by
    intro e
    cases i2 with
    | zero => simp [putAt]
    | succ n => simp [putAt, or_comm]
  refine ⟨fun l hl => ?_, fun s3 r3 e3 => ?_⟩
  · rw [o2.seen.1] at hl; cases hl
    exact ⟨(1, (5, 0)), (hm _).2 (Or.inr rfl), rfl⟩
  simp only [stepEv, Option.some.injEq, Prod.mk.injEq] at e3
  obtain ⟨rfl, rfl⟩ := e3
  have o3 : Kept (put s2 1 (9, 9)) _ T2 := o2.set 1 (9, 9)
  have hf3 : fresh (setAt 1 (9, 9) (putAt i2 (2, (5, 1)) [(1, (5, 0))])) 3 := by
    refine ⟨by simp, fun e he => ?_⟩
    simp only [setAt, List.mem_map] at he
    obtain ⟨e', he', rfl⟩ := he
    rw [hm] at he'
    rcases he' with rfl | rfl <;> simp
  refine ⟨fun l hl => ?_, fun s4 r4 e4 => ⟨fun l _ => ⟨by simp, trivial⟩, fun s5 r5 e5 =>
    ⟨fun l _ => ⟨by simp, trivial⟩, fun _ _ _ => trivial⟩⟩⟩
  rw [o3.seen.1] at hl; cases hl
  exact ⟨by simp, hf3, fun n hn => by cases hn⟩

end CCC.Rom
