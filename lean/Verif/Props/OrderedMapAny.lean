import Verif.Proof.OrderedMapAny
import Verif.Props.RealtimeMapAny
import Verif.Props.SplayAny
/-
C81 for the splay tree ordered map, as far as it holds: as long as nothing is taken out, a comparison function that obeys
no rule, that changes between calls, and keys overwritten in place cost the user the order of the elements and nothing
else.
-/
namespace CCC.Om
open CCC MapSpec PtrMap

variable {α κ : Type} {key : α → κ}

/-- The caller does what they may do, judged by the elements stored at the time, and makes none of the calls excluded by
`calm`. -/
def EvsOk (key : α → κ) (s : Om α) : List (Ev α κ) → Prop
  | [] => True
  | ev :: evs => (∀ l, seen s = some l → okEv s.alloc l ev ∧ (∀ cmp op, ev = .call cmp op → calm key l op)) ∧
    ∀ s' o, stepEv key s ev = some (s', o) → EvsOk key s' evs

theorem Kept.seen {s : Om α} {l : List (Nat × α)} {T : Tree} (o : Kept s l T) :
    seen s = some l ∧ (do let p ← rbegin s; iterate (rnext s) end_ p) = some (l.map Prod.fst).reverse := by
  obtain ⟨hn, hnx, hrn, hb, hrb⟩ := o.next_walk
  constructor
  · have := iterate_spec hn hnx (pre := []) (m := l.map Prod.fst) (post := []) (by simp)
    simp only [List.append_nil, List.head?_nil] at this
    simp only [Om.seen, hb, Option.bind_eq_bind, Option.bind_some, end_, this, List.map_map, Option.some.injEq]
    have : ∀ e ∈ l, ((fun a => (a, s.val a)) ∘ Prod.fst) e = e := by
      intro e he
      rw [o.list, Rom.mem_elems] at he
      exact Prod.ext rfl he.2.symm
    rw [List.map_congr_left this, List.map_id']
  · simp only [hrb, Option.bind_eq_bind, Option.bind_some]
    have := iterate_spec (nodup_reverse' hn) hrn (pre := []) (m := (l.map Prod.fst).reverse) (post := []) (by simp)
    simpa [end_] using this

theorem event_any {s : Om α} {l : List (Nat × α)} {T : Tree} (o : Kept s l T) (ev : Ev α κ) (ok : okEv s.alloc l ev)
    (ca : ∀ cmp op, ev = .call cmp op → calm key l op) :
    ∃ s' out l' T', stepEv key s ev = some (s', out) ∧ SpecEv key s.alloc l ev out l' ∧ Kept s' l' T' ∧
      s'.alloc = s.alloc := by
  cases ev with
  | call cmp op =>
    obtain ⟨s', c, T', hc, run, o', a'⟩ := step_any (key := key) ok.1 o op ok.2 (ca cmp op rfl)
    exact ⟨s', _, _, T', by simp [stepEv, run], ⟨c, hc, rfl, rfl⟩, o', a'⟩
  | poke a x => exact ⟨_, none, setAt a x l, T, rfl, ⟨rfl, rfl⟩, o.set a x, rfl⟩

theorem history_any (evs : List (Ev α κ)) : ∀ {s : Om α} {l : List (Nat × α)} {T : Tree}, Kept s l T →
    EvsOk key s evs → ∃ s' os l' T', runEv key s evs = some (s', os) ∧ Rom.SpecEvs key s.alloc l evs os l' ∧
      Kept s' l' T' ∧ s'.alloc = s.alloc := by
  induction evs with
  | nil => intro s l T o _; exact ⟨s, [], l, T, rfl, ⟨rfl, rfl⟩, o, rfl⟩
  | cons ev evs ih =>
    intro s l T o ok
    obtain ⟨s1, out, l1, T1, r1, sp1, o1, a1⟩ := event_any (key := key) o ev (ok.1 l o.seen.1).1 (ok.1 l o.seen.1).2
    obtain ⟨s2, os, l2, T2, r2, sp2, o2, a2⟩ := ih o1 (ok.2 s1 out r1)
    refine ⟨s2, out :: os, l2, T2, ?_, ⟨out, os, l1, rfl, sp1, ?_⟩, o2, by rw [a2, a1]⟩
    · simp only [runEv, r1, r2, Option.bind_eq_bind, Option.bind_some]
    · rw [← a1]; exact sp2

theorem init_kept (mem : Nat → α) (al : Bool) : Kept (init mem al) [] Tree.nil :=
  ⟨⟨rfl, trivial, by simp [Tree.ids], rfl⟩, rfl, Frm.sorted_lt _, rfl⟩

/-- **C81**, the part that holds for the splay tree ordered map.  Every history of insertions, searches, modifications,
range queries and iteration, with comparison functions that obey no rule and change between calls and with elements
overwritten in place, runs to completion without undefined behaviour; its answers and the elements stored are those of
the specification without order; iterating forwards visits exactly those elements, each once, iterating backwards the
same in reverse.  Missing: the calls that take elements out, for which `C81_om_violated` shows that elements are lost. -/
theorem C81_om_history_partial (mem : Nat → α) (al : Bool) (evs : List (Ev α κ)) (ok : EvsOk key (init mem al) evs) :
    ∃ s os l, runEv key (init mem al) evs = some (s, os) ∧ Rom.SpecEvs key al [] evs os l ∧
      seen s = some l ∧ (l.map Prod.fst).Nodup ∧
      (do let p ← rbegin s; iterate (rnext s) end_ p) = some (l.map Prod.fst).reverse := by
  obtain ⟨s, os, l, T, run, sp, o, _⟩ := history_any evs (init_kept mem al) ok
  exact ⟨s, os, l, run, sp, o.seen.1, o.next_walk.1, o.seen.2⟩

/-- The hypotheses are met by a history with functions that call everything less, greater or equal, in which three
elements with one key are stored. -/
theorem liars_ok : EvsOk (Prod.fst : Nat × Nat → Nat) (init (fun _ => (0, 0)) false) Rom.liars := by
  have step1 : ∀ {s s' : Om (Nat × Nat)} {l T out} {cmp : Nat → Nat → Cmp} {h x}, Kept s l T → s.alloc = false →
      (∀ a b, cmp a b ≠ .err) → (∀ k v, cmp k v ≠ .eql) → fresh l h →
      stepEv Prod.fst s (.call cmp (.tryInsert h x none)) = some (s', out) →
      s'.alloc = false ∧ ∃ i T', Kept s' (putAt i (h, x) l) T' := by
    intro s s' l T out cmp h x o hal h1 h2 hf hs
    obtain ⟨s1, o1, l1, T1, r1, ⟨c, hc, hl, _⟩, sh, a1⟩ := event_any (key := Prod.fst) o
      (.call cmp (.tryInsert h x none)) ⟨h1, hf, fun n hn => by cases hn⟩ (fun _ _ h => by cases h; trivial)
    rw [r1] at hs
    simp only [Option.some.injEq, Prod.mk.injEq] at hs
    obtain ⟨rfl, rfl⟩ := hs
    refine ⟨by rw [a1, hal], c.pos, T1, ?_⟩
    have hn : c.found = none := by
      cases hcf : c.found with
      | none => rfl
      | some e => obtain ⟨_, k, _, hk⟩ := hc.1 e hcf; exact absurd hk (h2 _ _)
    rw [← hl] at sh
    simpa [specAny, hn, addAt, hal] using sh
  have tr : ∀ {l : List (Nat × (Nat × Nat))} {cmp : Nat → Nat → Cmp} {op : Op (Nat × Nat) Nat}, calm Prod.fst l op →
      ∀ cmp' op', Ev.call cmp op = .call cmp' op' → calm Prod.fst l op' := by
    intro l cmp op h _ _ e; cases e; exact h
  have o0 := init_kept (fun _ => ((0, 0) : Nat × Nat)) false
  refine ⟨fun l hl => ?_, fun s1 r1 e1 => ?_⟩
  · rw [o0.seen.1] at hl; cases hl
    exact ⟨⟨by simp, by simp [okAny, fresh, goodAns]⟩, tr trivial⟩
  obtain ⟨a1, i1, T1, o1⟩ := step1 o0 rfl (by simp) (by simp) (by simp [fresh]) e1
  simp only [putAt, List.take_nil, List.drop_nil, List.nil_append] at o1
  refine ⟨fun l hl => ?_, fun s2 r2 e2 => ?_⟩
  · rw [o1.seen.1] at hl; cases hl
    exact ⟨⟨by simp, by simp [okAny, fresh, goodAns]⟩, tr trivial⟩
  obtain ⟨a2, i2, T2, o2⟩ := step1 o1 a1 (by simp) (by simp) (by simp [fresh]) e2
  have hm : ∀ e, e ∈ putAt i2 (2, (5, 1)) [(1, (5, 0))] ↔ e = (2, (5, 1)) ∨ e = (1, (5, 0)) := by
    intro e
    cases i2 with
    | zero => simp [putAt]
    | succ n => simp [putAt, or_comm]
  refine ⟨fun l hl => ?_, fun s3 r3 e3 => ?_⟩
  · rw [o2.seen.1] at hl; cases hl
    exact ⟨⟨(1, (5, 0)), (hm _).2 (Or.inr rfl), rfl⟩, fun _ _ h => by cases h⟩
  simp only [stepEv, Option.some.injEq, Prod.mk.injEq] at e3
  obtain ⟨rfl, rfl⟩ := e3
  have o3 : Kept (Rom.put s2 1 (9, 9)) _ T2 := o2.set 1 (9, 9)
  have hf3 : fresh (setAt 1 (9, 9) (putAt i2 (2, (5, 1)) [(1, (5, 0))])) 3 := by
    refine ⟨by simp, fun e he => ?_⟩
    simp only [setAt, List.mem_map] at he
    obtain ⟨e', he', rfl⟩ := he
    rw [hm] at he'
    rcases he' with rfl | rfl <;> simp
  refine ⟨fun l hl => ?_, fun s4 r4 e4 => ?_⟩
  · rw [o3.seen.1] at hl; cases hl
    exact ⟨⟨by simp, hf3, fun n hn => by cases hn⟩, tr trivial⟩
  obtain ⟨_, i4, T4, o4⟩ := step1 (cmp := fun _ _ => .grt) o3 a2 (by simp) (by simp) hf3 e4
  refine ⟨fun l hl => ?_, fun s5 r5 e5 => ⟨fun l _ => ⟨⟨by simp, trivial⟩, tr trivial⟩, fun _ _ _ => trivial⟩⟩
  rw [o4.seen.1] at hl; cases hl
  exact ⟨⟨by simp, trivial⟩, tr (by simp [calm, putAt])⟩

end CCC.Om
