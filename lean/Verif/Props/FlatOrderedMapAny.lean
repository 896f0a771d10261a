import Verif.Proof.FlatOrderedMapAny
import Verif.Props.FlatRealtimeMapAny
import Verif.Props.SplayAny
/-
C81 for the flat ordered map, as far as it holds: as long as no single element is taken out, a comparison function that
obeys no rule, that changes between calls, and keys overwritten in place cost the user the order of the elements and
nothing else.
-/
namespace CCC.Fom
open CCC MapSpec FlatMap
open CCC.PtrMap (putAt)
open CCC.Frm (Junk lt blind)

variable {α κ : Type} {key : α → κ}

/-- What the user sees of the map: the elements their iteration loop finds, the capacity, and whether there is an end
position yet. -/
def seenSt (s : Fom α) : Option (St α) := do
  let l ← seen s
  some ⟨l, capacity s, (end_ s).isSome⟩

/-- The caller does what they may do, judged by the elements stored at the time, and makes none of the calls excluded by
`calm`. -/
def EvsOk (key : α → κ) (s : Fom α) : List (Ev α κ (Junk α)) → Prop
  | [] => True
  | ev :: evs => (∀ st, seenSt s = some st → okEv st ev ∧ (∀ cmp op, ev = .call cmp op → calm key st op)) ∧
    ∀ s' o, stepEv key s ev = some (s', o) → EvsOk key s' evs

theorem Any.walk {s : Fom α} {st : St α} {T : Tree} (o : Any s st T) :
    (do let p ← begin_ s false; iterate (next s · true) (end_ s) p) = some (st.l.map Prod.fst) ∧
    (do let p ← begin_ s true; iterate (next s · false) (end_ s) p) = some (st.l.map Prod.fst).reverse := by
  have hs : Sim lt blind s st := ⟨T, o⟩
  obtain ⟨hn, hnx, hrn, hb, hrb⟩ := hs.next_walk
  have he := hs.end_ne
  constructor
  · simp only [hb, Option.bind_eq_bind, Option.bind_some]
    have := iterate_spec' he hn hnx (pre := []) (m := st.l.map Prod.fst) (post := []) (by simp)
    simpa using this
  · simp only [hrb, Option.bind_eq_bind, Option.bind_some]
    have := iterate_spec' (by simpa using he) (nodup_reverse' hn) hrn (pre := []) (m := (st.l.map Prod.fst).reverse)
      (post := []) (by simp)
    simpa using this

theorem Any.vals {s : Fom α} {st : St α} {T : Tree} (o : Any s st T) : ∀ e ∈ st.l, (e.1, s.val e.1) = e := by
  intro e he
  obtain ⟨_, ⟨_, h⟩ | ⟨_, hl, _, h⟩⟩ := o
  · rw [h.ok.list, Rom.mem_elems] at he
    exact Prod.ext rfl he.2.symm
  · rw [hl] at he; simp at he

theorem Any.seen {s : Fom α} {st : St α} {T : Tree} (o : Any s st T) : seenSt s = some st := by
  have h1 := (Any.walk o).1
  have h2 : (end_ s).isSome = st.started := by
    obtain ⟨_, ⟨hst, h⟩ | ⟨hst, hl, _, h⟩⟩ := o
    · rw [hst, end_, if_neg h.sz_ne]; rfl
    · rw [hst, end_, if_pos h.sz]; rfl
  have h3 : (st.l.map Prod.fst).map (fun a => (a, s.val a)) = st.l := by
    rw [List.map_map]
    exact (List.map_congr_left (g := id) (fun e he => Any.vals o e he)).trans (List.map_id _)
  have h4 : Fom.seen s = some st.l := by
    rw [Fom.seen]
    simp only [Option.bind_eq_bind] at h1 ⊢
    rw [← Option.bind_assoc, h1]
    simp only [Option.bind_some, h3]
  simp only [seenSt, h4, Option.bind_eq_bind, Option.bind_some, h2, capacity, o.1]

theorem event_any {s : Fom α} {st : St α} {T : Tree} (o : Any s st T) (ev : Ev α κ (Junk α)) (ok : okEv st ev)
    (ca : ∀ cmp op, ev = .call cmp op → calm key st op) :
    ∃ s' out st' T', stepEv key s ev = some (s', out) ∧ SpecEv key s.hasAlloc st ev out st' ∧ Any s' st' T' ∧
      s'.hasAlloc = s.hasAlloc := by
  cases ev with
  | call cmp op =>
    obtain ⟨s', c, T', hc, run, o', a'⟩ := step_any (key := key) ok.1 o op ok.2 (ca cmp op rfl)
    exact ⟨s', _, _, T', by simp [stepEv, run], ⟨c, hc, rfl, rfl⟩, o', a'⟩
  | poke a x =>
    obtain ⟨hst, h⟩ := started_of_mem o ok
    exact ⟨_, none, _, T, rfl, ⟨rfl, rfl⟩, (StartedAny.set h a x).toOk o.1 hst rfl, rfl⟩

theorem history_any (evs : List (Ev α κ (Junk α))) : ∀ {s : Fom α} {st : St α} {T : Tree}, Any s st T →
    EvsOk key s evs → ∃ s' os st' T', runEv key s evs = some (s', os) ∧ Frm.SpecEvs key s.hasAlloc st evs os st' ∧
      Any s' st' T' ∧ s'.hasAlloc = s.hasAlloc := by
  induction evs with
  | nil => intro s l T o _; exact ⟨s, [], l, T, rfl, ⟨rfl, rfl⟩, o, rfl⟩
  | cons ev evs ih =>
    intro s l T o ok
    obtain ⟨s1, out, l1, T1, r1, sp1, o1, a1⟩ := event_any (key := key) o ev (ok.1 l (Any.seen o)).1 (ok.1 l (Any.seen o)).2
    obtain ⟨s2, os, l2, T2, r2, sp2, o2, a2⟩ := ih o1 (ok.2 s1 out r1)
    refine ⟨s2, out :: os, l2, T2, ?_, ⟨out, os, l1, rfl, sp1, ?_⟩, o2, by rw [a2, a1]⟩
    · simp only [runEv, r1, r2, Option.bind_eq_bind, Option.bind_some]
    · rw [← a1]; exact sp2

theorem init_any (mem : Junk α) (n : Nat) (al : Bool) : Any (init mem n al) ⟨[], n, false⟩ Tree.nil := init_ok mem n al

/-- **C81**, the part that holds for the flat ordered map.  Every history of insertions, searches, modifications, range
queries, iteration and clearing, with comparison functions that obey no rule and change between calls and with elements
overwritten in place, runs to completion without undefined behaviour; its answers, the slots used and the elements
stored are those of the specification without order; iterating forwards visits exactly those elements, each once,
iterating backwards the same in reverse; the elements fill the slots from 1 on.  Missing: the calls that take single
elements out, for which `C81_fom_violated` shows that elements are lost. -/
theorem C81_fom_history_partial (mem : Junk α) (n : Nat) (al : Bool) (evs : List (Ev α κ (Junk α)))
    (ok : EvsOk key (init mem n al) evs) :
    ∃ s os st, runEv key (init mem n al) evs = some (s, os) ∧ Frm.SpecEvs key al ⟨[], n, false⟩ evs os st ∧
      seenSt s = some st ∧ (st.l.map Prod.fst).Nodup ∧ (∀ e ∈ st.l, 1 ≤ e.1 ∧ e.1 ≤ st.l.length) ∧
      (do let p ← begin_ s true; iterate (next s · false) (end_ s) p) = some (st.l.map Prod.fst).reverse := by
  obtain ⟨s, os, st, T, run, sp, o, _⟩ := history_any evs (init_any mem n al) ok
  refine ⟨s, os, st, run, sp, Any.seen o, (show Sim lt blind s st from ⟨T, o⟩).next_walk.1, ?_, (Any.walk o).2⟩
  intro e he
  obtain ⟨_, ⟨_, h⟩ | ⟨_, hl, _, h⟩⟩ := o
  · have : e.1 ∈ T.ids := by rw [h.ok.list, Rom.mem_elems] at he; exact he.1
    exact h.mem_iff.1 this
  · rw [hl] at he; simp at he

/-- A comparison function that calls everything less, one that calls everything greater, an element overwritten with
a key that is out of order, and a modification under a function that calls everything equal. -/
def liars : List (Ev (Nat × Nat) Nat (Junk (Nat × Nat))) :=
  [.call (fun _ _ => .les) (.tryInsert (5, 0) none), .poke 1 (9, 9), .call (fun _ _ => .les) (.tryInsert (5, 1) none),
   .call (fun _ _ => .grt) (.tryInsert (5, 2) none), .call (fun _ _ => .eql) (.andModify 7 (fun x => (x.2, x.1))),
   .call (fun _ _ => .les) .size]

/-- The hypotheses are met by a history with such functions. -/
theorem liars_ok (mem : Junk (Nat × Nat)) : EvsOk (Prod.fst : Nat × Nat → Nat) (init mem 8 false) liars := by
  have o0 := init_any mem 8 false
  have tr : ∀ {st : St (Nat × Nat)} {cmp : Nat → Nat → Cmp} {op : Op (Nat × Nat) Nat (Junk (Nat × Nat))},
      (∀ a b, cmp a b ≠ .err) → okAny st op → calm Prod.fst st op →
      okEv st (.call cmp op) ∧ ∀ cmp' op', Ev.call cmp op = .call cmp' op' → calm Prod.fst st op' := by
    intro st cmp op h1 h2 h3
    exact ⟨⟨h1, h2⟩, fun _ _ e => by cases e; exact h3⟩
  refine ⟨fun l _ => tr (by simp) trivial trivial, fun s1 r1 e1 => ⟨fun st hst => ?_, fun s2 r2 _ =>
    ⟨fun l _ => tr (by simp) trivial trivial, fun _ _ _ => ⟨fun l _ => tr (by simp) trivial trivial, fun _ _ _ =>
    ⟨fun l _ => tr (by simp) trivial trivial, fun _ _ _ => ⟨fun l _ => tr (by simp) trivial trivial,
    fun _ _ _ => trivial⟩⟩⟩⟩⟩⟩
  obtain ⟨s', o', st', T', r', ⟨c, hc, hl, _⟩, o1, _⟩ := event_any (key := Prod.fst) o0
    (.call (fun _ _ => .les) (.tryInsert (5, 0) none)) ⟨by simp, trivial⟩ (fun _ _ e => by cases e; trivial)
  rw [r'] at e1
  simp only [Option.some.injEq, Prod.mk.injEq] at e1
  obtain ⟨rfl, rfl⟩ := e1
  rw [Any.seen o1] at hst
  simp only [Option.some.injEq] at hst
  subst hst
  have hn : c.found = none := by
    cases hcf : c.found with
    | none => rfl
    | some e => obtain ⟨_, k, _, hk⟩ := hc.1 e hcf; cases hk
  rw [← hl]
  refine ⟨?_, fun _ _ e => by cases e⟩
  simp [specAny, hn, addAny, room, grow, init, Frm.init, putAt, okEv]

end CCC.Fom
