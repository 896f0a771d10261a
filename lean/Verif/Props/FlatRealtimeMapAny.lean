import Verif.Proof.FlatRealtimeMapAny
import Verif.Props.FlatRealtimeMap
/-
C81 for the flat realtime ordered map: a comparison function that obeys no rule, that changes between calls, and keys
overwritten in place cost the user the order of the elements and nothing else.
-/
namespace CCC.Frm
open CCC MapSpec FlatMap
open CCC.PtrMap (putAt)

variable {α κ : Type} {key : α → κ}

/-- What the user sees of the map: the elements their iteration loop finds, the capacity, and whether there is an end
position yet. -/
def seen (s : Frm α) : Option (St α) := do
  let p ← begin_ s false
  let l ← iterate (next s · true) (end_ s) p
  some ⟨l.map (fun a => (a, s.val a)), capacity s, (end_ s).isSome⟩

/-- One event. -/
def stepEv (key : α → κ) (s : Frm α) : Ev α κ (Junk α) → Option (Frm α × Option (Out α))
  | .call cmp op => (step cmp key s op).map (fun r => (r.1, some r.2))
  | .poke a x => some ({ s with val := upd s.val a x }, none)

/-- A history of events. -/
def runEv (key : α → κ) (s : Frm α) : List (Ev α κ (Junk α)) → Option (Frm α × List (Option (Out α)))
  | [] => some (s, [])
  | ev :: evs => do
    let (s, o) ← stepEv key s ev
    let (s, os) ← runEv key s evs
    some (s, o :: os)

/-- The caller does what they may do, judged by the elements stored at the time. -/
def EvsOk (key : α → κ) (s : Frm α) : List (Ev α κ (Junk α)) → Prop
  | [] => True
  | ev :: evs => (∀ st, seen s = some st → okEv st ev) ∧ ∀ s' o, stepEv key s ev = some (s', o) → EvsOk key s' evs

/-- The specification of a history. -/
def SpecEvs (key : α → κ) (al : Bool) : St α → List (Ev α κ (Junk α)) → List (Option (Out α)) → St α → Prop
  | st, [], os, st' => os = [] ∧ st' = st
  | st, ev :: evs, os, st' => ∃ o os' m, os = o :: os' ∧ SpecEv key al st ev o m ∧ SpecEvs key al m evs os' st'

theorem Any.walk {s : Frm α} {st : St α} {T : Tree} (o : Any s st T) :
    (do let p ← begin_ s false; iterate (next s · true) (end_ s) p) = some (st.l.map Prod.fst) ∧
    (do let p ← begin_ s true; iterate (next s · false) (end_ s) p) = some (st.l.map Prod.fst).reverse := by
  have hs : Sim lt blind s st := ⟨T, o⟩
  obtain ⟨hn, hnx, hrn, hb, hrb⟩ := hs.next_walk
  have he := hs.end_ne
  constructor
  · simp only [hb, Option.bind_eq_bind, Option.bind_some]
    have := iterate_spec' he hn hnx (pre := []) (m := st.l.map Prod.fst) (post := []) (by simp)
    simpa using this
  · simp only [hrb, Option.bind_eq_bind, Option.bind_some]
    have := iterate_spec' (by simpa using he) (nodup_reverse' hn) hrn (pre := []) (m := (st.l.map Prod.fst).reverse)
      (post := []) (by simp)
    simpa using this

theorem Any.vals {s : Frm α} {st : St α} {T : Tree} (o : Any s st T) : ∀ e ∈ st.l, (e.1, s.val e.1) = e := by
  intro e he
  obtain ⟨_, ⟨_, h⟩ | ⟨_, hl, _, h⟩⟩ := o
  · rw [h.ok.list, Rom.mem_elems] at he
    exact Prod.ext rfl he.2.symm
  · rw [hl] at he; simp at he

theorem Any.seen {s : Frm α} {st : St α} {T : Tree} (o : Any s st T) : seen s = some st := by
  have h1 := o.walk.1
  have h2 : (end_ s).isSome = st.started := by
    obtain ⟨_, ⟨hst, h⟩ | ⟨hst, hl, _, h⟩⟩ := o
    · rw [hst, end_, if_neg (Ok.sz_ne h)]; rfl
    · rw [hst, end_, if_pos h.sz]; rfl
  have h3 : (st.l.map Prod.fst).map (fun a => (a, s.val a)) = st.l := by
    rw [List.map_map]
    exact (List.map_congr_left (g := id) (fun e he => o.vals e he)).trans (List.map_id _)
  rw [Frm.seen]
  simp only [Option.bind_eq_bind] at h1 ⊢
  rw [← Option.bind_assoc, h1]
  simp only [Option.bind_some, h2, h3, capacity, o.1]

theorem event_any {s : Frm α} {st : St α} {T : Tree} (o : Any s st T) (ev : Ev α κ (Junk α)) (ok : okEv st ev) :
    ∃ s' out st' T', stepEv key s ev = some (s', out) ∧ SpecEv key s.hasAlloc st ev out st' ∧ Any s' st' T' ∧
      s'.hasAlloc = s.hasAlloc := by
  cases ev with
  | call cmp op =>
    obtain ⟨s', c, T', hc, run, o', a'⟩ := step_any (key := key) ok.1 o op ok.2
    exact ⟨s', _, _, T', by simp [stepEv, run], ⟨c, hc, rfl, rfl⟩, o', a'⟩
  | poke a x =>
    obtain ⟨hst, h⟩ := started_of_mem o ok
    exact ⟨_, none, _, T, rfl, ⟨rfl, rfl⟩, o.set hst h a x, rfl⟩

theorem history_any (evs : List (Ev α κ (Junk α))) : ∀ {s : Frm α} {st : St α} {T : Tree}, Any s st T →
    EvsOk key s evs → ∃ s' os st' T', runEv key s evs = some (s', os) ∧ SpecEvs key s.hasAlloc st evs os st' ∧
      Any s' st' T' ∧ s'.hasAlloc = s.hasAlloc := by
  induction evs with
  | nil => intro s l T o _; exact ⟨s, [], l, T, rfl, ⟨rfl, rfl⟩, o, rfl⟩
  | cons ev evs ih =>
    intro s l T o ok
    obtain ⟨s1, out, l1, T1, r1, sp1, o1, a1⟩ := event_any (key := key) o ev (ok.1 l o.seen)
    obtain ⟨s2, os, l2, T2, r2, sp2, o2, a2⟩ := ih o1 (ok.2 s1 out r1)
    refine ⟨s2, out :: os, l2, T2, ?_, ⟨out, os, l1, rfl, sp1, ?_⟩, o2, by rw [a2, a1]⟩
    · simp only [runEv, r1, r2, Option.bind_eq_bind, Option.bind_some]
    · rw [← a1]; exact sp2

theorem init_any (mem : Junk α) (n : Nat) (al : Bool) : Any (init mem n al) ⟨[], n, false⟩ Tree.nil := init_ok mem n al

/-- **C81**, but for clearing a map nothing was inserted into (see C32).  Every history of a flat realtime ordered map,
with comparison functions that obey no rule and change between calls and with elements overwritten in place, runs to
completion without undefined behaviour; its answers, the slots used and the elements stored are those of the
specification without order; iterating forwards visits exactly those elements, each once, iterating backwards the same
in reverse; the elements fill the slots from 1 on; the tree is as balanced as ever. -/
theorem C81_frm_history_partial (mem : Junk α) (n : Nat) (al : Bool) (evs : List (Ev α κ (Junk α)))
    (ok : EvsOk key (init mem n al) evs) :
    ∃ s os st, runEv key (init mem n al) evs = some (s, os) ∧ SpecEvs key al ⟨[], n, false⟩ evs os st ∧
      seen s = some st ∧ (st.l.map Prod.fst).Nodup ∧ (∀ e ∈ st.l, 1 ≤ e.1 ∧ e.1 ≤ st.l.length) ∧
      (do let p ← begin_ s true; iterate (next s · false) (end_ s) p) = some (st.l.map Prod.fst).reverse ∧
      RankRules (st.l.map Prod.fst) s.t.br s.t.parity ∧
      ∀ ds, descend s.t.br s.t.root ds ≠ 0 → 2 ^ (ds.length + 1) ≤ (st.l.length + 1) ^ 2 := by
  obtain ⟨s, os, st, T, run, sp, o, _⟩ := history_any evs (init_any mem n al) ok
  refine ⟨s, os, st, run, sp, o.seen, (show Sim lt blind s st from ⟨T, o⟩).next_walk.1, ?_, o.walk.2, ?_, fun ds hd => ?_⟩
  · intro e he
    obtain ⟨_, ⟨_, h⟩ | ⟨_, hl, _, h⟩⟩ := o
    · have : e.1 ∈ T.ids := by rw [h.ok.list, Rom.mem_elems] at he; exact he.1
      exact h.mem_iff.1 this
    · rw [hl] at he; simp at he
  · obtain ⟨_, ⟨_, o⟩ | ⟨_, hl, _⟩⟩ := o
    · have : st.l.map Prod.fst = T.ids := by rw [o.ok.list]; exact Rom.ids_elems _ _
      rw [this]; exact Wavl.rank_rules o.ok.valid o.ok.wv
    · rw [hl]; exact ⟨fun _ => 0, rfl, by simp⟩
  · obtain ⟨_, ⟨_, o⟩ | ⟨_, hl, _, o⟩⟩ := o
    · have hroot : s.t.root = T.rootId := o.ok.wv.whole.ctx
      rw [hroot] at hd
      have h1 := o.ok.valid.descend_le o.ok.wv.whole.tree ds hd
      have h2 := o.ok.valid.size_bound
      have h3 : st.l.length = T.ids.length := by rw [o.ok.list]; simp [Rom.elems]
      rw [h3]
      exact Nat.le_trans (Nat.pow_le_pow_right (by omega) h1) h2
    · rw [o.root] at hd
      cases ds <;> simp [descend] at hd

/-- A comparison function that calls everything less, one that calls everything greater, an element overwritten with
a key that is out of order, and a removal under a function that calls everything equal. -/
def liars : List (Ev (Nat × Nat) Nat (Junk (Nat × Nat))) :=
  [.call (fun _ _ => .les) (.tryInsert (5, 0) none), .poke 1 (9, 9), .call (fun _ _ => .les) (.tryInsert (5, 1) none),
   .call (fun _ _ => .grt) (.tryInsert (5, 2) none), .call (fun _ _ => .eql) (.removeEntry 7),
   .call (fun _ _ => .les) .size]

/-- The hypotheses are met by a history with such functions. -/
theorem liars_ok (mem : Junk (Nat × Nat)) : EvsOk (Prod.fst : Nat × Nat → Nat) (init mem 8 false) liars := by
  have o0 := init_any mem 8 false
  have triv : ∀ (st : St (Nat × Nat)) (cmp : Nat → Nat → Cmp) (op : Op (Nat × Nat) Nat (Junk (Nat × Nat))),
      (∀ a b, cmp a b ≠ .err) → okAny st op → okEv st (.call cmp op) := fun _ _ _ h1 h2 => ⟨h1, h2⟩
  refine ⟨fun l _ => ⟨by simp, trivial⟩, fun s1 r1 e1 => ⟨fun st hst => ?_, fun s2 r2 _ => ⟨fun l _ => ⟨by simp, trivial⟩,
    fun _ _ _ => ⟨fun l _ => ⟨by simp, trivial⟩, fun _ _ _ => ⟨fun l _ => ⟨by simp, trivial⟩,
    fun _ _ _ => ⟨fun l _ => ⟨by simp, trivial⟩, fun _ _ _ => trivial⟩⟩⟩⟩⟩⟩
  obtain ⟨s', o', st', T', r', ⟨c, hc, hl, _⟩, o1, _⟩ := event_any (key := Prod.fst) o0
    (.call (fun _ _ => .les) (.tryInsert (5, 0) none)) ⟨by simp, trivial⟩
  rw [r'] at e1
  simp only [Option.some.injEq, Prod.mk.injEq] at e1
  obtain ⟨rfl, rfl⟩ := e1
  rw [o1.seen] at hst
  simp only [Option.some.injEq] at hst
  subst hst
  have hn : c.found = none := by
    cases hcf : c.found with
    | none => rfl
    | some e => obtain ⟨_, k, _, hk⟩ := hc.1 e hcf; cases hk
  rw [← hl]
  simp [specAny, hn, addAny, room, grow, init, putAt, okEv]

end CCC.Frm
