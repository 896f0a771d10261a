import Verif.Spec.PriorityQueueAny
import Verif.Proof.PriorityQueueAny
/-
C81 for the pairing heap priority queue: a comparison function that obeys no rule, that changes between calls, and
elements overwritten in place cost the user the order of the elements and nothing else.
-/
namespace CCC.Pq
open CCC PrioQ

variable {α : Type} {c : Cfg α} {s : Pq α}

/-- One event. -/
def stepEv (c : Cfg α) (s : Pq α) : Ev α → Option (Pq α × Option Out)
  | .call cmp op => (step { c with cmp := cmp } s op).map (fun r => (r.1, some r.2))
  | .poke e x => (s.mod (some e) (fun y => { y with val := x })).map (fun s => (s, none))

/-- A history of events. -/
def runEv (c : Cfg α) (s : Pq α) : List (Ev α) → Option (Pq α × List (Option Out))
  | [] => some (s, [])
  | ev :: evs => do
    let (s, o) ← stepEv c s ev
    let (s, os) ← runEv c s evs
    some (s, o :: os)

theorem Blind.some {st : St α} (h : Blind s st) : SomeFront st := by
  unfold SomeFront
  split
  · exact h.front.1 (by assumption)
  · exact h.front.2 _ (by assumption)

theorem event_any (ha : c.alloc = false) {st : St α} (h : Blind s st) (ev : Ev α) (hok : okEv c.order st ev) :
    ∃ s' f b, stepEv c s ev = some (s', (specEv c.order st f b ev).2) ∧ (keepsEv ev → f = st.front) ∧
      Blind s' (specEv c.order st f b ev).1 := by
  cases ev with
  | poke e x =>
    obtain ⟨s1, kids, a1, b1, c1, sh, sh1, d1⟩ := changed_any h hok (fun _ => x)
    refine ⟨s1, st.front, true, by simp only [stepEv, a1]; rfl, fun _ => rfl, ⟨kids, sh1⟩, ?_, by rw [b1]; exact h.root,
      by rw [c1]; exact h.sz, fun r hr => (h.top r (by rw [← b1]; exact hr)).congr (by rw [d1]) (by rw [d1]) (by rw [d1])⟩
    rw [d1]
    show upd s.v.vl e ((s.v.vl e).map (fun _ => x)) = (fun a => if a = e then some x else st.val a)
    rw [upd_ite, h.val]
    obtain ⟨y, hy⟩ := Option.ne_none_iff_exists'.1 (h.live hok)
    rw [h.val] at hy
    rw [hy]; rfl
  | call cmp op =>
    have ha' : ({ c with cmp := cmp } : Cfg α).alloc = false := ha
    cases op with
    | make e x l n p r =>
      refine ⟨_, st.front, true, rfl, fun _ => rfl, ?_⟩
      have := h.outside (s' := { s with mem := upd s.mem e (some ⟨x, l, n, p, r⟩) }) hok rfl rfl (fun a ha => upd_ne _ _ ha)
      simp only [specEv, specStep, upd_ite]
      rwa [show (Pq.v { s with mem := upd s.mem e (some ⟨x, l, n, p, r⟩) }).vl e = some x by simp [Pq.v]] at this
    | drop e =>
      refine ⟨_, st.front, true, rfl, fun _ => rfl, ?_⟩
      have := h.outside (s' := { s with mem := upd s.mem e none }) hok rfl rfl (fun a ha => upd_ne _ _ ha)
      simp only [specEv, specStep, upd_ite]
      rwa [show (Pq.v { s with mem := upd s.mem e none }).vl e = none by simp [Pq.v]] at this
    | push e =>
      obtain ⟨s', f, h1, h2⟩ := push_any ha' h none hok.1 hok.2
      exact ⟨s', f, true, by simp [stepEv, step, h1, specEv, specStep], fun hk => hk.elim, h2⟩
    | pop =>
      cases hf : st.front with
      | none =>
        refine ⟨s, none, true, by simp [stepEv, step, pop_none_any h hf, specEv, specStep, hf], fun _ => rfl, ?_⟩
        simp only [specEv, specStep, hf]
        rw [← hf]; exact h
      | some e =>
        obtain ⟨s', f, h1, h2⟩ := pop_any ha' h hf
        exact ⟨s', f, true, by simp [stepEv, step, h1, specEv, specStep, hf], fun hk => hk.elim,
          by simpa only [specEv, specStep, hf] using h2⟩
    | extract e =>
      obtain ⟨s', f, h1, h2⟩ := extract_any (c := { c with cmp := cmp }) h hok
      exact ⟨s', f, true, by simp [stepEv, step, h1, specEv, specStep], fun hk => hk.elim, h2⟩
    | erase e =>
      obtain ⟨s', f, h1, h2⟩ := erase_any ha' h hok
      exact ⟨s', f, true, by simp [stepEv, step, h1, specEv, specStep], fun hk => hk.elim, h2⟩
    | update e g =>
      obtain ⟨s', f, h1, h2⟩ := update_any (c := { c with cmp := cmp }) h hok g
      exact ⟨s', f, true, by simp [stepEv, step, h1, specEv, specStep], fun hk => hk.elim, h2⟩
    | increase e g =>
      obtain ⟨s', f, h1, h2⟩ := fixup_any (c := { c with cmp := cmp }) h hok.1 g (decide (c.order = .grt)) (by
        intro hd; exact fun hf => hok.2 (by simpa using hd) hf)
      exact ⟨s', f, true, by simp [stepEv, step, increase, h1, specEv, specStep], fun hk => hk.elim, h2⟩
    | decrease e g =>
      obtain ⟨s', f, h1, h2⟩ := fixup_any (c := { c with cmp := cmp }) h hok.1 g (decide (c.order = .les)) (by
        intro hd; exact fun hf => hok.2 (by simpa using hd) hf)
      exact ⟨s', f, true, by simp [stepEv, step, decrease, h1, specEv, specStep], fun hk => hk.elim, h2⟩
    | clear d =>
      obtain ⟨s', ds, h1, h2, _⟩ := clearLoop_any ha' d _ h rfl
      exact ⟨s', none, true, by simp [stepEv, step, clear, h1, specEv, specStep], fun hk => hk.elim, h2⟩
    | front => exact ⟨s, st.front, true, by simp [stepEv, step, front, h.root, specEv, specStep], fun _ => rfl, h⟩
    | size => exact ⟨s, st.front, true, by simp [stepEv, step, size, h.sz, specEv, specStep], fun _ => rfl, h⟩
    | isEmpty => exact ⟨s, st.front, true, by simp [stepEv, step, isEmpty, h.sz, specEv, specStep], fun _ => rfl, h⟩
    | validate =>
      obtain ⟨b, hb⟩ := validate_any (c := { c with cmp := cmp }) h hok
      exact ⟨s, st.front, b, by simp [stepEv, step, hb, specEv], fun _ => rfl, h⟩
    | order => exact ⟨s, st.front, true, by simp [stepEv, step, order, specEv, specStep], fun _ => rfl, h⟩

theorem history_any (ha : c.alloc = false) : ∀ (evs : List (Ev α)) {s : Pq α} {st : St α}, Blind s st → okEvs c.order st evs →
    ∃ s' outs st', runEv c s evs = some (s', outs) ∧ SpecEvs c.order st evs outs st' ∧ Blind s' st'
  | [], s, st, h, _ => ⟨s, [], st, rfl, .nil st, h⟩
  | ev :: evs, s, st, h, hr => by
    obtain ⟨s1, f, b, h1, h2, h3⟩ := event_any ha h ev hr.1
    obtain ⟨s2, outs, st2, h4, h5, h6⟩ := history_any ha evs h3 (hr.2 f b h2 h3.some)
    exact ⟨s2, _, st2, by simp [runEv, h1, h4], .cons st f b ev evs outs st2 h2 h3.some h5, h6⟩

theorem init_blind : Blind (init (fun _ => none)) (St.empty : St α) :=
  ⟨⟨fun _ => [], .nil, .refl _, by simp [St.empty], by simp [St.empty], by simp [St.empty], by simp [St.empty],
    ⟨fun _ => 0, by simp [St.empty]⟩⟩,
    by funext a; simp [init, Pq.v, St.empty], rfl, rfl, by simp [init]⟩

/-- **C81** for the priority queue, but for the calls on an element that an update brought to the front (see C19 and C46).  Every
history, with comparison functions that obey no rule (they may even fail) and change between calls and with elements
overwritten in place, runs to completion without undefined behaviour; the answers and the elements in the queue are those
of the specification without the order; and emptying the queue hands every element in it to the destructor exactly once. -/
theorem C81_pq_history_partial (ha : c.alloc = false) (evs : List (Ev α)) (hok : okEvs c.order St.empty evs) :
    ∃ s outs st, runEv c (init (fun _ => none)) evs = some (s, outs) ∧ SpecEvs c.order St.empty evs outs st ∧
      size s = st.q.length ∧ st.q.Nodup ∧ SomeFront st ∧
      ∀ cmp, ∃ s' ds, clear { c with cmp := cmp } s true = some (s', ds, .ok) ∧ ds.Perm st.q ∧ size s' = 0 := by
  obtain ⟨s, outs, st, h1, h2, h3⟩ := history_any ha evs init_blind hok
  refine ⟨s, outs, st, h1, h2, h3.sz, h3.heap.choose_spec.nodup, h3.some, fun cmp => ?_⟩
  obtain ⟨s', ds, a1, a2, a3, _⟩ := clearLoop_any (c := { c with cmp := cmp }) ha true _ h3 rfl
  exact ⟨s', ds, by simp [clear, a1], a3 rfl, a2.sz⟩

/-- Functions that call everything less, everything greater and everything wrong; an element overwritten; an `increase`
that decreases. -/
def liars : List (Ev Nat) :=
  [.call (fun _ _ => .les) (.make 1 5 none none none none), .call (fun _ _ => .les) (.make 2 7 none none none none),
   .call (fun _ _ => .les) (.make 3 9 none none none none),
   .call (fun _ _ => .les) (.push 1), .call (fun _ _ => .grt) (.push 2), .poke 1 90, .call (fun _ _ => .err) (.push 3),
   .call (fun _ _ => .les) (.erase 2), .call (fun _ _ => .grt) (.increase 3 (fun _ => 0)), .call (fun _ _ => .les) .pop]

/-- The hypotheses are met by a history with such functions. -/
theorem liars_ok : okEvs .les (St.empty : St Nat) liars := by
  refine ⟨by simp [okEv, St.empty], fun f1 b1 k1 _ => ?_⟩
  refine ⟨by simp [okEv, specEv, specStep, St.empty], fun f2 b2 k2 _ => ?_⟩
  refine ⟨by simp [okEv, specEv, specStep, St.empty], fun f3 b3 k3 _ => ?_⟩
  refine ⟨by simp [okEv, specEv, specStep, St.empty], fun f4 b4 k4 _ => ?_⟩
  refine ⟨by simp [okEv, specEv, specStep, St.empty], fun f5 b5 k5 _ => ?_⟩
  refine ⟨by simp [okEv, specEv, specStep, St.empty], fun f6 b6 k6 _ => ?_⟩
  refine ⟨by simp [okEv, specEv, specStep, St.empty], fun f7 b7 k7 _ => ?_⟩
  refine ⟨by simp [okEv, specEv, specStep, St.empty], fun f8 b8 k8 _ => ?_⟩
  refine ⟨by simp [okEv, specEv, specStep, St.empty, St.without], fun f9 b9 k9 _ => ?_⟩
  exact ⟨trivial, fun _ _ _ _ => trivial⟩

example : ∃ s outs st, runEv (⟨natCmp, .les, false, 0⟩ : Cfg Nat) (init (fun _ => none)) liars = some (s, outs) ∧
    SpecEvs .les St.empty liars outs st :=
  let ⟨s, outs, st, h1, h2, _⟩ := C81_pq_history_partial (c := ⟨natCmp, .les, false, 0⟩) rfl liars liars_ok
  ⟨s, outs, st, h1, h2⟩

end CCC.Pq
