import Verif.Proof.FlatHashMapAny
import Verif.Props.FlatHashMap
/-
C81 for the flat hash map: a hash function and a key equality that obey no rule, that change between calls, and keys
changed in place cost the user the answer to which element a key finds, and nothing else.
-/
namespace CCC.Fhm
open CCC HashMap

variable {α κ : Type}

/-- A history of calls, each with the hash function and the key equality of that moment. -/
def runEv (wide : Bool) (key : α → κ) (s : Fhm α) : List (Ev α κ) → Option (Fhm α × List (Out α))
  | [] => some (s, [])
  | ev :: evs => do
    let (s, o) ← step ⟨wide, ev.hash, ev.eq, key⟩ s ev.op
    let (s, os) ← runEv wide key s evs
    some (s, o :: os)

namespace Loose

theorem history_any {wide : Bool} {key : α → κ} {hash : κ → UInt64} {eq : κ → κ → Bool} (evs : List (Ev α κ)) :
    ∀ {s : Fhm α} {st : St α}, Sim ⟨wide, hash, eq, key⟩ s st → okEvs key s.hasAlloc st evs →
    ∃ s' os st', runEv wide key s evs = some (s', os) ∧ SpecEvs key s.hasAlloc st evs os st' ∧
      Sim ⟨wide, hash, eq, key⟩ s' st' ∧ s'.hasAlloc = s.hasAlloc := by
  induction evs with
  | nil => intro s st h _; exact ⟨s, [], st, rfl, .nil _, h, rfl⟩
  | cons ev evs ih =>
    intro s st h ok
    obtain ⟨f, s1, hf, r1, h1, a1⟩ := step_good (c := ⟨wide, ev.hash, ev.eq, key⟩) (h.change (c := ⟨wide, hash, eq, key⟩) (c' := ⟨wide, ev.hash, ev.eq, key⟩) rfl) ev.op ok.1
    have ok1 := ok.2 f hf
    rw [← a1] at ok1
    rw [← a1] at h1
    obtain ⟨s2, os, st2, r2, sp2, h2, a2⟩ := ih (h1.change (c := ⟨wide, ev.hash, ev.eq, key⟩) (c' := ⟨wide, hash, eq, key⟩) rfl) ok1
    rw [a1] at sp2
    exact ⟨s2, _, st2, by simp only [runEv, r1, r2, Option.bind_eq_bind, Option.bind_some], .cons _ _ f _ _ _ hf sp2, h2,
      a2.trans a1⟩

end Loose

/-- **C81**, but for the calls C37, C42 and C44 show to go wrong with any functions (`okAny`).  Every history of a flat
hash map, with hash functions and key equalities that obey no rule and change between calls and with keys changed in
place, runs to completion without undefined behaviour.  A call finds nothing or a stored element that was called equal
to the key; given that, its answer and the elements stored afterwards are those of the specification.  Iterating visits
exactly the stored elements, each once, and a clearing with a destructor destroys exactly these, each once.  Nothing is
lost or duplicated when the map grows. -/
theorem C81_fhm_history_partial (wide : Bool) (key : α → κ) (mem : Nat → Cell α) (n : Nat) (al b : Bool) (hn : goodCap n)
    (hb : b = false → ∀ i, i < n → (mem i).hash = 0) (evs : List (Ev α κ)) (ok : okEvs key al ⟨[], n, b⟩ evs) :
    ∃ s os st, runEv wide key (init mem n al) evs = some (s, os) ∧ SpecEvs key al ⟨[], n, b⟩ evs os st ∧
      size s = st.l.length ∧ capacity s = st.cap ∧
      (∃ as, (do let p ← begin_ s; iterate (next s ·) (end_ s) p) = some as ∧ as.Nodup ∧
        (as.map (fun i => (s.mem i).val)).Perm st.l) ∧
      (st.l ≠ [] → ∃ s' d, clear s true = some (s', d, .ok) ∧ (d.map Prod.fst).Nodup ∧ (d.map Prod.snd).Perm st.l) := by
  have h0 : Loose.Sim (⟨wide, fun _ => 0, fun _ _ => false, key⟩ : Cfg κ α) (init mem n al) ⟨[], n, b⟩ :=
    ⟨rfl, .inr ⟨rfl, rfl, hn.imp id (fun h => ⟨h, hb⟩)⟩⟩
  obtain ⟨s, os, st, run, sp, h, _⟩ := Loose.history_any evs h0 ok
  refine ⟨s, os, st, run, sp, h.size, h.cap, ?_, ?_⟩
  · rcases h.body with ⟨t, p⟩ | ⟨hz, hn, hb⟩
    · have hlen := t.length
      refine ⟨occ s 0 s.cap, ?_, occ_nodup _ _ _, by rw [t.occ_vals]; exact p⟩
      simp only [begin_, if_neg (show ¬ s.sz = 0 by omega), scan_spec s s.cap 0 (by omega), Option.bind_eq_bind,
        Option.bind_some]
      have := iterate_spec (next := next s) (occ_nodup s 0 s.cap) (occ_next s s.cap 0 (by omega)) (pre := [])
        (m := occ s 0 s.cap) (post := []) (by simp)
      simpa [end_] using this
    · refine ⟨[], ?_, List.nodup_nil, by rw [hn]; exact List.Perm.refl _⟩
      simp only [begin_, if_pos hz, Option.bind_eq_bind, Option.bind_some]
      rw [iterate.eq_def]; simp [end_]
  · intro hne
    rcases h.body with ⟨t, p⟩ | ⟨_, hn, _⟩
    · refine ⟨s, (occ s 0 s.cap).map (fun j => (j, (s.mem j).val)), by simp only [clear, Bool.not_true, Bool.false_eq_true, if_false, destroyLoop_spec s s.cap 0 (by omega),
        Option.bind_eq_bind, Option.bind_some], ?_, ?_⟩
      · rw [List.map_map]
        exact (List.map_id (occ s 0 s.cap)).symm ▸ occ_nodup s 0 s.cap
      · rw [List.map_map]
        have := t.occ_vals
        exact (List.Perm.of_eq this).trans p
    · exact absurd hn hne

/-- A key equality that never holds, one that always does, and hashes that change: the same key is stored three times,
its key is overwritten, and one of them is removed under a key that was never stored. -/
def hashLiars : List (Ev (Nat × Nat) Nat) :=
  [⟨fun _ => 7, fun _ _ => false, .tryInsert (5, 0) none⟩, ⟨fun _ => 7, fun _ _ => false, .tryInsert (5, 1) none⟩,
   ⟨fun _ => 3, fun _ _ => true, .tryInsert (5, 2) none⟩, ⟨fun _ => 7, fun _ _ => true, .get 5 (fun _ => (9, 9))⟩,
   ⟨fun _ => 3, fun _ _ => true, .remove (77, 0)⟩, ⟨fun _ => 0, fun _ _ => false, .validate⟩]

theorem stale_room (al : Bool) (f : Option (α × List α)) (st : St α) (x : α) (ans : AllocAns α) :
    (specAny (κ := κ) f al st (.tryInsert x ans)).1.stale = false := by
  simp only [specAny]
  have := room_stale al ans.isSome st
  split <;> simp_all

/-- The hypotheses are met by a history with such functions. -/
theorem hashLiars_ok : okEvs (Prod.fst : Nat × Nat → Nat) false ⟨[], 11, true⟩ hashLiars := by
  refine ⟨trivial, fun f1 _ => ⟨trivial, fun f2 _ => ⟨trivial, fun f3 _ => ?_⟩⟩⟩
  have h := stale_room false f3 (specAny f2 false (specAny f1 false (⟨[], 11, true⟩ : St (Nat × Nat))
    (.tryInsert (5, 0) none : Op (Nat × Nat) Nat)).1 (.tryInsert (5, 1) none : Op (Nat × Nat) Nat)).1 (5, 2) none (κ := Nat)
  refine ⟨.inr h, fun f4 _ => ?_⟩
  generalize (specAny f3 false _ _).1 = st at h
  have h4 : (specAny f4 false st (.get 5 (fun _ => (9, 9)) : Op (Nat × Nat) Nat)).1.stale = false := by
    cases f4 <;> exact h
  refine ⟨.inr h4, fun f5 _ => ?_⟩
  generalize (specAny f4 false _ _).1 = st at h4
  have h5 : (specAny f5 false st (.remove (77, 0) : Op (Nat × Nat) Nat)).1.stale = false := by
    cases f5 <;> exact h4
  exact ⟨.inr h5, fun _ _ => trivial⟩

/-- So the map with three equal keys is still a map. -/
example (mem : Nat → Cell (Nat × Nat)) : ∃ s os st, runEv true Prod.fst (init mem 11 false) hashLiars = some (s, os) ∧
    SpecEvs Prod.fst false ⟨[], 11, true⟩ hashLiars os st ∧ size s = st.l.length := by
  obtain ⟨s, os, st, h1, h2, h3, _⟩ := C81_fhm_history_partial true Prod.fst mem 11 false true (.inr (by decide))
    (fun h => (by cases h)) hashLiars hashLiars_ok
  exact ⟨s, os, st, h1, h2, h3⟩

end CCC.Fhm
