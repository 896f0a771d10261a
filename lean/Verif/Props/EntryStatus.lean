import Verif.Model.Messages
import Verif.Props.RealtimeMap
import Verif.Props.OrderedMap
import Verif.Props.FlatRealtimeMap
import Verif.Props.FlatOrderedMap
import Verif.Props.OrderedMultimap
import Verif.Props.FlatHashMap
/-
C77: the status of an entry and its message tell what the search for the entry found.

ccc/types.h:341-351: "Obtaining an entry can provide information on whether the search yielded an Occupied or Vacant Entry or
any errors that may have occurred."
-/
namespace CCC

private theorem occ1 : Stat.has Stat.occupied Stat.occupied = true := by decide
private theorem occ2 : Stat.has Stat.occupied Stat.insertError = false := by decide
private theorem both1 : Stat.has (Stat.occupied ||| Stat.insertError) Stat.occupied = true := by decide
private theorem both2 : Stat.has (Stat.occupied ||| Stat.insertError) Stat.insertError = true := by decide
private theorem err1 : Stat.has (Stat.noUnwrap ||| Stat.insertError) Stat.occupied = false := by decide
private theorem err2 : Stat.has (Stat.noUnwrap ||| Stat.insertError) Stat.insertError = true := by decide
private theorem err3 : Stat.has Stat.insertError Stat.occupied = false := by decide
private theorem err4 : Stat.has Stat.insertError Stat.insertError = true := by decide
private theorem vac1 : Stat.has Stat.vacant Stat.occupied = false := by decide
private theorem vac2 : Stat.has Stat.vacant Stat.insertError = false := by decide
private theorem nov1 : Stat.has (Stat.vacant ||| Stat.noUnwrap) Stat.occupied = false := by decide
private theorem nov2 : Stat.has (Stat.vacant ||| Stat.noUnwrap) Stat.insertError = false := by decide

/-- The message that describes an entry: its key is stored; it is not and there is no room for it; it is not. -/
def told (stored refused : Bool) : String :=
  if stored then "entry is Occupied and non-NULL"
  else if refused then "entry should have been inserted but encountered an error"
  else "entry is Vacant with no errors"

namespace Om
open PtrMap MapSpec
open CCC.Rom (view)
variable {α κ : Type} {cmp : κ → κ → Cmp} {key : α → κ}

/-- **C77** (ordered map). -/
theorem C77_om_status (hc : LawfulCmp cmp) {s : Om α} {l : List (Nat × α)} (h : Reach cmp key s l) (k : κ) :
    ∃ s' e, entry cmp key s k = some (s', e) ∧ view s' (unwrap e) = lookup cmp (ekey key) k l ∧
      statusMsg (entryStatus e) = told (lookup cmp (ekey key) k l).isSome false ∧
      occupied e = (lookup cmp (ekey key) k l).isSome ∧ insertError e = false := by
  obtain ⟨T, o⟩ := h.sim hc
  rcases o.entry hc k with ⟨t, x, m, A, B, he, _, _, _, _, _, _, hl⟩ | ⟨t, T', he, _, _, _, hl⟩
  · exact ⟨_, _, he, by rw [hl]; rfl, by rw [hl]; rfl, by rw [hl]; exact occ1, occ2⟩
  · exact ⟨_, _, he, by rw [hl]; rfl, by rw [hl]; rfl, by rw [hl]; exact vac1, vac2⟩

example : ∃ s s' e s'' e', Reach natCmp (Prod.fst : Nat × Nat → Nat) s [(4, (1, 3)), (2, (3, 7)), (3, (8, 3)), (5, (9, 4))] ∧
    entry natCmp Prod.fst s 8 = some (s', e) ∧ statusMsg (entryStatus e) = "entry is Occupied and non-NULL" ∧
    entry natCmp Prod.fst s 7 = some (s'', e') ∧ statusMsg (entryStatus e') = "entry is Vacant with no errors" := by
  obtain ⟨s, h⟩ := sample_reach
  obtain ⟨s', e, h1, _, h2, _⟩ := C77_om_status natCmp_lawful h 8
  obtain ⟨s'', e', h3, _, h4, _⟩ := C77_om_status natCmp_lawful h 7
  exact ⟨s, s', e, s'', e', h, h1, h2, h3, h4⟩

end Om

namespace Fom
open FlatMap MapSpec
open CCC.Frm (view view_some)
variable {α κ : Type} {cmp : κ → κ → Cmp} {key : α → κ}

/-- **C77** (flat ordered map). -/
theorem C77_fom_status (hc : LawfulCmp cmp) {s : Fom α} {st : St α} (h : Reach cmp key s st) (k : κ) :
    ∃ s' e, entry cmp key s k = some (s', e) ∧ view s' (unwrap s' e) = look .null (lookup cmp (ekey key) k st.l) ∧
      statusMsg (entryStatus e) = told (lookup cmp (ekey key) k st.l).isSome false ∧
      occupied e = (lookup cmp (ekey key) k st.l).isSome ∧ insertError e = false := by
  obtain ⟨T, o⟩ := h.sim hc
  rcases o.find hc k with ⟨t, a, m, A, B, hst, hf, hs, hr, ha, _, _, hl⟩ | ⟨t, T', hf, o1, hl⟩
  · obtain ⟨_, a0, _, _, ac, _⟩ := found hs
    refine ⟨_, _, entry_occ hf, ?_, by rw [hl]; rfl, by rw [hl]; exact occ1, occ2⟩
    rw [hl]
    show view _ (if Stat.occupied = Stat.occupied then (if a ≥ s.cap then none else some a) else none) = _
    rw [if_pos rfl, if_neg ac, view_some a0]
    rfl
  · exact ⟨_, _, entry_vac hf, by rw [hl]; rfl, by rw [hl]; rfl, by rw [hl]; exact vac1, vac2⟩

example : ∃ s s' e s'' e', Reach natCmp (Prod.fst : Nat × Nat → Nat) s sampleSt ∧
    entry natCmp Prod.fst s 8 = some (s', e) ∧ statusMsg (entryStatus e) = "entry is Occupied and non-NULL" ∧
    entry natCmp Prod.fst s 7 = some (s'', e') ∧ statusMsg (entryStatus e') = "entry is Vacant with no errors" := by
  obtain ⟨s, h⟩ := sample_reach
  obtain ⟨s', e, h1, _, h2, _⟩ := C77_fom_status natCmp_lawful h 8
  obtain ⟨s'', e', h3, _, h4, _⟩ := C77_fom_status natCmp_lawful h 7
  exact ⟨s, s', e, s'', e', h, h1, h2, h3, h4⟩

end Fom

namespace Omm
open MultiSpec
variable {α κ : Type} {cmp : κ → κ → Cmp} {key : α → κ} {al : Bool} {off : Nat}

/-- **C77** (ordered multimap): the entry shows the oldest element with the key. -/
theorem C77_omm_status (hc : LawfulCmp cmp) {s : Omm α} {st : St α} (h : Reach cmp key al off s st) (k : κ) :
    ∃ s' e, entry cmp key s k = some (s', e) ∧ view s' (unwrap e) = oldest cmp key k st.elems ∧
      statusMsg (entryStatus e) = told (oldest cmp key k st.elems).isSome false ∧
      occupied e = (oldest cmp key k st.elems).isSome ∧ insertError e = false := by
  obtain ⟨A, D, hh, T, o⟩ := h.sim hc
  obtain ⟨H1, h1, T1, s1, o1, hr⟩ := o.entryC hc k
  rcases hr with ⟨e1, run⟩ | ⟨a, ha, e1, hq, run⟩
  · exact ⟨_, _, run, by rw [e1]; rfl, by rw [e1]; rfl, by rw [e1]; exact vac1, vac2⟩
  · refine ⟨_, _, run, ?_, by rw [e1]; rfl, by rw [e1]; exact occ1, occ2⟩
    rw [e1, unwrap, Ent.unwrap]
    simp only [show Stat.has Stat.occupied Stat.noUnwrap = false by decide, Bool.false_eq_true, if_false, view, Option.map_some]
    rw [o1.val.1]

example : ∃ s st s' e s'' e', Reach natCmp (Prod.fst : Nat × Nat → Nat) false 0 s st ∧ st.elems = sampleElems ∧
    entry natCmp Prod.fst s 5 = some (s', e) ∧ statusMsg (entryStatus e) = "entry is Occupied and non-NULL" ∧
    entry natCmp Prod.fst s 7 = some (s'', e') ∧ statusMsg (entryStatus e') = "entry is Vacant with no errors" := by
  obtain ⟨s, st, h, he, _⟩ := sample_reach
  obtain ⟨s', e, h1, _, h2, _⟩ := C77_omm_status natCmp_lawful h 5
  obtain ⟨s'', e', h3, _, h4, _⟩ := C77_omm_status natCmp_lawful h 7
  rw [he] at h2 h4
  exact ⟨s, st, s', e, s'', e', h, he, h1, h2, h3, h4⟩

end Omm

namespace Rom
open PtrMap MapSpec
variable {α κ : Type} {cmp : κ → κ → Cmp} {key : α → κ}

/-- **C77** (realtime ordered map): the message says that the entry is occupied exactly if it is.  Missing: the message of a vacant
entry. -/
theorem C77_rom_status_partial (hc : LawfulCmp cmp) {s : Rom α} {l : List (Nat × α)} (h : Reach cmp key s l) (k : κ) :
    ∃ e, entry cmp key s k = some e ∧ view s (unwrap e) = lookup cmp (ekey key) k l ∧
      (statusMsg (entryStatus e) = told true false ↔ (lookup cmp (ekey key) k l).isSome = true) ∧
      occupied e = (lookup cmp (ekey key) k l).isSome ∧ insertError e = false := by
  obtain ⟨T, o⟩ := h.sim hc
  rcases o.find hc k with ⟨pre, a, post, e, ha, h1, h2, hf, hl⟩ | ⟨q, hf, hq, g, hl⟩
  · refine ⟨_, entry_eq hf, ?_, ?_, ?_, ?_⟩ <;> rw [if_pos rfl] <;> try rw [hl]
    · simp only [unwrap, occ1, if_true]; rfl
    · exact iff_of_true rfl rfl
    · exact occ1
    · exact occ2
  · refine ⟨_, entry_eq hf, ?_, ?_, ?_, ?_⟩ <;> rw [if_neg hq] <;> try rw [hl]
    · simp only [unwrap, nov1, Bool.false_eq_true, if_false]; rfl
    · exact iff_of_false (by simp only [entryStatus]; decide) (by simp)
    · exact nov1
    · exact nov2

/-- **C77** fails for the realtime ordered map: the entry of every absent key has a message that does not say it is vacant. -/
theorem C77_rom_status_violated (hc : LawfulCmp cmp) {s : Rom α} {l : List (Nat × α)} (h : Reach cmp key s l) {k : κ}
    (hk : lookup cmp (ekey key) k l = none) :
    ∃ e, entry cmp key s k = some e ∧
      statusMsg (entryStatus e) = "entry shall not be unwrapped by user to protect container" ∧
      statusMsg (entryStatus e) ≠ told (lookup cmp (ekey key) k l).isSome false := by
  obtain ⟨T, o⟩ := h.sim hc
  rcases o.find hc k with ⟨pre, a, post, e, ha, h1, h2, hf, hl⟩ | ⟨q, hf, hq, g, hl⟩
  · rw [hl] at hk; cases hk
  · refine ⟨_, entry_eq hf, ?_, ?_⟩ <;> rw [if_neg hq] <;> simp only [entryStatus]
    · decide
    · rw [hl]; exact (by decide : statusMsg (Stat.vacant ||| Stat.noUnwrap) ≠ told false false)

example : ∃ s e e', Reach natCmp (Prod.fst : Nat × Nat → Nat) s [(4, (1, 3)), (2, (3, 7)), (3, (8, 3)), (5, (9, 4))] ∧
    entry natCmp Prod.fst s 8 = some e ∧ statusMsg (entryStatus e) = "entry is Occupied and non-NULL" ∧
    entry natCmp Prod.fst s 7 = some e' ∧
    statusMsg (entryStatus e') = "entry shall not be unwrapped by user to protect container" := by
  obtain ⟨s, h⟩ := sample_reach
  obtain ⟨e, h1, _, h2, _⟩ := C77_rom_status_partial natCmp_lawful h 8
  obtain ⟨e', h3, h4, _⟩ := C77_rom_status_violated natCmp_lawful h (k := 7) (by decide)
  exact ⟨s, e, e', h, h1, h2.2 (by decide), h3, h4⟩

end Rom

namespace Frm
open FlatMap MapSpec
variable {α κ : Type} {cmp : κ → κ → Cmp} {key : α → κ}

/-- **C77** (flat realtime ordered map): the message says that the entry is occupied exactly if it is.  Missing: the message of a
vacant entry. -/
theorem C77_frm_status_partial (hc : LawfulCmp cmp) {s : Frm α} {st : St α} (h : Reach cmp key s st) (k : κ) :
    ∃ e, entry cmp key s k = some e ∧ view s (unwrap s e) = look .null (lookup cmp (ekey key) k st.l) ∧
      (statusMsg (entryStatus e) = told true false ↔ (lookup cmp (ekey key) k st.l).isSome = true) ∧
      occupied e = (lookup cmp (ekey key) k st.l).isSome ∧ insertError e = false := by
  obtain ⟨T, o⟩ := h.sim hc
  rcases o.find hc k with ⟨pre, a, post, hst, hs, e, ha, h1, h2, hf, hl⟩ | ⟨q, hf, hq, g, hl⟩
  · obtain ⟨_, a0, _, ac⟩ := o.found hs e
    refine ⟨_, entry_eq hf, ?_, ?_, ?_, ?_⟩ <;> rw [if_pos rfl] <;> try rw [hl]
    · show view _ (if Stat.has Stat.occupied Stat.occupied then (if a ≥ s.cap then none else some a) else none) = _
      rw [if_pos (by decide), if_neg ac, view_some a0]
      rfl
    · exact iff_of_true rfl rfl
    · exact occ1
    · exact occ2
  · refine ⟨_, entry_eq hf, ?_, ?_, ?_, ?_⟩ <;> rw [if_neg hq] <;> try rw [hl]
    · simp only [unwrap, nov1, Bool.false_eq_true, if_false]; rfl
    · exact iff_of_false (by simp only [entryStatus]; decide) (by simp)
    · exact nov1
    · exact nov2

/-- **C77** fails for the flat realtime ordered map in the same way. -/
theorem C77_frm_status_violated (hc : LawfulCmp cmp) {s : Frm α} {st : St α} (h : Reach cmp key s st) {k : κ}
    (hk : lookup cmp (ekey key) k st.l = none) :
    ∃ e, entry cmp key s k = some e ∧
      statusMsg (entryStatus e) = "entry shall not be unwrapped by user to protect container" ∧
      statusMsg (entryStatus e) ≠ told (lookup cmp (ekey key) k st.l).isSome false := by
  obtain ⟨T, o⟩ := h.sim hc
  rcases o.find hc k with ⟨pre, a, post, hst, hs, e, ha, h1, h2, hf, hl⟩ | ⟨q, hf, hq, g, hl⟩
  · rw [hl] at hk; cases hk
  · refine ⟨_, entry_eq hf, ?_, ?_⟩ <;> rw [if_neg hq] <;> simp only [entryStatus]
    · decide
    · rw [hl]; exact (by decide : statusMsg (Stat.vacant ||| Stat.noUnwrap) ≠ told false false)

example : ∃ s e e', Reach natCmp (Prod.fst : Nat × Nat → Nat) s sampleSt ∧
    entry natCmp Prod.fst s 8 = some e ∧ statusMsg (entryStatus e) = "entry is Occupied and non-NULL" ∧
    entry natCmp Prod.fst s 7 = some e' ∧
    statusMsg (entryStatus e') = "entry shall not be unwrapped by user to protect container" := by
  obtain ⟨s, h⟩ := sample_reach
  obtain ⟨e, h1, _, h2, _⟩ := C77_frm_status_partial natCmp_lawful h 8
  obtain ⟨e', h3, h4, _⟩ := C77_frm_status_violated natCmp_lawful h (k := 7) (by decide)
  exact ⟨s, e, e', h, h1, h2.2 (by decide), h3, h4⟩

end Frm

namespace Fhm
open HashMap
variable {α κ : Type} {c : Cfg κ α}

/-- **C77** (hash map): the predicates tell whether the key is stored and whether there is no room, and if there is room the
message says that the entry is occupied exactly if it is.  Missing: the other messages. -/
theorem C77_fhm_status_partial (hl : Lawful c) {s : Fhm α} {st : St α} (h : Reach c s st) (k : κ) (ans : AllocAns α) :
    ∃ s' e, entry c s k ans = some (s', e) ∧ view s' (unwrap e) = lookup c k st.l ∧
      occupied e = (lookup c k st.l).isSome ∧ insertError e = !(room s.hasAlloc ans.isSome st).2 ∧
      (statusMsg (entryStatus e) = told true false ↔
        (lookup c k st.l).isSome = true ∧ (room s.hasAlloc ans.isSome st).2 = true) := by
  obtain ⟨s1, e, h1, _, _, _, h5⟩ := entry_cases hl (h.sim hl) k ans
  refine ⟨s1, e, h1, ?_⟩
  obtain ⟨⟨p, t⟩, hash⟩ := e
  rcases h5 with ⟨i, v, l1, e1, _, _, H⟩ | ⟨l1, hr, i, e1, _⟩ | ⟨l1, hr, hst, _⟩
  · rw [l1]
    cases hr : (room s.hasAlloc ans.isSome st).2
    · rw [hr] at e1
      cases e1
      simp only [unwrap, occupied, insertError, entryStatus, Bool.false_eq_true, if_false, both1, both2, if_true, view]
      exact ⟨congrArg some H.val, rfl, rfl, iff_of_false (by decide) (by simp)⟩
    · rw [hr] at e1
      cases e1
      simp only [unwrap, occupied, insertError, entryStatus, occ1, occ2, if_true, view]
      exact ⟨congrArg some H.val, rfl, rfl, iff_of_true rfl (by simp)⟩
  · cases e1
    rw [l1, hr]
    simp only [unwrap, occupied, insertError, entryStatus, nov1, nov2, Bool.false_eq_true, if_false]
    exact ⟨rfl, rfl, rfl, iff_of_false (by decide) (by simp)⟩
  · rw [l1, hr]
    rcases hst with hst | hst
    · have hst : t = Stat.noUnwrap ||| Stat.insertError := hst
      subst hst
      simp only [unwrap, occupied, insertError, entryStatus, err1, err2, Bool.false_eq_true, if_false]
      exact ⟨rfl, rfl, rfl, iff_of_false (by decide) (by simp)⟩
    · cases hst
      simp only [unwrap, occupied, insertError, entryStatus, err3, err4, Bool.false_eq_true, if_false]
      exact ⟨rfl, rfl, rfl, iff_of_false (by decide) (by simp)⟩

/-- **C77** fails for the hash map: the entry of a key that is absent never has the message of a vacant entry, and without room the
message of a key that is stored is that the flags are unknown. -/
theorem C77_fhm_status_violated (hl : Lawful c) {s : Fhm α} {st : St α} (h : Reach c s st) (k : κ) (ans : AllocAns α) :
    ∃ s' e, entry c s k ans = some (s', e) ∧
      (lookup c k st.l = none → (room s.hasAlloc ans.isSome st).2 = true →
        statusMsg (entryStatus e) = "entry shall not be unwrapped by user to protect container") ∧
      ((lookup c k st.l).isSome = true → (room s.hasAlloc ans.isSome st).2 = false →
        statusMsg (entryStatus e) = "error: entry encountered an unknown combination of flags") := by
  obtain ⟨s1, e, h1, _, _, _, h5⟩ := entry_cases hl (h.sim hl) k ans
  refine ⟨s1, e, h1, ?_⟩
  obtain ⟨⟨p, t⟩, hash⟩ := e
  rcases h5 with ⟨i, v, l1, e1, _, _, H⟩ | ⟨l1, hr, i, e1, _⟩ | ⟨l1, hr, hst, _⟩
  · rw [l1]
    refine ⟨(by intro hx; cases hx), fun _ hr => ?_⟩
    rw [hr] at e1
    cases e1
    rfl
  · cases e1
    exact ⟨fun _ _ => rfl, fun _ h => by rw [hr] at h; cases h⟩
  · exact ⟨(by intro _ hx; rw [hr] at hx; cases hx), (by intro hx; rw [l1] at hx; cases hx)⟩

/-- A full map of fixed size: key 8 is stored, and its entry has the message of unknown flags. -/
example : ∃ s s' e, Reach badCfg s sampleSt ∧ entry badCfg s 8 none = some (s', e) ∧ unwrap e ≠ none ∧
    statusMsg (entryStatus e) = "error: entry encountered an unknown combination of flags" := by
  obtain ⟨s, h⟩ := sample_reach
  have hr : (room s.hasAlloc (none : AllocAns (Nat × Nat)).isSome sampleSt).2 = false := by
    simp [room, sampleSt]
  obtain ⟨s', e, h1, h2, _⟩ := C77_fhm_status_partial badCfg_lawful h 8 none
  obtain ⟨s'', e', h3, _, h4⟩ := C77_fhm_status_violated badCfg_lawful h 8 none
  rw [h1] at h3
  cases h3
  have hk : lookup badCfg 8 sampleSt.l = some (8, 2) := rfl
  refine ⟨s, s', e, h, h1, fun hn => ?_, h4 (by rw [hk]; rfl) hr⟩
  rw [hn, hk] at h2
  cases h2

end Fhm
end CCC
