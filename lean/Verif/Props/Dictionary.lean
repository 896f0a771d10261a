import Verif.Proof.DictionaryStep
import Verif.Props.OrderedMap
import Verif.Props.RealtimeMap
import Verif.Props.FlatOrderedMap
import Verif.Props.FlatRealtimeMap
import Verif.Props.FlatHashMap
/-
**C82**: the five maps are one dictionary.  A program that talks to a map by keys and user data only cannot tell which of the five
it uses.

`Verif/Spec/Dictionary.lean` says what a dictionary answers, and how the calls of each map and their answers are read as
calls on a dictionary.  `Observed` below: the calls `ops`, made on a fresh map of one of the five kinds over any memory, with or
without allocation function, with any addresses for the user's structs and any answers of the allocator, were answered with `outs`.
The histories are those of the theorems on the single maps (`safeRun`, `okRun`): what the documentation allows, less the calls the
code gets wrong (`contains` on an empty splay tree map; `clear` as first call on a flat realtime ordered map; see C26, C32, C37).
-/
namespace CCC.Dictionary
open CCC

variable {α κ : Type} {cmp : κ → κ → Cmp} {key : α → κ}

/-- The kinds of maps: ordered map, realtime ordered map, flat ordered map, flat realtime ordered map, flat hash map. -/
inductive Kind where
  | om | rom | fom | frm | fhm

def Observed (cmp : κ → κ → Cmp) (key : α → κ) (K : Kind) (ops : List (Op α κ)) (outs : List (Out α)) : Prop :=
  match K with
  | .om => ∃ mem al cs s rs, Om.safeRun cmp key al [] cs ∧ Om.run cmp key (Om.init mem al) cs = some (s, rs) ∧
      ops = cs.map ofPtr ∧ outs = List.zipWith ptrOut cs rs
  | .rom => ∃ mem al cs s rs, PtrMap.okRun cmp key al [] cs ∧ Rom.run cmp key (Rom.init mem al) cs = some (s, rs) ∧
      ops = cs.map ofPtr ∧ outs = List.zipWith ptrOut cs rs
  | .fom => ∃ mem n al cs s rs, Fom.safeRun cmp key al ⟨[], n, false⟩ cs ∧
      Fom.run cmp key (Fom.init mem n al) cs = some (s, rs) ∧ ops = cs.map ofFlat ∧ outs = List.zipWith flatOut cs rs
  | .frm => ∃ mem n al cs s rs, FlatMap.okRun cmp key al ⟨[], n, false⟩ cs ∧
      Frm.run cmp key (Frm.init mem n al) cs = some (s, rs) ∧ ops = cs.map ofFlat ∧ outs = List.zipWith flatOut cs rs
  | .fhm => ∃ (c : HashMap.Cfg κ α) (mem : Nat → Fhm.Cell α) (n : Nat) (al b : Bool) (cs : List (HashMap.Op α κ))
      (s : Fhm.Fhm α) (rs : List (HashMap.Out α)),
      HashMap.Lawful c ∧ (∀ x y, c.eq x y = (cmp x y == .eql)) ∧ c.key = key ∧ Fhm.goodCap n ∧
      (b = false → ∀ i, i < n → (mem i).hash = 0) ∧ HashMap.safeRun c al ⟨[], n, b⟩ cs ∧
      Fhm.run c (Fhm.init mem n al) cs = some (s, rs) ∧ ops = cs.map ofHash ∧ outs = List.zipWith hashOut cs rs

theorem om_trace (hc : LawfulCmp cmp) (cs : List (PtrMap.Op α κ)) : ∀ {s : Om.Om α} {l : List (Nat × α)}, Om.Sim cmp key s l →
    Om.safeRun cmp key s.alloc l cs → Trace cmp key (abs cmp key (l.map Prod.snd)) (cs.map ofPtr)
      (List.zipWith ptrOut cs (PtrMap.specRun cmp key s.alloc l cs).2) := by
  induction cs with
  | nil => intro s l _ _; exact .nil _
  | cons o os ih =>
    intro s l h hok
    have hd := (Om.Sim.next_walk h).1
    obtain ⟨T, h⟩ := h
    obtain ⟨s1, r1, m1, a1, _⟩ := Om.step_spec hc h o hok.1 hok.2.1
    refine .cons _ _ _ _ _ _ (ptr_step hc h.sorted hd o hok.1) ?_
    have := ih m1 (by rw [a1]; exact hok.2.2)
    rw [a1] at this
    exact this

theorem rom_trace (hc : LawfulCmp cmp) (cs : List (PtrMap.Op α κ)) : ∀ {s : Rom.Rom α} {l : List (Nat × α)}, Rom.Sim cmp key s l →
    PtrMap.okRun cmp key s.alloc l cs → Trace cmp key (abs cmp key (l.map Prod.snd)) (cs.map ofPtr)
      (List.zipWith ptrOut cs (PtrMap.specRun cmp key s.alloc l cs).2) := by
  induction cs with
  | nil => intro s l _ _; exact .nil _
  | cons o os ih =>
    intro s l h hok
    have hd := (Rom.Sim.next_walk h).1
    obtain ⟨T, h⟩ := h
    obtain ⟨s1, r1, m1, a1⟩ := Rom.step_spec hc h o hok.1
    refine .cons _ _ _ _ _ _ (ptr_step hc h.sorted hd o hok.1) ?_
    have := ih m1 (by rw [a1]; exact hok.2)
    rw [a1] at this
    exact this

theorem fom_sorted {s : Fom.Fom α} {st : FlatMap.St α} (hs : Fom.Sim cmp key s st) :
    MapSpec.Sorted cmp (MapSpec.ekey key) st.l := by
  obtain ⟨T, _, ⟨_, o⟩ | ⟨_, hl, _, o⟩⟩ := hs
  · exact o.ok.sorted
  · rw [hl]; exact List.Pairwise.nil

theorem frm_sorted {s : Frm.Frm α} {st : FlatMap.St α} (hs : Frm.Sim cmp key s st) :
    MapSpec.Sorted cmp (MapSpec.ekey key) st.l := by
  obtain ⟨T, _, ⟨_, o⟩ | ⟨_, hl, _, o⟩⟩ := hs
  · exact o.ok.sorted
  · rw [hl]; exact List.Pairwise.nil

theorem fom_trace (hc : LawfulCmp cmp) (cs : List (FlatMap.Op α κ (Frm.Junk α))) : ∀ {s : Fom.Fom α} {st : FlatMap.St α},
    Fom.Sim cmp key s st → Fom.safeRun cmp key s.hasAlloc st cs →
    Trace cmp key (abs cmp key (st.l.map Prod.snd)) (cs.map ofFlat)
      (List.zipWith flatOut cs (FlatMap.specRunS cmp key s.hasAlloc st cs).2) := by
  induction cs with
  | nil => intro s l _ _; exact .nil _
  | cons o os ih =>
    intro s st h hok
    have hd := (Fom.Sim.next_walk h).1
    have hs := fom_sorted h
    obtain ⟨T, h⟩ := h
    obtain ⟨s1, r1, m1, a1, _⟩ := Fom.step_spec hc h o hok.1 hok.2.1
    refine .cons _ _ _ _ _ _ (flat_stepS hc hs hd o hok.1) ?_
    have := ih m1 (by rw [a1]; exact hok.2.2)
    rw [a1] at this
    exact this

theorem frm_trace (hc : LawfulCmp cmp) (cs : List (FlatMap.Op α κ (Frm.Junk α))) : ∀ {s : Frm.Frm α} {st : FlatMap.St α},
    Frm.Sim cmp key s st → FlatMap.okRun cmp key s.hasAlloc st cs →
    Trace cmp key (abs cmp key (st.l.map Prod.snd)) (cs.map ofFlat)
      (List.zipWith flatOut cs (FlatMap.specRun cmp key s.hasAlloc st cs).2) := by
  induction cs with
  | nil => intro s l _ _; exact .nil _
  | cons o os ih =>
    intro s st h hok
    have hd := (Frm.Sim.next_walk h).1
    have hs := frm_sorted h
    obtain ⟨T, h⟩ := h
    obtain ⟨s1, r1, m1, a1⟩ := Frm.step_spec hc h o hok.1
    have hS : FlatMap.okOpS cmp key st o := by
      have := hok.1
      cases o <;> first | exact this | exact trivial
    refine .cons _ _ _ _ _ _ (flat_step hc hs hd o hS) ?_
    have := ih m1 (by rw [a1]; exact hok.2)
    rw [a1] at this
    exact this

theorem fhm_trace (hc : LawfulCmp cmp) {c : HashMap.Cfg κ α} (hl : HashMap.Lawful c)
    (he : ∀ x y, c.eq x y = (cmp x y == .eql)) (hk : c.key = key) (cs : List (HashMap.Op α κ)) :
    ∀ {s : Fhm.Fhm α} {st : HashMap.St α}, Fhm.Sim c s st → HashMap.safeRun c s.hasAlloc st cs →
    Trace cmp key (abs cmp key st.l) (cs.map ofHash)
      (List.zipWith hashOut cs (HashMap.specRun c s.hasAlloc st cs).2) := by
  induction cs with
  | nil => intro s l _ _; exact .nil _
  | cons o os ih =>
    intro s st h hok
    obtain ⟨s1, r1, m1, a1⟩ := Fhm.step_good hl h o hok.1 hok.2.1
    refine .cons _ _ _ _ _ _ (hash_step hc hl he hk (h.uniq hl) o hok.1) ?_
    have := ih m1 (by rw [a1]; exact hok.2.2)
    rw [a1] at this
    exact this

/-- **C82** (dictionary).  Whatever is observed of any of the five maps is what a dictionary answers.  Partial: the histories
exclude the calls the code gets wrong, see above. -/
theorem C82_dictionary_partial (hc : LawfulCmp cmp) (K : Kind) (ops : List (Op α κ)) (outs : List (Out α))
    (h : Observed cmp key K ops outs) : Trace cmp key .empty ops outs := by
  cases K with
  | om =>
    obtain ⟨mem, al, cs, s, rs, hok, hr, rfl, rfl⟩ := h
    have hi : Om.Sim cmp key (Om.init mem al) [] := ⟨_, Om.init_ok mem al⟩
    obtain ⟨s', h1, _⟩ := Om.run_spec hc cs hi hok
    rw [hr] at h1
    simp only [Option.some.injEq, Prod.mk.injEq] at h1
    rw [h1.2]
    exact om_trace hc cs hi hok
  | rom =>
    obtain ⟨mem, al, cs, s, rs, hok, hr, rfl, rfl⟩ := h
    have hi : Rom.Sim cmp key (Rom.init mem al) [] := ⟨_, Rom.init_ok mem al⟩
    obtain ⟨s', h1, _⟩ := Rom.run_spec hc cs hi hok
    rw [hr] at h1
    simp only [Option.some.injEq, Prod.mk.injEq] at h1
    rw [h1.2]
    exact rom_trace hc cs hi hok
  | fom =>
    obtain ⟨mem, n, al, cs, s, rs, hok, hr, rfl, rfl⟩ := h
    have hi : Fom.Sim cmp key (Fom.init mem n al) ⟨[], n, false⟩ := ⟨_, Fom.init_ok mem n al⟩
    obtain ⟨s', h1, _⟩ := Fom.run_spec hc cs hi hok
    rw [hr] at h1
    simp only [Option.some.injEq, Prod.mk.injEq] at h1
    rw [h1.2]
    exact fom_trace hc cs hi hok
  | frm =>
    obtain ⟨mem, n, al, cs, s, rs, hok, hr, rfl, rfl⟩ := h
    have hi : Frm.Sim cmp key (Frm.init mem n al) ⟨[], n, false⟩ := ⟨_, Frm.init_ok mem n al⟩
    obtain ⟨s', h1, _⟩ := Frm.run_spec hc cs hi hok
    rw [hr] at h1
    simp only [Option.some.injEq, Prod.mk.injEq] at h1
    rw [h1.2]
    exact frm_trace hc cs hi hok
  | fhm =>
    obtain ⟨c, mem, n, al, b, cs, s, rs, hl, he, hk, hn, hb, hok, hr, rfl, rfl⟩ := h
    have hi : Fhm.Sim c (Fhm.init mem n al) ⟨[], n, b⟩ := Fhm.init_sim al hn hb
    obtain ⟨s', h1, _⟩ := Fhm.run_spec hl cs hi hok
    rw [hr] at h1
    simp only [Option.some.injEq, Prod.mk.injEq] at h1
    rw [h1.2]
    exact fhm_trace hc hl he hk cs hi hok

/-- **C82** (interchangeable).  The same calls on two maps of any two kinds are answered alike, unless one of them ran out of
memory: whatever the memory under the maps, the addresses of the user's structs and the allocators. -/
theorem C82_interchange_partial (hc : LawfulCmp cmp) (K K' : Kind) (ops : List (Op α κ)) (outs outs' : List (Out α))
    (h : Observed cmp key K ops outs) (h' : Observed cmp key K' ops outs') (r : Out.refused ∉ outs)
    (r' : Out.refused ∉ outs') : outs = outs' :=
  Trace.one hc (fun _ _ _ => rfl) (C82_dictionary_partial hc K ops outs h) (C82_dictionary_partial hc K' ops outs' h') r r'

/-! ### The hypotheses are met: one program on all five maps -/

/-- The program: it stores three elements, overwrites one, removes one, asks. -/
def program : List (Op (Nat × Nat) Nat) :=
  [.insert (5, 0), .tryInsert (3, 1), .insertOrAssign (8, 2), .insertEntry 5 (5, 7), .remove (3, 0), .get 5 id, .has 3, .size]

def answers : List (Out (Nat × Nat)) :=
  [.ent Stat.vacant none, .ent Stat.vacant (some (3, 1)), .ent Stat.vacant (some (8, 2)), .val (some (5, 7)),
   .ent Stat.occupied (some (3, 1)), .val (some (5, 7)), .flag false, .num 2]

def ptrProgram : List (PtrMap.Op (Nat × Nat) Nat) :=
  [.insert 10 (5, 0) 99 (0, 0) none, .tryInsert 20 (3, 1) none, .insertOrAssign 30 (8, 2) none, .insertEntry 5 40 (5, 7) none,
   .remove 50 (3, 0), .get 5, .contains 3, .size]

def flatProgram : List (FlatMap.Op (Nat × Nat) Nat (Frm.Junk (Nat × Nat))) :=
  [.insert (5, 0) none, .tryInsert (3, 1) none, .insertOrAssign (8, 2) none, .insertEntry 5 (5, 7) none, .remove (3, 0), .get 5,
   .contains 3, .size]

def hashProgram : List (HashMap.Op (Nat × Nat) Nat) :=
  [.insert (5, 0) none, .tryInsert (3, 1) none, .insertOrAssign (8, 2) none, .insertEntry 5 (5, 7) none, .remove (3, 0), .get 5 id,
   .contains 3 none, .size]

theorem program_observed (K : Kind) : Observed natCmp Prod.fst K program answers := by
  cases K with
  | om =>
    have hok : Om.safeRun natCmp Prod.fst false [] ptrProgram := by
      simp [ptrProgram, Om.safeRun, Om.safeOp, PtrMap.okOp, PtrMap.fresh, PtrMap.goodAns, PtrMap.specStep, PtrMap.addAt,
        MapSpec.lookup, MapSpec.place, MapSpec.assign, MapSpec.erase, MapSpec.ekey, natCmp]
    obtain ⟨s, h⟩ := Om.C23_om_history_partial natCmp_lawful (fun _ => (0, 0)) false ptrProgram hok
    exact ⟨_, _, ptrProgram, s, _, hok, h, rfl, by
      simp [ptrProgram, answers, ptrOut, ofPtr, oldOut, entOut, refOut, Stat.occupied, Stat.vacant, Stat.insertError,
        PtrMap.specRun, PtrMap.specStep, PtrMap.addAt,
        MapSpec.lookup, MapSpec.place, MapSpec.assign, MapSpec.erase, MapSpec.ekey, natCmp]⟩
  | rom =>
    have hok : PtrMap.okRun natCmp Prod.fst false [] ptrProgram := by
      simp [ptrProgram, PtrMap.okRun, PtrMap.okOp, PtrMap.fresh, PtrMap.goodAns, PtrMap.specStep, PtrMap.addAt,
        MapSpec.lookup, MapSpec.place, MapSpec.assign, MapSpec.erase, MapSpec.ekey, natCmp]
    obtain ⟨s, h⟩ := Rom.C29_rom_history natCmp_lawful (fun _ => (0, 0)) false ptrProgram hok
    exact ⟨_, _, ptrProgram, s, _, hok, h, rfl, by
      simp [ptrProgram, answers, ptrOut, ofPtr, oldOut, entOut, refOut, Stat.occupied, Stat.vacant, Stat.insertError,
        PtrMap.specRun, PtrMap.specStep, PtrMap.addAt,
        MapSpec.lookup, MapSpec.place, MapSpec.assign, MapSpec.erase, MapSpec.ekey, natCmp]⟩
  | fom =>
    have hok : Fom.safeRun natCmp Prod.fst false ⟨[], 6, false⟩ flatProgram := by
      simp [flatProgram, Fom.safeRun, Fom.safeOp, FlatMap.okOpS, FlatMap.okOp, FlatMap.specStepS, FlatMap.specStep, FlatMap.add,
        FlatMap.room, FlatMap.grow, FlatMap.write, FlatMap.drop,
        MapSpec.lookup, MapSpec.place, MapSpec.erase, MapSpec.ekey, natCmp]
    obtain ⟨s, h⟩ := Fom.C28_fom_history_partial natCmp_lawful Frm.sampleJunk 6 false flatProgram hok
    exact ⟨_, _, _, flatProgram, s, _, hok, h, rfl, by
      simp [flatProgram, answers, flatOut, ofFlat, oldOut, entOut, refOut, viewVal, Stat.occupied, Stat.vacant, Stat.insertError,
        FlatMap.specRunS, FlatMap.specStepS, FlatMap.specStep, FlatMap.add, FlatMap.look,
        FlatMap.room, FlatMap.grow, FlatMap.write, FlatMap.drop,
        MapSpec.lookup, MapSpec.place, MapSpec.erase, MapSpec.ekey, natCmp]⟩
  | frm =>
    have hok : FlatMap.okRun natCmp Prod.fst false ⟨[], 6, false⟩ flatProgram := by
      simp [flatProgram, FlatMap.okRun, FlatMap.okOp, FlatMap.specStep, FlatMap.add,
        FlatMap.room, FlatMap.grow, FlatMap.write, FlatMap.drop,
        MapSpec.lookup, MapSpec.place, MapSpec.erase, MapSpec.ekey, natCmp]
    obtain ⟨s, h⟩ := Frm.C32_frm_history_partial natCmp_lawful Frm.sampleJunk 6 false flatProgram hok
    exact ⟨_, _, _, flatProgram, s, _, hok, h, rfl, by
      simp [flatProgram, answers, flatOut, ofFlat, oldOut, entOut, refOut, viewVal, Stat.occupied, Stat.vacant, Stat.insertError,
        FlatMap.specRun, FlatMap.specStep, FlatMap.add, FlatMap.look,
        FlatMap.room, FlatMap.grow, FlatMap.write, FlatMap.drop,
        MapSpec.lookup, MapSpec.place, MapSpec.erase, MapSpec.ekey, natCmp]⟩
  | fhm =>
    have hok : HashMap.safeRun Fhm.badCfg false ⟨[], 11, true⟩ hashProgram := by
      simp [hashProgram, HashMap.safeRun, HashMap.safeOp, HashMap.okOp, HashMap.specStep, HashMap.lookup, HashMap.room,
        HashMap.wanted, HashMap.assign, HashMap.without, Fhm.badCfg, Fhm.natCfg]
    obtain ⟨s, h⟩ := Fhm.C37_fhm_history_partial Fhm.badCfg_lawful Fhm.sampleMem 11 false true hashProgram (.inr (by omega))
      (by simp) hok
    refine ⟨Fhm.badCfg, _, _, _, true, hashProgram, s, _, Fhm.badCfg_lawful, ?_, rfl, .inr (by omega), by simp, hok, h, rfl, ?_⟩
    · intro x y
      simp only [Fhm.badCfg, Fhm.natCfg, natCmp]
      split
      · next h => exact (beq_eq_false_iff_ne.mpr (by omega)).trans rfl
      · split
        · next h => exact (beq_eq_false_iff_ne.mpr (by omega)).trans rfl
        · next h => exact (beq_iff_eq.mpr (by omega)).trans rfl
    · simp [hashProgram, answers, hashOut, ofHash, oldOut, entOut, refOut, Stat.occupied, Stat.vacant, Stat.insertError,
        HashMap.specRun, HashMap.specStep, HashMap.lookup, HashMap.room,
        HashMap.wanted, HashMap.assign, HashMap.without, Fhm.badCfg, Fhm.natCfg]

/-- So any two of the maps agree on the program, and neither runs out of memory. -/
example : Out.refused ∉ answers := by simp [answers]

end CCC.Dictionary
