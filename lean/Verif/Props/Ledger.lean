import Verif.Proof.LedgerSpec
import Verif.Proof.OrderedMapLedger
import Verif.Proof.RealtimeMapLedger
import Verif.Props.OrderedMap
import Verif.Props.RealtimeMap
/-
The calls of the user's allocation function by the pointer based maps (C72).

`runL` is `run` with the calls of the allocation function written down (`Verif/Model/Ledger.lean`); the second component
of its result is the list of those calls.  `settle` is the allocator's book and `Calls` says which calls one operation has
to make (`Verif/Spec/Ledger.lean`).
-/

namespace CCC.Om
open CCC MapSpec PtrMap

variable {α κ : Type} {cmp : κ → κ → Cmp} {key : α → κ}

/-- One call on a map any history led to: the calls of the allocation function it makes are those it must make, whatever
was called before (`h`), and apart from them it is the call itself. -/
theorem C72_om_calls (hc : LawfulCmp cmp) {s : Om α} {l : List (Nat × α)} (hr : Reach cmp key s l) (op : Op α κ)
    (ok : okOp cmp key s.alloc l op) (sf : safeOp l op) :
    ∃ s' out es, step cmp key s op = some (s', out) ∧ (∀ h, stepL cmp key s op h = some ((s', out), h ++ es)) ∧
      Calls cmp key s.alloc l op es := by
  obtain ⟨T, o⟩ := hr.sim hc
  obtain ⟨s', e, _⟩ := step_spec hc o op ok sf
  obtain ⟨es, hl, hcl⟩ := step_ledger hc o op ok
  exact ⟨s', _, es, e, fun h => hl _ e h, hcl⟩

theorem run_book (hc : LawfulCmp cmp) (ops : List (Op α κ)) : ∀ {s : Om α} {l : List (Nat × α)} {held : List Nat},
    Sim cmp key s l → safeRun cmp key s.alloc l ops → (if s.alloc then held.Perm (l.map Prod.fst) else held = []) →
    ∃ s' es held', (∀ h, runL cmp key s ops h = some ((s', (specRun cmp key s.alloc l ops).2), h ++ es)) ∧
      run cmp key s ops = some (s', (specRun cmp key s.alloc l ops).2) ∧ settle held es = some held' ∧
      (if s.alloc then held'.Perm ((specRun cmp key s.alloc l ops).1.map Prod.fst) else es = []) := by
  induction ops with
  | nil =>
    intro s l held _ _ hh
    refine ⟨s, [], held, fun h => by rw [List.append_nil]; rfl, rfl, rfl, ?_⟩
    split
    · rename_i ha; rw [ha] at hh; exact hh
    · rfl
  | cons op ops ih =>
    intro s l held ⟨T, o⟩ hok hh
    obtain ⟨s1, e1, sim1, a1, _⟩ := step_spec hc o op hok.1 hok.2.1
    obtain ⟨es, hl, hcl⟩ := step_ledger hc o op hok.1
    have hb : ∃ held1, settle held es = some held1 ∧
        (if s.alloc then held1.Perm ((specStep cmp key s.alloc l op).1.map Prod.fst) else held1 = [] ∧ es = []) := by
      have hok1 := hok.1
      cases ha : s.alloc with
      | true =>
        rw [ha] at hcl hok1 hh
        simpa using settle_calls hc o.sorted hok1 hcl (by simpa using hh)
      | false =>
        rw [ha] at hcl hh
        have := calls_none hcl
        subst this
        exact ⟨held, rfl, by simpa using hh⟩
    obtain ⟨held1, hs1, hp1⟩ := hb
    obtain ⟨s2, es2, held2, r1, r2, r3, r4⟩ := ih (held := held1) sim1 (by rw [a1]; exact hok.2.2) (by
      rw [a1]
      cases ha : s.alloc with
      | true => rw [ha] at hp1; simpa using hp1
      | false => rw [ha] at hp1; simpa using hp1.1)
    rw [a1] at r1 r2 r4
    refine ⟨s2, es ++ es2, held2, ?_, ?_, ?_, ?_⟩
    · intro h
      have h1 := hl _ e1 h
      simp only [runL, Led.bind_run, h1, Option.bind_some, r1, List.append_assoc]
      rfl
    · simp only [run, e1, r2, Option.bind_eq_bind, Option.bind_some, specRun]
    · rw [settle_append, hs1, Option.bind_some, r3]
    · cases ha : s.alloc with
      | true => rw [ha] at r4; simpa [specRun] using r4
      | false => rw [ha] at r4 hp1; simp only [Bool.false_eq_true, if_false] at r4 hp1 ⊢; rw [hp1.2, r4]; rfl

/-- Every history on a map with an allocation function: no block is given back that is not out, and at the end the blocks
that are out are those of the stored elements, one each. -/
theorem C72_om_balance (hc : LawfulCmp cmp) (mem : Nat → α) (ops : List (Op α κ))
    (hok : safeRun cmp key true [] ops) :
    ∃ s outs es held, runL cmp key (init mem true) ops [] = some ((s, outs), es) ∧
      run cmp key (init mem true) ops = some (s, outs) ∧ settle [] es = some held ∧
      held.Perm ((specRun cmp key true [] ops).1.map Prod.fst) := by
  obtain ⟨s, es, held, h1, h2, h3, h4⟩ := run_book hc ops (held := []) ⟨_, init_ok (cmp := cmp) (key := key) mem true⟩ hok
    (.refl _)
  exact ⟨s, _, es, held, by have := h1 []; simpa using this, h2, h3, h4⟩

/-- A history that ends with a clear leaves no block out. -/
theorem C72_om_clear (hc : LawfulCmp cmp) (mem : Nat → α) (ops : List (Op α κ))
    (hok : safeRun cmp key true [] (ops ++ [.clear])) :
    ∃ s outs es, runL cmp key (init mem true) (ops ++ [.clear]) [] = some ((s, outs), es) ∧
      settle [] es = some [] := by
  obtain ⟨s, outs, es, held, h1, _, h3, h4⟩ := C72_om_balance hc mem _ hok
  have : (specRun cmp key true [] (ops ++ [.clear])).1 = ([] : List (Nat × α)) := by
    rw [Rom.specRun_append]; rfl
  rw [this] at h4
  rw [List.Perm.eq_nil h4] at h3
  exact ⟨s, outs, es, h1, h3⟩

/-- A map without an allocation function calls none. -/
theorem C72_om_fixed (hc : LawfulCmp cmp) (mem : Nat → α) (ops : List (Op α κ))
    (hok : safeRun cmp key false [] ops) :
    ∃ s outs, runL cmp key (init mem false) ops [] = some ((s, outs), []) := by
  obtain ⟨s, es, held, h1, h2, h3, h4⟩ := run_book hc ops (held := []) ⟨_, init_ok (cmp := cmp) (key := key) mem false⟩ hok
    rfl
  have h4' : es = [] := h4
  subst h4'
  exact ⟨s, _, by have := h1 []; simpa using this⟩

/-- A history with an allocation function: four insertions, one of which is refused, a replacement, two removals. -/
def ledgerOps : List (Op (Nat × Nat) Nat) :=
  [.insert 1 (5, 0) 9 (0, 0) (some 20), .tryInsert 2 (3, 1) (some 21), .insertOrAssign 3 (8, 2) none,
   .orInsertW 7 (7, 7) (some 22), .insertOrAssign 4 (3, 6) (some 23), .removeEntry 5, .remove 6 (7, 0),
   .tryInsertW 9 (9, 9) (some 20)]

theorem ledgerOps_ok : safeRun natCmp Prod.fst true [] ledgerOps := by
  simp [ledgerOps, safeRun, okOp, specStep, lookup, addAt, place, assign, MapSpec.erase, fresh, goodAns, natCmp, ekey, safeOp]

example : ∃ s outs es held, runL natCmp Prod.fst (init (fun _ => (0, 0)) true) ledgerOps [] = some ((s, outs), es) ∧
    run natCmp Prod.fst (init (fun _ => (0, 0)) true) ledgerOps = some (s, outs) ∧ settle [] es = some held ∧
    held.Perm [21, 20] := by
  have h := C72_om_balance natCmp_lawful (fun _ => ((0, 0) : Nat × Nat)) ledgerOps ledgerOps_ok
  have e : (specRun natCmp Prod.fst true [] ledgerOps).1.map Prod.fst = [21, 20] := by
    simp [ledgerOps, specRun, specStep, lookup, addAt, place, assign, MapSpec.erase, natCmp, ekey]
  rwa [e] at h

theorem ledgerOps_clear_ok : safeRun natCmp Prod.fst true [] (ledgerOps ++ [.clear]) := by
  simp [ledgerOps, safeRun, okOp, specStep, lookup, addAt, place, assign, MapSpec.erase, fresh, goodAns, natCmp, ekey, safeOp]

example : ∃ s outs es, runL natCmp Prod.fst (init (fun _ => (0, 0)) true) (ledgerOps ++ [.clear]) [] =
    some ((s, outs), es) ∧ settle [] es = some [] :=
  C72_om_clear natCmp_lawful (fun _ => ((0, 0) : Nat × Nat)) ledgerOps ledgerOps_clear_ok

/-- The second insertion of the history, on the map the first one led to: one request, granted. -/
example : ∃ s s' out es, Reach natCmp (Prod.fst : Nat × Nat → Nat) s [(20, (5, 0))] ∧
    stepL natCmp Prod.fst s (.tryInsert 2 (3, 1) (some 21)) [] = some ((s', out), es) ∧ es = [.got 21] := by
  obtain ⟨s, h⟩ := C23_om_history_partial natCmp_lawful (fun _ => ((0, 0) : Nat × Nat)) true [.insert 1 (5, 0) 9 (0, 0) (some 20)]
    (by simp [okRun, okOp, specStep, lookup, addAt, place, fresh, goodAns, natCmp, ekey, safeRun, safeOp])
  have hr : Reach natCmp (Prod.fst : Nat × Nat → Nat) s [(20, (5, 0))] :=
    ⟨_, true, _, by simp [okRun, okOp, specStep, lookup, addAt, place, fresh, goodAns, natCmp, ekey, safeRun, safeOp], ⟨_, h⟩, by
      simp [specRun, specStep, lookup, addAt, place, natCmp, ekey]⟩
  have ha : s.alloc = true := by
    obtain ⟨s1, h1, _, h2⟩ := run_spec natCmp_lawful _ ⟨_, init_ok (cmp := natCmp) (key := Prod.fst)
      (fun _ => ((0, 0) : Nat × Nat)) true⟩ (show safeRun natCmp Prod.fst true [] [.insert 1 (5, 0) 9 (0, 0) (some 20)] by
        simp [okOp, lookup, fresh, goodAns, natCmp, ekey, safeRun, safeOp])
    have h' := h.symm.trans h1
    simp only [Option.some.injEq, Prod.mk.injEq] at h'
    rw [h'.1]; exact h2
  obtain ⟨s', out, es, _, h2, h3⟩ := C72_om_calls natCmp_lawful hr (.tryInsert 2 (3, 1) (some 21))
    (by simp [okOp, fresh, goodAns]) trivial
  refine ⟨s, s', out, es, hr, h2 [], ?_⟩
  rw [h3, ha]
  simp [lookup, natCmp, ekey, Ev.ofAns]

end CCC.Om

namespace CCC.Rom
open CCC MapSpec PtrMap

variable {α κ : Type} {cmp : κ → κ → Cmp} {key : α → κ}

/-- One call on a map any history led to: the calls of the allocation function it makes are those it must make, whatever
was called before (`h`), and apart from them it is the call itself. -/
theorem C72_rom_calls (hc : LawfulCmp cmp) {s : Rom α} {l : List (Nat × α)} (hr : Reach cmp key s l) (op : Op α κ)
    (ok : okOp cmp key s.alloc l op) :
    ∃ s' out es, step cmp key s op = some (s', out) ∧ (∀ h, stepL cmp key s op h = some ((s', out), h ++ es)) ∧
      Calls cmp key s.alloc l op es := by
  obtain ⟨T, o⟩ := hr.sim hc
  obtain ⟨s', e, _⟩ := step_spec hc o op ok
  obtain ⟨es, hl, hcl⟩ := step_ledger hc o op ok
  exact ⟨s', _, es, e, fun h => hl _ e h, hcl⟩

theorem run_book (hc : LawfulCmp cmp) (ops : List (Op α κ)) : ∀ {s : Rom α} {l : List (Nat × α)} {held : List Nat},
    Sim cmp key s l → okRun cmp key s.alloc l ops → (if s.alloc then held.Perm (l.map Prod.fst) else held = []) →
    ∃ s' es held', (∀ h, runL cmp key s ops h = some ((s', (specRun cmp key s.alloc l ops).2), h ++ es)) ∧
      run cmp key s ops = some (s', (specRun cmp key s.alloc l ops).2) ∧ settle held es = some held' ∧
      (if s.alloc then held'.Perm ((specRun cmp key s.alloc l ops).1.map Prod.fst) else es = []) := by
  induction ops with
  | nil =>
    intro s l held _ _ hh
    refine ⟨s, [], held, fun h => by rw [List.append_nil]; rfl, rfl, rfl, ?_⟩
    split
    · rename_i ha; rw [ha] at hh; exact hh
    · rfl
  | cons op ops ih =>
    intro s l held ⟨T, o⟩ hok hh
    obtain ⟨s1, e1, sim1, a1⟩ := step_spec hc o op hok.1
    obtain ⟨es, hl, hcl⟩ := step_ledger hc o op hok.1
    have hb : ∃ held1, settle held es = some held1 ∧
        (if s.alloc then held1.Perm ((specStep cmp key s.alloc l op).1.map Prod.fst) else held1 = [] ∧ es = []) := by
      have hok1 := hok.1
      cases ha : s.alloc with
      | true =>
        rw [ha] at hcl hok1 hh
        simpa using settle_calls hc o.sorted hok1 hcl (by simpa using hh)
      | false =>
        rw [ha] at hcl hh
        have := calls_none hcl
        subst this
        exact ⟨held, rfl, by simpa using hh⟩
    obtain ⟨held1, hs1, hp1⟩ := hb
    obtain ⟨s2, es2, held2, r1, r2, r3, r4⟩ := ih (held := held1) sim1 (by rw [a1]; exact hok.2) (by
      rw [a1]
      cases ha : s.alloc with
      | true => rw [ha] at hp1; simpa using hp1
      | false => rw [ha] at hp1; simpa using hp1.1)
    rw [a1] at r1 r2 r4
    refine ⟨s2, es ++ es2, held2, ?_, ?_, ?_, ?_⟩
    · intro h
      have h1 := hl _ e1 h
      simp only [runL, Led.bind_run, h1, Option.bind_some, r1, List.append_assoc]
      rfl
    · simp only [run, e1, r2, Option.bind_eq_bind, Option.bind_some, specRun]
    · rw [settle_append, hs1, Option.bind_some, r3]
    · cases ha : s.alloc with
      | true => rw [ha] at r4; simpa [specRun] using r4
      | false => rw [ha] at r4 hp1; simp only [Bool.false_eq_true, if_false] at r4 hp1 ⊢; rw [hp1.2, r4]; rfl

/-- Every history on a map with an allocation function: no block is given back that is not out, and at the end the blocks
that are out are those of the stored elements, one each. -/
theorem C72_rom_balance (hc : LawfulCmp cmp) (mem : Nat → α) (ops : List (Op α κ))
    (hok : okRun cmp key true [] ops) :
    ∃ s outs es held, runL cmp key (init mem true) ops [] = some ((s, outs), es) ∧
      run cmp key (init mem true) ops = some (s, outs) ∧ settle [] es = some held ∧
      held.Perm ((specRun cmp key true [] ops).1.map Prod.fst) := by
  obtain ⟨s, es, held, h1, h2, h3, h4⟩ := run_book hc ops (held := []) ⟨_, init_ok (cmp := cmp) (key := key) mem true⟩ hok
    (.refl _)
  exact ⟨s, _, es, held, by have := h1 []; simpa using this, h2, h3, h4⟩

/-- A history that ends with a clear leaves no block out. -/
theorem C72_rom_clear (hc : LawfulCmp cmp) (mem : Nat → α) (ops : List (Op α κ))
    (hok : okRun cmp key true [] (ops ++ [.clear])) :
    ∃ s outs es, runL cmp key (init mem true) (ops ++ [.clear]) [] = some ((s, outs), es) ∧
      settle [] es = some [] := by
  obtain ⟨s, outs, es, held, h1, _, h3, h4⟩ := C72_rom_balance hc mem _ hok
  have : (specRun cmp key true [] (ops ++ [.clear])).1 = ([] : List (Nat × α)) := by
    rw [specRun_append]; rfl
  rw [this] at h4
  rw [List.Perm.eq_nil h4] at h3
  exact ⟨s, outs, es, h1, h3⟩

/-- A map without an allocation function calls none. -/
theorem C72_rom_fixed (hc : LawfulCmp cmp) (mem : Nat → α) (ops : List (Op α κ))
    (hok : okRun cmp key false [] ops) :
    ∃ s outs, runL cmp key (init mem false) ops [] = some ((s, outs), []) := by
  obtain ⟨s, es, held, h1, h2, h3, h4⟩ := run_book hc ops (held := []) ⟨_, init_ok (cmp := cmp) (key := key) mem false⟩ hok
    rfl
  have h4' : es = [] := h4
  subst h4'
  exact ⟨s, _, by have := h1 []; simpa using this⟩

/-- A history with an allocation function: four insertions, one of which is refused, a replacement, two removals. -/
def ledgerOps : List (Op (Nat × Nat) Nat) :=
  [.insert 1 (5, 0) 9 (0, 0) (some 20), .tryInsert 2 (3, 1) (some 21), .insertOrAssign 3 (8, 2) none,
   .orInsertW 7 (7, 7) (some 22), .insertOrAssign 4 (3, 6) (some 23), .removeEntry 5, .remove 6 (7, 0),
   .tryInsertW 9 (9, 9) (some 20)]

theorem ledgerOps_ok : okRun natCmp Prod.fst true [] ledgerOps := by
  simp [ledgerOps, okRun, okOp, specStep, lookup, addAt, place, assign, MapSpec.erase, fresh, goodAns, natCmp, ekey]

example : ∃ s outs es held, runL natCmp Prod.fst (init (fun _ => (0, 0)) true) ledgerOps [] = some ((s, outs), es) ∧
    run natCmp Prod.fst (init (fun _ => (0, 0)) true) ledgerOps = some (s, outs) ∧ settle [] es = some held ∧
    held.Perm [21, 20] := by
  have h := C72_rom_balance natCmp_lawful (fun _ => ((0, 0) : Nat × Nat)) ledgerOps ledgerOps_ok
  have e : (specRun natCmp Prod.fst true [] ledgerOps).1.map Prod.fst = [21, 20] := by
    simp [ledgerOps, specRun, specStep, lookup, addAt, place, assign, MapSpec.erase, natCmp, ekey]
  rwa [e] at h

theorem ledgerOps_clear_ok : okRun natCmp Prod.fst true [] (ledgerOps ++ [.clear]) := by
  simp [ledgerOps, okRun, okOp, specStep, lookup, addAt, place, assign, MapSpec.erase, fresh, goodAns, natCmp, ekey]

example : ∃ s outs es, runL natCmp Prod.fst (init (fun _ => (0, 0)) true) (ledgerOps ++ [.clear]) [] =
    some ((s, outs), es) ∧ settle [] es = some [] :=
  C72_rom_clear natCmp_lawful (fun _ => ((0, 0) : Nat × Nat)) ledgerOps ledgerOps_clear_ok

/-- The second insertion of the history, on the map the first one led to: one request, granted. -/
example : ∃ s s' out es, Reach natCmp (Prod.fst : Nat × Nat → Nat) s [(20, (5, 0))] ∧
    stepL natCmp Prod.fst s (.tryInsert 2 (3, 1) (some 21)) [] = some ((s', out), es) ∧ es = [.got 21] := by
  obtain ⟨s, h⟩ := C29_rom_history natCmp_lawful (fun _ => ((0, 0) : Nat × Nat)) true [.insert 1 (5, 0) 9 (0, 0) (some 20)]
    (by simp [okRun, okOp, specStep, lookup, addAt, place, fresh, goodAns, natCmp, ekey])
  have hr : Reach natCmp (Prod.fst : Nat × Nat → Nat) s [(20, (5, 0))] :=
    ⟨_, true, _, by simp [okRun, okOp, specStep, lookup, addAt, place, fresh, goodAns, natCmp, ekey], ⟨_, h⟩, by
      simp [specRun, specStep, lookup, addAt, place, natCmp, ekey]⟩
  have ha : s.alloc = true := by
    obtain ⟨s1, h1, _, h2⟩ := run_spec natCmp_lawful _ ⟨_, init_ok (cmp := natCmp) (key := Prod.fst)
      (fun _ => ((0, 0) : Nat × Nat)) true⟩ (show okRun natCmp Prod.fst true [] [.insert 1 (5, 0) 9 (0, 0) (some 20)] by
        simp [okOp, lookup, fresh, goodAns, natCmp, ekey, okRun])
    have h' := h.symm.trans h1
    simp only [Option.some.injEq, Prod.mk.injEq] at h'
    rw [h'.1]; exact h2
  obtain ⟨s', out, es, _, h2, h3⟩ := C72_rom_calls natCmp_lawful hr (.tryInsert 2 (3, 1) (some 21))
    (by simp [okOp, fresh, goodAns])
  refine ⟨s, s', out, es, hr, h2 [], ?_⟩
  rw [h3, ha]
  simp [lookup, natCmp, ekey, Ev.ofAns]

end CCC.Rom
