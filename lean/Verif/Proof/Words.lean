import Verif.Proof.WordsArena
import Verif.Proof.LedgerSpec
import Verif.Props.FlatOrderedMap
import Mathlib.Data.List.Nodup
/-
The counting of words.
-/
namespace CCC.Words
open CCC MapSpec FlatMap

theorem cmpStr_lawful : LawfulCmp cmpStr := by
  constructor
  · intro a
    induction a with
    | nil => intro b; cases b <;> simp [cmpStr]
    | cons x a ih => intro b; cases b with
      | nil => simp [cmpStr]
      | cons y b => simp only [cmpStr]; have := ih b; grind
  · intro a
    induction a with
    | nil => intro b; cases b <;> simp [cmpStr]
    | cons x a ih => intro b; cases b with
      | nil => simp [cmpStr]
      | cons y b => simp only [cmpStr]; have := ih b; grind
  · intro a
    induction a with
    | nil => intro b c; cases b <;> cases c <;> simp [cmpStr]
    | cons x a ih =>
      intro b c
      cases b with
      | nil => simp [cmpStr]
      | cons y b => cases c with
        | nil => simp [cmpStr]
        | cons z c => simp only [cmpStr]; have := ih b c; grind

theorem cmpStr_eql : ∀ {a b : List Nat}, cmpStr a b = .eql ↔ a = b := by
  intro a
  induction a with
  | nil => intro b; cases b <;> simp [cmpStr]
  | cons x a ih => intro b; cases b with
    | nil => simp [cmpStr]
    | cons y b => simp only [cmpStr, List.cons.injEq]; have := @ih b; grind

/-- The map after the words `ws` were counted. -/
structure CInv (a : Arena) (m : Fom.Fom Wd) (st : St Wd) (ws : List (List Nat)) : Prop where
  ok : a.Ok
  reach : Fom.Reach cmpStr Wd.str m st
  al : m.hasAlloc = true
  holds : ∀ e ∈ st.l, a.Holds e.2.ofs e.2.str
  cnt : ∀ e ∈ st.l, e.2.cnt = ws.count e.2.str
  sub : ∀ e ∈ st.l, e.2.str ∈ ws
  has : ∀ w ∈ ws, ∃ e ∈ st.l, e.2.str = w

variable {a : Arena} {m : Fom.Fom Wd} {st : St Wd} {ws : List (List Nat)}

theorem CInv.nodup (h : CInv a m st ws) : (st.l.map (fun e => e.2.str)).Nodup := by
  have := Fom.C28_fom_sorted cmpStr_lawful h.reach
  unfold Sorted at this
  rw [List.Nodup, List.pairwise_map]
  refine this.imp ?_
  intro a b hab e
  simp only [ekey] at hab
  rw [cmpStr_eql.2 e] at hab
  cases hab

theorem CInv.inj (h : CInv a m st ws) {e e' : Nat × Wd} (he : e ∈ st.l) (he' : e' ∈ st.l) (hs : e.2.str = e'.2.str) : e = e' :=
  List.inj_on_of_nodup_map h.nodup he he' hs

theorem add_grows (al : Bool) (hal : al = true) (st : St Wd) (x : Wd) :
    ∃ st', add cmpStr Wd.str al true st x = (st', some (st.l.length + 1)) ∧
      st'.l = place cmpStr (ekey Wd.str) (st.l.length + 1, x) st.l := by
  subst hal
  have hg : ∀ c n, ∃ c', grow true true c n = some c' := by
    intro c n; unfold grow; split <;> simp
  unfold add room
  split
  · next heq =>
    split at heq
    · obtain ⟨c', hc'⟩ := hg st.cap (st.l.length + 1)
      rw [hc'] at heq
      simp at heq
    · obtain ⟨c', hc'⟩ := hg st.cap 0
      obtain ⟨c2, hc2⟩ := hg c' 1
      rw [hc'] at heq
      simp only [hc2] at heq
      simp at heq
  · exact ⟨_, rfl, rfl⟩

/-- Counting one word. -/
theorem countPiece_spec (fresh : Nat → Frm.Junk Wd) (h : CInv a m st ws) {p : List Nat} (hb : ∀ c ∈ p, c < 128)
    (hlen : (ws.length : Int) < intMax) :
    ∃ a' m' st', countPiece fresh a m p = some (a', m') ∧ CInv a' m' st' (ws ++ wordsOf [p]) := by
  classical
  have hc := cmpStr_lawful
  obtain ⟨a1, r, e1, ok1, fr, hw, hn⟩ := cleanWord_spec h.ok hb
  simp only [countPiece, e1, Option.bind_eq_bind, Option.bind_some]
  by_cases hp : IsWord p
  · obtain ⟨o, rfl, ho⟩ := hw hp
    have hwo : wordsOf [p] = [p.map lower] := by simp [wordsOf, hp]
    rw [hwo]
    generalize p.map lower = s at ho ⊢
    simp only [ho.str ok1, Option.bind_some]
    obtain ⟨T, okm⟩ := h.reach.sim hc
    rcases okm.find hc s with ⟨t, x, k, A, B, hst, hf, hS, hr, ha, _, _, hlk⟩ | ⟨t, T', hf, o1, hlk⟩
    · obtain ⟨ham, a0, live, l0, ac, hm⟩ := Fom.found hS
      have hsx : s = (m.val x).str := cmpStr_eql.1 ha
      have hcx := h.cnt _ hm
      simp only at hcx
      have hle : ws.count (m.val x).str ≤ ws.length := List.count_le_length
      have ok : okOpS cmpStr Wd.str st (.andModify s (fun w => { w with cnt := w.cnt + 1 }) : Op Wd (List Nat) (Frm.Junk Wd)) := by
        intro e _ _; exact cmpStr_eql.2 rfl
      have hmod : Fom.andModify ({ m with t := t } : Fom.Fom Wd) ⟨x, Stat.occupied⟩ (fun w => { w with cnt := w.cnt + 1 }) =
          some { m with t := t, val := upd m.val x { m.val x with cnt := (m.val x).cnt + 1 } } := by
        simp only [Fom.andModify, Rom.occ_occ, if_true]
        rw [Frm.setVal_live (by exact live)]
      have hstep : ∃ out, Fom.step cmpStr Wd.str m (.andModify s (fun w => { w with cnt := w.cnt + 1 })) =
          some ({ m with t := t, val := upd m.val x { m.val x with cnt := (m.val x).cnt + 1 } }, out) := by
        simp only [Fom.step, Fom.entry_occ hf, Option.bind_eq_bind, Option.bind_some, hmod]
        exact ⟨_, rfl⟩
      obtain ⟨out, hstep⟩ := hstep
      have reach := h.reach.step hc ok trivial hstep
      simp only [specStepS, specStep, hlk] at reach
      simp only [Fom.entry_occ hf, Option.bind_some, Fom.occupied, Rom.occ_occ]
      rw [if_neg (by rintro ⟨_, h2⟩; omega)]
      simp only [hmod, Option.bind_some, Fom.orInsertW, if_true]
      rw [if_neg (by exact ac)]
      refine ⟨_, _, _, rfl, ok1, reach, h.al, ?_, ?_, ?_, ?_⟩
      · intro e he
        obtain ⟨e', he', rfl⟩ := List.mem_map.1 he
        split
        · exact (h.holds _ hm).frame fr
        · exact (h.holds _ he').frame fr
      · intro e he
        obtain ⟨e', he', rfl⟩ := List.mem_map.1 he
        rw [List.count_append]
        split
        · simp only [← hsx, List.count_cons_self, List.count_nil]
          rw [hcx, ← hsx]; push_cast; rfl
        · next hne =>
          have : e'.2.str ≠ s := by
            intro hs
            apply hne
            have := h.inj he' hm (hs.trans hsx)
            rw [this]
          rw [List.count_singleton, h.cnt _ he']
          have hbe : (s == e'.2.str) = false := by simpa using fun hh => this hh.symm
          simp [hbe]
      · intro e he
        obtain ⟨e', he', rfl⟩ := List.mem_map.1 he
        split
        · simp [hsx]
        · exact List.mem_append_left _ (h.sub _ he')
      · intro w hw
        rcases List.mem_append.1 hw with hw | hw
        · obtain ⟨e, he, rfl⟩ := h.has w hw
          refine ⟨_, List.mem_map.2 ⟨e, he, rfl⟩, ?_⟩
          split
          · next hx =>
            have hnd := (Fom.C28_fom_compact hc h.reach).1
            have := List.inj_on_of_nodup_map hnd he hm hx
            rw [this]
          · rfl
        · rw [List.mem_singleton] at hw
          subst hw
          exact ⟨_, List.mem_map.2 ⟨_, hm, rfl⟩, by rw [if_pos rfl]; exact hsx.symm⟩
    · have ok : okOpS cmpStr Wd.str st (.orInsertW s ⟨o, s, 1⟩ (some (fresh m.sz))) := cmpStr_eql.2 rfl
      obtain ⟨s', hs, _, hal, _⟩ := Fom.step_spec hc okm (.orInsertW s ⟨o, s, 1⟩ (some (fresh m.sz))) ok trivial
      have reach := h.reach.step hc ok trivial hs
      obtain ⟨st', hadd, hl'⟩ := add_grows m.hasAlloc h.al st ⟨o, s, 1⟩
      simp only [specStepS, specStep, hlk, Option.isSome_some, hadd, added] at reach hs
      simp only [Fom.step, Fom.entry_vac hf, Option.bind_eq_bind, Option.bind_some, Option.bind_eq_some_iff, Option.some.injEq,
        Prod.mk.injEq, Out.ptr.injEq] at hs
      obtain ⟨⟨s2, q⟩, hq, rfl, hv⟩ := hs
      have perm := PtrMap.place_perm (l := st.l) (key := Wd.str) hc (e := (st.l.length + 1, (⟨o, s, 1⟩ : Wd))) hlk
      rw [← hl'] at perm
      have hnew : ∀ e ∈ st.l, e.2.str ≠ s := by
        intro e he hs'
        have := List.find?_eq_none.1 hlk e he
        simp only [ekey, beq_iff_eq] at this
        exact this (cmpStr_eql.2 hs'.symm)
      have hns : s ∉ ws := by
        intro hs'
        obtain ⟨e, he, h1⟩ := h.has s hs'
        exact hnew e he h1
      simp only [Fom.entry_vac hf, Option.bind_some, Fom.occupied, Fom.andModify, show Stat.has Stat.vacant Stat.occupied = false from rfl, Bool.false_eq_true, false_and,
        if_false, hq]
      cases q with
      | none => cases hv
      | some i =>
        refine ⟨_, _, st', rfl, ok1, reach, hal.trans h.al, ?_, ?_, ?_, ?_⟩
        · intro e he
          rcases List.mem_cons.1 (perm.mem_iff.1 he) with rfl | he
          · exact ho
          · exact (h.holds _ he).frame fr
        · intro e he
          rw [List.count_append]
          rcases List.mem_cons.1 (perm.mem_iff.1 he) with rfl | he
          · simp only [List.count_cons_self, List.count_nil]
            rw [List.count_eq_zero_of_not_mem hns]; rfl
          · rw [List.count_singleton, h.cnt _ he]
            have hbe : (s == e.2.str) = false := by simpa using fun hh => hnew e he hh.symm
            simp [hbe]
        · intro e he
          rcases List.mem_cons.1 (perm.mem_iff.1 he) with rfl | he
          · simp
          · exact List.mem_append_left _ (h.sub _ he)
        · intro w hw
          rcases List.mem_append.1 hw with hw | hw
          · obtain ⟨e, he, h1⟩ := h.has w hw
            exact ⟨e, perm.mem_iff.2 (List.mem_cons_of_mem _ he), h1⟩
          · rw [List.mem_singleton] at hw
            exact ⟨_, perm.mem_iff.2 (List.mem_cons_self ..), hw.symm⟩
  · rw [hn hp]
    have hwo : wordsOf [p] = [] := by simp [wordsOf, hp]
    rw [hwo, List.append_nil]
    exact ⟨_, _, st, rfl, ok1, h.reach, h.al, fun e he => (h.holds e he).frame fr, h.cnt, h.sub, h.has⟩

theorem wordsOf_cons (p : List Nat) (ps : List (List Nat)) : wordsOf (p :: ps) = wordsOf [p] ++ wordsOf ps := by
  classical
  unfold wordsOf
  by_cases hp : IsWord p <;> simp [hp]

theorem wordsOf_length (ps : List (List Nat)) : (wordsOf ps).length ≤ ps.length := by
  unfold wordsOf
  rw [List.length_map]
  exact List.length_filter_le _ _

theorem countAll_spec (fresh : Nat → Frm.Junk Wd) : ∀ (ps : List (List Nat)) (a : Arena) (m : Fom.Fom Wd) (st : St Wd)
    (ws : List (List Nat)), CInv a m st ws → (∀ p ∈ ps, ∀ c ∈ p, c < 128) → (ws.length + ps.length : Int) ≤ intMax →
    ∃ a' m' st', countAll fresh a m ps = some (a', m') ∧ CInv a' m' st' (ws ++ wordsOf ps) := by
  intro ps
  induction ps with
  | nil => intro a m st ws h _ _; exact ⟨a, m, st, rfl, by simpa [wordsOf] using h⟩
  | cons p ps ih =>
    intro a m st ws h hb hlen
    simp only [List.length_cons] at hlen
    obtain ⟨a1, m1, st1, e1, h1⟩ := countPiece_spec fresh h (hb p (by simp)) (by push_cast at hlen; omega)
    have := wordsOf_length [p]
    simp only [List.length_cons, List.length_nil] at this
    obtain ⟨a2, m2, st2, e2, h2⟩ := ih a1 m1 st1 _ h1 (fun q hq => hb q (List.mem_cons_of_mem _ hq))
      (by rw [List.length_append]; push_cast at hlen ⊢; omega)
    refine ⟨a2, m2, st2, ?_, by rw [wordsOf_cons, ← List.append_assoc]; exact h2⟩
    simp only [countAll, e1, e2, Option.bind_eq_bind, Option.bind_some]

theorem create_spec (fresh : Nat → Frm.Junk Wd) {ps : List (List Nat)} (hb : ∀ p ∈ ps, ∀ c ∈ p, c < 128)
    (hlen : (ps.length : Int) ≤ intMax) : ∃ a m st, create fresh ps = some (a, m) ∧ CInv a m st (wordsOf ps) := by
  have h0 : CInv Arena.create (Fom.init (fresh 0) 0 true) ⟨[], 0, false⟩ [] :=
    ⟨⟨by decide, by decide⟩, ⟨fresh 0, 0, true, [], trivial, ⟨[], rfl⟩, rfl⟩, rfl, by simp, by simp, by simp, by simp⟩
  obtain ⟨a, m, st, e, h⟩ := countAll_spec fresh ps _ _ _ _ h0 hb (by simpa using hlen)
  exact ⟨a, m, st, e, by simpa using h⟩

end CCC.Words
