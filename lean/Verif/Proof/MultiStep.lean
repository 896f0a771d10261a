import Verif.Proof.MultiSim
/-
Every allowed and safe call of the multimap does what the specification says.
-/
namespace CCC.Omm
open CCC Links Tree Wavl Splay MultiSpec
open CCC.PtrMap (addAt)

set_option linter.unusedSimpArgs false

variable {α κ : Type} {cmp : κ → κ → Cmp} {key : α → κ}
variable {H : Omm α} {A : List Nat} {D : Nat → List Nat} {h : Links} {T : Tree}
variable {al : Bool} {off : Nat} {st : St α}

/-- Memory nobody uses may become anything. -/
theorem SimA.memory (s : SimA cmp key al off H st A D h T) (hc : LawfulCmp cmp) {H' : Omm α} {n : Nat} (o : At n H H')
    (n0 : n ≠ 0) (hn : n ∉ A) (hno : n ∉ st.out) : SimA cmp key al off H' st A D h T :=
  s.aside hc o n0 hn rfl (fun _ h => h) (fun _ _ h => h) (fun hh => absurd hh hno)

theorem unwrap_ins (n : Nat) (b : Bool) : unwrap ⟨some n, if b then Stat.occupied else Stat.vacant⟩ = some n := by
  cases b <;> simp [unwrap, Ent.unwrap, Stat.has, Stat.noUnwrap, Stat.occupied, Stat.vacant]

@[simp] theorem unwrap_occ (p : Slot) : unwrap ⟨p, Stat.occupied⟩ = p := by
  simp [unwrap, Ent.unwrap, Stat.has, Stat.noUnwrap, Stat.occupied]
@[simp] theorem unwrap_vac (p : Slot) : unwrap ⟨p, Stat.vacant⟩ = p := by
  simp [unwrap, Ent.unwrap, Stat.has, Stat.noUnwrap, Stat.vacant]
@[simp] theorem unwrap_err (p : Slot) : unwrap ⟨p, Stat.insertError⟩ = p := by
  simp [unwrap, Ent.unwrap, Stat.has, Stat.noUnwrap, Stat.insertError]
theorem occ_has : Stat.has Stat.occupied Stat.occupied = true := by decide
theorem vac_has : Stat.has Stat.vacant Stat.occupied = false := by decide
theorem vac_ne : ¬ Stat.vacant = Stat.occupied := by decide
theorem view_none (H : Omm α) : view H none = none := rfl

/-- The memory with a new struct. -/
def fill (H : Omm α) (n : Nat) (x : α) : Omm α :=
  { H with live := upd H.live n true, own := upd H.own n true, val := upd H.val n x,
           br := fun b e => if b = n then none else H.br b e, par := upd H.par n none }

theorem newMem_some {H : Omm α} (hal : H.alloc = true) (n : Nat) (x : α) : newMem H x (some n) = (fill H n x, some n) := by
  simp [newMem, fill, hal]

/-- A new element. -/
theorem SimA.addNew (s : SimA cmp key al off H st A D h T) (hc : LawfulCmp cmp) {n : Nat} {x : α} (n0 : n ≠ 0) (hn : n ∉ A)
    (hl : H.live n = true) (ho : al = true → H.own n = true) (hx : H.val n = x) :
    ∃ H', insertNode cmp key H n =
        some (H', ⟨some n, if (MultiSpec.oldest cmp key (key x) st.elems).isSome then Stat.occupied else Stat.vacant⟩) ∧
      Sim cmp key al off H' (st.add n x) ∧ H'.val n = x := by
  obtain ⟨H', D', h', T', run, s', v⟩ := s.insert hc n0 hn hl ho
  rw [hx] at run s'
  refine ⟨H', ?_, ⟨_, _, _, _, s'⟩, by rw [v, hx]⟩
  rw [run, s.oldest, Option.isSome_map]; rfl

theorem SimA.findC (s : SimA cmp key al off H st A D h T) (hc : LawfulCmp cmp) (k : κ) :
    ∃ H' h' T', SimA cmp key al off H' st A D h' T' ∧ Only H H' ∧
      ((MultiSpec.oldest cmp key k st.elems = none ∧ Omm.find cmp key H k = some (H', none)) ∨
       (∃ a, a ∈ A ∧ MultiSpec.oldest cmp key k st.elems = some (a, H.val a) ∧ cmp k (key (H.val a)) = .eql ∧
          Omm.find cmp key H k = some (H', some a) ∧ H'.root = a)) := by
  obtain ⟨H', h', T', run, s', o, hr⟩ := s.find hc k
  refine ⟨H', h', T', s', o, ?_⟩
  rw [s.oldest]
  cases e : first cmp key H.val k A with
  | none => rw [e] at run; exact Or.inl ⟨rfl, run⟩
  | some a =>
    rw [e] at run
    exact Or.inr ⟨a, (first_mem e).1, rfl, (first_mem e).2, run, hr a e⟩

theorem SimA.entryC (s : SimA cmp key al off H st A D h T) (hc : LawfulCmp cmp) (k : κ) :
    ∃ H' h' T', SimA cmp key al off H' st A D h' T' ∧ Only H H' ∧
      ((MultiSpec.oldest cmp key k st.elems = none ∧ Omm.entry cmp key H k = some (H', ⟨none, Stat.vacant⟩)) ∨
       (∃ a, a ∈ A ∧ MultiSpec.oldest cmp key k st.elems = some (a, H.val a) ∧ cmp k (key (H.val a)) = .eql ∧
          Omm.entry cmp key H k = some (H', ⟨some a, Stat.occupied⟩))) := by
  obtain ⟨H', h', T', s', o, hr⟩ := s.findC hc k
  refine ⟨H', h', T', s', o, ?_⟩
  rcases hr with ⟨e, run⟩ | ⟨a, ha, e, hq, run, _⟩
  · exact Or.inl ⟨e, by simp [Omm.entry, run]⟩
  · exact Or.inr ⟨a, ha, e, hq, by simp [Omm.entry, run]⟩

theorem view_some (H : Omm α) (a : Nat) : view H (some a) = some (a, H.val a) := rfl

/-- A new element from the allocation function. -/
theorem SimA.keyVal (s : SimA cmp key al off H st A D h T) (hc : LawfulCmp cmp) {x : α} {ans : Slot}
    (hans : MultiSpec.goodAns st ans 0) :
    (addAt al none ans = none ∧ insertKeyVal cmp key H x ans = some (H, none)) ∨
    ∃ n H', addAt al none ans = some n ∧ insertKeyVal cmp key H x ans = some (H', some n) ∧
      Sim cmp key al off H' (st.add n x) ∧ H'.val n = x := by
  unfold insertKeyVal addAt
  cases hal : al with
  | false =>
    left
    have : newMem H x ans = (H, none) := by simp [newMem, s.alloc, hal]
    rw [this]
    exact ⟨rfl, rfl⟩
  | true =>
    have ha := s.alloc.trans hal
    simp only [if_true]
    cases ans with
    | none =>
      left
      have : newMem H x none = (H, none) := by simp [newMem]
      rw [this]
      exact ⟨rfl, rfl⟩
    | some n =>
      right
      obtain ⟨hf, hno, _⟩ := hans n rfl
      rw [s.fresh] at hf
      have s1 := s.memory hc (n := n) (H' := fill H n x)
        ⟨rfl, rfl, rfl, rfl, fun a ha => ⟨by funext e; simp [fill, ha], upd_ne _ _ ha, upd_ne _ _ ha, upd_ne _ _ ha,
          upd_ne _ _ ha⟩⟩ hf.1 hf.2 hno
      obtain ⟨H', run, s', v⟩ := s1.addNew hc (x := x) hf.1 hf.2 (upd_same ..) (fun _ => upd_same ..) (upd_same ..)
      refine ⟨n, H', rfl, ?_, hal ▸ s', v⟩
      rw [newMem_some ha]
      simp only [insertEntry, run, Option.bind_eq_bind, Option.bind_some]

theorem SimA.sim (s : SimA cmp key al off H st A D h T) : Sim cmp key al off H st := ⟨_, _, _, _, s⟩

theorem step_insert (hc : LawfulCmp cmp) (s : Sim cmp key al off H st) {e : Nat} {x : α} {ans : Slot}
    (ok : okOp cmp key al st (.insert e x ans)) :
    ∃ H', step cmp key H (.insert e x ans) = some (H', (specStep cmp key al st (.insert e x ans)).2) ∧
      Sim cmp key al off H' (specStep cmp key al st (.insert e x ans)).1 := by
  obtain ⟨A, D, h, T, s⟩ := s
  obtain ⟨hf, hans⟩ := ok
  rw [s.fresh] at hf
  have sp := s.put hc (x := x) hf.1 hf.2
  simp only [step, specStep, Omm.insert, addAt]
  rw [sp.alloc]
  cases hal : al with
  | false =>
    subst hal
    obtain ⟨H', run, s', v⟩ := sp.addNew hc (x := x) hf.1 hf.2 (upd_same ..) (fun hh => by cases hh) (upd_same ..)
    refine ⟨H', ?_, s'⟩
    simp only [Bool.false_eq_true, if_false, run, Option.bind_eq_bind, Option.bind_some, unwrap_ins, view_some, v]
  | true =>
    subst hal
    simp only [if_true]
    cases ans with
    | none => exact ⟨_, by simp [view], sp.sim⟩
    | some n =>
      obtain ⟨hfn, hno, hne⟩ := hans n rfl
      rw [s.fresh] at hfn
      have s1 := sp.memory hc (n := n) (H' := allocCopy (put H e x) n e)
        ⟨rfl, rfl, rfl, rfl, fun a ha => ⟨by funext d; simp [allocCopy, ha], upd_ne _ _ ha, upd_ne _ _ ha, upd_ne _ _ ha,
          upd_ne _ _ ha⟩⟩ hfn.1 hfn.2 hno
      obtain ⟨H', run, s', v⟩ := s1.addNew hc (x := x) hfn.1 hfn.2 (upd_same ..) (fun _ => upd_same ..)
        (by show upd (put H e x).val n ((put H e x).val e) n = x; rw [upd_same]; exact upd_same ..)
      refine ⟨H', ?_, s'⟩
      simp only [run, Option.bind_eq_bind, Option.bind_some, unwrap_ins, view_some, v]

theorem step_tryInsert (hc : LawfulCmp cmp) (s : Sim cmp key al off H st) {e : Nat} {x : α} {ans : Slot}
    (ok : okOp cmp key al st (.tryInsert e x ans)) (safe : safeOp cmp key al off st (.tryInsert e x ans)) :
    ∃ H', step cmp key H (.tryInsert e x ans) = some (H', (specStep cmp key al st (.tryInsert e x ans)).2) ∧
      Sim cmp key al off H' (specStep cmp key al st (.tryInsert e x ans)).1 := by
  obtain ⟨A, D, h, T, s⟩ := s
  obtain ⟨hf, hans⟩ := ok
  rw [s.fresh] at hf
  have sp := s.put hc (x := x) hf.1 hf.2
  obtain ⟨H1, h1, T1, s1, o1, hr⟩ := sp.findC hc (key x)
  have hv : (put H e x).val e = x := upd_same ..
  obtain ⟨v1, v2, v3, v4, v5, v6⟩ := o1.val
  simp only [safeOp] at safe
  simp only [step, specStep, Omm.tryInsert]
  rcases hr with ⟨e1, run⟩ | ⟨a, ha, e1, hq, run, _⟩
  · rw [e1] at safe ⊢
    have hal : al = false := by cases al <;> simp_all
    subst hal
    obtain ⟨H', run2, s', v⟩ := s1.addNew hc (x := x) hf.1 hf.2 (by rw [v2]; exact upd_same ..) (fun hh => by cases hh)
      (by rw [v1]; exact hv)
    refine ⟨H', ?_, s'⟩
    rw [e1] at run2
    simp only [hv, run, Option.bind_eq_bind, Option.bind_some, Option.isSome_none, Bool.false_eq_true, if_false, run2, addAt]
    simp only [Option.isSome_none, Bool.false_eq_true, if_false, unwrap_vac, view_some, v]
  · rw [e1]
    refine ⟨H1, ?_, s1.sim⟩
    simp only [hv, run, Option.bind_eq_bind, Option.bind_some, Option.isSome_some, if_true, ← v1, unwrap_occ, view_some]

/-- The call does what the specification says. -/
def Does (cmp : κ → κ → Cmp) (key : α → κ) (al : Bool) (off : Nat) (H : Omm α) (st : St α) (op : MultiSpec.Op α κ) : Prop :=
  ∃ H', step cmp key H op = some (H', (specStep cmp key al st op).2) ∧ Sim cmp key al off H' (specStep cmp key al st op).1

theorem step_insertOrAssign (hc : LawfulCmp cmp) (s : Sim cmp key al off H st) {e : Nat} {x : α} {ans : Slot}
    (ok : okOp cmp key al st (.insertOrAssign e x ans)) (safe : safeOp cmp key al off st (.insertOrAssign e x ans)) :
    Does cmp key al off H st (.insertOrAssign e x ans) := by
  obtain ⟨A, D, h, T, s⟩ := s
  obtain ⟨hf, hans⟩ := ok
  rw [s.fresh] at hf
  have sp := s.put hc (x := x) hf.1 hf.2
  obtain ⟨H1, h1, T1, s1, o1, hr⟩ := sp.findC hc (key x)
  have hv : (put H e x).val e = x := upd_same ..
  obtain ⟨v1, v2, v3, v4, v5, v6⟩ := o1.val
  simp only [safeOp] at safe
  simp only [Does, step, specStep, Omm.insertOrAssign]
  rcases hr with ⟨e1, run⟩ | ⟨a, ha, e1, hq, run, hroot⟩
  · rw [e1] at safe ⊢
    have hal : al = false := by cases al <;> simp_all
    subst hal
    obtain ⟨H', run2, s', v⟩ := s1.addNew hc (x := x) hf.1 hf.2 (by rw [v2]; exact upd_same ..) (fun hh => by cases hh)
      (by rw [v1]; exact hv)
    refine ⟨H', ?_, s'⟩
    rw [e1] at run2
    simp only [hv, run, Option.bind_eq_bind, Option.bind_some, Option.isSome_none, Bool.false_eq_true, if_false, run2, addAt]
    simp only [Option.isSome_none, Bool.false_eq_true, if_false, unwrap_vac, view_some, v]
  · have hae : a ≠ e := by rintro rfl; exact hf.2 ha
    have s2 : SimA cmp key al off { H1 with br := fun b d => if b = e then H1.br a d else H1.br b d, par := upd H1.par e (H1.par a) }
        (St.forget st e) A D h1 T1 := by
      refine s1.aside hc (n := e) ⟨rfl, rfl, rfl, rfl, ?_⟩ hf.1 hf.2 rfl ?_ ?_ ?_
      · intro b hb; exact ⟨by funext d; simp [hb], upd_ne _ _ hb, rfl, rfl, rfl⟩
      · intro b hb; simp only [St.forget, List.mem_filter] at hb; exact hb.1
      · intro b hb hh
        simp only [St.forget, List.mem_filter] at hb ⊢; exact ⟨hh, hb.2⟩
      · intro hh; simp [St.forget] at hh
    have s3 := s2.assign hc (a := a) (x := x) (by show cmp (key x) (key (H1.val a)) = .eql; rw [v1]; exact hq)
    rw [e1]
    refine ⟨_, ?_, s3.sim⟩
    simp only [hv, run, Option.bind_eq_bind, Option.bind_some]
    rw [if_neg (by rw [hroot]; exact s.core.ne_zero ha)]
    simp only [Option.bind_some, unwrap_occ, view_some, upd_same, Option.some.injEq, Prod.mk.injEq, v1, hv, and_true]
    congr 1
    · funext b d
      by_cases hb : b = a
      · subst hb; simp [hae]
      · simp [hb]
    · funext b
      by_cases hb : b = a
      · subst hb; rw [upd_same, upd_ne _ _ hae]
      · rw [upd_ne _ _ hb]

theorem put_self {e : Nat} {x : α} (hv : H.val e = x) (hl : H.live e = true) : put H e x = H := by
  have e1 : upd H.val e x = H.val := by
    funext b; by_cases hb : b = e
    · subst hb; rw [upd_same, hv]
    · rw [upd_ne _ _ hb]
  have e2 : upd H.live e true = H.live := by
    funext b; by_cases hb : b = e
    · subst hb; rw [upd_same, hl]
    · rw [upd_ne _ _ hb]
  unfold put
  rw [e1, e2]

theorem SimA.eraseC (s : SimA cmp key al off H st A D h T) (hc : LawfulCmp cmp) (k : κ) :
    (MultiSpec.oldest cmp key k st.elems = none ∧ ∃ H', Omm.erase cmp key H k = some (H', none) ∧ Sim cmp key al off H' st) ∨
    (∃ r H' D' h' T', r ∈ A ∧ MultiSpec.oldest cmp key k st.elems = some (r, H.val r) ∧ Omm.erase cmp key H k = some (H', some r) ∧
      SimA cmp key al off H' (st.take false false r) (drop r A) D' h' T' ∧ H'.val = H.val ∧ H'.own = H.own) := by
  rcases s.erase hc k with ⟨e, H', h', T', run, s'⟩ | ⟨r, H', D', h', T', e, run, s', v, o⟩
  · exact Or.inl ⟨by rw [s.oldest, e]; rfl, H', run, s'.sim⟩
  · exact Or.inr ⟨r, H', D', h', T', (first_mem e).1, by rw [s.oldest, e]; rfl, run, s', v, o⟩

theorem step_remove (hc : LawfulCmp cmp) (s : Sim cmp key al off H st) {e : Nat} {x : α}
    (ok : okOp cmp key al st (.remove e x)) : Does cmp key al off H st (.remove e x) := by
  obtain ⟨A, D, h, T, s⟩ := s
  have hsp : SimA cmp key al off (put H e x) st A D h T ∧ (al = true → e ≠ 0 ∧ e ∉ A) := by
    rcases ok with hf | ⟨hal, hm⟩
    · rw [s.fresh] at hf
      exact ⟨s.put hc hf.1 hf.2, fun _ => hf⟩
    · rw [s.elems] at hm
      obtain ⟨b, hb, e1⟩ := List.mem_map.1 hm
      cases e1
      rw [put_self rfl (s.core.alive hb)]
      exact ⟨s, fun hh => by rw [hal] at hh; cases hh⟩
  obtain ⟨sp, hfr⟩ := hsp
  have hv : (put H e x).val e = x := upd_same ..
  simp only [Does, step, specStep, Omm.remove]
  rw [hv]
  rcases sp.eraseC hc (key x) with ⟨e1, H1, run, s1⟩ | ⟨r, H1, D1, h1, T1, hr, e1, run, s1, v, o⟩
  · rw [e1]
    exact ⟨H1, by simp only [run, Option.bind_eq_bind, Option.bind_some, unwrap_vac, view_none], s1⟩
  · rw [e1]
    simp only [run, Option.bind_eq_bind, Option.bind_some]
    cases al with
    | false =>
      have ha1 := s1.alloc
      exact ⟨H1, by simp only [ha1, Bool.false_eq_true, if_false, Option.bind_some, unwrap_occ, view_some, v], s1.sim⟩
    | true =>
      obtain ⟨he0, heA⟩ := hfr rfl
      have hre : r ≠ e := by rintro rfl; exact heA hr
      have her : e ∉ drop r A := fun hh => heA (mem_drop.1 hh).1
      have hrr : r ∉ drop r A := fun hh => (mem_drop.1 hh).2 rfl
      have s2 : SimA cmp key true off { H1 with val := upd H1.val e (H1.val r), br := fun b d => if b = e then H1.br r d else H1.br b d, par := upd H1.par e (H1.par r) }
          (St.forget (st.take false false r) e) (drop r A) D1 h1 T1 := by
        refine s1.aside hc (n := e) ⟨rfl, rfl, rfl, rfl, ?_⟩ he0 her rfl ?_ ?_ ?_
        · intro b hb; exact ⟨by funext d; simp [hb], upd_ne _ _ hb, rfl, rfl, upd_ne _ _ hb⟩
        · intro b hb; simp only [St.forget, List.mem_filter] at hb; exact hb.1
        · intro b hb hh
          simp only [St.forget, List.mem_filter] at hb ⊢; exact ⟨hh, hb.2⟩
        · intro hh; simp [St.forget] at hh
      have hl : H1.live r = true := (s1.out r (by simp [St.take])).1
      have ho : H1.own r = true := by rw [o]; exact sp.own rfl r hr
      have s3 : SimA cmp key true off { H1 with val := upd H1.val e (H1.val r), br := fun b d => if b = e then H1.br r d else H1.br b d, par := upd H1.par e (H1.par r), live := upd H1.live r false, own := upd H1.own r false }
          (St.forget (st.take true false r) e) (drop r A) D1 h1 T1 := by
        refine s2.aside hc (n := r) ⟨rfl, rfl, rfl, rfl, ?_⟩ (s.core.ne_zero hr) hrr rfl ?_ ?_ ?_
        · intro b hb; exact ⟨rfl, rfl, upd_ne _ _ hb, upd_ne _ _ hb, rfl⟩
        · intro b hb
          simp only [St.forget, St.take, if_true, Bool.false_eq_true, if_false, List.mem_filter, List.mem_cons] at hb ⊢
          exact ⟨Or.inr hb.1, hb.2⟩
        · intro b hb hh
          simpa only [St.forget, St.take, if_true, Bool.false_eq_true, if_false] using hh
        · intro hh
          simp only [St.forget, St.take, if_true, List.mem_filter] at hh
          exact absurd hr (sp.out r hh.1).2.2
      refine ⟨_, ?_, s3.sim⟩
      rw [if_pos s1.alloc]
      simp only [if_true, Omm.free, hl, ho, and_self, Option.bind_some, unwrap_occ, view_some, upd_same, v]

theorem step_orInsert (hc : LawfulCmp cmp) (s : Sim cmp key al off H st) {k : κ} {e : Nat} {x : α} {ans : Slot}
    (ok : okOp cmp key al st (.orInsert k e x ans)) (safe : safeOp cmp key al off st (.orInsert k e x ans)) :
    Does cmp key al off H st (.orInsert k e x ans) := by
  obtain ⟨A, D, h, T, s⟩ := s
  obtain ⟨hf, hans, hk⟩ := ok
  rw [s.fresh] at hf
  have sp := s.put hc (x := x) hf.1 hf.2
  obtain ⟨H1, h1, T1, s1, o1, hr⟩ := sp.entryC hc k
  have hv : (put H e x).val e = x := upd_same ..
  obtain ⟨v1, v2, v3, v4, v5, v6⟩ := o1.val
  simp only [safeOp] at safe
  simp only [Does, step, specStep, Omm.orInsert]
  rcases hr with ⟨e1, run⟩ | ⟨a, ha, e1, hq, run⟩
  · rw [e1] at safe ⊢
    have hal : al = false := by cases al <;> simp_all
    subst hal
    obtain ⟨H', run2, s', v⟩ := s1.addNew hc (x := x) hf.1 hf.2 (by rw [v2]; exact upd_same ..) (fun hh => by cases hh)
      (by rw [v1]; exact hv)
    refine ⟨H', ?_, s'⟩
    simp only [run, Option.bind_eq_bind, Option.bind_some, vac_has, Bool.false_eq_true, if_false, Omm.insertEntry, run2,
      view_some, v, addAt]
  · rw [e1]
    exact ⟨H1, by simp only [run, Option.bind_eq_bind, Option.bind_some, occ_has, if_true, view_some, v1], s1.sim⟩

theorem step_insertEntry (hc : LawfulCmp cmp) (s : Sim cmp key al off H st) {k : κ} {e : Nat} {x : α} {ans : Slot}
    (ok : okOp cmp key al st (.insertEntry k e x ans)) (safe : safeOp cmp key al off st (.insertEntry k e x ans)) :
    Does cmp key al off H st (.insertEntry k e x ans) := by
  obtain ⟨A, D, h, T, s⟩ := s
  obtain ⟨hf, hans, hk⟩ := ok
  rw [s.fresh] at hf
  have sp := s.put hc (x := x) hf.1 hf.2
  obtain ⟨H1, h1, T1, s1, o1, hr⟩ := sp.entryC hc k
  have hv : (put H e x).val e = x := upd_same ..
  obtain ⟨v1, v2, v3, v4, v5, v6⟩ := o1.val
  have hal : al = false := safe
  subst hal
  simp only [Does, step, specStep]
  obtain ⟨H', run2, s', v⟩ := s1.addNew hc (x := x) hf.1 hf.2 (by rw [v2]; exact upd_same ..) (fun hh => by cases hh)
    (by rw [v1]; exact hv)
  refine ⟨H', ?_, s'⟩
  rcases hr with ⟨e1, run⟩ | ⟨a, ha, e1, hq, run⟩ <;>
    simp only [run, Option.bind_eq_bind, Option.bind_some, Omm.insertEntry, run2, view_some, v, addAt, Bool.false_eq_true,
      if_false]

theorem step_removeEntry (hc : LawfulCmp cmp) (s : Sim cmp key al off H st) {k : κ} :
    Does cmp key al off H st (.removeEntry k) := by
  obtain ⟨A, D, h, T, s⟩ := s
  obtain ⟨H1, h1, T1, s1, o1, hr⟩ := s.entryC hc k
  obtain ⟨v1, v2, v3, v4, v5, v6⟩ := o1.val
  simp only [Does, step, specStep, Omm.removeEntry]
  rcases hr with ⟨e1, run⟩ | ⟨a, ha, e1, hq, run⟩
  · rw [e1]
    exact ⟨H1, by simp only [run, Option.bind_eq_bind, Option.bind_some, vac_ne, if_false, unwrap_vac, view_none], s1.sim⟩
  · have ho : MultiSpec.oldest cmp key (key (H1.val a)) st.elems = some (a, H.val a) := by
      rw [← e1]
      unfold MultiSpec.oldest
      congr 1
      funext c
      rw [hc.eql_congr_left hq, v1]
    rw [e1]
    rcases s1.eraseC hc (key (H1.val a)) with ⟨e2, _⟩ | ⟨r, H2, D2, h2, T2, hr, e2, run2, s2, v, o⟩
    · rw [ho] at e2; cases e2
    rw [ho] at e2
    simp only [Option.some.injEq, Prod.mk.injEq] at e2
    obtain ⟨rfl, _⟩ := e2
    simp only [run, Option.bind_eq_bind, Option.bind_some, if_true, run2]
    rw [s2.alloc]
    cases hal : al with
    | false =>
      exact ⟨H2, by simp only [Bool.false_eq_true, if_false, Option.bind_some, unwrap_occ, view_some, v, v1], hal ▸ s2.sim⟩
    | true =>
      obtain ⟨H3, fr, s3, v3⟩ := s1.freed hc hal hr s2 o
      exact ⟨H3, by simp only [if_true, fr, Option.bind_some, unwrap_occ, view_none], hal ▸ s3.sim⟩

theorem step_andModify (hc : LawfulCmp cmp) (s : Sim cmp key al off H st) {k : κ} {f : α → α}
    (ok : okOp cmp key al st (.andModify k f)) : Does cmp key al off H st (.andModify k f) := by
  obtain ⟨A, D, h, T, s⟩ := s
  obtain ⟨H1, h1, T1, s1, o1, hr⟩ := s.entryC hc k
  obtain ⟨v1, v2, v3, v4, v5, v6⟩ := o1.val
  simp only [Does, step, specStep, Omm.andModify]
  rcases hr with ⟨e1, run⟩ | ⟨a, ha, e1, hq, run⟩
  · rw [e1]
    exact ⟨H1, by simp only [run, Option.bind_eq_bind, Option.bind_some, vac_has, Bool.false_eq_true, if_false, unwrap_vac,
      view_none], s1.sim⟩
  · rw [e1]
    have hok := ok (a, H.val a) (by rw [s.elems]; exact List.mem_map.2 ⟨a, ha, rfl⟩) hq
    refine ⟨_, ?_, (s1.assign hc (a := a) (x := f (H.val a)) (by rw [v1]; exact hok)).sim⟩
    simp only [run, Option.bind_eq_bind, Option.bind_some, occ_has, if_true, unwrap_occ, view_some, v1, upd_same]

theorem step_occupied (hc : LawfulCmp cmp) (s : Sim cmp key al off H st) {k : κ} : Does cmp key al off H st (.occupied k) := by
  obtain ⟨A, D, h, T, s⟩ := s
  obtain ⟨H1, h1, T1, s1, o1, hr⟩ := s.entryC hc k
  simp only [Does, step, specStep]
  rcases hr with ⟨e1, run⟩ | ⟨a, ha, e1, hq, run⟩ <;> rw [e1]
  · exact ⟨H1, by simp only [run, Option.bind_eq_bind, Option.bind_some, Omm.occupied, vac_has, Option.isSome_none], s1.sim⟩
  · exact ⟨H1, by simp only [run, Option.bind_eq_bind, Option.bind_some, Omm.occupied, occ_has, Option.isSome_some], s1.sim⟩

theorem step_orInsertW (hc : LawfulCmp cmp) (s : Sim cmp key al off H st) {k : κ} {x : α} {ans : Slot}
    (ok : okOp cmp key al st (.orInsertW k x ans)) : Does cmp key al off H st (.orInsertW k x ans) := by
  obtain ⟨A, D, h, T, s⟩ := s
  obtain ⟨H1, h1, T1, s1, o1, hr⟩ := s.entryC hc k
  simp only [Does, step, specStep, Omm.orInsertW]
  rcases hr with ⟨e1, run⟩ | ⟨a, ha, e1, hq, run⟩ <;> rw [e1]
  · rcases s1.keyVal hc (x := x) ok.1 with ⟨e2, run2⟩ | ⟨n, H2, e2, run2, s2, v⟩ <;> rw [e2]
    · exact ⟨H1, by simp only [run, Option.bind_eq_bind, Option.bind_some, vac_ne, if_false, run2, view_none], s1.sim⟩
    · exact ⟨H2, by simp only [run, Option.bind_eq_bind, Option.bind_some, vac_ne, if_false, run2, view_some, v], s2⟩
  · exact ⟨H1, by simp only [run, Option.bind_eq_bind, Option.bind_some, if_true, view_some, o1.val.1], s1.sim⟩

theorem step_insertEntryW (hc : LawfulCmp cmp) (s : Sim cmp key al off H st) {k : κ} {x : α} {ans : Slot}
    (ok : okOp cmp key al st (.insertEntryW k x ans)) : Does cmp key al off H st (.insertEntryW k x ans) := by
  obtain ⟨A, D, h, T, s⟩ := s
  obtain ⟨H1, h1, T1, s1, o1, hr⟩ := s.entryC hc k
  simp only [Does, step, specStep, Omm.insertEntryW]
  have hE : ∃ e, Omm.entry cmp key H k = some (H1, e) := by
    rcases hr with ⟨e1, run⟩ | ⟨a, ha, e1, hq, run⟩ <;> exact ⟨_, run⟩
  obtain ⟨e, run⟩ := hE
  rcases s1.keyVal hc (x := x) ok.1 with ⟨e2, run2⟩ | ⟨n, H2, e2, run2, s2, v⟩ <;> rw [e2]
  · exact ⟨H1, by simp only [run, Option.bind_eq_bind, Option.bind_some, run2, view_none], s1.sim⟩
  · exact ⟨H2, by simp only [run, Option.bind_eq_bind, Option.bind_some, run2, view_some, v], s2⟩

theorem step_tryInsertW (hc : LawfulCmp cmp) (s : Sim cmp key al off H st) {k : κ} {x : α} {ans : Slot}
    (ok : okOp cmp key al st (.tryInsertW k x ans)) : Does cmp key al off H st (.tryInsertW k x ans) := by
  obtain ⟨A, D, h, T, s⟩ := s
  obtain ⟨H1, h1, T1, s1, o1, hr⟩ := s.entryC hc k
  simp only [Does, step, specStep, Omm.tryInsertW]
  rcases hr with ⟨e1, run⟩ | ⟨a, ha, e1, hq, run⟩ <;> rw [e1]
  · rcases s1.keyVal hc (x := x) ok.1 with ⟨e2, run2⟩ | ⟨n, H2, e2, run2, s2, v⟩ <;> rw [e2]
    · exact ⟨H1, by simp only [run, Option.bind_eq_bind, Option.bind_some, vac_has, Bool.not_false, if_true,
        Omm.insertAndCopyKey, run2, unwrap_err, view_none], s1.sim⟩
    · exact ⟨H2, by simp only [run, Option.bind_eq_bind, Option.bind_some, vac_has, Bool.not_false, if_true,
        Omm.insertAndCopyKey, run2, unwrap_err, view_some, v], s2⟩
  · exact ⟨H1, by simp only [run, Option.bind_eq_bind, Option.bind_some, occ_has, Bool.not_true, Bool.false_eq_true,
      if_false, if_true, unwrap_occ, view_some, o1.val.1], s1.sim⟩

theorem step_insertOrAssignW (hc : LawfulCmp cmp) (s : Sim cmp key al off H st) {k : κ} {x : α} {ans : Slot}
    (ok : okOp cmp key al st (.insertOrAssignW k x ans)) : Does cmp key al off H st (.insertOrAssignW k x ans) := by
  obtain ⟨A, D, h, T, s⟩ := s
  obtain ⟨H1, h1, T1, s1, o1, hr⟩ := s.entryC hc k
  simp only [Does, step, specStep, Omm.insertOrAssignW]
  rcases hr with ⟨e1, run⟩ | ⟨a, ha, e1, hq, run⟩ <;> rw [e1]
  · rcases s1.keyVal hc (x := x) ok.1 with ⟨e2, run2⟩ | ⟨n, H2, e2, run2, s2, v⟩ <;> rw [e2]
    · exact ⟨H1, by simp only [run, Option.bind_eq_bind, Option.bind_some, vac_has, Bool.not_false, if_true,
        Omm.insertAndCopyKey, run2, unwrap_err, view_none], s1.sim⟩
    · exact ⟨H2, by simp only [run, Option.bind_eq_bind, Option.bind_some, vac_has, Bool.not_false, if_true,
        Omm.insertAndCopyKey, run2, unwrap_err, view_some, v], s2⟩
  · have hx : cmp (key x) (key (H1.val a)) = .eql := by
      rw [o1.val.1, ← hc.eql_congr_left ok.2]; exact hq
    refine ⟨_, ?_, (s1.assign hc (a := a) (x := x) hx).sim⟩
    simp only [run, Option.bind_eq_bind, Option.bind_some, occ_has, Bool.not_true, Bool.false_eq_true,
      if_false, if_true, unwrap_occ, view_some, upd_same]

theorem step_contains (hc : LawfulCmp cmp) (s : Sim cmp key al off H st) {k : κ} (safe : st.elems ≠ []) :
    Does cmp key al off H st (.contains k) := by
  obtain ⟨A, D, h, T, s⟩ := s
  have hne : T ≠ nil := by
    intro hh
    exact safe (by rw [s.elems, s.core.nil_iff.1 hh]; rfl)
  obtain ⟨H', h', i, m, L, B, _, c', o, hr, hi, hA, hB, run, _⟩ := s.core.splay hc hne k
  have hf := c'.first_root hc (k := k) (by rw [o.val.1]; exact hA) (by rw [o.val.1]; exact hB)
  rw [o.val.1] at hf
  refine ⟨H', ?_, (s.only c' o).sim⟩
  simp only [step, specStep, Omm.contains, run, Option.bind_eq_bind, Option.bind_some, s.oldest, hf, Option.isSome_map]
  split
  · rename_i he; rw [he]; rfl
  · rename_i he
    have : (cmp k (key (H.val i)) == Cmp.eql) = false := by simpa using he
    rw [this]; rfl

theorem step_get (hc : LawfulCmp cmp) (s : Sim cmp key al off H st) {k : κ} : Does cmp key al off H st (.get k) := by
  obtain ⟨A, D, h, T, s⟩ := s
  obtain ⟨H1, h1, T1, s1, o1, hr⟩ := s.findC hc k
  simp only [Does, step, specStep]
  rcases hr with ⟨e1, run⟩ | ⟨a, ha, e1, hq, run, _⟩ <;> rw [e1]
  · exact ⟨H1, by simp only [run, Option.bind_eq_bind, Option.bind_some, view_none], s1.sim⟩
  · exact ⟨H1, by simp only [run, Option.bind_eq_bind, Option.bind_some, view_some, o1.val.1], s1.sim⟩

theorem view_map (H : Omm α) (p : Slot) : view H p = p.map (cell H.val) := rfl

theorem SimA.ne_nil (s : SimA cmp key al off H st A D h T) (safe : st.elems ≠ []) : T ≠ nil := by
  intro hh
  exact safe (by rw [s.elems, s.core.nil_iff.1 hh]; rfl)

theorem step_max (hc : LawfulCmp cmp) (s : Sim cmp key al off H st) (safe : st.elems ≠ []) : Does cmp key al off H st .max := by
  obtain ⟨A, D, h, T, s⟩ := s
  obtain ⟨H', h', T', run, c', o⟩ := s.core.maxMin (s.ne_nil safe) true
  simp only [if_true, Bool.not_true] at run
  refine ⟨H', ?_, (s.only c' o).sim⟩
  simp only [step, specStep, run, Option.bind_eq_bind, Option.bind_some, s.descending hc, view_map, o.val.1, List.head?_map]

theorem step_min (hc : LawfulCmp cmp) (s : Sim cmp key al off H st) (safe : st.elems ≠ []) : Does cmp key al off H st .min := by
  obtain ⟨A, D, h, T, s⟩ := s
  obtain ⟨H', h', T', run, c', o⟩ := s.core.maxMin (s.ne_nil safe) false
  simp only [Bool.false_eq_true, if_false, Bool.not_false] at run
  refine ⟨H', ?_, (s.only c' o).sim⟩
  simp only [step, specStep, run, Option.bind_eq_bind, Option.bind_some, s.ascending hc, view_map, o.val.1, List.head?_map]

theorem step_begin (hc : LawfulCmp cmp) (s : Sim cmp key al off H st) : Does cmp key al off H st .begin := by
  obtain ⟨A, D, h, T, s⟩ := s
  refine ⟨H, ?_, s.sim⟩
  simp only [step, specStep, s.core.begin_ s.sz, Option.bind_eq_bind, Option.bind_some, s.descending hc, view_map,
    List.head?_map]

theorem step_rbegin (hc : LawfulCmp cmp) (s : Sim cmp key al off H st) : Does cmp key al off H st .rbegin := by
  obtain ⟨A, D, h, T, s⟩ := s
  refine ⟨H, ?_, s.sim⟩
  simp only [step, specStep, s.core.rbegin s.sz, Option.bind_eq_bind, Option.bind_some, s.ascending hc, view_map,
    List.head?_map]

theorem SimA.nextC (s : SimA cmp key al off H st A D h T) (hc : LawfulCmp cmp) {a : Nat} (ha : a ∈ A) (d : Bool) :
    ∃ p, Omm.next H a d = some p ∧ view H p = behind a ((flat d D T).map (cell H.val)) := by
  obtain ⟨pre, post, e⟩ := List.append_of_mem ((s.core.flat_mem hc d).2 ha)
  refine ⟨post.head?, s.core.next hc d e, ?_⟩
  have nd := s.core.flat_nodup d
  rw [e] at nd ⊢
  rw [behind_map]
  · rfl
  · intro hh; exact (List.nodup_append.1 nd).2.2 a hh a (by simp) rfl

theorem step_next (hc : LawfulCmp cmp) (s : Sim cmp key al off H st) {a : Nat} (ok : ∃ e ∈ st.elems, e.1 = a) :
    Does cmp key al off H st (.next a) := by
  obtain ⟨A, D, h, T, s⟩ := s
  obtain ⟨p, h1, h2⟩ := s.nextC hc (s.mem.1 ok) false
  exact ⟨H, by simp only [step, specStep, h1, Option.bind_eq_bind, Option.bind_some, h2, s.descending hc], s.sim⟩

theorem step_rnext (hc : LawfulCmp cmp) (s : Sim cmp key al off H st) {a : Nat} (ok : ∃ e ∈ st.elems, e.1 = a) :
    Does cmp key al off H st (.rnext a) := by
  obtain ⟨A, D, h, T, s⟩ := s
  obtain ⟨p, h1, h2⟩ := s.nextC hc (s.mem.1 ok) true
  exact ⟨H, by simp only [step, specStep, h1, Option.bind_eq_bind, Option.bind_some, h2, s.ascending hc], s.sim⟩

theorem step_equalRange (hc : LawfulCmp cmp) (s : Sim cmp key al off H st) {b e : κ} :
    Does cmp key al off H st (.equalRange b e) := by
  obtain ⟨A, D, h, T, s⟩ := s
  obtain ⟨H', h', T', run, c', o⟩ := s.core.equalRange hc s.sz b e false
  refine ⟨H', ?_, (s.only c' o).sim⟩
  simp only [step, specStep, run, Option.bind_eq_bind, Option.bind_some, s.descending hc, view_map, o.val.1, List.find?_map]
  rfl

theorem step_equalRrange (hc : LawfulCmp cmp) (s : Sim cmp key al off H st) {b e : κ} :
    Does cmp key al off H st (.equalRrange b e) := by
  obtain ⟨A, D, h, T, s⟩ := s
  obtain ⟨H', h', T', run, c', o⟩ := s.core.equalRange hc s.sz b e true
  refine ⟨H', ?_, (s.only c' o).sim⟩
  simp only [step, specStep, run, Option.bind_eq_bind, Option.bind_some, s.ascending hc, view_map, o.val.1, List.find?_map]
  rfl

theorem step_popMax (hc : LawfulCmp cmp) (s : Sim cmp key al off H st) : Does cmp key al off H st .popMax := by
  obtain ⟨A, D, h, T, s⟩ := s
  simp only [Does, step, specStep, Omm.popMax, s.descending hc]
  rcases s.eraseEnd hc true with ⟨e, run⟩ | ⟨r, H1, D1, h1, T1, hd, hr, run, s1, v, o⟩
  · have hT : T = nil := s.core.nil_iff.2 (by have := s.elems; rw [e] at this; simpa using this.symm)
    simp only [if_true] at run
    subst hT
    simp only [flat_nil, run, Option.bind_eq_bind, Option.bind_some, List.map_nil, List.head?_nil]
    exact ⟨H, rfl, s.sim⟩
  · simp only [if_true, Bool.not_true] at run hd
    simp only [List.head?_map, hd, run, Option.bind_eq_bind, Option.bind_some, Option.map_some, cell]
    cases hal : al with
    | false => exact ⟨H1, by rw [if_neg (by rw [s1.alloc, hal]; simp)]; rfl, hal ▸ s1.sim⟩
    | true =>
      obtain ⟨H3, fr, s3, v3⟩ := s.freed hc hal hr s1 o
      exact ⟨H3, by rw [if_pos (s1.alloc.trans hal), fr]; rfl, hal ▸ s3.sim⟩

theorem step_popMin (hc : LawfulCmp cmp) (s : Sim cmp key al off H st) (safe : safeOp cmp key al off st .popMin) :
    Does cmp key al off H st .popMin := by
  obtain ⟨A, D, h, T, s⟩ := s
  simp only [Does, step, specStep, Omm.popMin, s.ascending hc]
  rcases s.eraseEnd hc false with ⟨e, run⟩ | ⟨r, H1, D1, h1, T1, hd, hr, run, s1, v, o⟩
  · have hT : T = nil := s.core.nil_iff.2 (by have := s.elems; rw [e] at this; simpa using this.symm)
    simp only [Bool.false_eq_true, if_false] at run
    subst hT
    simp only [flat_nil, run, Option.bind_eq_bind, Option.bind_some, List.map_nil, List.head?_nil]
    exact ⟨H, rfl, s.sim⟩
  · simp only [Bool.false_eq_true, if_false, Bool.not_false] at run hd
    simp only [List.head?_map, hd, run, Option.bind_eq_bind, Option.bind_some, Option.map_some, cell]
    cases hal : al with
    | false => exact ⟨H1, by rw [if_neg (by rw [s1.alloc, hal]; simp)]; rfl, hal ▸ s1.sim⟩
    | true =>
      have hoff : H1.off = 0 := by
        rw [s1.off]
        rcases safe hal with h1 | h1
        · exact h1
        · rw [s.elems] at h1
          have : A = [] := by simpa using h1
          rw [this] at hr; simp at hr
      obtain ⟨H3, fr, s3, v3⟩ := s.freed hc hal hr s1 o
      exact ⟨H3, by rw [if_pos (s1.alloc.trans hal), if_pos hoff, fr]; rfl, hal ▸ s3.sim⟩

theorem step_extract (hc : LawfulCmp cmp) (s : Sim cmp key al off H st) {a : Nat} (ok : okOp cmp key al st (.extract a))
    (safe : safeOp cmp key al off st (.extract a)) : Does cmp key al off H st (.extract a) := by
  obtain ⟨A, D, h, T, s⟩ := s
  simp only [Does, step, specStep, s.at]
  by_cases ha : a ∈ A
  · obtain ⟨_, H1, D1, h1, T1, run, s1, v, _, _⟩ := s.extract hc ha
    rw [if_pos ha]
    exact ⟨H1, by simp only [run, Option.bind_eq_bind, Option.bind_some, view_some, v, cell], s1.sim⟩
  · rw [if_neg ha]
    have ho : a ∈ st.out := ok.resolve_left (fun hh => ha (s.mem.1 hh))
    exact ⟨H, by simp only [s.extractOut ho safe, Option.bind_eq_bind, Option.bind_some, view_none], s.sim⟩

theorem step_update (hc : LawfulCmp cmp) (s : Sim cmp key al off H st) {a : Nat} {f : α → α} (ok : okOp cmp key al st (.update a f))
    (safe : safeOp cmp key al off st (.update a f)) : Does cmp key al off H st (.update a f) := by
  obtain ⟨A, D, h, T, s⟩ := s
  simp only [Does, step, specStep, s.at]
  by_cases ha : a ∈ A
  · obtain ⟨H1, D1, h1, T1, run, s1⟩ := s.update hc f ha
    rw [if_pos ha]
    exact ⟨H1, by simp only [run, Option.bind_eq_bind, Option.bind_some], s1.sim⟩
  · rw [if_neg ha]
    have ho : a ∈ st.out := ok.resolve_left (fun hh => ha (s.mem.1 hh))
    exact ⟨H, by simp only [s.updateOut f ho safe, Option.bind_eq_bind, Option.bind_some], s.sim⟩

/-- What `clear` does, and the destructor sees. -/
theorem Sim.clear (hc : LawfulCmp cmp) (s : Sim cmp key al off H st) :
    ∃ H', Omm.clear cmp key H = some (H', MultiSpec.ascending cmp key st.elems, .ok) ∧
      Sim cmp key al off H' (specStep cmp key al st .clear).1 := by
  obtain ⟨A, D, h, T, s⟩ := s
  obtain ⟨H', D', h', T', run, c', z, v, va, vo, hr⟩ := Core.clearLoop hc A.length [] s.core s.sz rfl
    (fun hh => s.own (s.alloc.symm.trans hh))
  refine ⟨H', ?_, [], D', h', T', c'.weaken ?_, z, rfl, fun _ a ha => by simp at ha, ?_, va.trans s.alloc, vo.trans s.off⟩
  · simp only [Omm.clear, run, Option.bind_eq_bind, Option.bind_some, s.ascending hc, List.nil_append]; rfl
  · intro a ha
    simp only [specStep] at ha
    rw [s.alloc]
    cases al with
    | false =>
      simp only [Bool.false_eq_true, if_false, s.elems, List.map_map, List.mem_append, List.mem_map, Function.comp] at ha
      rcases ha.1 with ⟨b, hb, rfl⟩ | h1
      · exact Or.inr ⟨rfl, hb⟩
      · exact Or.inl ⟨h1, ha.2⟩
    | true =>
      simp only [if_true] at ha
      exact Or.inl ha
  · intro a ha
    simp only [specStep] at ha
    cases hal : al with
    | false =>
      rw [hal] at ha
      simp only [Bool.false_eq_true, if_false, s.elems, List.map_map, List.mem_append, List.mem_map, Function.comp] at ha
      rw [(hr a (Or.inr (s.alloc.trans hal))).1]
      rcases ha with ⟨b, hb, rfl⟩ | h1
      · exact ⟨s.core.alive hb, s.core.ne_zero hb, by simp⟩
      · exact ⟨(s.out a h1).1, (s.out a h1).2.1, by simp⟩
    | true =>
      rw [hal] at ha
      simp only [if_true] at ha
      obtain ⟨p1, p2, p3⟩ := s.out a ha
      exact ⟨by rw [(hr a (Or.inl p3)).1]; exact p1, p2, by simp⟩

theorem step_drop (hc : LawfulCmp cmp) (s : Sim cmp key al off H st) {a : Nat} (ok : a ∈ st.out) :
    Does cmp key al off H st (.drop a) := by
  obtain ⟨A, D, h, T, s⟩ := s
  obtain ⟨p1, p2, p3⟩ := s.out a ok
  refine ⟨_, rfl, A, D, h, T, s.aside hc (n := a) ⟨rfl, rfl, rfl, rfl, ?_⟩ p2 p3 rfl ?_ ?_ ?_⟩
  · intro b hb; exact ⟨rfl, rfl, upd_ne _ _ hb, upd_ne _ _ hb, rfl⟩
  · intro b hb; simp only [specStep, St.forget, List.mem_filter] at hb; exact hb.1
  · intro b hb hh
    simp only [specStep, St.forget, List.mem_filter] at hb ⊢; exact ⟨hh, hb.2⟩
  · intro hh; simp [specStep, St.forget] at hh

/-- Every allowed and safe call does what the specification says. -/
theorem step_sim (hc : LawfulCmp cmp) (s : Sim cmp key al off H st) (op : MultiSpec.Op α κ) (ok : okOp cmp key al st op)
    (safe : safeOp cmp key al off st op) : Does cmp key al off H st op := by
  cases op with
  | insert e x ans => exact step_insert hc s ok
  | tryInsert e x ans => exact step_tryInsert hc s ok safe
  | insertOrAssign e x ans => exact step_insertOrAssign hc s ok safe
  | remove e x => exact step_remove hc s ok
  | orInsert k e x ans => exact step_orInsert hc s ok safe
  | insertEntry k e x ans => exact step_insertEntry hc s ok safe
  | removeEntry k => exact step_removeEntry hc s
  | andModify k f => exact step_andModify hc s ok
  | occupied k => exact step_occupied hc s
  | orInsertW k x ans => exact step_orInsertW hc s ok
  | insertEntryW k x ans => exact step_insertEntryW hc s ok
  | tryInsertW k x ans => exact step_tryInsertW hc s ok
  | insertOrAssignW k x ans => exact step_insertOrAssignW hc s ok
  | contains k => exact step_contains hc s safe
  | get k => exact step_get hc s
  | max => exact step_max hc s safe
  | min => exact step_min hc s safe
  | popMax => exact step_popMax hc s
  | popMin => exact step_popMin hc s safe
  | extract a => exact step_extract hc s ok safe
  | update a f => exact step_update hc s ok safe
  | begin => exact step_begin hc s
  | rbegin => exact step_rbegin hc s
  | next a => exact step_next hc s ok
  | rnext a => exact step_rnext hc s ok
  | equalRange b e => exact step_equalRange hc s
  | equalRrange b e => exact step_equalRrange hc s
  | size =>
    obtain ⟨A, D, h, T, s⟩ := s
    refine ⟨H, ?_, s.sim⟩
    simp only [step, specStep, Omm.size, s.sz, s.elems, List.length_map]
  | isEmpty =>
    obtain ⟨A, D, h, T, s⟩ := s
    refine ⟨H, ?_, s.sim⟩
    simp only [step, specStep, Omm.isEmpty, s.sz, s.elems]
    cases A <;> rfl
  | validate =>
    obtain ⟨A, D, h, T, s⟩ := s
    refine ⟨H, ?_, s.sim⟩
    simp only [step, specStep, s.core.validate hc s.sz, Option.bind_eq_bind, Option.bind_some]
  | clear =>
    obtain ⟨H', run, s'⟩ := s.clear hc
    refine ⟨H', ?_, s'⟩
    simp only [step, specStep, run, Option.bind_eq_bind, Option.bind_some]
  | drop a => exact step_drop hc s ok

/-- The empty multimap. -/
theorem init_sim (br : Nat → Bool → Slot) (par : Nat → Slot) (mem : Nat → α) :
    Sim cmp key al off (init br par mem al off) ⟨[], [], []⟩ := by
  refine ⟨[], fun _ => [], ⟨fun _ _ => 0, fun _ => 0, fun _ => false, fun a => a == 0, 0⟩, nil, ?_, rfl, rfl, by simp, by simp,
    rfl, rfl⟩
  refine ⟨?_, ⟨rfl, trivial, by simp [Tree.ids], rfl⟩, ?_, by simp [Tree.ids], by simp [Tree.ids], by simp⟩
  · constructor <;> simp +contextual [init]
  · simp +contextual

end CCC.Omm
