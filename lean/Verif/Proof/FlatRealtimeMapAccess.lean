import Verif.Proof.RealtimeMapAccess
import Verif.Proof.FlatRealtimeMapStep
import Verif.Model.FlatRealtimeMapCost
/-
The calls of the flat realtime ordered map, with the accesses to slots bounded by the rank of the tree and the cost of
moving the buffer to larger memory.
-/
namespace CCC

namespace Frm
open Links Tree Wavl MapSpec FlatMap
open CCC.Rom (elems Gap mem_elems vac_ne_occ vac_not_occ occ_occ)

variable {α κ : Type} {cmp : κ → κ → Cmp} {key : α → κ} {s : Frm α} {st : St α} {T : Tree}

/-- Slots moved to larger memory. -/
def moved (c c' : Nat) : Nat := if c' = c then 0 else c

theorem ticks_costs (n : Nat) : Costs (ticks n) n () := fun _ => rfl

theorem bufAllocBack_bd (s : Frm α) (ans : Option (Junk α)) :
    BdR (bufAllocBackN s ans) (some (bufAllocBack s ans)) (fun r => moved s.cap r.1.cap) := by
  unfold bufAllocBackN bufAllocBack
  by_cases h : s.sz = s.cap
  · rw [if_pos h, if_pos h]
    cases ha : (if s.hasAlloc then ans else none) with
    | none => exact BdR.pure _ _
    | some j =>
      intro r hr
      cases hr
      refine ⟨s.cap + 0, ?_, (ticks_costs s.cap).bind (Costs.pure _)⟩
      show s.cap + 0 ≤ moved s.cap (if s.cap ≠ 0 then s.cap * 2 else Buf.startCapacity)
      unfold moved
      by_cases h0 : s.cap = 0
      · simp [h0]
      · rw [if_pos h0, if_neg (by omega)]; omega
  · rw [if_neg h, if_neg h]
    exact BdR.pure _ _

theorem bufAllocBack_cap (s : Frm α) (ans : Option (Junk α)) :
    (bufAllocBack s ans).1.cap = s.cap ∨ s.sz = s.cap ∧ (s.cap = 0 → 8 ≤ (bufAllocBack s ans).1.cap) := by
  unfold bufAllocBack
  by_cases h : s.sz = s.cap
  · rw [if_pos h]
    cases ha : (if s.hasAlloc then ans else none) with
    | none => left; rfl
    | some j =>
      right
      refine ⟨h, fun h0 => ?_⟩
      show 8 ≤ (if s.cap ≠ 0 then s.cap * 2 else Buf.startCapacity)
      simp [h0, Buf.startCapacity]
  · rw [if_neg h]; left; rfl

theorem bufAllocBack_sz (s : Frm α) (ans : Option (Junk α)) : (bufAllocBack s ans).1.sz ≤ s.sz + 1 := by
  unfold bufAllocBack
  split
  · split <;> simp [setSize, growTo]
  · simp [setSize]

theorem allocBack_bd (s : Frm α) (ans : Option (Junk α)) :
    BdR (allocBackN s ans) (allocBack s ans) (fun r => moved s.cap r.1.cap + 1) := by
  unfold allocBackN allocBack
  by_cases h0 : s.sz = 0
  · rw [if_pos h0, if_pos h0]
    have h1 := bufAllocBack_bd s ans
    have h2 := bufAllocBack_cap s ans
    have h3 := bufAllocBack_sz s ans
    cases hb : bufAllocBack s ans with
    | mk s1 p =>
      rw [hb] at h1 h2 h3
      simp only at h2 h3
      cases p with
      | none =>
        intro r hr
        cases hr
        obtain ⟨m, hm, hc⟩ := h1 _ rfl
        exact ⟨m + 0, Nat.le_succ_of_le hm, hc.bind (Costs.pure _)⟩
      | some a =>
        intro r hr
        obtain ⟨m, hm, hc⟩ := h1 _ rfl
        have := (BdR.bind (b := fun t r => moved s1.cap r.1.cap) (B := fun r => moved s1.cap r.1.cap + 1)
          (Bd.acc (y := s1.t.setParity a true) (b := 1) (Nat.le_refl _)).toR
          (fun t _ => bufAllocBack_bd { s1 with t := t } ans) (fun t r _ _ => Nat.le_of_eq (Nat.add_comm _ _))) r hr
        obtain ⟨m', hm', hc'⟩ := this
        refine ⟨m + m', ?_, hc.bind hc'⟩
        simp only [moved] at hm hm'
        show m + m' ≤ (if r.1.cap = s.cap then 0 else s.cap) + 1
        have h4 : r.1.cap = s1.cap ∨ s1.sz = s1.cap := by
          cases ht : s1.t.setParity a true with
          | none => simp [ht] at hr
          | some t =>
            simp only [ht, Option.bind_eq_bind, Option.bind_some, Option.some.injEq] at hr
            have := bufAllocBack_cap { s1 with t := t } ans
            rw [hr] at this
            rcases this with h | h
            · exact Or.inl h
            · exact Or.inr h.1
        split at hm <;> split at hm' <;> split <;> omega
  · rw [if_neg h0, if_neg h0]
    exact (bufAllocBack_bd s ans).mono (fun r _ => Nat.le_succ _)

theorem setVal_cap {s s' : Frm α} {a : Nat} {x : α} (h : setVal s a x = some s') : s'.cap = s.cap := by
  unfold setVal at h
  split at h
  · cases h; rfl
  · cases h

theorem insertNode_cap {s s' : Frm α} {p e : Nat} {c : Cmp} (h : insertNode s p c e = some s') : s'.cap = s.cap := by
  unfold insertNode at h
  cases h1 : initNode s.t e with
  | none => simp [h1] at h
  | some t =>
    simp only [h1, Option.bind_eq_bind, Option.bind_some] at h
    split at h
    · cases h; rfl
    · cases h2 : insertBelow t p c e with
      | none => simp [h2] at h
      | some t => simp only [h2, Option.bind_some] at h; cases h; rfl

/-- Where a search can end. -/
theorem find_end (hc : LawfulCmp cmp) (o : Ok cmp key s st T) {k : κ} {q : Query} (h : find cmp key s k = some q) :
    (st.l.length ≠ 0 → q.2 ∈ T.ids) ∧ (q.1 = .eql → st.started = true ∧ q.2 ∈ T.ids) := by
  rcases o.find hc k with ⟨pre, x, post, hs, _, e, _, _, _, hf, _⟩ | ⟨q', hf, hn, g, _⟩
  · rw [hf] at h
    cases h
    have : x ∈ T.ids := by rw [e]; simp
    exact ⟨fun _ => this, fun _ => ⟨hs, this⟩⟩
  · rw [hf] at h
    cases h
    refine ⟨fun hz => ?_, fun he => absurd he hn⟩
    rcases g with rfl | ⟨f, cx, rfl, _, _, rfl⟩
    · obtain ⟨_, ⟨_, h⟩ | ⟨_, h, _⟩⟩ := o
      · exact absurd (by rw [h.ok.list]; rfl) hz
      · exact absurd (by rw [h]; rfl) hz
    · rw [plug_ids]
      cases hd : f.dir <;> simp [before, after, hd]

theorem Ok.valid (o : Ok cmp key s st T) : Valid T := by
  obtain ⟨_, ⟨_, h⟩ | ⟨_, _, rfl, _⟩⟩ := o
  · exact h.ok.valid
  · trivial

theorem Ok.length (o : Ok cmp key s st T) : T.ids.length = st.l.length := by
  obtain ⟨_, ⟨_, h⟩ | ⟨_, hl, rfl, _⟩⟩ := o
  · rw [h.ok.list]; simp [elems]
  · rw [hl]; rfl

theorem findN_bd (o : Ok cmp key s st T) (k : κ) : Bd (findN cmp key s k) (find cmp key s k) (2 * T.rk) := by
  obtain ⟨_, ⟨_, h⟩ | ⟨_, hl, rfl, h⟩⟩ := o
  · exact find_bd (t := s.t) h.ok.wv.whole.tree h.ok.wv.whole.ctx h.ok.valid
  · unfold findN find Wavl.findN Wavl.find
    rw [h.root, findLoopN, findLoop]
    exact Bd.pure _ _

theorem insertNode_bd {l : List (Nat × α)} (al : Alloced cmp key s l T) {p : Nat} (hp : l.length ≠ 0 → p ∈ T.ids)
    (last : Cmp) : Bd (insertNodeN s p last (s.sz - 1)) (insertNode s p last (s.sz - 1)) (9 * T.rk + 42) := by
  have he : s.sz - 1 ∉ T.ids := by rw [al.slots, al.sz]; omega
  unfold insertNodeN insertNode
  refine Bd.bind (initNode_bd _ _) (by omega) ?_
  intro t1 h1
  refine Bd.ite (fun _ => Bd.pure _ _) (fun hz => ?_)
  refine Bd.bind (k := 9 * T.rk + 38) (insertBelow_bd (t0 := { s.t with live := inUse (l.length + 1) s.cap }) al.ok.wv.whole
    al.ok.valid (hp (fun h => hz (by rw [al.sz, h]))) he ?_ last) (by omega) (fun _ _ => Bd.pure _ _)
  intro a ha
  obtain ⟨t2, run, _, _, _, p1, _, f1⟩ := Rom.initNode_spec (t := s.t) (e := s.sz - 1) (by
    rw [al.live, inUse_lt al.le, al.sz]; omega)
  rw [run] at h1
  cases h1
  exact (f1 a (fun hh => he (hh ▸ ha))).2.1

theorem Alloced.put {l : List (Nat × α)} (al : Alloced cmp key s l T) {s' : Frm α} {x : α}
    (h : setVal s (s.sz - 1) x = some s') : Alloced cmp key s' l T ∧ s'.sz = s.sz := by
  have he : s.sz - 1 ∉ T.ids := by rw [al.slots, al.sz]; omega
  unfold setVal at h
  split at h
  · cases h
    exact ⟨⟨al.sz, al.le, al.live, al.ok.put he, al.slots⟩, rfl⟩
  · cases h

/-- Writing the new element and linking it. -/
theorem link_bd {γ : Type} {l : List (Nat × α)} (al : Alloced cmp key s l T) {p : Nat} (hp : l.length ≠ 0 → p ∈ T.ids)
    (last : Cmp) (x : α) {ix : Frm α → Nat} (hix : ∀ s2, s2.sz = s.sz → ix s2 = s.sz - 1) (f : Frm α → γ) :
    Bd (setValN s (s.sz - 1) x >>= fun s2 => insertNodeN s2 p last (ix s2) >>= fun s3 => pure (f s3))
      (setVal s (s.sz - 1) x >>= fun s2 => insertNode s2 p last (ix s2) >>= fun s3 => some (f s3)) (9 * T.rk + 43) := by
  refine Bd.accBind (by omega) ?_
  intro s2 h2
  obtain ⟨al2, e2⟩ := al.put h2
  rw [hix _ e2, ← e2]
  exact Bd.bind (insertNode_bd al2 hp last) (by omega) (fun _ _ => Bd.pure _ _)

theorem link_cap {γ : Type} {p : Nat} {last : Cmp} {x : α} {n : Nat} {ix : Frm α → Nat} {f : Frm α → γ} {r : γ}
    (h : (setVal s n x >>= fun s2 => insertNode s2 p last (ix s2) >>= fun s3 => some (f s3)) = some r) :
    ∃ s3 : Frm α, s3.cap = s.cap ∧ r = f s3 := by
  cases h2 : setVal s n x with
  | none => simp [h2] at h
  | some s2 =>
    simp only [h2, Option.bind_eq_bind, Option.bind_some] at h
    cases h3 : insertNode s2 p last (ix s2) with
    | none => simp [h3] at h
    | some s3 =>
      simp only [h3, Option.bind_some, Option.some.injEq] at h
      exact ⟨s3, (insertNode_cap h3).trans (setVal_cap h2), h.symm⟩

/-- The common end of all insertions. -/
theorem insertion_bd {γ : Type} (o : Ok cmp key s st T) (ans : Option (Junk α)) {f : Frm α × Slot → Count γ}
    {g : Frm α × Slot → Option γ} {cap : γ → Nat} {b : Nat} (h0 : ∀ s, BdR (f (s, none)) (g (s, none)) (fun _ => 0))
    (h1 : ∀ s r, g (s, none) = some r → cap r = s.cap)
    (h2 : ∀ s, Alloced cmp key s st.l T → Bd (f (s, some (s.sz - 1))) (g (s, some (s.sz - 1))) b)
    (h3 : ∀ s r, g (s, some (s.sz - 1)) = some r → cap r = s.cap) :
    BdR (allocBackN s ans >>= f) (allocBack s ans >>= g) (fun r => moved s.cap (cap r) + (b + 1)) := by
  rcases allocBack_spec o ans with ⟨hr, s', run, o', a'⟩ | ⟨hr, s', run, hcap, hst, al, a', hval⟩
  · refine BdR.bind (allocBack_bd s ans) (b := fun _ _ => 0) ?_ ?_
    · intro a ha
      rw [run] at ha
      cases ha
      exact h0 _
    · intro a r ha hr
      rw [run] at ha
      cases ha
      simp only [h1 _ _ hr]
      omega
  · have hn : st.l.length + 1 = s'.sz - 1 := by rw [al.sz]; rfl
    rw [hn] at run
    refine BdR.bind (allocBack_bd s ans) (b := fun _ _ => b) ?_ ?_
    · intro a ha
      rw [run] at ha
      cases ha
      exact (h2 _ al).toR
    · intro a r ha hr
      rw [run] at ha
      cases ha
      simp only [h3 _ _ hr]
      omega

theorem maybeAllocInsert_bd (o : Ok cmp key s st T) {p : Nat} (hp : st.l.length ≠ 0 → p ∈ T.ids) (last : Cmp) (x : α)
    (ans : Option (Junk α)) : BdR (maybeAllocInsertN s p last x ans) (maybeAllocInsert s p last x ans)
      (fun r => moved s.cap r.1.cap + (9 * T.rk + 44)) := by
  unfold maybeAllocInsertN maybeAllocInsert
  refine insertion_bd (cap := fun r : Frm α × Slot => r.1.cap) o ans ?_ ?_ ?_ ?_
  · intro s; exact BdR.pure _ _
  · intro s r h; cases h; rfl
  · intro s al
    exact link_bd al hp last x (ix := fun _ => s.sz - 1) (fun _ _ => rfl) (fun s3 => (s3, some (s.sz - 1)))
  · intro s r h
    obtain ⟨s3, e, rfl⟩ := link_cap (ix := fun _ => s.sz - 1) (f := fun s3 => (s3, some (s.sz - 1))) h
    exact e

theorem swapAndPop_bd (s : Frm α) (v : Nat) : Bd (swapAndPopN s v) (swapAndPop s v) 15 := by
  unfold swapAndPopN swapAndPop copySlotN getBrN getParN setParN setBrN setParityN
  refine Bd.ite (fun _ => Bd.pure _ _) (fun _ => ?_)
  refine Bd.liftBind (fun _ _ => Bd.liftBind (fun _ _ => ?_))
  refine Bd.bind (k := 3) (Bd.ite (fun _ => Bd.pure _ _) (fun _ => ?_)) (by omega) ?_
  · repeat' bd1
  · intro _ _
    repeat' bd1

theorem removeFixup_bd {l : List (Nat × α)} (h : Started cmp key s l T) {a : Nat} (ha : a ∈ T.ids) :
    Bd (removeFixupN s a) (removeFixup s a) (17 * T.rk + 111) := by
  unfold removeFixupN removeFixup
  refine Bd.bind (removeLinks_bd (t := s.t) h.ok.wv h.ok.valid ha) (by omega) ?_
  intro t _
  exact Bd.bind (swapAndPop_bd _ _) (by omega) (fun _ _ => Bd.pure _ _)

theorem entry_bd (o : Ok cmp key s st T) (k : κ) : Bd (entryN cmp key s k) (entry cmp key s k) (2 * T.rk) := by
  unfold entryN entry
  refine Bd.bind (findN_bd o k) (Nat.le_refl _) ?_
  intro q _
  exact Bd.ite (fun _ => Bd.pure _ _) (fun _ => Bd.pure _ _)

theorem entry_end (hc : LawfulCmp cmp) (o : Ok cmp key s st T) {k : κ} {e : FEnt} (h : entry cmp key s k = some e) :
    (st.l.length ≠ 0 → e.i ∈ T.ids) ∧ (e.stats = Stat.occupied → st.started = true ∧ e.i ∈ T.ids) := by
  cases hf : find cmp key s k with
  | none => simp [entry, hf] at h
  | some q =>
    obtain ⟨h1, h2⟩ := find_end hc o hf
    simp only [entry, hf, Option.bind_eq_bind, Option.bind_some] at h
    split at h
    · cases h
      exact ⟨h1, fun _ => h2 ‹_›⟩
    · cases h
      refine ⟨h1, fun hs => absurd hs ?_⟩
      show (Stat.noUnwrap ||| Stat.vacant) ≠ Stat.occupied
      decide

theorem insertVacantW_bd (hc : LawfulCmp cmp) (o : Ok cmp key s st T) {k : κ} {e : FEnt} (h : entry cmp key s k = some e)
    (x : α) (ans : Option (Junk α)) : BdR (insertVacantWN s e x ans) (insertVacantW s e x ans)
      (fun r => moved s.cap r.1.cap + (9 * T.rk + 44)) := by
  unfold insertVacantWN insertVacantW
  refine insertion_bd (cap := fun r : Frm α × Ent => r.1.cap) o ans ?_ ?_ ?_ ?_
  · intro s; exact BdR.pure _ _
  · intro s r h; cases h; rfl
  · intro s al
    exact link_bd al (entry_end hc o h).1 e.last x (ix := fun _ => s.sz - 1) (fun _ _ => rfl)
      (fun s3 => (s3, (⟨some (s.sz - 1), Stat.vacant⟩ : Ent)))
  · intro s r h
    obtain ⟨s3, e, rfl⟩ := link_cap (ix := fun _ => s.sz - 1) (f := fun s3 => (s3, (⟨some (s.sz - 1), Stat.vacant⟩ : Ent))) h
    exact e

/-- The vacant branch of the other two lazy macros. -/
theorem lazy_bd (hc : LawfulCmp cmp) (o : Ok cmp key s st T) {k : κ} {e : FEnt} (h : entry cmp key s k = some e)
    (x : α) (ans : Option (Junk α)) : BdR
      (do
        let (s, p) ← allocBackN s ans
        match p with
        | none => pure (s, none)
        | some a => do
          let s ← setValN s a x
          let s ← insertNodeN s e.i e.last (s.sz - 1)
          pure (s, some a))
      (do
        let (s, p) ← allocBack s ans
        match p with
        | none => some (s, none)
        | some a => do
          let s ← setVal s a x
          let s ← insertNode s e.i e.last (s.sz - 1)
          some (s, some a))
      (fun r : Frm α × Slot => moved s.cap r.1.cap + (9 * T.rk + 44)) := by
  refine insertion_bd (cap := fun r : Frm α × Slot => r.1.cap) o ans ?_ ?_ ?_ ?_
  · intro s; exact BdR.pure _ _
  · intro s r h; cases h; rfl
  · intro s al
    exact link_bd al (entry_end hc o h).1 e.last x (ix := fun s2 => s2.sz - 1) (fun s2 e2 => by rw [e2])
      (fun s3 => (s3, some (s.sz - 1)))
  · intro s r h
    obtain ⟨s3, e, rfl⟩ := link_cap (ix := fun s2 => s2.sz - 1) (f := fun s3 => (s3, some (s.sz - 1))) h
    exact e

/-- Accesses to slots in one call. -/
def bound (T : Tree) (c c' : Nat) : Nat := moved c c' + (19 * T.rk + 111)

/-- A search first. -/
theorem search_bd {γ δ : Type} {x : Count γ} {y : Option γ} {f : γ → Count δ} {g : γ → Option δ} {c : Nat} {cd : δ → Nat}
    (h : Bd x y (2 * T.rk)) (hf : ∀ a, y = some a → BdR (f a) (g a) (fun r => moved c (cd r) + (17 * T.rk + 111))) :
    BdR (x >>= f) (y >>= g) (fun r => bound T c (cd r)) := by
  refine BdR.bind (b := fun _ r => moved c (cd r) + (17 * T.rk + 111)) h.toR hf ?_
  intro a r _ _
  simp only [bound]
  omega

/-- An answer last. -/
theorem answer_bd {γ δ : Type} {x : Count γ} {y : Option γ} {u : γ → Count δ} {v : γ → Option δ} {b : Nat → Nat} {cg : γ → Nat}
    {cd : δ → Nat} (h : BdR x y (fun r => b (cg r))) (hu : ∀ d r, v d = some r → Costs (u d) 0 r ∧ cd r = cg d) :
    BdR (x >>= u) (y >>= v) (fun r => b (cd r)) := by
  refine BdR.bind (b := fun _ _ => 0) h ?_ ?_
  · intro d _ r hr; exact ⟨0, Nat.le_refl _, (hu d r hr).1⟩
  · intro d r _ hr
    rw [(hu d r hr).2]
    exact Nat.le_refl _

theorem insert_bd (hc : LawfulCmp cmp) (o : Ok cmp key s st T) (x : α) (ans : Option (Junk α)) :
    BdR (insertN cmp key s x ans) (insert cmp key s x ans) (fun r => bound T s.cap r.1.cap) := by
  unfold insertN insert
  refine search_bd (cd := fun r : Frm α × Ent × α => r.1.cap) (findN_bd o _) ?_
  intro q hq
  refine BdR.ite (fun _ => ?_) (fun _ => ?_)
  · refine Bd.le (b := 4) ?_ (fun r => by omega)
    unfold copyLinksN setValN setParityN
    repeat' bd1
  · refine answer_bd (b := fun c => moved s.cap c + (17 * T.rk + 111)) (cg := fun r : Frm α × Slot => r.1.cap)
      (cd := fun r : Frm α × Ent × α => r.1.cap)
      ((maybeAllocInsert_bd o (find_end hc o hq).1 q.1 x ans).mono (fun r _ => by omega)) ?_
    rintro ⟨s', i⟩ r h
    cases i <;> (cases h; exact ⟨.pure _, rfl⟩)

theorem tryInsert_bd (hc : LawfulCmp cmp) (o : Ok cmp key s st T) (x : α) (ans : Option (Junk α)) :
    BdR (tryInsertN cmp key s x ans) (tryInsert cmp key s x ans) (fun r => bound T s.cap r.1.cap) := by
  unfold tryInsertN tryInsert
  refine search_bd (cd := fun r : Frm α × Ent => r.1.cap) (findN_bd o _) ?_
  intro q hq
  refine BdR.ite (fun _ => BdR.pure _ _) (fun _ => ?_)
  refine answer_bd (b := fun c => moved s.cap c + (17 * T.rk + 111)) (cg := fun r : Frm α × Slot => r.1.cap)
    (cd := fun r : Frm α × Ent => r.1.cap)
    ((maybeAllocInsert_bd o (find_end hc o hq).1 q.1 x ans).mono (fun r _ => by omega)) ?_
  rintro ⟨s', i⟩ r h
  cases i <;> (cases h; exact ⟨.pure _, rfl⟩)

theorem insertOrAssign_bd (hc : LawfulCmp cmp) (o : Ok cmp key s st T) (x : α) (ans : Option (Junk α)) :
    BdR (insertOrAssignN cmp key s x ans) (insertOrAssign cmp key s x ans) (fun r => bound T s.cap r.1.cap) := by
  unfold insertOrAssignN insertOrAssign
  refine search_bd (cd := fun r : Frm α × Ent => r.1.cap) (findN_bd o _) ?_
  intro q hq
  refine BdR.ite (fun _ => ?_) (fun _ => ?_)
  · refine Bd.le (b := 1) ?_ (fun r => by omega)
    unfold setValN
    repeat' bd1
  · refine answer_bd (b := fun c => moved s.cap c + (17 * T.rk + 111)) (cg := fun r : Frm α × Slot => r.1.cap)
      (cd := fun r : Frm α × Ent => r.1.cap)
      ((maybeAllocInsert_bd o (find_end hc o hq).1 q.1 x ans).mono (fun r _ => by omega)) ?_
    rintro ⟨s', i⟩ r h
    cases i <;> (cases h; exact ⟨.pure _, rfl⟩)

theorem Ok.started (o : Ok cmp key s st T) (h : st.started = true) : Started cmp key s st.l T := by
  obtain ⟨_, ⟨_, h'⟩ | ⟨h', _⟩⟩ := o
  · exact h'
  · rw [h] at h'; cases h'

theorem remove_bd (hc : LawfulCmp cmp) (o : Ok cmp key s st T) (x : α) :
    Bd (removeN cmp key s x) (remove cmp key s x) (19 * T.rk + 111) := by
  unfold removeN remove
  refine Bd.bind (findN_bd o _) (by omega) ?_
  intro q hq
  refine Bd.ite (fun _ => Bd.pure _ _) (fun hn => ?_)
  obtain ⟨h1, h2⟩ := (find_end hc o hq).2 (by simpa using hn)
  exact Bd.bind (removeFixup_bd (o.started h1) h2) (by omega) (fun _ _ => Bd.pure _ _)

theorem removeEntry_bd (hc : LawfulCmp cmp) (o : Ok cmp key s st T) {k : κ} {e : FEnt} (h : entry cmp key s k = some e) :
    Bd (removeEntryN s e) (removeEntry s e) (17 * T.rk + 111) := by
  unfold removeEntryN removeEntry
  refine Bd.ite (fun hs => ?_) (fun _ => Bd.pure _ _)
  obtain ⟨h1, h2⟩ := (entry_end hc o h).2 hs
  exact Bd.bind (removeFixup_bd (o.started h1) h2) (by omega) (fun _ _ => Bd.pure _ _)

theorem begin_bd (o : Ok cmp key s st T) (d : Bool) : Bd (begin_N s d) (begin_ s d) T.rk := by
  unfold begin_N begin_
  refine Bd.ite (fun _ => Bd.pure _ _) (fun hz => ?_)
  obtain ⟨_, ⟨_, h⟩ | ⟨_, _, _, h⟩⟩ := o
  · have hr : s.t.root = T.rootId := h.ok.wv.whole.ctx
    rw [hr]
    exact Bd.bind (minMaxFrom_bd (t := s.t) _ h.ok.wv.whole.tree h.ok.valid) (Nat.le_refl _) (fun _ _ => Bd.pure _ _)
  · exact absurd h.sz hz

theorem nextN_bd (o : Ok cmp key s st T) {a : Nat} (ha : ∃ e ∈ st.l, e.1 = a) (d : Bool) :
    Bd (nextN s a d) (next s a d) (2 * T.rk + 2) := by
  unfold nextN next
  refine Bd.ite (fun _ => Bd.pure _ _) (fun hz => ?_)
  obtain ⟨_, ⟨_, h⟩ | ⟨_, _, _, h⟩⟩ := o
  · obtain ⟨e, he, rfl⟩ := ha
    rw [h.ok.list] at he
    exact Bd.bind (next_bd (t := s.t) h.ok.wv.whole h.ok.valid (Or.inr (mem_elems.1 he).1) _) (Nat.le_refl _)
      (fun _ _ => Bd.pure _ _)
  · exact absurd h.sz hz

theorem Ok.size_eq (o : Ok cmp key s st T) : size s = st.l.length := by
  obtain ⟨_, ⟨_, h⟩ | ⟨_, hl, _, h⟩⟩ := o
  · rw [size, h.sz]; simp
  · rw [size, h.sz, hl]; rfl

theorem equalRangeN_bd (hc : LawfulCmp cmp) (o : Ok cmp key s st T) (b e : κ) (d : Bool) :
    Bd (equalRangeN cmp key s b e d) (equalRange cmp key s b e d) (8 * T.rk + 4) := by
  unfold equalRangeN equalRange
  refine Bd.ite (fun _ => Bd.pure _ _) (fun hz => ?_)
  have hz : st.l.length ≠ 0 := by rw [isEmpty, o.size_eq] at hz; simpa using hz
  have h : Started cmp key s st.l T := by
    obtain ⟨_, ⟨_, h⟩ | ⟨_, hl, _, h⟩⟩ := o
    · exact h
    · rw [hl] at hz; exact absurd rfl hz
  refine Bd.bind (equalRange_bd (t := s.t) h.ok.wv.whole h.ok.valid _ _ ?_ ?_ d) (Nat.le_refl _) (fun _ _ => Bd.pure _ _)
  · intro q hq; exact Or.inr ((find_end hc o (k := b) hq).1 hz)
  · intro q hq; exact Or.inr ((find_end hc o (k := e) hq).1 hz)

/-- Accesses to slots in one call. -/
theorem step_bd (hc : LawfulCmp cmp) (o : Ok cmp key s st T) {op : Op α κ (Junk α)} (ok : okOp cmp key st op) :
    BdR (stepN cmp key s op) (step cmp key s op) (fun r => bound T s.cap r.1.cap) := by
  have low : ∀ {x : Count (Frm α × Out α)} {y b}, Bd x y b → b ≤ 19 * T.rk + 111 →
      BdR x y (fun r => bound T s.cap r.1.cap) := fun h hb => h.le (fun r => by simp only [bound]; omega)
  cases op with
  | insert x ans =>
    refine answer_bd (b := fun c => bound T s.cap c) (cd := fun r : Frm α × Out α => r.1.cap) (insert_bd hc o x ans) ?_
    rintro ⟨s', e, h⟩ r h; cases h; exact ⟨.pure _, rfl⟩
  | tryInsert x ans =>
    refine answer_bd (b := fun c => bound T s.cap c) (cd := fun r : Frm α × Out α => r.1.cap) (tryInsert_bd hc o x ans) ?_
    rintro ⟨s', e⟩ r h; cases h; exact ⟨.pure _, rfl⟩
  | insertOrAssign x ans =>
    refine answer_bd (b := fun c => bound T s.cap c) (cd := fun r : Frm α × Out α => r.1.cap)
      (insertOrAssign_bd hc o x ans) ?_
    rintro ⟨s', e⟩ r h; cases h; exact ⟨.pure _, rfl⟩
  | remove x => exact low (Bd.bind (remove_bd hc o x) (Nat.le_refl _) (fun _ _ => Bd.pure _ _)) (Nat.le_refl _)
  | orInsert k x ans =>
    refine search_bd (cd := fun r : Frm α × Out α => r.1.cap) (entry_bd o k) ?_
    intro e he
    refine answer_bd (b := fun c => moved s.cap c + (17 * T.rk + 111)) (cg := fun r : Frm α × Slot => r.1.cap) ?_ ?_
    · unfold orInsertN orInsert
      exact BdR.ite (fun _ => BdR.pure _ _) (fun _ => (maybeAllocInsert_bd o (entry_end hc o he).1 _ x ans).mono
        (fun r _ => by omega))
    · rintro ⟨s', e⟩ r h; cases h; exact ⟨.pure _, rfl⟩
  | insertEntry k x ans =>
    refine search_bd (cd := fun r : Frm α × Out α => r.1.cap) (entry_bd o k) ?_
    intro e he
    refine answer_bd (b := fun c => moved s.cap c + (17 * T.rk + 111)) (cg := fun r : Frm α × Slot => r.1.cap) ?_ ?_
    · unfold insertEntryN insertEntry
      refine BdR.ite (fun _ => ?_) (fun _ => (maybeAllocInsert_bd o (entry_end hc o he).1 _ x ans).mono
        (fun r _ => by omega))
      refine Bd.le (b := 1) ?_ (fun r => by omega)
      unfold setValN
      repeat' bd1
    · rintro ⟨s', e⟩ r h; cases h; exact ⟨.pure _, rfl⟩
  | removeEntry k =>
    refine low (Bd.bind (entry_bd o k) (b := 19 * T.rk + 111) (by omega) ?_) (Nat.le_refl _)
    intro e he
    exact Bd.bind (removeEntry_bd hc o he) (by omega) (fun _ _ => Bd.pure _ _)
  | andModify k f =>
    refine low (Bd.bind (entry_bd o k) (b := 2 * T.rk + 1) (by omega) ?_) (by omega)
    intro e he
    refine Bd.bind (k := 1) ?_ (by omega) (fun _ _ => Bd.pure _ _)
    unfold andModifyN andModify setValN
    repeat' bd1
  | occupied k => exact low (Bd.bind (entry_bd o k) (Nat.le_refl _) (fun _ _ => Bd.pure _ _)) (by omega)
  | orInsertW k x ans =>
    refine search_bd (cd := fun r : Frm α × Out α => r.1.cap) (entry_bd o k) ?_
    intro e he
    refine answer_bd (b := fun c => moved s.cap c + (17 * T.rk + 111)) (cg := fun r : Frm α × Slot => r.1.cap) ?_ ?_
    · unfold orInsertWN orInsertW
      exact BdR.ite (fun _ => BdR.pure _ _) (fun _ => (lazy_bd hc o he x ans).mono (fun r _ => by omega))
    · rintro ⟨s', e⟩ r h; cases h; exact ⟨.pure _, rfl⟩
  | insertEntryW k x ans =>
    refine search_bd (cd := fun r : Frm α × Out α => r.1.cap) (entry_bd o k) ?_
    intro e he
    refine answer_bd (b := fun c => moved s.cap c + (17 * T.rk + 111)) (cg := fun r : Frm α × Slot => r.1.cap) ?_ ?_
    · unfold insertEntryWN insertEntryW
      refine BdR.ite (fun _ => (lazy_bd hc o he x ans).mono (fun r _ => by omega)) (fun _ => ?_)
      refine Bd.le (b := 1) ?_ (fun r => by omega)
      unfold setValN
      repeat' bd1
    · rintro ⟨s', e⟩ r h; cases h; exact ⟨.pure _, rfl⟩
  | tryInsertW k x ans =>
    refine answer_bd (b := fun c => bound T s.cap c) (cg := fun r : Frm α × Ent => r.1.cap)
      (cd := fun r : Frm α × Out α => r.1.cap) ?_ ?_
    · unfold tryInsertWN tryInsertW
      refine search_bd (cd := fun r : Frm α × Ent => r.1.cap) (entry_bd o k) ?_
      intro e he
      exact BdR.ite (fun _ => (insertVacantW_bd hc o he x ans).mono (fun r _ => by omega))
        (fun _ => BdR.ite (fun _ => BdR.pure _ _) (fun _ => BdR.pure _ _))
    · rintro ⟨s', e⟩ r h; cases h; exact ⟨.pure _, rfl⟩
  | insertOrAssignW k x ans =>
    refine answer_bd (b := fun c => bound T s.cap c) (cg := fun r : Frm α × Ent => r.1.cap)
      (cd := fun r : Frm α × Out α => r.1.cap) ?_ ?_
    · unfold insertOrAssignWN insertOrAssignW
      refine search_bd (cd := fun r : Frm α × Ent => r.1.cap) (entry_bd o k) ?_
      intro e he
      refine BdR.ite (fun _ => (insertVacantW_bd hc o he x ans).mono (fun r _ => by omega)) (fun _ => ?_)
      refine Bd.le (b := 1) ?_ (fun r => by omega)
      unfold setValN
      repeat' bd1
    · rintro ⟨s', e⟩ r h; cases h; exact ⟨.pure _, rfl⟩
  | contains k => exact low (Bd.bind (Rom.Bd.last (findN_bd o k)) (Nat.le_refl _) (fun _ _ => Bd.pure _ _)) (by omega)
  | get k => exact low (Bd.bind (Rom.Bd.last (findN_bd o k)) (Nat.le_refl _) (fun _ _ => Bd.pure _ _)) (by omega)
  | begin => exact low (Bd.bind (begin_bd o _) (Nat.le_refl _) (fun _ _ => Bd.pure _ _)) (by omega)
  | rbegin => exact low (Bd.bind (begin_bd o _) (Nat.le_refl _) (fun _ _ => Bd.pure _ _)) (by omega)
  | next a => exact low (Bd.bind (nextN_bd o ok _) (Nat.le_refl _) (fun _ _ => Bd.pure _ _)) (by omega)
  | rnext a => exact low (Bd.bind (nextN_bd o ok _) (Nat.le_refl _) (fun _ _ => Bd.pure _ _)) (by omega)
  | end_ => exact BdR.pure _ _
  | equalRange b e => exact low (Bd.bind (equalRangeN_bd hc o b e _) (Nat.le_refl _) (fun _ _ => Bd.pure _ _)) (by omega)
  | equalRrange b e => exact low (Bd.bind (equalRangeN_bd hc o b e _) (Nat.le_refl _) (fun _ _ => Bd.pure _ _)) (by omega)
  | size => exact BdR.pure _ _
  | isEmpty => exact BdR.pure _ _
  | capacity => exact BdR.pure _ _
  | validate => exact low (Bd.liftBind (b := 0) (fun _ _ => Bd.pure _ _)) (by omega)
  | clear => exact low (Bd.liftBind (b := 0) (fun _ _ => Bd.pure _ _)) (by omega)

end Frm
end CCC
