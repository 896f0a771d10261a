import Verif.Proof.Access
import Verif.Proof.RealtimeMapStep
import Verif.Model.RealtimeMapCost
/-
The calls of the realtime ordered map, with the accesses to elements bounded by the rank of the tree.
-/
namespace CCC.Rom
open CCC Links Tree Wavl MapSpec PtrMap

variable {α κ : Type} {cmp : κ → κ → Cmp} {key : α → κ} {s : Rom α} {l : List (Nat × α)} {T : Tree}

/-- Where a search can end. -/
theorem find_end (hc : LawfulCmp cmp) (o : Ok cmp key s l T) {k : κ} {q : Query} (h : find cmp key s k = some q) :
    (s.sz ≠ 0 → q.2 ∈ T.ids) ∧ (q.1 = .eql → q.2 ∈ T.ids) := by
  rcases o.find hc k with ⟨pre, x, post, e, _, _, _, hf, _⟩ | ⟨q', hf, hn, g, _⟩
  · rw [hf] at h
    cases h
    have : x ∈ T.ids := by rw [e]; simp
    exact ⟨fun _ => this, fun _ => this⟩
  · rw [hf] at h
    cases h
    refine ⟨fun hz => ?_, fun he => absurd he hn⟩
    rcases g with rfl | ⟨f, cx, rfl, _, _, rfl⟩
    · exact absurd (by rw [o.size, o.list]; rfl) hz
    · rw [plug_ids]
      cases hd : f.dir <;> simp [before, after, hd]

theorem findN_bd (o : Ok cmp key s l T) (k : κ) : Bd (findN cmp key s k) (find cmp key s k) (2 * T.rk) :=
  find_bd (by simpa using o.wv.whole.tree) o.wv.whole.ctx o.valid

theorem insertNode_bd (o : Ok cmp key s l T) {p e : Nat} (hp : s.sz ≠ 0 → p ∈ T.ids) (he : e ∉ T.ids) (last : Cmp) :
    Bd (insertNodeN s p last e) (insertNode s p last e) (9 * T.rk + 42) := by
  unfold insertNodeN insertNode
  refine Bd.bind (initNode_bd _ _) (by omega) ?_
  intro t1 h1
  refine Bd.ite (fun _ => Bd.pure _ _) (fun hz => ?_)
  refine Bd.bind (k := 9 * T.rk + 38) (insertBelow_bd (t0 := s.t) o.wv.whole o.valid (hp hz) he ?_ last) (by omega) ?_
  · intro a ha
    obtain ⟨t2, run, _, _, _, p1, _, f1⟩ := initNode_spec (t := { s.t with live := upd s.t.live e true }) (e := e) (by simp)
    rw [run] at h1
    cases h1
    exact (f1 a (fun hh => he (hh ▸ ha))).2.1
  · intro _ _
    exact Bd.pure _ _

theorem maybeAllocInsert_bd (o : Ok cmp key s l T) {p h : Nat} (hp : s.sz ≠ 0 → p ∈ T.ids) (hh : h ∉ T.ids) (last : Cmp)
    {ans : Option Nat} (ha : goodAns l ans h) :
    Bd (maybeAllocInsertN s p last h ans) (maybeAllocInsert s p last h ans) (9 * T.rk + 42) := by
  unfold maybeAllocInsertN maybeAllocInsert
  refine Bd.ite (fun _ => ?_) (fun _ => ?_)
  · cases ans with
    | none => exact Bd.pure _ _
    | some n =>
      obtain ⟨hf, _⟩ := ha n rfl
      rw [o.fresh] at hf
      refine Bd.bind (insertNode_bd (o.put (x := s.val h) hf.2) hp hf.2 last) (Nat.le_refl _) ?_
      intro _ _
      exact Bd.pure _ _
  · refine Bd.bind (insertNode_bd o hp hh last) (Nat.le_refl _) ?_
    intro _ _
    exact Bd.pure _ _

theorem removeFixup_bd (o : Ok cmp key s l T) {a : Nat} (ha : a ∈ T.ids) :
    Bd (removeFixupN s a) (removeFixup s a) (17 * T.rk + 96) := by
  unfold removeFixupN removeFixup
  refine Bd.bind (removeLinks_bd o.wv o.valid ha) (Nat.le_refl _) ?_
  intro _ _
  exact Bd.pure _ _

theorem entry_bd (o : Ok cmp key s l T) (k : κ) : Bd (entryN cmp key s k) (entry cmp key s k) (2 * T.rk) := by
  unfold entryN entry
  refine Bd.bind (findN_bd o k) (Nat.le_refl _) ?_
  intro q _
  exact Bd.ite (fun _ => Bd.pure _ _) (fun _ => Bd.pure _ _)

/-- An occupied entry names a stored element, a vacant one the place of the key. -/
theorem entry_end (hc : LawfulCmp cmp) (o : Ok cmp key s l T) {k : κ} {e : REnt} (h : entry cmp key s k = some e) :
    (s.sz ≠ 0 → e.e ∈ T.ids) ∧ (e.stats = Stat.occupied → e.e ∈ T.ids) := by
  cases hf : find cmp key s k with
  | none => simp [entry, hf] at h
  | some q =>
    rw [entry_eq hf] at h
    cases h
    obtain ⟨h1, h2⟩ := find_end hc o hf
    refine ⟨h1, fun hs => h2 ?_⟩
    by_cases hq : q.1 = .eql
    · exact hq
    · simp only [hq, if_false] at hs
      exact absurd hs vac_ne_occ

/-- The memory a new element of a `_w` macro gets. -/
theorem newMem_fresh (o : Ok cmp key s l T) {ans : Option Nat} (ha : goodAns l ans 0) {n : Nat} (h : newMem s ans = some n) :
    n ∉ T.ids := by
  unfold newMem at h
  split at h
  · obtain ⟨hf, _⟩ := ha n h
    exact (o.fresh.1 hf).2
  · cases h

theorem insertKeyVal_bd (hc : LawfulCmp cmp) (o : Ok cmp key s l T) {k : κ} {e : REnt} (h : entry cmp key s k = some e)
    {ans : Option Nat} (ha : goodAns l ans 0) (x : α) :
    Bd (insertKeyValN s e (newMem s ans) x) (insertKeyVal s e (newMem s ans) x) (9 * T.rk + 42) := by
  unfold insertKeyValN insertKeyVal
  cases hn : newMem s ans with
  | none => exact Bd.pure _ _
  | some n =>
    have hf := newMem_fresh o ha hn
    refine Bd.bind (insertNode_bd (o.put (x := x) hf) (entry_end hc o h).1 hf _) (Nat.le_refl _) ?_
    intro _ _
    exact Bd.pure _ _

theorem insertAndCopyKey_bd (hc : LawfulCmp cmp) (o : Ok cmp key s l T) {k : κ} {e : REnt} (h : entry cmp key s k = some e)
    {ans : Option Nat} (ha : goodAns l ans 0) (x : α) :
    Bd (insertAndCopyKeyN s e x ans) (insertAndCopyKey s e x ans) (9 * T.rk + 42) := by
  unfold insertAndCopyKeyN insertAndCopyKey
  cases hn : newMem s ans with
  | none => exact Bd.pure _ _
  | some n =>
    have hf := newMem_fresh o ha hn
    refine Bd.bind (insertNode_bd (o.put (x := x) hf) (entry_end hc o h).1 hf _) (Nat.le_refl _) ?_
    intro _ _
    exact Bd.pure _ _

/-- Most calls end with a computation that touches no element. -/
theorem Bd.last {β γ : Type} {x : Count β} {y : Option β} {f : β → γ} {b : Nat} (h : Bd x y b) :
    Bd (x >>= fun a => pure (f a)) (y >>= fun a => pure (f a)) b :=
  Bd.bind h (Nat.le_refl _) (fun _ _ => Bd.pure _ _)

theorem insert_bd (hc : LawfulCmp cmp) (o : Ok cmp key s l T) {h tmp : Nat} (fh : h ∉ T.ids) {ans : Option Nat}
    (ha : goodAns l ans h) : Bd (insertN cmp key s h tmp ans) (insert cmp key s h tmp ans) (11 * T.rk + 42) := by
  unfold insertN insert
  refine Bd.bind (findN_bd o _) (by omega) ?_
  intro q hq
  refine Bd.ite (fun _ => Bd.pure _ _) (fun _ => ?_)
  refine Bd.bind (maybeAllocInsert_bd o (find_end hc o hq).1 fh q.1 ha) (by omega) ?_
  rintro ⟨s', i⟩ _
  cases i <;> exact Bd.pure _ _

theorem tryInsert_bd (hc : LawfulCmp cmp) (o : Ok cmp key s l T) {h : Nat} (fh : h ∉ T.ids) {ans : Option Nat}
    (ha : goodAns l ans h) : Bd (tryInsertN cmp key s h ans) (tryInsert cmp key s h ans) (11 * T.rk + 42) := by
  unfold tryInsertN tryInsert
  refine Bd.bind (findN_bd o _) (by omega) ?_
  intro q hq
  refine Bd.ite (fun _ => Bd.pure _ _) (fun _ => ?_)
  refine Bd.bind (maybeAllocInsert_bd o (find_end hc o hq).1 fh q.1 ha) (by omega) ?_
  rintro ⟨s', i⟩ _
  cases i <;> exact Bd.pure _ _

theorem insertOrAssign_bd (hc : LawfulCmp cmp) (o : Ok cmp key s l T) {h : Nat} (fh : h ∉ T.ids) {ans : Option Nat}
    (ha : goodAns l ans h) : Bd (insertOrAssignN cmp key s h ans) (insertOrAssign cmp key s h ans) (11 * T.rk + 42) := by
  unfold insertOrAssignN insertOrAssign
  refine Bd.bind (findN_bd o _) (by omega) ?_
  intro q hq
  refine Bd.ite (fun _ => Bd.pure _ _) (fun _ => ?_)
  refine Bd.bind (maybeAllocInsert_bd o (find_end hc o hq).1 fh q.1 ha) (by omega) ?_
  rintro ⟨s', i⟩ _
  cases i <;> exact Bd.pure _ _

theorem remove_bd (hc : LawfulCmp cmp) (o : Ok cmp key s l T) (h : Nat) :
    Bd (removeN cmp key s h) (remove cmp key s h) (19 * T.rk + 96) := by
  unfold removeN remove
  refine Bd.bind (findN_bd o _) (by omega) ?_
  intro q hq
  refine Bd.ite (fun _ => Bd.pure _ _) (fun hn => ?_)
  refine Bd.bind (removeFixup_bd o ((find_end hc o hq).2 (by simpa using hn))) (by omega) ?_
  intro _ _
  exact Bd.ite (fun _ => Bd.pure _ _) (fun _ => Bd.pure _ _)

theorem removeEntry_bd (hc : LawfulCmp cmp) (o : Ok cmp key s l T) {k : κ} {e : REnt} (h : entry cmp key s k = some e) :
    Bd (removeEntryN s e) (removeEntry s e) (17 * T.rk + 96) := by
  unfold removeEntryN removeEntry
  refine Bd.ite (fun hs => ?_) (fun _ => Bd.pure _ _)
  refine Bd.bind (removeFixup_bd o ((entry_end hc o h).2 hs)) (by omega) ?_
  intro _ _
  exact Bd.ite (fun _ => Bd.pure _ _) (fun _ => Bd.pure _ _)

theorem equalRangeN_bd (hc : LawfulCmp cmp) (o : Ok cmp key s l T) (b e : κ) (d : Bool) :
    Bd (equalRangeN cmp key s b e d) (equalRange cmp key s b e d) (8 * T.rk + 4) := by
  unfold equalRangeN equalRange
  refine Bd.ite (fun _ => Bd.pure _ _) (fun hz => ?_)
  refine Bd.bind (equalRange_bd o.wv.whole o.valid _ _ ?_ ?_ d) (Nat.le_refl _) (fun _ _ => Bd.pure _ _)
  · intro q hq; exact Or.inr ((find_end hc o (k := b) hq).1 hz)
  · intro q hq; exact Or.inr ((find_end hc o (k := e) hq).1 hz)

/-- Accesses to elements in one call. -/
theorem step_bd (hc : LawfulCmp cmp) (o : Ok cmp key s l T) {op : Op α κ} (ok : okOp cmp key s.alloc l op)
    (hv : op ≠ .clear) : Bd (stepN cmp key s op) (step cmp key s op) (19 * T.rk + 96) := by
  cases op with
  | insert h x tmp y ans =>
    obtain ⟨fh, ft, _, ga, _⟩ := ok
    have fh := (o.fresh.1 fh).2
    have ft := (o.fresh.1 ft).2
    exact (Bd.bind (insert_bd hc ((o.put ft).put fh) fh ga) (Nat.le_refl _) (fun _ _ => Bd.pure _ _)).mono (by omega)
  | tryInsert h x ans =>
    obtain ⟨fh, ga⟩ := ok
    have fh := (o.fresh.1 fh).2
    exact (Bd.bind (tryInsert_bd hc (o.put fh) fh ga) (Nat.le_refl _) (fun _ _ => Bd.pure _ _)).mono (by omega)
  | insertOrAssign h x ans =>
    obtain ⟨fh, ga⟩ := ok
    have fh := (o.fresh.1 fh).2
    exact (Bd.bind (insertOrAssign_bd hc (o.put fh) fh ga) (Nat.le_refl _) (fun _ _ => Bd.pure _ _)).mono (by omega)
  | remove h x =>
    have o1 : Ok cmp key (put s h x) l T := by
      rcases ok with fh | ⟨_, hm⟩
      · exact o.put (o.fresh.1 fh).2
      · rw [o.list] at hm
        have := (mem_elems.1 hm).2
        simp only at this
        have e : upd s.val h x = s.val := by
          funext b; by_cases hb : b = h
          · rw [hb, upd_same]; exact this
          · exact upd_ne _ _ hb
        have e : put s h x = s := by unfold put; rw [e]
        rw [e]; exact o
    exact (Bd.bind (remove_bd hc o1 h) (Nat.le_refl _) (fun _ _ => Bd.pure _ _)).mono (by omega)
  | orInsert k h x ans =>
    obtain ⟨fh, ga, _⟩ := ok
    have fh := (o.fresh.1 fh).2
    refine (Bd.bind (entry_bd (o.put fh) k) (b := 11 * T.rk + 42) (by omega) ?_).mono (by omega)
    intro e he
    refine Bd.bind (k := 9 * T.rk + 42) ?_ (by omega) (fun _ _ => Bd.pure _ _)
    unfold orInsertN orInsert
    exact Bd.ite (fun _ => Bd.pure _ _)
      (fun _ => maybeAllocInsert_bd (o.put fh) (entry_end hc (o.put fh) he).1 fh _ ga)
  | insertEntry k h x ans =>
    obtain ⟨fh, ga, _⟩ := ok
    have fh := (o.fresh.1 fh).2
    refine (Bd.bind (entry_bd (o.put fh) k) (b := 11 * T.rk + 42) (by omega) ?_).mono (by omega)
    intro e he
    refine Bd.bind (k := 9 * T.rk + 42) ?_ (by omega) (fun _ _ => Bd.pure _ _)
    unfold insertEntryN insertEntry
    exact Bd.ite (fun _ => Bd.pure _ _)
      (fun _ => maybeAllocInsert_bd (o.put fh) (entry_end hc (o.put fh) he).1 fh _ ga)
  | removeEntry k =>
    refine Bd.bind (entry_bd o k) (by omega) ?_
    intro e he
    exact Bd.bind (removeEntry_bd hc o he) (by omega) (fun _ _ => Bd.pure _ _)
  | andModify k f => exact Bd.bind (entry_bd o k) (by omega) (fun _ _ => Bd.pure _ _)
  | occupied k => exact Bd.bind (entry_bd o k) (by omega) (fun _ _ => Bd.pure _ _)
  | orInsertW k x ans =>
    obtain ⟨ga, _⟩ := ok
    refine (Bd.bind (entry_bd o k) (b := 11 * T.rk + 42) (by omega) ?_).mono (by omega)
    intro e he
    refine Bd.bind (k := 9 * T.rk + 42) ?_ (by omega) (fun _ _ => Bd.pure _ _)
    unfold orInsertWN orInsertW
    exact Bd.ite (fun _ => Bd.pure _ _) (fun _ => insertKeyVal_bd hc o he ga x)
  | insertEntryW k x ans =>
    obtain ⟨ga, _⟩ := ok
    refine (Bd.bind (entry_bd o k) (b := 11 * T.rk + 42) (by omega) ?_).mono (by omega)
    intro e he
    refine Bd.bind (k := 9 * T.rk + 42) ?_ (by omega) (fun _ _ => Bd.pure _ _)
    unfold insertEntryWN insertEntryW
    exact Bd.ite (fun _ => insertKeyVal_bd hc o he ga x)
      (fun _ => Bd.ite (fun _ => Bd.pure _ _) (fun _ => Bd.pure _ _))
  | tryInsertW k x ans =>
    obtain ⟨ga, _⟩ := ok
    refine Bd.bind (k := 11 * T.rk + 42) ?_ (by omega) (fun _ _ => Bd.pure _ _)
    unfold tryInsertWN tryInsertW
    refine Bd.bind (entry_bd o k) (by omega) ?_
    intro e he
    exact Bd.ite (fun _ => (insertAndCopyKey_bd hc o he ga x).mono (by omega))
      (fun _ => Bd.ite (fun _ => Bd.pure _ _) (fun _ => Bd.pure _ _))
  | insertOrAssignW k x ans =>
    obtain ⟨ga, _⟩ := ok
    refine Bd.bind (k := 11 * T.rk + 42) ?_ (by omega) (fun _ _ => Bd.pure _ _)
    unfold insertOrAssignWN insertOrAssignW
    refine Bd.bind (entry_bd o k) (by omega) ?_
    intro e he
    exact Bd.ite (fun _ => (insertAndCopyKey_bd hc o he ga x).mono (by omega))
      (fun _ => Bd.ite (fun _ => Bd.pure _ _) (fun _ => Bd.pure _ _))
  | contains k => exact Bd.bind (Bd.last (findN_bd o k)) (by omega) (fun _ _ => Bd.pure _ _)
  | get k => exact Bd.bind (Bd.last (findN_bd o k)) (by omega) (fun _ _ => Bd.pure _ _)
  | begin =>
    refine Bd.bind (k := T.rk) (Bd.last ?_) (by omega) (fun _ _ => Bd.pure _ _)
    rw [o.wv.whole.ctx]; exact minMaxFrom_bd _ o.wv.whole.tree o.valid
  | rbegin =>
    refine Bd.bind (k := T.rk) (Bd.last ?_) (by omega) (fun _ _ => Bd.pure _ _)
    rw [o.wv.whole.ctx]; exact minMaxFrom_bd _ o.wv.whole.tree o.valid
  | next a =>
    obtain ⟨e, he, rfl⟩ := ok
    rw [o.list] at he
    exact Bd.bind (Bd.last (next_bd o.wv.whole o.valid (Or.inr (mem_elems.1 he).1) _)) (by omega) (fun _ _ => Bd.pure _ _)
  | rnext a =>
    obtain ⟨e, he, rfl⟩ := ok
    rw [o.list] at he
    exact Bd.bind (Bd.last (next_bd o.wv.whole o.valid (Or.inr (mem_elems.1 he).1) _)) (by omega) (fun _ _ => Bd.pure _ _)
  | equalRange b e => exact Bd.bind (equalRangeN_bd hc o b e _) (by omega) (fun _ _ => Bd.pure _ _)
  | equalRrange b e => exact Bd.bind (equalRangeN_bd hc o b e _) (by omega) (fun _ _ => Bd.pure _ _)
  | size => exact Bd.pure _ _
  | isEmpty => exact Bd.pure _ _
  | validate => exact Bd.liftBind (fun _ _ => Bd.pure _ _)
  | clear => exact absurd rfl hv

/-! ### Clearing -/

theorem clearLoop_bd (n : Nat) {b : Nat} : ∀ {s : Rom α} {l : List (Nat × α)} {T : Tree} (acc : List (Nat × α)),
    Ok cmp key s l T → l.length = n → (∀ {T : Tree}, Valid T → T.ids.length ≤ n → T.rk ≤ b) →
    Bd (clearLoopN s acc) (clearLoop s acc) (n * (17 * b + 98)) := by
  induction n with
  | zero =>
    intro s l T acc o hl _
    rw [clearLoopN, clearLoop, if_pos (by rw [o.size, hl]), if_pos (by rw [o.size, hl])]
    exact Bd.pure _ _
  | succ n ih =>
    intro s l T acc o hl hb
    have hsz : s.sz ≠ 0 := by rw [o.size, hl]; simp
    rw [clearLoopN, clearLoop, if_neg hsz, if_neg hsz]
    have hT : T.ids.length = n + 1 := by rw [← hl, o.list]; simp [elems]
    have hm : s.t.root ∈ T.ids := by
      rw [o.wv.whole.ctx]
      cases T with
      | nil => simp [ids] at hT
      | node i k a b => simp [ids]
    have hk := hb o.valid (by omega)
    unfold Links.getBrN
    have e : (n + 1) * (17 * b + 98) = n * (17 * b + 98) + (17 * b + 98) := Nat.succ_mul _ _
    rw [e]
    refine Bd.accBind (by omega) ?_
    intro _ _
    refine Bd.accBind (by omega) ?_
    intro _ _
    refine Bd.bind (removeFixup_bd o hm) (by omega) ?_
    intro s' hs'
    obtain ⟨pre, post, hp⟩ := List.append_of_mem hm
    obtain ⟨s1, T1, run, o1, i1, v1, a1⟩ := removeFixup_spec o hp
    rw [run] at hs'
    cases hs'
    refine (ih _ o1 ?_ (fun hv hl => hb hv (by omega))).mono (by omega)
    have : T1.ids.length = n := by
      rw [i1]
      rw [hp] at hT
      simp at hT ⊢
      omega
    rw [o1.list]
    simp [elems, this]

/-! ### Clearing takes longer than linear time -/

/-- Whenever the program returns, the counted program returns the same with at least `b` counts. -/
def Lo {α : Type} (x : Count α) (y : Option α) (b : Nat) : Prop := ∀ r, y = some r → ∃ m, b ≤ m ∧ Costs x m r

theorem Lo.of_bd {α : Type} {x : Count α} {y : Option α} {b : Nat} (h : Bd x y b) : Lo x y 0 := by
  intro r hr
  obtain ⟨m, _, hc⟩ := h r hr
  exact ⟨m, Nat.zero_le _, hc⟩
theorem Lo.mono {α : Type} {x : Count α} {y : Option α} {b b' : Nat} (h : Lo x y b) (hb : b' ≤ b) : Lo x y b' := by
  intro r hr
  obtain ⟨m, hm, hc⟩ := h r hr
  exact ⟨m, Nat.le_trans hb hm, hc⟩
theorem Lo.bind {α β : Type} {x : Count α} {y : Option α} {f : α → Count β} {g : α → Option β} {k k' b : Nat} (h : Lo x y k)
    (hf : ∀ a, y = some a → Lo (f a) (g a) k') (hb : b ≤ k + k') : Lo (x >>= f) (y >>= g) b := by
  intro r hr
  cases hy : y with
  | none => rw [hy] at hr; cases hr
  | some a =>
    rw [hy] at hr
    obtain ⟨m, hm, hc⟩ := h a hy
    obtain ⟨m', hm', hc'⟩ := hf a hy r hr
    exact ⟨m + m', by omega, hc.bind hc'⟩
theorem Lo.acc {α : Type} {y : Option α} : Lo (CCC.acc y) y 1 := by
  intro r h; exact ⟨1, Nat.le_refl _, .acc h⟩

theorem minMaxLoop_lo {t : Links} {T : Tree} : ∀ {p : Nat}, Rep t p T → Valid T → T ≠ nil →
    Lo (minMaxLoopN t T.rootId false) (minMaxLoop t T.rootId false) (T.rk / 2) := by
  induction T with
  | nil => intro p _ _ h; exact absurd rfl h
  | node i k l r il ir =>
    intro p hr hv _
    obtain ⟨h1, h2, _, vl, vr⟩ := hv
    obtain ⟨i0, _, b0, b1, _, rl, rr⟩ := hr
    rw [node_rootId, minMaxLoopN, minMaxLoop]
    unfold Links.getBrN
    rw [node_rk]
    refine Lo.bind (k' := l.rk / 2) Lo.acc ?_ (by omega)
    intro b hb
    have hb := getBr_eq hb
    rw [b0] at hb
    subst hb
    cases l with
    | nil =>
      rw [nil_rootId, if_pos rfl, if_pos rfl]
      exact Lo.of_bd (Bd.pure (b := 0) _)
    | node i' k' l' r' =>
      rw [if_neg (by simpa using rl.1), if_neg (by simpa using rl.1)]
      exact il rl vl (by simp)

/-- A tree of rank `k` holds fewer than `2 ^ k` elements. -/
theorem size_rk {T : Tree} (h : Valid T) : T.ids.length + 1 ≤ 2 ^ T.rk := by
  induction T with
  | nil => simp [ids, Tree.rk]
  | node i k l r il ir =>
    obtain ⟨h1, h2, _, vl, vr⟩ := h
    have il := il vl
    have ir := ir vr
    have a : 2 ^ l.rk ≤ 2 ^ (k - 1) := Nat.pow_le_pow_right (by omega) (by omega)
    have b : 2 ^ r.rk ≤ 2 ^ (k - 1) := Nat.pow_le_pow_right (by omega) (by omega)
    have e : 2 ^ k = 2 ^ (k - 1) + 2 ^ (k - 1) := by
      obtain ⟨j, rfl⟩ : ∃ j, k = j + 1 := ⟨k - 1, by omega⟩
      rw [Nat.pow_succ]
      simp
      omega
    simp only [ids, List.length_append, List.length_cons, node_rk]
    omega

theorem removeRoot_lo {t : Links} {i k : Nat} {L R : Tree} (w : Wv t [] (node i k L R)) (v : Valid (node i k L R))
    (hk : 3 ≤ k) : Lo (removeLinksN t i) (removeLinks t i) ((k - 2) / 2) := by
  have v' : Valid (plug [] (node i k L R)) := v
  obtain ⟨h', C, X, run, wX, vX, vC, _, _, _⟩ := removeUnlink_spec w v'
  obtain ⟨k1, k2, k3, vL, vR⟩ := v
  obtain ⟨rm0, rml, b0, b1, rp, repL, repR⟩ := w.whole.tree
  unfold removeLinksN removeLinks
  refine Lo.bind (k := (k - 2) / 2) (k' := 0) ?_ ?_ (by omega)
  · unfold removeUnlinkN removeUnlink
    refine Lo.bind (k := 0) (k' := (k - 2) / 2) (Lo.of_bd (Bd.acc (Nat.le_refl _))) ?_ (by omega)
    intro l hl
    refine Lo.bind (k := 0) (k' := (k - 2) / 2) (Lo.of_bd (Bd.acc (Nat.le_refl _))) ?_ (by omega)
    intro r hr
    have hr := getBr_eq hr
    have hl := getBr_eq hl
    rw [b1] at hr
    rw [b0] at hl
    subst hr
    subst hl
    have nL : L.rootId ≠ 0 := fun h => by have := (Valid.rootId vL repL).1 h; omega
    have nR : R.rootId ≠ 0 := fun h => by have := (Valid.rootId vR repR).1 h; omega
    rw [if_neg (by simp [nL, nR]), if_neg (by simp [nL, nR])]
    refine Lo.bind (k := R.rk / 2) (k' := 0) ?_ ?_ (by omega)
    · unfold minMaxFromN minMaxFrom
      rw [if_neg nR, if_neg nR]
      exact minMaxLoop_lo repR vR (by rintro rfl; exact nR rfl)
    · intro y _
      refine Lo.of_bd (b := 25) ?_
      unfold getBrN getParN setParN setBrN
      repeat' first
        | bd2
        | (refine Bd.bind (transplant_bd _ _ _) (by omega) ?_; intro _ _)
  · intro a ha
    rw [run] at ha
    cases ha
    exact Lo.of_bd (removeRebalance_bd (RepC.within wX.whole.ctx (fun _ _ => rfl)))

theorem clearLoop_lo (q : Nat) (n : Nat) : ∀ {s : Rom α} {l : List (Nat × α)} {T : Tree} (acc : List (Nat × α)),
    Ok cmp key s l T → l.length = n → Lo (clearLoopN s acc) (clearLoop s acc) ((n - 2 ^ q) * (q / 2 - 1)) := by
  induction n with
  | zero =>
    intro s l T acc o hl
    rw [Nat.zero_sub, Nat.zero_mul]
    exact Lo.of_bd (clearLoop_bd 0 (b := 0) acc o hl
      (fun hv hl => by have := hv.size_bound; cases ‹Tree› <;> simp_all [ids]))
  | succ n ih =>
    intro s l T acc o hl
    have hsz : s.sz ≠ 0 := by rw [o.size, hl]; simp
    rw [clearLoopN, clearLoop, if_neg hsz, if_neg hsz]
    have hT : T.ids.length = n + 1 := by rw [← hl, o.list]; simp [elems]
    cases T with
    | nil => simp [ids] at hT
    | node i k L R =>
      have hroot : s.t.root = i := o.wv.whole.ctx
      have hm : i ∈ (node i k L R).ids := by simp [ids]
      refine Lo.bind (k := 0) (k' := (n + 1 - 2 ^ q) * (q / 2 - 1)) (Lo.of_bd (Bd.acc (Nat.le_refl _))) ?_ (by omega)
      intro _ _
      refine Lo.bind (k := 0) (k' := (n + 1 - 2 ^ q) * (q / 2 - 1)) (Lo.of_bd (Bd.acc (Nat.le_refl _))) ?_ (by omega)
      intro _ _
      rw [hroot]
      have rest : ∀ s', removeFixup s i = some s' → ∀ acc,
          Lo (clearLoopN s' acc) (clearLoop s' acc) ((n - 2 ^ q) * (q / 2 - 1)) := by
        intro s' hs' acc
        obtain ⟨pre, post, hp⟩ := List.append_of_mem hm
        obtain ⟨s1, T1, run, o1, i1, v1, a1⟩ := removeFixup_spec o hp
        rw [run] at hs'
        cases hs'
        refine ih _ o1 ?_
        have : T1.ids.length = n := by
          rw [i1]
          rw [hp] at hT
          simp at hT ⊢
          omega
        rw [o1.list]
        simp [elems, this]
      by_cases hq : 2 ^ q ≤ n ∧ 4 ≤ q
      · have hk : q < k := by
          have := size_rk o.valid
          rw [hT, node_rk] at this
          exact (Nat.pow_lt_pow_iff_right (a := 2) (by omega)).1 (by omega)
        have e : (n + 1 - 2 ^ q) * (q / 2 - 1) = (n - 2 ^ q) * (q / 2 - 1) + (q / 2 - 1) := by
          rw [show n + 1 - 2 ^ q = (n - 2 ^ q) + 1 by omega, Nat.succ_mul]
        refine Lo.bind (k := q / 2 - 1) (k' := (n - 2 ^ q) * (q / 2 - 1)) ?_ ?_ (by omega)
        · unfold removeFixupN removeFixup
          exact Lo.bind (k' := 0) (removeRoot_lo o.wv o.valid (by omega)) (fun _ _ => Lo.of_bd (Bd.pure (b := 0) _)) (by omega)
        · intro s' hs'
          exact rest s' hs' _
      · refine Lo.bind (k := 0) (k' := (n - 2 ^ q) * (q / 2 - 1)) (Lo.of_bd (removeFixup_bd o hm)) (fun s' hs' => rest s' hs' _) ?_
        rcases Nat.lt_or_ge q 4 with h | h
        · have : q / 2 - 1 = 0 := by omega
          rw [this]; simp
        · have : n + 1 - 2 ^ q = 0 := by omega
          rw [this]; simp

end CCC.Rom
