import Verif.Model.FlatOrderedMapCost
import Verif.Proof.FlatOrderedMapStep
import Verif.Proof.OrderedMapCost
/-
Every call of the flat ordered map is paid for by the potential of its tree.
-/
namespace CCC.Fom
open CCC Links Tree Wavl Splay MapSpec FlatMap
open CCC.Rom (elems mem_elems elems_append vac_ne_occ vac_not_occ occ_occ)
open CCC.Frm (Frm Junk inUse setSize growTo bufAllocBack setVal copyLinks copySlot sizeSet destroyLoop asRom view inUse_lt
  Fresh setVal_live)
open CCC.Om (setRoot_self isVac_ne_occ isVac_not_occ bne_root)

section er
variable {α κ : Type} (cmp : κ → κ → Cmp) (key : α → κ)

theorem splayToN_er (s : Fom α) (k : κ) : Er (splayToN cmp key s k) (splayTo cmp key s k) := by
  refine (splayN_er _ _ _).bind ?_
  rintro ⟨t, r⟩
  exact (Er.cnt _ _).bind (fun _ => .pure _)

theorem findN_er (s : Fom α) (k : κ) : Er (findN cmp key s k) (find cmp key s k) := by
  refine .ite (.pure _) ((splayToN_er _ _ _ _).bind ?_)
  rintro ⟨t, r⟩
  exact .pure _

theorem containsN_er (s : Fom α) (k : κ) : Er (containsN cmp key s k) (contains cmp key s k) := by
  refine (splayToN_er _ _ _ _).bind ?_
  rintro ⟨t, r⟩
  exact .pure _

theorem insertNodeN_er (s : Fom α) (n : Nat) : Er (insertNodeN cmp key s n) (insertNode cmp key s n) := by
  refine (Er.lift _).bind (fun t => .ite (.pure _) ((splayToN_er _ _ _ _).bind ?_))
  rintro ⟨s, rc⟩
  exact .ite (.pure _) ((Er.lift _).bind (fun t => .pure _))

theorem maybeAllocInsertN_er (s : Fom α) (x : α) (ans : Option (Junk α)) :
    Er (maybeAllocInsertN cmp key s x ans) (maybeAllocInsert cmp key s x ans) := by
  unfold maybeAllocInsertN maybeAllocInsert
  rcases allocBack s ans with ⟨s1, _ | n⟩
  · exact .pure _
  · exact (Er.lift _).bind (fun s => insertNodeN_er _ _ _ _)

theorem eraseN_er (s : Fom α) (k : κ) : Er (eraseN cmp key s k) (erase cmp key s k) := by
  refine .ite (.pure _) ((splayN_er _ _ _).bind ?_)
  rintro ⟨t, ret⟩
  exact (Er.cnt _ _).bind (fun q => .ite (.pure _) ((removeFromTreeN_er _ _ _).bind (fun t =>
    (Er.lift _).bind (fun _ => .pure _))))

theorem insertN_er (s : Fom α) (x : α) (ans : Option (Junk α)) :
    Er (insertN cmp key s x ans) (insert cmp key s x ans) := by
  refine (findN_er _ _ _ _).bind ?_
  rintro ⟨s, f⟩
  refine .ite ((Er.lift _).bind (fun _ => (Er.lift _).bind (fun _ => (Er.lift _).bind (fun _ => (Er.lift _).bind (fun _ =>
    .pure _))))) ((maybeAllocInsertN_er _ _ _ _ _).bind ?_)
  rintro ⟨s, _ | i⟩ <;> exact .pure _

theorem tryInsertN_er (s : Fom α) (x : α) (ans : Option (Junk α)) :
    Er (tryInsertN cmp key s x ans) (tryInsert cmp key s x ans) := by
  refine (findN_er _ _ _ _).bind ?_
  rintro ⟨s, _ | f⟩
  · refine (maybeAllocInsertN_er _ _ _ _ _).bind ?_
    rintro ⟨s, _ | i⟩ <;> exact .pure _
  · exact (Er.lift _).bind (fun _ => .pure _)

theorem insertOrAssignN_er (s : Fom α) (x : α) (ans : Option (Junk α)) :
    Er (insertOrAssignN cmp key s x ans) (insertOrAssign cmp key s x ans) := by
  refine (findN_er _ _ _ _).bind ?_
  rintro ⟨s, _ | f⟩
  · refine (maybeAllocInsertN_er _ _ _ _ _).bind ?_
    rintro ⟨s, _ | i⟩ <;> exact .pure _
  · exact (Er.lift _).bind (fun _ => (Er.lift _).bind (fun _ => .pure _))

theorem removeN_er (s : Fom α) (x : α) : Er (removeN cmp key s x) (remove cmp key s x) := by
  refine (eraseN_er _ _ _ _).bind ?_
  rintro ⟨s, _ | n⟩ <;> exact .pure _

theorem entryN_er (s : Fom α) (k : κ) : Er (entryN cmp key s k) (entry cmp key s k) := by
  refine (findN_er _ _ _ _).bind ?_
  rintro ⟨s, _ | f⟩ <;> exact .pure _

theorem insertEntryN_er (s : Fom α) (e : FEnt) (x : α) (ans : Option (Junk α)) :
    Er (insertEntryN cmp key s e x ans) (insertEntry cmp key s e x ans) :=
  .ite ((Er.lift _).bind (fun _ => .pure _)) (maybeAllocInsertN_er _ _ _ _ _)

theorem orInsertN_er (s : Fom α) (e : FEnt) (x : α) (ans : Option (Junk α)) :
    Er (orInsertN cmp key s e x ans) (orInsert cmp key s e x ans) :=
  .ite (.pure _) (maybeAllocInsertN_er _ _ _ _ _)

theorem removeEntryN_er (s : Fom α) (e : FEnt) : Er (removeEntryN cmp key s e) (removeEntry cmp key s e) := by
  refine .ite ((eraseN_er _ _ _ _).bind ?_) (.pure _)
  rintro ⟨s, p⟩
  exact (Er.lift _).bind (fun n => .pure _)

theorem orInsertWN_er (s : Fom α) (e : FEnt) (x : α) (ans : Option (Junk α)) :
    Er (orInsertWN cmp key s e x ans) (orInsertW cmp key s e x ans) := by
  refine .ite (.pure _) ?_
  rcases allocBack s ans with ⟨s1, _ | n⟩
  · exact .pure _
  · exact (Er.lift _).bind (fun s => (insertNodeN_er _ _ _ _).bind (fun _ => .pure _))

theorem insertEntryWN_er (s : Fom α) (e : FEnt) (x : α) (ans : Option (Junk α)) :
    Er (insertEntryWN cmp key s e x ans) (insertEntryW cmp key s e x ans) := by
  refine .ite ?_ (.ite ((Er.lift _).bind (fun _ => .pure _)) (.pure _))
  rcases allocBack s ans with ⟨s1, _ | n⟩
  · exact .pure _
  · exact (Er.lift _).bind (fun s => (insertNodeN_er _ _ _ _).bind (fun _ => .pure _))

theorem insertVacantWN_er (s : Fom α) (x : α) (ans : Option (Junk α)) :
    Er (insertVacantWN cmp key s x ans) (insertVacantW cmp key s x ans) := by
  unfold insertVacantWN insertVacantW
  rcases allocBack s ans with ⟨s1, _ | n⟩
  · exact .pure _
  · exact (Er.lift _).bind (fun s => (insertNodeN_er _ _ _ _).bind (fun _ => .pure _))

theorem tryInsertWN_er (s : Fom α) (k : κ) (x : α) (ans : Option (Junk α)) :
    Er (tryInsertWN cmp key s k x ans) (tryInsertW cmp key s k x ans) := by
  refine (entryN_er _ _ _ _).bind ?_
  rintro ⟨s, e⟩
  exact .ite (insertVacantWN_er _ _ _ _ _) (.ite (.pure _) (.pure _))

theorem insertOrAssignWN_er (s : Fom α) (k : κ) (x : α) (ans : Option (Junk α)) :
    Er (insertOrAssignWN cmp key s k x ans) (insertOrAssignW cmp key s k x ans) := by
  refine (entryN_er _ _ _ _).bind ?_
  rintro ⟨s, e⟩
  exact .ite (insertVacantWN_er _ _ _ _ _) (.ite ((Er.lift _).bind (fun _ => .pure _)) (.pure _))

theorem equalRangeN_er (s : Fom α) (b e : κ) (trav : Bool) :
    Er (equalRangeN cmp key s b e trav) (equalRange cmp key s b e trav) := by
  refine .ite (.pure _) ((Splay.equalRangeN_er _ _ _ _).bind ?_)
  rintro ⟨t, x, y⟩
  exact .pure _

theorem stepN_er (s : Fom α) (o : Op α κ (Junk α)) : Er (stepN cmp key s o) (step cmp key s o) := by
  cases o with
  | insert => exact (insertN_er _ _ _ _ _).bind (fun _ => .pure _)
  | tryInsert => exact (tryInsertN_er _ _ _ _ _).bind (fun _ => .pure _)
  | insertOrAssign => exact (insertOrAssignN_er _ _ _ _ _).bind (fun _ => .pure _)
  | remove => exact (removeN_er _ _ _ _).bind (fun _ => .pure _)
  | orInsert => exact (entryN_er _ _ _ _).bind (fun _ => (orInsertN_er _ _ _ _ _ _).bind (fun _ => .pure _))
  | insertEntry => exact (entryN_er _ _ _ _).bind (fun _ => (insertEntryN_er _ _ _ _ _ _).bind (fun _ => .pure _))
  | removeEntry => exact (entryN_er _ _ _ _).bind (fun _ => (removeEntryN_er _ _ _ _).bind (fun _ => .pure _))
  | andModify => exact (entryN_er _ _ _ _).bind (fun _ => (Er.lift _).bind (fun _ => .pure _))
  | occupied => exact (entryN_er _ _ _ _).bind (fun _ => .pure _)
  | orInsertW => exact (entryN_er _ _ _ _).bind (fun _ => (orInsertWN_er _ _ _ _ _ _).bind (fun _ => .pure _))
  | insertEntryW => exact (entryN_er _ _ _ _).bind (fun _ => (insertEntryWN_er _ _ _ _ _ _).bind (fun _ => .pure _))
  | tryInsertW => exact (tryInsertWN_er _ _ _ _ _ _).bind (fun _ => .pure _)
  | insertOrAssignW => exact (insertOrAssignWN_er _ _ _ _ _ _).bind (fun _ => .pure _)
  | contains => exact (containsN_er _ _ _ _).bind (fun _ => .pure _)
  | get => exact (findN_er _ _ _ _).bind (fun _ => .pure _)
  | begin => exact (Er.lift _).bind (fun _ => .pure _)
  | rbegin => exact (Er.lift _).bind (fun _ => .pure _)
  | next => exact (Er.lift _).bind (fun _ => .pure _)
  | rnext => exact (Er.lift _).bind (fun _ => .pure _)
  | end_ => exact .pure _
  | equalRange => exact (equalRangeN_er _ _ _ _ _ _).bind (fun _ => .pure _)
  | equalRrange => exact (equalRangeN_er _ _ _ _ _ _).bind (fun _ => .pure _)
  | size => exact .pure _
  | isEmpty => exact .pure _
  | capacity => exact .pure _
  | validate => exact (Er.lift _).bind (fun _ => .pure _)
  | clear => exact (Er.lift _).bind (fun _ => .pure _)

/-- A counted history that returns is the history. -/
theorem runN_er (s : Fom α) (ops : List (Op α κ (Junk α))) : Er (runN cmp key s ops) (run cmp key s ops) := by
  induction ops generalizing s with
  | nil => exact .pure _
  | cons o os ih =>
    refine (stepN_er _ _ _ _).bind ?_
    rintro ⟨s, r⟩
    refine (ih s).bind ?_
    rintro ⟨s, rs⟩
    exact .pure _
end er

variable {α κ β : Type} {cmp : κ → κ → Cmp} {key : α → κ} {s : Fom α} {st : St α} {l : List (Nat × α)} {T : Tree} {L : ℝ}

/-- Paid by the potential of the tree and `b`. -/
abbrev Pays (x : Count (Fom α × β)) (t : Links) (b : ℝ) : Prop := Paid 0 (fun s : Fom α => s.t) x t b

theorem phi_whole {t : Links} (w : Whole t [] T) : phi 0 t = 2 * Pot T := by rw [phi_eq w]; ring

theorem Ok.phi (o : Ok cmp key s st T) : phi 0 s.t = 2 * Pot T := by
  obtain ⟨_, ⟨_, h⟩ | ⟨_, _, rfl, h⟩⟩ := o
  · exact phi_whole h.ok.whole
  · rw [Splay.phi]
    split
    · rename_i w
      have hr : w.choose.rootId = 0 := by
        have := w.choose_spec.ctx
        simp only [RepC] at this
        rw [← this]; exact h.root
      have hn := (Splay.rootId_ne w.choose_spec.tree).1 hr
      rw [hn]
      simp [Pot, W]
    · simp [Pot]

theorem Ok.len (o : Ok cmp key s st T) : T.ids.length = st.l.length := by
  obtain ⟨_, ⟨_, h⟩ | ⟨_, hl, rfl, _⟩⟩ := o
  · rw [h.ok.list]; simp [elems]
  · rw [hl]; rfl

/-- A renamed node does not change the potential. -/
theorem plug_pot {c : Ctx} : ∀ {T T' : Tree}, Pot T = Pot T' → W T = W T' →
    Pot (plug c T) = Pot (plug c T') ∧ W (plug c T) = W (plug c T') := by
  induction c with
  | nil => intro T T' h1 h2; exact ⟨h1, h2⟩
  | cons f c ih =>
    intro T T' h1 h2
    refine ih ?_ ?_ <;> rcases f with ⟨d, i, k, t⟩ <;> cases d <;> simp [Frame.fill, nd, Pot, W, h1, h2]

/-- Splaying, with its cost. -/
theorem splay_okN {s : Fom α} {n : Nat} {b : Bool} (o : Om.Ok cmp key ⟨s.t, n, s.val, b⟩ l T) (hc : LawfulCmp cmp)
    (hne : T ≠ nil) (k : κ) :
    ∃ t i m A B c, Costs (splayN s.t (Fom.cmpAt cmp key s k) s.t.root) c (t, i) ∧ Whole t [] (node i m A B) ∧
      t.root = i ∧ (node i m A B).ids = T.ids ∧ (∀ a ∈ A.ids, cmp k (key (s.val a)) = .grt) ∧
      (∀ a ∈ B.ids, cmp k (key (s.val a)) = .les) ∧ t.live = s.t.live ∧
      Costs (splayToN cmp key s k) (c + 1) ({ s with t := t }, cmp k (key (s.val i))) ∧
      (c : ℝ) + phi 0 t ≤ phi 0 s.t + 6 * lg (W T) + 2 ∧ W (node i m A B) = W T := by
  obtain ⟨t, i, m, A, B, _, w, hi, hA, hB, hs, P, c, hsp, rfl, rfl, hn⟩ :=
    splay_specN (c := Fom.cmpAt cmp key s k) o.whole.tree o.nodup o.whole.live0 hne
    (fun a ha => if_pos (o.whole.tree.live a ha)) (o.mono hc k)
  have hr : t.root = i := w.ctx
  have hr0 : s.t.root = T.rootId := o.root
  have hn' : Costs (splayN s.t (Fom.cmpAt cmp key s k) s.t.root) c (t, i) := by rw [hr0]; exact hn
  have hW : W (node i m (P true) (P false)) = W T := by rw [W, hsp.W_eq]
  refine ⟨t, i, m, _, _, c, hn', w, hr, hi, hA, hB, hs.live, ?_, ?_, hW⟩
  · have hq : Fom.cmpAt cmp key { s with t := t } k i = some (cmp k (key (s.val i))) :=
      if_pos (w.tree.live i (by simp [ids]))
    intro q
    simp only [splayToN, Count.bind_run, hn' q, Option.bind_some, setRoot_self hr, hr, Count.cnt_run, hq, Option.map_some,
      Count.pure_run]
    rfl
  · rw [phi_whole w, phi_whole (t := s.t) o.whole]
    have := hsp.splay
    linarith

variable (hc : LawfulCmp cmp)
include hc

omit hc in
theorem L_ge (hL : lg (W T + 1) ≤ L) : 1 ≤ L := le_trans (lg_ge_one (by have := W_pos T; omega)) hL

omit hc in
theorem L_le (hL : lg (W T + 1) ≤ L) : lg (W T) ≤ L :=
  le_trans (lg_mono (a := W T) (b := W T + 1) (W_pos T) (by omega)) hL

theorem splayToN_pays (h : Started cmp key s l T) (hL : lg (W T + 1) ≤ L) (hne : T ≠ nil) (k : κ) :
    Pays (splayToN cmp key s k) s.t (6 * L + 3) := by
  obtain ⟨t, i, m, A, B, n, _, _, _, _, _, _, _, h1, h2, _⟩ := splay_okN (s := s) h.ok hc hne k
  refine ⟨_, _, h1, ?_⟩
  have := L_le hL
  push_cast
  linarith

theorem findN_pays (o : Ok cmp key s st T) (hL : lg (W T + 1) ≤ L) (k : κ) :
    Pays (findN cmp key s k) s.t (6 * L + 3) := by
  have h1 := L_ge hL
  obtain ⟨_, ⟨_, h⟩ | ⟨_, _, rfl, h⟩⟩ := o
  · by_cases hne : T = nil
    · subst hne
      rw [findN, if_pos (show s.t.root = 0 from h.ok.root)]
      exact .pure rfl (by linarith)
    · rw [findN, if_neg (h.root_ne hne)]
      obtain ⟨r, m, h, hp⟩ := splayToN_pays hc h hL hne k
      exact .via h (.pure (b := 0) rfl (le_refl _)) (by simpa using hp)
  · rw [findN, if_pos h.root]
    exact .pure rfl (by linarith)

theorem entryN_pays (o : Ok cmp key s st T) (hL : lg (W T + 1) ≤ L) (k : κ) :
    Pays (entryN cmp key s k) s.t (6 * L + 3) := by
  obtain ⟨⟨s', f⟩, m, h, hp⟩ := findN_pays hc o hL k
  refine .via h (t' := s'.t) (b' := 0) ?_ (by simpa using hp)
  rcases f with _ | f <;> exact .pure rfl (le_refl _)

theorem insertNodeN_pays (al : Alloced cmp key s l T) (hL : lg (W T + 1) ≤ L) :
    Pays (insertNodeN cmp key s (l.length + 1)) s.t (8 * L + 3) := by
  have h1 := L_ge hL
  have nl : s.t.live (l.length + 1) = true := by rw [al.live, inUse_lt al.le, al.sz]; omega
  have nT : l.length + 1 ∉ T.ids := by rw [al.slots]; omega
  have n0 : l.length + 1 ≠ 0 := by omega
  generalize hn : l.length + 1 = n at *
  obtain ⟨t, run, l1, r1, b1, p1, f1⟩ := Om.initNode_spec (t := s.t) (e := n) nl
  have w : Whole t [] T := by
    have w0 := al.ok.whole
    refine ⟨?_, ?_, w0.nodup, ?_⟩
    · exact r1.trans w0.ctx
    · exact w0.tree.congr (fun a _ => by rw [l1]) (fun a ha => (f1 a (fun h => nT (h ▸ ha))).1)
        (fun a ha => (f1 a (fun h => nT (h ▸ ha))).2)
    · rw [l1]; exact w0.live0
  have o1 : Om.Ok cmp key ⟨t, l.length, s.val, false⟩ l T := al.ok.reshape w rfl
  have hphi : phi 0 t = phi 0 s.t := by rw [phi_whole w, phi_whole (t := s.t) al.ok.whole]
  have h2 : (s.sz = 2) ↔ l = [] := by
    rw [al.sz, ← List.length_eq_zero_iff]; omega
  refine .lift run ?_
  simp only
  by_cases hne : T = nil
  · subst hne
    have hl : l = [] := al.ok.nil_iff.2 rfl
    rw [if_pos (h2.2 hl)]
    refine ⟨_, 0, .pure _, ?_⟩
    have := Om.first_pays (K := 0) (L := L) o1 n0 w.live0 (by rw [l1]; exact nl) b1 p1 h1
    simp only at this ⊢
    rw [Nat.cast_zero]
    linarith
  · have hl : l ≠ [] := fun hh => hne (al.ok.nil_iff.1 hh)
    rw [if_neg (fun hh => hl (h2.1 hh))]
    obtain ⟨t2, i, m, A, B, c, _, w2, hr2, hi, hA, hB, hlv2, run2, hp2, hW⟩ :=
      splay_okN (s := { s with t := t }) o1 hc hne (key (s.val n))
    have o2 : Om.Ok cmp key ⟨t2, l.length, s.val, false⟩ l (node i m A B) := o1.reshape w2 hi
    have hlv2' : t2.live = t.live := hlv2
    have h3 := L_le hL
    simp only at hp2
    by_cases hq : cmp (key (s.val n)) (key (s.val i)) = .eql
    · refine .via (t' := t2) (b' := 0) run2 ?_ ?_
      · simp only
        rw [if_pos hq]
        exact .pure rfl (le_refl _)
      · push_cast
        linarith
    · obtain ⟨t3, run3, hp3⟩ := Om.connect_pays hc (K := 0) (L := L) (rc := cmp (key (s.val n)) (key (s.val i))) o2 n0
        (by rw [hi]; exact nT) (by show t2.live n = true; rw [hlv2', l1]; exact nl) (by rw [hW]; exact hL)
      refine .via (t' := t3) (b' := 0) run2 ?_ ?_
      · simp only
        rw [if_neg hq]
        exact .lift run3 (.pure rfl (le_refl _))
      · push_cast
        simp only at hp3 ⊢
        linarith

/-- Obtaining a slot for `x` and linking it in. -/
theorem alloc_pays (o : Ok cmp key s st T) (hL : lg (W T + 1) ≤ L) (x : α) (ans : Option (Junk α)) :
    (∃ s', allocBack s ans = (s', none) ∧ phi 0 s'.t = phi 0 s.t) ∨
    (∃ s1 s2 n, allocBack s ans = (s1, some n) ∧ s1.sz - 1 = n ∧ setVal s1 n x = some s2 ∧ s2.sz - 1 = n ∧
      Pays (insertNodeN cmp key s2 n) s.t (8 * L + 3)) := by
  rcases allocBack_spec o ans with ⟨hr, s', run, o', a'⟩ | ⟨hr, s', run, hcap, hst, al, a', hval⟩
  · exact Or.inl ⟨s', run, by rw [o'.phi, o.phi]⟩
  · right
    have nl : s'.t.live (st.l.length + 1) = true := by rw [al.live, inUse_lt al.le, al.sz]; omega
    have nT : st.l.length + 1 ∉ T.ids := by rw [al.slots]; omega
    have hset : setVal s' (st.l.length + 1) x = some { s' with val := upd s'.val (st.l.length + 1) x } := by
      rw [setVal, if_pos nl]
    have ok1 : Om.Ok cmp key (shrink { s' with val := upd s'.val (st.l.length + 1) x } st.l.length) st.l T :=
      ⟨al.ok.whole, al.ok.list.trans (Rom.elems_upd nT).symm, al.ok.sorted, rfl⟩
    have al2 : Alloced cmp key { s' with val := upd s'.val (st.l.length + 1) x } st.l T :=
      ⟨al.sz, al.le, al.live, ok1, al.slots⟩
    have hp := insertNodeN_pays hc al2 hL
    have e : phi 0 s'.t = phi 0 s.t := by rw [o.phi, phi_whole (t := s'.t) al.ok.whole]
    refine ⟨s', _, _, run, by rw [al.sz]; rfl, hset, by show s'.sz - 1 = _; rw [al.sz]; rfl, ?_⟩
    obtain ⟨r, m, h, hp⟩ := hp
    refine ⟨r, m, h, ?_⟩
    rw [← e]
    exact hp

/-- The last steps of a call compare nothing and leave the tree alone. -/
theorem Pays.out {γ δ : Type} {x : Count (Fom α × γ)} {f : Fom α × γ → Fom α × δ} {t : Links} {b : ℝ} (h : Pays x t b)
    (hf : ∀ r, (f r).1.t = r.1.t) : Pays (x >>= fun r => pure (f r)) t b := by
  obtain ⟨r, m, h, hp⟩ := h
  exact .via h (t' := r.1.t) (b' := 0) (.pure (hf r) (le_refl _)) (by simpa using hp)

omit hc in
theorem pays_phi {r : Fom α × β} {t : Links} {b : ℝ} (h : phi 0 r.1.t = phi 0 t) (hb : 0 ≤ b) :
    Pays (pure r : Count _) t b :=
  ⟨r, 0, .pure _, by simp only; rw [h, Nat.cast_zero]; linarith⟩

theorem maybeAllocInsertN_pays (o : Ok cmp key s st T) (hL : lg (W T + 1) ≤ L) (x : α) (ans : Option (Junk α)) :
    Pays (maybeAllocInsertN cmp key s x ans) s.t (8 * L + 3) := by
  have h1 := L_ge hL
  unfold maybeAllocInsertN
  rcases alloc_pays hc o hL x ans with ⟨s', e, hp⟩ | ⟨s1, s2, n, e, e1, e2, e3, hp⟩
  · rw [e]
    exact pays_phi hp (by linarith)
  · rw [e]
    simp only [e1]
    exact .lift e2 hp

/-- The vacant case of the macros. -/
theorem vacantW_pays (o : Ok cmp key s st T) (hL : lg (W T + 1) ≤ L) (x : α) (ans : Option (Junk α)) {γ : Type}
    (y : γ) (f : Nat → γ) (g : Fom α → Nat → Nat) (hg : ∀ s n, s.sz - 1 = n → g s n = n) :
    Pays (match allocBack s ans with
      | (s, none) => pure (s, y)
      | (s, some a) => do
        let s ← setVal s a x
        let (s, _) ← insertNodeN cmp key s (g s a)
        pure (s, f a)) s.t (8 * L + 3) := by
  have h1 := L_ge hL
  rcases alloc_pays hc o hL x ans with ⟨s', e, hp⟩ | ⟨s1, s2, n, e, e1, e2, e3, hp⟩
  · rw [e]
    exact pays_phi hp (by linarith)
  · rw [e]
    refine .lift e2 ?_
    rw [hg s2 n e3]
    exact Pays.out hc (f := fun p => (p.1, f n)) hp (fun _ => rfl)

theorem eraseN_pays (o : Ok cmp key s st T) (hL : lg (W T + 1) ≤ L) (k : κ) :
    Pays (eraseN cmp key s k) s.t (12 * L + 5) := by
  have h1 := L_ge hL
  have hemp := isEmpty_eq o
  by_cases hne : st.l = []
  · rw [eraseN, if_pos (by rw [hemp, hne]; rfl)]
    exact .pure rfl (by linarith)
  · obtain ⟨hst, h, hT⟩ := o.startd hne
    obtain ⟨t, i, m, A, B, n, hn, w, hr, hi, hA, hB, hlv, _, hp, hW⟩ := splay_okN (s := s) h.ok hc hT k
    have o' := h.reshape w hi hlv
    have h2 := L_le hL
    have hq := o'.cmpAt k i (by simp [ids])
    rw [eraseN, if_neg (by rw [hemp]; simpa using hne)]
    by_cases he : cmp k (key (s.val i)) = .eql
    · have hsub : A.ids.Sublist (node i m A B).ids := by simp only [ids]; exact List.sublist_append_left _ _
      obtain ⟨t2, T2, n2, run2, w2, hi2, hlv2, hsh⟩ :=
        remove_specN (c := Fom.cmpAt cmp key { s with t := t } (key (s.val i)))
        (c' := fun a => cmp (key (s.val i)) (key (s.val a))) o'.ok.whole
        (fun a ha => o'.cmpAt (key (s.val i)) a (hsub.subset ha))
        ((o'.ok.mono hc (key (s.val i))).sub hsub)
        (fun a ha => by rw [hc.eql_congr_left (hc.symm he)]; exact hA a ha)
      obtain ⟨p1, p2⟩ := remove_pot (i := i) (k := m) hsh
      have hnd := o'.ok.nodup
      simp only [ids] at hnd
      rw [List.nodup_append, List.nodup_cons] at hnd
      have hiT : i ∉ T2.ids := by
        rw [hi2]
        simp only [List.mem_append, not_or]
        exact ⟨fun h => hnd.2.2 i h i (by simp) rfl, hnd.2.1.1⟩
      have hrr := o'.mem_iff.1 (show i ∈ (node i m A B).ids by simp [ids])
      have hmT : ∀ a, 1 ≤ a → a ≤ st.l.length → a ≠ i → a ∈ T2.ids := by
        intro a h1 h2 h3
        have := o'.slots a h1 h2
        rw [hi2]
        simp only [ids, List.mem_append, List.mem_cons] at this ⊢
        rcases this with h | h | h
        · exact Or.inl h
        · exact absurd h h3
        · exact Or.inr h
      have hl2 : t2.live = inUse s.sz s.cap := hlv2.trans o'.live
      obtain ⟨s', T3, run3, w3, i3, z3, c3, a3, l3, y3, x3, u3, hT3⟩ := swapAndPop_spec (s := { s with t := t2 })
        (n := st.l.length) (r := i) h.sz h.le hl2 w2 hrr hiT hmT
      have hpot : Pot T3 = Pot T2 := by
        rcases hT3 with rfl | ⟨c, k, L, R, rfl, rfl⟩
        · rfl
        · exact (plug_pot (by simp [Pot]) (by simp [W])).1
      refine ⟨(s', some s'.sz), n + (1 + (n2 + (0 + 0))), hn.bind ((Costs.cnt hq).bind ?_), ?_⟩
      · simp only
        rw [if_neg (by simp [he])]
        exact run2.bind ((Costs.lift run3).bind (.pure _))
      · simp only
        rw [phi_whole w3, hpot]
        rw [phi_whole (t := t) w] at hp
        rw [hW] at p1
        push_cast
        linarith
    · refine ⟨({ s with t := t }, none), n + (1 + 0), hn.bind ((Costs.cnt hq).bind ?_), ?_⟩
      · simp only
        rw [if_pos he]
        exact .pure _
      · push_cast
        linarith

theorem equalRangeN_pays (o : Ok cmp key s st T) (hL : lg (W T + 1) ≤ L) (b e : κ) (trav : Bool) :
    Pays (equalRangeN cmp key s b e trav) s.t (12 * L + 6) := by
  have h1 := L_ge hL
  have hemp := isEmpty_eq o
  rw [equalRangeN]
  by_cases hne : st.l = []
  · rw [if_pos (by rw [hemp, hne]; rfl)]
    exact .pure rfl (by linarith)
  · rw [if_neg (by rw [hemp]; simpa using hne)]
    obtain ⟨hst, h, hT⟩ := o.startd hne
    have h2 := L_le hL
    obtain ⟨t, T', m, n, run, w, hi, _, P, i, k, Q, j, p, hP, hQ, rfl⟩ :=
      Splay.equalRange_specN h.ok.whole hT (cb := Fom.cmpAt cmp key s b) (ce := Fom.cmpAt cmp key s e) (h.cmpAt b)
        (h.cmpAt e) (h.ok.mono hc b) (h.ok.mono hc e) trav
    have run' : Costs (Splay.equalRangeN s.t (Fom.cmpAt cmp key s b) (Fom.cmpAt cmp key s e) trav) _ _ := run
    refine ⟨_, _, run'.bind (.pure _), ?_⟩
    have p1 := hP.splay
    have p2 := hQ.splay
    have w1 : W (node i k (P true) (P false)) = W T := by rw [W, hP.W_eq]
    simp only
    rw [phi_whole w, o.phi]
    rw [w1] at p2
    push_cast
    linarith

/-- Every call is paid for. -/
theorem stepN_pays (o : Ok cmp key s st T) (hL : lg (W T + 1) ≤ L) (op : Op α κ (Junk α))
    (ok : okOpS cmp key st op) (sf : safeOp st op) : Pays (stepN cmp key s op) s.t (18 * L + 8) := by
  have h1 := L_ge hL
  have hb : (6 * L + 3) + (12 * L + 5) = 18 * L + 8 := by ring
  have hLt : ∀ {t T'}, Ok cmp key { s with t := t } st T' → lg (W T' + 1) ≤ L := by
    intro t T' o'
    rw [W_ids, o'.len, ← o.len, ← W_ids]; exact hL
  have entry : ∀ {k : κ} {γ : Type} {f : Fom α × FEnt → Count (Fom α × γ)},
      (∀ {t x m A B}, st.started = true → Started cmp key { s with t := t } st.l (node x m A B) →
        lookup cmp (ekey key) k st.l = some (x, s.val x) →
        Pays (f ({ s with t := t }, ⟨x, Stat.occupied⟩)) t (12 * L + 5)) →
      (∀ {t T'}, Ok cmp key { s with t := t } st T' → lg (W T' + 1) ≤ L →
        Pays (f ({ s with t := t }, ⟨0, Stat.vacant⟩)) t (8 * L + 3)) →
      Pays (entryN cmp key s k >>= f) s.t (18 * L + 8) := by
    intro k γ f h2 h3
    rw [← hb]
    rcases o.find hc k with ⟨t, a, m, A, B, hst, hf, h, hr, ha, _, _, hlk⟩ | ⟨t, T', hf, o1, hlk⟩
    · exact (entryN_pays hc o hL k).bind (entryN_er _ _ _ _) (entry_occ hf) (h2 hst h hlk)
    · exact (entryN_pays hc o hL k).bind (entryN_er _ _ _ _) (entry_vac hf) (.mono (h3 o1 (hLt o1)) (by linarith))
  have find : ∀ {k : κ} {γ : Type} {f : Fom α × Slot → Count (Fom α × γ)},
      (∀ {t x m A B}, Started cmp key { s with t := t } st.l (node x m A B) → t.root = x →
        Pays (f ({ s with t := t }, some x)) t (8 * L + 3)) →
      (∀ {t T'}, Ok cmp key { s with t := t } st T' → lg (W T' + 1) ≤ L →
        Pays (f ({ s with t := t }, none)) t (8 * L + 3)) →
      Pays (findN cmp key s k >>= f) s.t (18 * L + 8) := by
    intro k γ f h2 h3
    have hb' : (6 * L + 3) + (8 * L + 3) ≤ 18 * L + 8 := by linarith
    refine .mono ?_ hb'
    rcases o.find hc k with ⟨t, a, m, A, B, hst, hf, h, hr, ha, _, _, hlk⟩ | ⟨t, T', hf, o1, hlk⟩
    · exact (findN_pays hc o hL k).bind (findN_er _ _ _ _) hf (h2 h hr)
    · exact (findN_pays hc o hL k).bind (findN_er _ _ _ _) hf (h3 o1 (hLt o1))
  have hpos : 0 ≤ 8 * L + 3 := by linarith
  have hpos2 : 0 ≤ 12 * L + 5 := by linarith
  have hpos' : 0 ≤ 18 * L + 8 := by linarith
  -- writing data does not touch the links
  have set : ∀ {s : Fom α} {a : Nat} {x : α} {γ : Type} {f : Fom α → Count (Fom α × γ)} {b : ℝ}, s.t.live a = true →
      Pays (f { s with val := upd s.val a x }) s.t b → Pays ((liftM (setVal s a x) : Count (Fom α)) >>= f) s.t b := by
    intro s a x γ f b hl hp
    exact .lift (setVal_live hl) hp
  cases op with
  | insert x ans =>
    refine Pays.out hc (find ?_ ?_) (fun _ => rfl)
    · intro t a m A B h hr
      obtain ⟨ham, a0, al, l0, ac, _⟩ := found h
      let t1 : Links := { t with
        br := fun b d => if b = 0 then t.br a d else t.br b d
        par := upd t.par 0 (t.par a)
        parity := upd t.parity 0 (t.parity a) }
      have e1 : copyLinks t 0 a = some t1 := by simp [copyLinks, l0, al, t1]
      have s1 := h.slot0 (t' := t1) (x := x) rfl rfl (by
        intro b hb
        refine ⟨?_, ?_⟩
        · funext d; simp [t1, hb]
        · simp [t1, upd_ne _ _ hb])
      have hphi : phi 0 t1 = phi 0 t := by rw [phi_whole (t := t1) s1.ok.whole, phi_whole (t := t) h.ok.whole]
      simp only [Option.isSome_some, if_true]
      refine .lift (a := ()) (by simp [hr, bne_root a0]) (.lift (a := t1) (by simp only [hr]; exact e1) ?_)
      have := set (s := { s with t := t1 }) (a := 0) (x := x) (b := 8 * L + 3) (γ := Ent × α)
        (f := fun s => do
          let old := s.val t.root
          let s ← setVal s t.root (s.val 0)
          pure (s, ⟨some t.root, Stat.occupied⟩, old)) l0
          (set (s := { s with t := t1, val := upd s.val 0 x }) (by rw [hr]; exact al) (.pure rfl hpos))
      obtain ⟨r, m, hcost, hp⟩ := this
      exact ⟨r, m, hcost, by simp only at hp ⊢; rw [← hphi]; exact hp⟩
    · intro t T' o1 hL'
      simp only [Option.isSome_none, Bool.false_eq_true, if_false]
      obtain ⟨⟨s', i⟩, m, h, hp⟩ := maybeAllocInsertN_pays hc o1 hL' x ans
      refine .via h (t' := s'.t) (b' := 0) ?_ (by simpa using hp)
      rcases i with _ | i <;> exact .pure rfl (le_refl _)
  | tryInsert x ans =>
    refine Pays.out hc (find ?_ ?_) (fun _ => rfl)
    · intro t a m A B h hr
      obtain ⟨ham, a0, al, l0, ac, _⟩ := found h
      exact .lift (a := ()) (by simp [hr, bne_root a0]) (.pure rfl hpos)
    · intro t T' o1 hL'
      obtain ⟨⟨s', i⟩, m, h, hp⟩ := maybeAllocInsertN_pays hc o1 hL' x ans
      refine .via h (t' := s'.t) (b' := 0) ?_ (by simpa using hp)
      rcases i with _ | i <;> exact .pure rfl (le_refl _)
  | insertOrAssign x ans =>
    refine Pays.out hc (find ?_ ?_) (fun _ => rfl)
    · intro t a m A B h hr
      obtain ⟨ham, a0, al, l0, ac, _⟩ := found h
      exact .lift (a := ()) (by simp [hr, bne_root a0]) (set (s := { s with t := t }) al (.pure rfl hpos))
    · intro t T' o1 hL'
      obtain ⟨⟨s', i⟩, m, h, hp⟩ := maybeAllocInsertN_pays hc o1 hL' x ans
      refine .via h (t' := s'.t) (b' := 0) ?_ (by simpa using hp)
      rcases i with _ | i <;> exact .pure rfl (le_refl _)
  | remove x =>
    refine Pays.out hc (.mono ?_ (show 12 * L + 5 ≤ 18 * L + 8 by linarith)) (fun _ => rfl)
    obtain ⟨⟨s', i⟩, m, h, hp⟩ := eraseN_pays hc o hL (key x)
    refine .via h (t' := s'.t) (b' := 0) ?_ (by simpa using hp)
    rcases i with _ | i <;> exact .pure rfl (le_refl _)
  | orInsert k x ans =>
    refine entry ?_ ?_
    · intro t a m A B _ h _
      refine Pays.out hc ?_ (fun _ => rfl)
      rw [orInsertN, if_pos occ_occ]
      exact .pure rfl hpos2
    · intro t T' o1 hL'
      refine Pays.out hc ?_ (fun _ => rfl)
      rw [orInsertN, if_neg (by rw [isVac_not_occ]; simp)]
      exact maybeAllocInsertN_pays hc o1 hL' x ans
  | insertEntry k x ans =>
    refine entry ?_ ?_
    · intro t a m A B _ h _
      obtain ⟨ham, a0, al, l0, ac, _⟩ := found h
      refine Pays.out hc ?_ (fun _ => rfl)
      rw [insertEntryN, if_pos rfl]
      exact set (s := { s with t := t }) al (.pure rfl hpos2)
    · intro t T' o1 hL'
      refine Pays.out hc ?_ (fun _ => rfl)
      rw [insertEntryN, if_neg isVac_ne_occ]
      exact maybeAllocInsertN_pays hc o1 hL' x ans
  | removeEntry k =>
    refine entry ?_ ?_
    · intro t a m A B hst h hlk
      have o1 := h.toOk (st := st) o.1 hst rfl
      refine Pays.out hc ?_ (fun _ => rfl)
      rw [removeEntryN, if_pos rfl]
      obtain ⟨r, n, hcost, hp⟩ := eraseN_pays hc o1 (hLt o1) (key (s.val a))
      have her := (eraseN_er cmp key _ (key (s.val a))).eq hcost
      refine .via hcost (t' := r.1.t) (b' := 0) ?_ (by simpa using hp)
      rcases erase_spec o1 hc (key (s.val a)) with ⟨r', s', T', run, hlk2, o', a', v', n0, _⟩ | ⟨t2, T', run, o', hlk2⟩
      · rw [run] at her
        cases her
        exact .lift rfl (.pure rfl (le_refl _))
      · exfalso
        have hm : (a, s.val a) ∈ st.l := List.mem_of_find?_eq_some hlk
        have := List.find?_eq_none.1 hlk2 _ hm
        simp [ekey, hc.refl] at this
    · intro t T' o1 hL'
      refine Pays.out hc ?_ (fun _ => rfl)
      rw [removeEntryN, if_neg isVac_ne_occ]
      exact .pure rfl hpos
  | andModify k f =>
    refine entry ?_ ?_
    · intro t a m A B _ h _
      obtain ⟨ham, a0, al, l0, ac, _⟩ := found h
      refine .lift (a := { s with t := t, val := upd s.val a (f (s.val a)) }) ?_ (.pure rfl hpos2)
      rw [andModify, if_pos occ_occ]
      exact setVal_live (by exact al)
    · intro t T' o1 hL'
      refine .lift (a := { s with t := t }) ?_ (.pure rfl hpos)
      rw [andModify, if_neg (by rw [isVac_not_occ]; simp)]
  | occupied k => exact entry (fun _ _ _ => .pure rfl hpos2) (fun _ _ => .pure rfl hpos)
  | orInsertW k x ans =>
    refine entry ?_ ?_
    · intro t a m A B _ h _
      refine Pays.out hc ?_ (fun _ => rfl)
      rw [orInsertWN, if_pos rfl]
      exact .pure rfl hpos2
    · intro t T' o1 hL'
      refine Pays.out hc ?_ (fun _ => rfl)
      rw [orInsertWN, if_neg isVac_ne_occ]
      exact vacantW_pays hc o1 hL' x ans none some (fun s _ => s.sz - 1) (fun _ _ h => h)
  | insertEntryW k x ans =>
    refine entry ?_ ?_
    · intro t a m A B _ h _
      obtain ⟨ham, a0, al, l0, ac, _⟩ := found h
      refine Pays.out hc ?_ (fun _ => rfl)
      rw [insertEntryWN, if_neg (by rw [occ_occ]; simp), if_pos rfl]
      exact set (s := { s with t := t }) al (.pure rfl hpos2)
    · intro t T' o1 hL'
      refine Pays.out hc ?_ (fun _ => rfl)
      rw [insertEntryWN, if_pos (by rw [isVac_not_occ]; rfl)]
      exact vacantW_pays hc o1 hL' x ans none some (fun s _ => s.sz - 1) (fun _ _ h => h)
  | tryInsertW k x ans =>
    refine Pays.out hc (entry ?_ ?_) (fun _ => rfl)
    · intro t a m A B _ h _
      simp only
      rw [if_neg (by rw [occ_occ]; simp), if_pos trivial]
      exact .pure rfl hpos2
    · intro t T' o1 hL'
      simp only
      rw [if_pos (by rw [isVac_not_occ]; rfl)]
      exact vacantW_pays hc o1 hL' x ans (⟨none, Stat.insertError⟩ : Ent) (fun a => (⟨some a, Stat.vacant⟩ : Ent)) (fun _ n => n)
        (fun _ _ _ => rfl)
  | insertOrAssignW k x ans =>
    refine Pays.out hc (entry ?_ ?_) (fun _ => rfl)
    · intro t a m A B _ h _
      obtain ⟨ham, a0, al, l0, ac, _⟩ := found h
      simp only
      rw [if_neg (by rw [occ_occ]; simp), if_pos trivial]
      exact set (s := { s with t := t }) al (.pure rfl hpos2)
    · intro t T' o1 hL'
      simp only
      rw [if_pos (by rw [isVac_not_occ]; rfl)]
      exact vacantW_pays hc o1 hL' x ans (⟨none, Stat.insertError⟩ : Ent) (fun a => (⟨some a, Stat.vacant⟩ : Ent)) (fun _ n => n)
        (fun _ _ _ => rfl)
  | contains k =>
    obtain ⟨hst, h, hT⟩ := o.startd sf
    exact Pays.out hc (Pays.out hc (.mono (splayToN_pays hc h hL hT k) (by linarith)) (fun _ => rfl)) (fun _ => rfl)
  | get k => exact Pays.out hc (.mono (findN_pays hc o hL k) (by linarith)) (fun _ => rfl)
  | begin =>
    obtain ⟨s', e, _⟩ := step_begin (cmp := cmp) (key := key) o
    simp only [step] at e
    cases hn : begin_ s false with
    | none => rw [hn] at e; cases e
    | some p => exact .lift hn (.pure rfl hpos')
  | rbegin =>
    obtain ⟨s', e, _⟩ := step_rbegin (cmp := cmp) (key := key) o
    simp only [step] at e
    cases hn : begin_ s true with
    | none => rw [hn] at e; cases e
    | some p => exact .lift hn (.pure rfl hpos')
  | next a =>
    obtain ⟨s', e, _⟩ := step_next (cmp := cmp) (key := key) o ok
    simp only [step] at e
    cases hn : next s a true with
    | none => rw [hn] at e; cases e
    | some p => exact .lift hn (.pure rfl hpos')
  | rnext a =>
    obtain ⟨s', e, _⟩ := step_rnext (cmp := cmp) (key := key) o ok
    simp only [step] at e
    cases hn : next s a false with
    | none => rw [hn] at e; cases e
    | some p => exact .lift hn (.pure rfl hpos')
  | end_ => exact .pure rfl hpos'
  | equalRange b e => exact Pays.out hc (.mono (equalRangeN_pays hc o hL b e true) (by linarith)) (fun _ => rfl)
  | equalRrange b e => exact Pays.out hc (.mono (equalRangeN_pays hc o hL b e false) (by linarith)) (fun _ => rfl)
  | size => exact .pure rfl hpos'
  | isEmpty => exact .pure rfl hpos'
  | capacity => exact .pure rfl hpos'
  | validate => exact .lift (validate_spec hc o) (.pure rfl hpos')
  | clear =>
    obtain ⟨s', e, ⟨T', o'⟩, _⟩ := step_clear (cmp := cmp) (key := key) o
    have hl : T'.ids.length = 0 := by rw [o'.len]; rfl
    have hT' : T' = nil := by
      cases T' with
      | nil => rfl
      | node => simp [ids] at hl
    subst hT'
    simp only [step] at e
    cases hn : clear s false with
    | none => rw [hn] at e; cases e
    | some p =>
      rw [hn] at e
      refine .lift hn ⟨_, 0, .pure _, ?_⟩
      simp only [Option.bind_eq_bind, Option.bind_some, Option.some.injEq, Prod.mk.injEq] at e
      have h0 := Pot_nonneg T
      simp only
      rw [e.1, o'.phi, o.phi]
      simp only [Pot]
      push_cast
      linarith

/-- A history is paid for. -/
theorem runN_pays (ops : List (Op α κ (Junk α))) : ∀ {s : Fom α} {st : St α},
    Sim cmp key s st → safeRun cmp key s.hasAlloc st ops →
    (∀ pre, pre <+: ops → lg ((specRunS cmp key s.hasAlloc st pre).1.l.length + 2) ≤ L) →
    Pays (runN cmp key s ops) s.t (ops.length * (18 * L + 8)) := by
  induction ops with
  | nil => intro s l _ _ _; exact .pure rfl (by simp)
  | cons op ops ih =>
    intro s st ⟨T, o⟩ ⟨ok, sf, hr⟩ hL
    have hLT : lg (W T + 1) ≤ L := by
      have := hL [] (by simp)
      simp only [specRunS] at this
      rw [W_ids, o.len]
      exact this
    obtain ⟨s', e, sim, ha, _⟩ := step_spec hc o op ok sf
    have hp := stepN_pays hc o hLT op ok sf
    have hq := ih sim (by rw [ha]; exact hr) (by
      intro pre hpre
      have := hL (op :: pre) (by simpa using hpre)
      simp only [specRunS] at this
      rw [ha]; exact this)
    have := hp.bind (stepN_er _ _ _ _) e (f := fun p => runN cmp key p.1 ops >>= fun q => pure (q.1, p.2 :: q.2))
      (Pays.out hc (f := fun q => (q.1, (specStepS cmp key s.hasAlloc st op).2 :: q.2)) hq (fun _ => rfl))
    refine .mono this ?_
    simp only [List.length_cons]
    push_cast
    linarith

end CCC.Fom
