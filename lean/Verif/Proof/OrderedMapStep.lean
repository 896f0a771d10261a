import Verif.Proof.OrderedMap
/-
Every call of the ordered map answers as specified.
-/
namespace CCC.Om
open CCC Links Tree Wavl Splay MapSpec PtrMap
open _root_.CCC.Rom (put view toSlot elems mem_elems elems_congr elems_upd elems_append recursiveSize isStoringParent
  areSubtreesValid recursiveSize_spec isStoringParent_spec areSubtreesValid_spec view_head view_last view_find
  dropWhile_split put_comm_val assign_elems vac_ne_occ vac_not_occ occ_occ unwrap_occ unwrap_vac unwrap_ie view_some
  view_none remove_list lookup_congr ids_elems)

variable {α κ : Type} {cmp : κ → κ → Cmp} {key : α → κ} {s : Om α} {l : List (Nat × α)} {T : Tree}

/-- The state represents the specified contents. -/
def Sim (cmp : κ → κ → Cmp) (key : α → κ) (s : Om α) (l : List (Nat × α)) : Prop := ∃ T, Ok cmp key s l T

/-- The key a call looks up or inserts. -/
def opKey (key : α → κ) : Op α κ → Option κ
  | .insert _ x _ _ _ | .tryInsert _ x _ | .insertOrAssign _ x _ => some (key x)
  | .orInsert k _ _ _ | .insertEntry k _ _ _ | .andModify k _ | .occupied k | .orInsertW k _ _ | .insertEntryW k _ _
  | .tryInsertW k _ _ | .insertOrAssignW k _ _ | .contains k | .get k => some k
  | _ => none

/-- If the key is stored in `l`, it is stored at address `r`. -/
def Touch (cmp : κ → κ → Cmp) (key : α → κ) (r : Nat) (k : Option κ) (l : List (Nat × α)) : Prop :=
  ∀ k', k = some k' → (∃ e ∈ l, e.1 = r ∧ cmp k' (ekey key e) = .eql) ∨ lookup cmp (ekey key) k' l = none

theorem Touch.no {r : Nat} : Touch cmp key r none l := fun _ h => by cases h
theorem Touch.miss {r : Nat} {k : κ} (h : lookup cmp (ekey key) k l = none) : Touch cmp key r (some k) l :=
  fun _ e => by simp only [Option.some.injEq] at e; subst e; exact Or.inr h
theorem Touch.hit {r n : Nat} {k : κ} {x : α} (h : (n, x) ∈ l) (hr : r = n) (he : cmp k (key x) = .eql) :
    Touch cmp key r (some k) l :=
  fun _ e => by simp only [Option.some.injEq] at e; subst e; exact Or.inl ⟨_, h, hr.symm, he⟩
theorem Touch.ok {r a m : Nat} {A B : Tree} (o : Ok cmp key s l (node a m A B)) {k : κ} (hr : r = a)
    (he : cmp k (key (s.val a)) = .eql) : Touch cmp key r (some k) l :=
  Touch.hit (by rw [o.list, mem_elems]; exact ⟨by simp [ids], rfl⟩) hr he

theorem mem_place {e : Nat × α} : e ∈ place cmp (ekey key) e l := by simp [place]

/-- Goal of the per-call theorem. -/
def StepOk (cmp : κ → κ → Cmp) (key : α → κ) (s : Om α) (l : List (Nat × α)) (op : Op α κ) : Prop :=
  ∃ s', step cmp key s op = some (s', (specStep cmp key s.alloc l op).2) ∧
    Sim cmp key s' (specStep cmp key s.alloc l op).1 ∧ s'.alloc = s.alloc ∧
    Touch cmp key s'.t.root (opKey key op) (specStep cmp key s.alloc l op).1

theorem isVac_ne_occ : Stat.vacant ≠ Stat.occupied := by decide
theorem isVac_not_occ : Stat.has Stat.vacant Stat.occupied = false := by decide

/-- The entry call. -/
theorem Ok.entry (o : Ok cmp key s l T) (hc : LawfulCmp cmp) (k : κ) :
    (∃ t x m A B, entry cmp key s k = some ({ s with t := t }, ⟨some x, Stat.occupied⟩) ∧
      Ok cmp key { s with t := t } l (node x m A B) ∧ t.root = x ∧ t.live = s.t.live ∧ cmp k (key (s.val x)) = .eql ∧
      (∀ e ∈ elems s.val A.ids, cmp k (ekey key e) = .grt) ∧ (∀ e ∈ elems s.val B.ids, cmp k (ekey key e) = .les) ∧
      lookup cmp (ekey key) k l = some (x, s.val x)) ∨
    (∃ t T', entry cmp key s k = some ({ s with t := t }, ⟨none, Stat.vacant⟩) ∧ Ok cmp key { s with t := t } l T' ∧
      T'.ids = T.ids ∧ t.live = s.t.live ∧ lookup cmp (ekey key) k l = none) := by
  rcases o.find hc k with ⟨t, x, m, A, B, hf, h⟩ | ⟨t, T', hf, h⟩
  · exact Or.inl ⟨t, x, m, A, B, by simp [Om.entry, hf], h⟩
  · exact Or.inr ⟨t, T', by simp [Om.entry, hf], h⟩

/-- Overwriting the found element. -/
theorem occupied_set (hc : LawfulCmp cmp) {s1 : Om α} {a m : Nat} {A B : Tree} (o1 : Ok cmp key s1 l (node a m A B))
    {k : κ} {x : α} (ha : cmp k (key (s1.val a)) = .eql) (h1 : ∀ e ∈ elems s1.val A.ids, cmp k (ekey key e) = .grt)
    (h2 : ∀ e ∈ elems s1.val B.ids, cmp k (ekey key e) = .les) (hk : cmp k (key x) = .eql) :
    Ok cmp key { s1 with val := upd s1.val a x } (assign cmp (ekey key) (a, x) l) (node a m A B) := by
  have hk' := hc.symm hk
  have ha' : cmp (key x) (key (s1.val a)) = .eql := by rw [hc.eql_congr_left hk']; exact ha
  obtain ⟨o2, _⟩ := o1.set hc (x := x) (pre := A.ids) (post := B.ids) rfl ha'
  rw [assign_elems (pre := A.ids) (post := B.ids) (o1.list.trans rfl) (fun e he => by rw [hc.eql_congr_left hk']; exact h1 e he) ha'
    (fun e he => by rw [hc.eql_congr_left hk']; exact h2 e he)]
  exact o2

theorem bne_root {x : Nat} (hx : x ≠ 0) : req (x != 0) = some () := by
  simp [req, hx]

theorem step_insert (hc : LawfulCmp cmp) (o : Ok cmp key s l T) {h tmp : Nat} {x y : α} {ans : Option Nat}
    (ok : okOp cmp key s.alloc l (.insert h x tmp y ans)) : StepOk cmp key s l (.insert h x tmp y ans) := by
  obtain ⟨fh, ft, hne, ga, ant⟩ := ok
  have fh' := o.fresh.1 fh
  have ft' := o.fresh.1 ft
  have o1 : Ok cmp key (put (put s tmp y) h x) l T := (o.put ft'.2).put fh'.2
  have hx : (put (put s tmp y) h x).val h = x := put_comm_val
  have hy : (put (put s tmp y) h x).val tmp = y := by
    show upd (upd s.val tmp y) h x tmp = y; rw [upd_ne _ _ (Ne.symm hne)]; simp
  have hal : (put (put s tmp y) h x).alloc = s.alloc := rfl
  simp only [StepOk, step, insert]
  generalize put (put s tmp y) h x = s1 at o1 hx hy hal
  rw [hx]
  rcases o1.find hc (key x) with ⟨t, a, m, A, B, hf, o2, hr, hlv, ha, h1, h2, hlk⟩ | ⟨t, T', hf, o2, hi, hlv, hlk⟩
  · have ham : a ∈ (node a m A B).ids := by simp [ids]
    have ft2 := o2.fresh.1 ft
    have fh2 := o2.fresh.1 fh
    have hat : a ≠ tmp := fun hh => ft2.2 (hh ▸ ham)
    have hah : a ≠ h := fun hh => fh2.2 (hh ▸ ham)
    have o3 := occupied_set hc o2 ha h1 h2 (hc.refl _)
    have o4 := (o3.put (h := tmp) (x := s1.val a) ft2.2).put (h := h) (x := s1.val a) fh2.2
    refine ⟨{ s1 with t := t, val := upd (upd (upd s1.val tmp (s1.val a)) a x) h (s1.val a) }, ?_, ⟨node a m A B, ?_⟩, hal, by
      simp only [specStep, hlk]; exact Touch.ok o3 hr (by simp [hc.refl])⟩
    · rw [hf]
      simp only [Option.bind_eq_bind, Option.bind_some, Option.isSome_some, if_true, hr, bne_root (o2.ne_zero ham),
        specStep, hlk]
      have e1 : upd s1.val tmp (s1.val a) h = x := by rw [upd_ne _ _ hne, hx]
      have e2 : upd (upd s1.val tmp (s1.val a)) a x tmp = s1.val a := by
        rw [upd_ne _ _ (Ne.symm hat)]; simp
      simp only [e1, e2, unwrap_occ, view, Option.map_some, upd_ne _ _ (Ne.symm hne)]
    · have hv : upd (upd (upd s1.val tmp (s1.val a)) a x) h (s1.val a) =
          upd (upd (upd s1.val a x) tmp (s1.val a)) h (s1.val a) := by
        funext b
        simp only [upd]
        by_cases c1 : b = h
        · simp [c1]
        · by_cases c2 : b = a
          · simp [c2, hat]
          · simp [c1, c2]
      simp only [specStep, hlk]
      rw [hv]
      exact o4
  · rw [hf]
    simp only [Option.bind_eq_bind, Option.bind_some, Option.isSome_none, Bool.false_eq_true, if_false]
    have fh2 := o2.fresh.1 fh
    rcases allocInsert_spec o2 hc fh2.1 fh2.2 (ans := ans) ga (by show lookup _ _ (key (s1.val h)) _ = _; rw [hx]; exact hlk) with
      ⟨hn, t3, T3, run, o3⟩ | ⟨n, s', T3, hn, run, o', v', a', hnh, hr'⟩
    · rw [hal] at hn
      refine ⟨{ s1 with t := t3 }, ?_, ⟨T3, ?_⟩, hal, by simp only [specStep, hlk, hn]; exact Touch.miss hlk⟩
      · simp only [run, Option.bind_some, specStep, hlk, hn, unwrap_ie, hy]; rfl
      · simp only [specStep, hlk, hn]; exact o3
    · rw [hal] at hn
      refine ⟨s', ?_, ⟨T3, ?_⟩, by rw [a', hal], by
        simp only [specStep, hlk, hn]; exact Touch.hit mem_place hr' (hc.refl _)⟩
      · simp only [run, Option.bind_some, specStep, hlk, hn, unwrap_vac]
        have htn : tmp ≠ n := by
          rcases hnh with rfl | h'
          · exact Ne.symm hne
          · exact fun hh => ant (by rw [h', hh])
        rw [v', upd_ne _ _ htn, hy]; rfl
      · rw [hx] at o'
        simp only [specStep, hlk, hn]; exact o'

/-- Where `alloc_insert` is the last thing a call does with the map. -/
theorem vacant_case (hc : LawfulCmp cmp) {s1 : Om α} (o1 : Ok cmp key s1 l T) {k : κ} {h : Nat} {x : α} {ans : Option Nat}
    (hx : s1.val h = x) (fh : fresh l h) (ga : goodAns l ans h) (hk : cmp k (key x) = .eql)
    (hlk : lookup cmp (ekey key) k l = none) :
    (addAt s1.alloc (some h) ans = none ∧ ∃ s', allocInsert cmp key s1 h ans = some (s', none) ∧ Sim cmp key s' l ∧
      s'.alloc = s1.alloc) ∨
    (∃ n s', addAt s1.alloc (some h) ans = some n ∧ allocInsert cmp key s1 h ans = some (s', some n) ∧
      Sim cmp key s' (place cmp (ekey key) (n, x) l) ∧ s'.val n = x ∧ s'.alloc = s1.alloc ∧ s'.t.root = n) := by
  have fh' := o1.fresh.1 fh
  rcases allocInsert_spec o1 hc fh'.1 fh'.2 (ans := ans) ga (by rw [hx, ← lookup_congr hc hk]; exact hlk) with
    ⟨hn, t, T', run, o'⟩ | ⟨n, s', T', hn, run, o', v', a', _, r'⟩
  · exact Or.inl ⟨hn, _, run, ⟨T', o'⟩, rfl⟩
  · refine Or.inr ⟨n, s', hn, run, ⟨T', by rw [hx] at o'; exact o'⟩, by rw [v', hx]; simp, a', r'⟩

theorem step_tryInsert (hc : LawfulCmp cmp) (o : Ok cmp key s l T) {h : Nat} {x : α} {ans : Option Nat}
    (ok : okOp cmp key s.alloc l (.tryInsert h x ans)) : StepOk cmp key s l (.tryInsert h x ans) := by
  obtain ⟨fh, ga⟩ := ok
  have fh' := o.fresh.1 fh
  have o1 : Ok cmp key (put s h x) l T := o.put fh'.2
  have hx : (put s h x).val h = x := put_comm_val
  have hal : (put s h x).alloc = s.alloc := rfl
  simp only [StepOk, step, tryInsert]
  generalize put s h x = s1 at o1 hx hal
  rw [hx]
  rcases o1.find hc (key x) with ⟨t, a, m, A, B, hf, o2, hr, hlv, ha, h1, h2, hlk⟩ | ⟨t, T', hf, o2, hi, hlv, hlk⟩
  · have ham : a ∈ (node a m A B).ids := by simp [ids]
    refine ⟨{ s1 with t := t }, ?_, ⟨_, by simp only [specStep, hlk]; exact o2⟩, hal, by
      simp only [specStep, hlk]; exact Touch.ok o2 hr ha⟩
    simp only [hf, Option.bind_eq_bind, Option.bind_some, Option.isSome_some, if_true, hr, bne_root (o2.ne_zero ham),
      specStep, hlk, unwrap_occ, view_some]
  · rw [hf]
    simp only [Option.bind_eq_bind, Option.bind_some, Option.isSome_none, Bool.false_eq_true, if_false]
    rcases vacant_case hc o2 hx fh ga (hc.refl _) hlk with ⟨hn, s', run, sim, a'⟩ | ⟨n, s', hn, run, sim, hv, a', r'⟩
    · rw [show ({ s1 with t := t } : Om α).alloc = s.alloc from hal] at hn a'
      refine ⟨s', ?_, by simp only [specStep, hlk, hn]; exact sim, a', by
        simp only [specStep, hlk, hn]; exact Touch.miss hlk⟩
      simp only [run, Option.bind_some, specStep, hlk, hn, unwrap_ie, view_none]
    · rw [show ({ s1 with t := t } : Om α).alloc = s.alloc from hal] at hn a'
      refine ⟨s', ?_, by simp only [specStep, hlk, hn]; exact sim, a', by
        simp only [specStep, hlk, hn]; exact Touch.hit mem_place r' (hc.refl _)⟩
      simp only [run, Option.bind_some, specStep, hlk, hn, unwrap_vac, view_some, hv]

theorem step_insertOrAssign (hc : LawfulCmp cmp) (o : Ok cmp key s l T) {h : Nat} {x : α} {ans : Option Nat}
    (ok : okOp cmp key s.alloc l (.insertOrAssign h x ans)) : StepOk cmp key s l (.insertOrAssign h x ans) := by
  obtain ⟨fh, ga⟩ := ok
  have fh' := o.fresh.1 fh
  have o1 : Ok cmp key (put s h x) l T := o.put fh'.2
  have hx : (put s h x).val h = x := put_comm_val
  have hal : (put s h x).alloc = s.alloc := rfl
  simp only [StepOk, step, insertOrAssign]
  generalize put s h x = s1 at o1 hx hal
  rw [hx]
  rcases o1.find hc (key x) with ⟨t, a, m, A, B, hf, o2, hr, hlv, ha, h1, h2, hlk⟩ | ⟨t, T', hf, o2, hi, hlv, hlk⟩
  · have ham : a ∈ (node a m A B).ids := by simp [ids]
    refine ⟨{ s1 with t := t, val := upd s1.val a x }, ?_, ⟨_, by
      simp only [specStep, hlk]; exact occupied_set hc o2 ha h1 h2 (hc.refl _)⟩, hal, by
      simp only [specStep, hlk]; exact Touch.ok (occupied_set hc o2 ha h1 h2 (hc.refl _)) hr (by simpa using hc.refl _)⟩
    simp only [hf, Option.bind_eq_bind, Option.bind_some, hr, bne_root (o2.ne_zero ham), hx,
      specStep, hlk, unwrap_occ, view_some, upd_same]
  · rw [hf]
    simp only [Option.bind_eq_bind, Option.bind_some]
    rcases vacant_case hc o2 hx fh ga (hc.refl _) hlk with ⟨hn, s', run, sim, a'⟩ | ⟨n, s', hn, run, sim, hv, a', r'⟩
    · rw [show ({ s1 with t := t } : Om α).alloc = s.alloc from hal] at hn a'
      refine ⟨s', ?_, by simp only [specStep, hlk, hn]; exact sim, a', by
        simp only [specStep, hlk, hn]; exact Touch.miss hlk⟩
      simp only [run, Option.bind_some, specStep, hlk, hn, unwrap_ie, view_none]
    · rw [show ({ s1 with t := t } : Om α).alloc = s.alloc from hal] at hn a'
      refine ⟨s', ?_, by simp only [specStep, hlk, hn]; exact sim, a', by
        simp only [specStep, hlk, hn]; exact Touch.hit mem_place r' (hc.refl _)⟩
      simp only [run, Option.bind_some, specStep, hlk, hn, unwrap_vac, view_some, hv]

theorem step_orInsert (hc : LawfulCmp cmp) (o : Ok cmp key s l T) {k : κ} {h : Nat} {x : α} {ans : Option Nat}
    (ok : okOp cmp key s.alloc l (.orInsert k h x ans)) : StepOk cmp key s l (.orInsert k h x ans) := by
  obtain ⟨fh, ga, hk⟩ := ok
  have fh' := o.fresh.1 fh
  have o1 : Ok cmp key (put s h x) l T := o.put fh'.2
  have hx : (put s h x).val h = x := put_comm_val
  have hal : (put s h x).alloc = s.alloc := rfl
  simp only [StepOk, step, orInsert]
  generalize put s h x = s1 at o1 hx hal
  rcases o1.entry hc k with ⟨t, a, m, A, B, hf, o2, hr, hlv, ha, h1, h2, hlk⟩ | ⟨t, T', hf, o2, hi, hlv, hlk⟩
  · refine ⟨{ s1 with t := t }, ?_, ⟨_, by simp only [specStep, hlk]; exact o2⟩, hal, by
      simp only [specStep, hlk]; exact Touch.ok o2 hr ha⟩
    simp only [hf, Option.bind_eq_bind, Option.bind_some, occ_occ, if_true, specStep, hlk, view_some]
  · rw [hf]
    simp only [Option.bind_eq_bind, Option.bind_some, isVac_not_occ, Bool.false_eq_true, if_false]
    rcases vacant_case hc o2 hx fh ga hk hlk with ⟨hn, s', run, sim, a'⟩ | ⟨n, s', hn, run, sim, hv, a', r'⟩
    · rw [show ({ s1 with t := t } : Om α).alloc = s.alloc from hal] at hn a'
      refine ⟨s', ?_, by simp only [specStep, hlk, hn]; exact sim, a', by
        simp only [specStep, hlk, hn]; exact Touch.miss hlk⟩
      simp only [run, Option.bind_some, specStep, hlk, hn, view_none]
    · rw [show ({ s1 with t := t } : Om α).alloc = s.alloc from hal] at hn a'
      refine ⟨s', ?_, by simp only [specStep, hlk, hn]; exact sim, a', by
        simp only [specStep, hlk, hn]; exact Touch.hit mem_place r' hk⟩
      simp only [run, Option.bind_some, specStep, hlk, hn, view_some, hv]

theorem step_insertEntry (hc : LawfulCmp cmp) (o : Ok cmp key s l T) {k : κ} {h : Nat} {x : α} {ans : Option Nat}
    (ok : okOp cmp key s.alloc l (.insertEntry k h x ans)) : StepOk cmp key s l (.insertEntry k h x ans) := by
  obtain ⟨fh, ga, hk⟩ := ok
  have fh' := o.fresh.1 fh
  have o1 : Ok cmp key (put s h x) l T := o.put fh'.2
  have hx : (put s h x).val h = x := put_comm_val
  have hal : (put s h x).alloc = s.alloc := rfl
  simp only [StepOk, step, insertEntry]
  generalize put s h x = s1 at o1 hx hal
  rcases o1.entry hc k with ⟨t, a, m, A, B, hf, o2, hr, hlv, ha, h1, h2, hlk⟩ | ⟨t, T', hf, o2, hi, hlv, hlk⟩
  · refine ⟨{ s1 with t := t, val := upd s1.val a x }, ?_, ⟨_, by
      simp only [specStep, hlk]; exact occupied_set hc o2 ha h1 h2 hk⟩, hal, by
      simp only [specStep, hlk]; exact Touch.ok (occupied_set hc o2 ha h1 h2 hk) hr (by simpa using hk)⟩
    simp only [hf, Option.bind_eq_bind, Option.bind_some, if_true, specStep, hlk, view_some, hx, upd_same]
  · rw [hf]
    simp only [Option.bind_eq_bind, Option.bind_some, if_neg isVac_ne_occ]
    rcases vacant_case hc o2 hx fh ga hk hlk with ⟨hn, s', run, sim, a'⟩ | ⟨n, s', hn, run, sim, hv, a', r'⟩
    · rw [show ({ s1 with t := t } : Om α).alloc = s.alloc from hal] at hn a'
      refine ⟨s', ?_, by simp only [specStep, hlk, hn]; exact sim, a', by
        simp only [specStep, hlk, hn]; exact Touch.miss hlk⟩
      simp only [run, Option.bind_some, specStep, hlk, hn, view_none]
    · rw [show ({ s1 with t := t } : Om α).alloc = s.alloc from hal] at hn a'
      refine ⟨s', ?_, by simp only [specStep, hlk, hn]; exact sim, a', by
        simp only [specStep, hlk, hn]; exact Touch.hit mem_place r' hk⟩
      simp only [run, Option.bind_some, specStep, hlk, hn, view_some, hv]

/-! The lazily evaluating macros. -/

theorem newMem_eq (s : Om α) (ans : Option Nat) : newMem s ans = addAt s.alloc none ans := rfl

theorem lazy_case (hc : LawfulCmp cmp) (o : Ok cmp key s l T) {k : κ} {x : α} {ans : Option Nat}
    (hlk : lookup cmp (ekey key) k l = none) (ga : goodAns l ans 0) (hk : cmp k (key x) = .eql) {n : Nat}
    (hn : addAt s.alloc none ans = some n) :
    ∃ s', insertNode cmp key { s with val := upd s.val n x } n = some (s', some n) ∧
      Sim cmp key s' (place cmp (ekey key) (n, x) l) ∧ s'.val n = x ∧ s'.alloc = s.alloc ∧ s'.t.root = n := by
  have hf : fresh l n := by
    cases hal : s.alloc with
    | true => rw [hal] at hn; exact (ga n hn).1
    | false => rw [hal] at hn; simp [addAt] at hn
  have hf' := o.fresh.1 hf
  have o1 : Ok cmp key (put s n x) l T := o.put hf'.2
  have hx : (put s n x).val n = x := put_comm_val
  obtain ⟨s', T', run, o', v', a', r'⟩ := insertNode_spec o1 hc hf'.1 hf'.2 (by rw [hx, ← lookup_congr hc hk]; exact hlk)
  rw [hx] at o'
  exact ⟨s', run, ⟨T', o'⟩, by rw [v', hx], a', r'⟩

theorem step_orInsertW (hc : LawfulCmp cmp) (o : Ok cmp key s l T) {k : κ} {x : α} {ans : Option Nat}
    (ok : okOp cmp key s.alloc l (.orInsertW k x ans)) : StepOk cmp key s l (.orInsertW k x ans) := by
  obtain ⟨ga, hk⟩ := ok
  simp only [StepOk, step, orInsertW]
  rcases o.entry hc k with ⟨t, a, m, A, B, hf, o2, hr, hlv, ha, h1, h2, hlk⟩ | ⟨t, T', hf, o2, hi, hlv, hlk⟩
  · refine ⟨{ s with t := t }, ?_, ⟨_, by simp only [specStep, hlk]; exact o2⟩, rfl, by
      simp only [specStep, hlk]; exact Touch.ok o2 hr ha⟩
    simp only [hf, Option.bind_eq_bind, Option.bind_some, if_true, specStep, hlk, view_some]
  · rw [hf]
    simp only [Option.bind_eq_bind, Option.bind_some, if_neg isVac_ne_occ, newMem_eq]
    cases hn : addAt s.alloc none ans with
    | none =>
      refine ⟨{ s with t := t }, ?_, ⟨_, by simp only [specStep, hlk, hn]; exact o2⟩, rfl, by
        simp only [specStep, hlk, hn]; exact Touch.miss hlk⟩
      simp only [insertKeyVal, Option.bind_some, specStep, hlk, hn, view_none]
    | some n =>
      obtain ⟨s', run, sim, hv, a', r'⟩ := lazy_case hc o2 hlk ga hk hn
      refine ⟨s', ?_, by simp only [specStep, hlk, hn]; exact sim, a', by
        simp only [specStep, hlk, hn]; exact Touch.hit mem_place r' hk⟩
      simp only [insertKeyVal, run, Option.bind_some, specStep, hlk, hn, view_some, hv]

theorem step_insertEntryW (hc : LawfulCmp cmp) (o : Ok cmp key s l T) {k : κ} {x : α} {ans : Option Nat}
    (ok : okOp cmp key s.alloc l (.insertEntryW k x ans)) : StepOk cmp key s l (.insertEntryW k x ans) := by
  obtain ⟨ga, hk⟩ := ok
  simp only [StepOk, step, insertEntryW]
  rcases o.entry hc k with ⟨t, a, m, A, B, hf, o2, hr, hlv, ha, h1, h2, hlk⟩ | ⟨t, T', hf, o2, hi, hlv, hlk⟩
  · refine ⟨{ s with t := t, val := upd s.val a x }, ?_, ⟨_, by
      simp only [specStep, hlk]; exact occupied_set hc o2 ha h1 h2 hk⟩, rfl, by
      simp only [specStep, hlk]; exact Touch.ok (occupied_set hc o2 ha h1 h2 hk) hr (by simpa using hk)⟩
    simp only [hf, Option.bind_eq_bind, Option.bind_some, if_true, occ_occ, Bool.not_true, Bool.false_eq_true, if_false,
      specStep, hlk, view_some, upd_same]
  · rw [hf]
    simp only [Option.bind_eq_bind, Option.bind_some, isVac_not_occ, Bool.not_false, if_true, newMem_eq]
    cases hn : addAt s.alloc none ans with
    | none =>
      refine ⟨{ s with t := t }, ?_, ⟨_, by simp only [specStep, hlk, hn]; exact o2⟩, rfl, by
        simp only [specStep, hlk, hn]; exact Touch.miss hlk⟩
      simp only [insertKeyVal, Option.bind_some, specStep, hlk, hn, view_none]
    | some n =>
      obtain ⟨s', run, sim, hv, a', r'⟩ := lazy_case hc o2 hlk ga hk hn
      refine ⟨s', ?_, by simp only [specStep, hlk, hn]; exact sim, a', by
        simp only [specStep, hlk, hn]; exact Touch.hit mem_place r' hk⟩
      simp only [insertKeyVal, run, Option.bind_some, specStep, hlk, hn, view_some, hv]

theorem step_tryInsertW (hc : LawfulCmp cmp) (o : Ok cmp key s l T) {k : κ} {x : α} {ans : Option Nat}
    (ok : okOp cmp key s.alloc l (.tryInsertW k x ans)) : StepOk cmp key s l (.tryInsertW k x ans) := by
  obtain ⟨ga, hk⟩ := ok
  simp only [StepOk, step, tryInsertW]
  rcases o.entry hc k with ⟨t, a, m, A, B, hf, o2, hr, hlv, ha, h1, h2, hlk⟩ | ⟨t, T', hf, o2, hi, hlv, hlk⟩
  · refine ⟨{ s with t := t }, ?_, ⟨_, by simp only [specStep, hlk]; exact o2⟩, rfl, by
      simp only [specStep, hlk]; exact Touch.ok o2 hr ha⟩
    simp only [hf, Option.bind_eq_bind, Option.bind_some, if_true, occ_occ, Bool.not_true, Bool.false_eq_true, if_false,
      specStep, hlk, view_some, unwrap_occ]
  · rw [hf]
    simp only [Option.bind_eq_bind, Option.bind_some, isVac_not_occ, Bool.not_false, if_true, insertAndCopyKey, newMem_eq]
    cases hn : addAt s.alloc none ans with
    | none =>
      refine ⟨{ s with t := t }, ?_, ⟨_, by simp only [specStep, hlk, hn]; exact o2⟩, rfl, by
        simp only [specStep, hlk, hn]; exact Touch.miss hlk⟩
      simp only [Option.bind_some, specStep, hlk, hn, view_none, unwrap_ie]
    | some n =>
      obtain ⟨s', run, sim, hv, a', r'⟩ := lazy_case hc o2 hlk ga hk hn
      refine ⟨s', ?_, by simp only [specStep, hlk, hn]; exact sim, a', by
        simp only [specStep, hlk, hn]; exact Touch.hit mem_place r' hk⟩
      simp only [run, Option.bind_eq_bind, Option.bind_some, specStep, hlk, hn, view_some, hv, unwrap_ie]

theorem step_insertOrAssignW (hc : LawfulCmp cmp) (o : Ok cmp key s l T) {k : κ} {x : α} {ans : Option Nat}
    (ok : okOp cmp key s.alloc l (.insertOrAssignW k x ans)) : StepOk cmp key s l (.insertOrAssignW k x ans) := by
  obtain ⟨ga, hk⟩ := ok
  simp only [StepOk, step, insertOrAssignW]
  rcases o.entry hc k with ⟨t, a, m, A, B, hf, o2, hr, hlv, ha, h1, h2, hlk⟩ | ⟨t, T', hf, o2, hi, hlv, hlk⟩
  · refine ⟨{ s with t := t, val := upd s.val a x }, ?_, ⟨_, by
      simp only [specStep, hlk]; exact occupied_set hc o2 ha h1 h2 hk⟩, rfl, by
      simp only [specStep, hlk]; exact Touch.ok (occupied_set hc o2 ha h1 h2 hk) hr (by simpa using hk)⟩
    simp only [hf, Option.bind_eq_bind, Option.bind_some, if_true, occ_occ, Bool.not_true, Bool.false_eq_true, if_false,
      specStep, hlk, view_some, unwrap_occ, upd_same]
  · rw [hf]
    simp only [Option.bind_eq_bind, Option.bind_some, isVac_not_occ, Bool.not_false, if_true, insertAndCopyKey, newMem_eq]
    cases hn : addAt s.alloc none ans with
    | none =>
      refine ⟨{ s with t := t }, ?_, ⟨_, by simp only [specStep, hlk, hn]; exact o2⟩, rfl, by
        simp only [specStep, hlk, hn]; exact Touch.miss hlk⟩
      simp only [Option.bind_some, specStep, hlk, hn, view_none, unwrap_ie]
    | some n =>
      obtain ⟨s', run, sim, hv, a', r'⟩ := lazy_case hc o2 hlk ga hk hn
      refine ⟨s', ?_, by simp only [specStep, hlk, hn]; exact sim, a', by
        simp only [specStep, hlk, hn]; exact Touch.hit mem_place r' hk⟩
      simp only [run, Option.bind_eq_bind, Option.bind_some, specStep, hlk, hn, view_some, hv, unwrap_ie]

/-! Removal, modification. -/

theorem step_remove (hc : LawfulCmp cmp) (o : Ok cmp key s l T) {h : Nat} {x : α}
    (ok : okOp cmp key s.alloc l (.remove h x)) : StepOk cmp key s l (.remove h x) := by
  have o1 : Ok cmp key (put s h x) l T := by
    rcases ok with fh | ⟨_, hm⟩
    · exact o.put (o.fresh.1 fh).2
    · rw [o.list, mem_elems] at hm
      have hp : put s h x = s := by
        simp only [put]
        have : upd s.val h x = s.val := by
          funext b; by_cases hb : b = h
          · rw [hb, upd_same]; exact hm.2
          · exact upd_ne _ _ hb
        rw [this]
      rw [hp]; exact o
  have hx : (put s h x).val h = x := put_comm_val
  have hal1 : (put s h x).alloc = s.alloc := rfl
  simp only [StepOk, step, remove]
  generalize put s h x = s1 at o1 hx hal1
  rw [hx]
  rcases erase_spec o1 hc (key x) with ⟨pre, a, post, s', T', e, ha, h1, h2, hf, o', i', v', a', hlk⟩ | ⟨t, T', hf, o', hlk⟩
  · have hl : MapSpec.erase cmp (ekey key) (key x) l = elems s1.val (pre ++ post) := by
      rw [o1.list, e]; exact remove_list h1 ha h2
    have hal : s'.alloc = s.alloc := a'.trans hal1
    cases hb : s.alloc with
    | true =>
      have fh : fresh l h := by
        rcases ok with fh | ⟨h0, _⟩
        · exact fh
        · rw [hb] at h0; cases h0
      have fh' := o.fresh.1 fh
      have hh : h ∉ T'.ids := by
        rw [i']; intro hh
        have : h ∈ T.ids := by
          rw [e]; simp only [List.mem_append, List.mem_cons] at hh ⊢
          rcases hh with hh | hh
          · exact Or.inl hh
          · exact Or.inr (Or.inr hh)
        exact (o.fresh.1 fh).2 this
      refine ⟨put s' h (s'.val a), ?_, ⟨T', ?_⟩, by rw [← hb]; exact hal, Touch.no⟩
      · simp only [hf, Option.bind_eq_bind, Option.bind_some, specStep, hlk, hal, hb, if_true, unwrap_occ, view_some,
          upd_same, v']
        simp only [put, hal, hb, v']
      · simp only [specStep, hlk, hl]; exact o'.put hh
    | false =>
      refine ⟨s', ?_, ⟨T', by simp only [specStep, hlk, hl]; exact o'⟩, by rw [hal, hb], Touch.no⟩
      simp only [hf, Option.bind_eq_bind, Option.bind_some, specStep, hlk, hal, hb, Bool.false_eq_true, if_false,
        unwrap_occ, view_some, v']
  · refine ⟨{ s1 with t := t }, ?_, ⟨T', by simp only [specStep, hlk]; exact o'⟩, hal1, Touch.no⟩
    simp only [hf, Option.bind_eq_bind, Option.bind_some, specStep, hlk, unwrap_vac, view_none]

theorem step_removeEntry (hc : LawfulCmp cmp) (o : Ok cmp key s l T) {k : κ} :
    StepOk cmp key s l (.removeEntry k) := by
  simp only [StepOk, step, removeEntry]
  rcases o.entry hc k with ⟨t, a, m, A, B, hf, o2, hr, hlv, ha, h1, h2, hlk⟩ | ⟨t, T', hf, o2, hi, hlv, hlk⟩
  · have hcg : ∀ y, cmp (key (s.val a)) y = cmp k y := fun y => hc.eql_congr_left (hc.symm ha) y
    rcases erase_spec o2 hc (key (s.val a)) with ⟨pre, b, post, s', T', e, hb, g1, g2, hg, o', i', v', a', hlk'⟩ |
      ⟨t', T', hg, o', hlk'⟩
    · have hlk2 := (lookup_congr (key := key) (l := l) hc ha).symm.trans hlk
      rw [hlk2] at hlk'
      simp only [Option.some.injEq, Prod.mk.injEq] at hlk'
      obtain ⟨rfl, -⟩ := hlk'
      have hl : MapSpec.erase cmp (ekey key) k l = elems s.val (pre ++ post) := by
        have : l = elems s.val (pre ++ a :: post) := by rw [← e]; exact o2.list
        rw [this]
        exact remove_list (fun e he => by rw [← hcg]; exact g1 e he) ha (fun e he => by rw [← hcg]; exact g2 e he)
      refine ⟨s', ?_, ⟨T', by simp only [specStep, hlk, hl]; exact o'⟩, a', Touch.no⟩
      cases hb : s.alloc with
      | true =>
        have a2 : s'.alloc = true := a'.trans hb
        simp only [hf, Option.bind_eq_bind, Option.bind_some, if_true, hg, a2, specStep, hlk, unwrap_occ, view_none]
      | false =>
        have a2 : s'.alloc = false := a'.trans hb
        simp only [hf, Option.bind_eq_bind, Option.bind_some, if_true, hg, a2, Bool.false_eq_true, if_false, specStep, hlk,
          unwrap_occ, view_some, v']
    · rw [← lookup_congr hc ha, hlk] at hlk'; cases hlk'
  · refine ⟨{ s with t := t }, ?_, ⟨T', by simp only [specStep, hlk]; exact o2⟩, rfl, Touch.no⟩
    simp only [hf, Option.bind_eq_bind, Option.bind_some, if_neg isVac_ne_occ, specStep, hlk, unwrap_vac, view_none]

theorem step_andModify (hc : LawfulCmp cmp) (o : Ok cmp key s l T) {k : κ} {f : α → α}
    (ok : okOp cmp key s.alloc l (.andModify k f)) : StepOk cmp key s l (.andModify k f) := by
  simp only [StepOk, step, andModify]
  rcases o.entry hc k with ⟨t, a, m, A, B, hf, o2, hr, hlv, ha, h1, h2, hlk⟩ | ⟨t, T', hf, o2, hi, hlv, hlk⟩
  · have hm : (a, s.val a) ∈ l := by rw [o2.list, mem_elems]; exact ⟨by simp [ids], rfl⟩
    have hk := ok (a, s.val a) hm ha
    obtain ⟨o3, el3⟩ := o2.set hc (x := f (s.val a)) (pre := A.ids) (post := B.ids) rfl hk
    have hmap : l.map (fun e => if e.1 = a then (a, f e.2) else e) =
        elems (upd s.val a (f (s.val a))) (node a m A B).ids := by
      rw [o2.list]
      simp only [elems, List.map_map]
      refine List.map_congr_left (fun b hb => ?_)
      by_cases hba : b = a
      · subst hba; simp
      · simp [hba, upd_ne _ _ hba]
    refine ⟨{ s with t := t, val := upd s.val a (f (s.val a)) }, ?_, ⟨_, by
      simp only [specStep, hlk]; rw [hmap]; exact el3 ▸ o3⟩, rfl, by
      simp only [specStep, hlk]; rw [hmap]; exact Touch.ok (el3 ▸ o3) hr (by
        simp only [upd_same]; rw [hc.eql_congr_left ha]; exact hc.symm hk)⟩
    simp only [hf, Option.bind_eq_bind, Option.bind_some, occ_occ, if_true, specStep, hlk, unwrap, view_some, upd_same]
  · refine ⟨{ s with t := t }, ?_, ⟨T', by simp only [specStep, hlk]; exact o2⟩, rfl, by
      simp only [specStep, hlk]; exact Touch.miss hlk⟩
    simp only [hf, Option.bind_eq_bind, Option.bind_some, isVac_not_occ, Bool.false_eq_true, if_false, specStep, hlk,
      unwrap, if_neg isVac_ne_occ, view_none]

/-! Queries. -/

theorem step_occupied (hc : LawfulCmp cmp) (o : Ok cmp key s l T) {k : κ} : StepOk cmp key s l (.occupied k) := by
  simp only [StepOk, step]
  rcases o.entry hc k with ⟨t, a, m, A, B, hf, o2, hr, hlv, ha, h1, h2, hlk⟩ | ⟨t, T', hf, o2, hi, hlv, hlk⟩
  · refine ⟨{ s with t := t }, ?_, ⟨_, o2⟩, rfl, Touch.ok o2 hr ha⟩
    simp only [hf, Option.bind_eq_bind, Option.bind_some, specStep, hlk, occupied, occ_occ, Option.isSome_some]
  · refine ⟨{ s with t := t }, ?_, ⟨_, o2⟩, rfl, Touch.miss hlk⟩
    simp only [hf, Option.bind_eq_bind, Option.bind_some, specStep, hlk, occupied, isVac_not_occ, Option.isSome_none]

theorem step_get (hc : LawfulCmp cmp) (o : Ok cmp key s l T) {k : κ} : StepOk cmp key s l (.get k) := by
  simp only [StepOk, step, get]
  rcases o.find hc k with ⟨t, a, m, A, B, hf, o2, hr, hlv, ha, h1, h2, hlk⟩ | ⟨t, T', hf, o2, hi, hlv, hlk⟩
  · refine ⟨{ s with t := t }, ?_, ⟨_, o2⟩, rfl, Touch.ok o2 hr ha⟩
    simp only [hf, Option.bind_eq_bind, Option.bind_some, specStep, hlk, view_some]
  · refine ⟨{ s with t := t }, ?_, ⟨_, o2⟩, rfl, Touch.miss hlk⟩
    simp only [hf, Option.bind_eq_bind, Option.bind_some, specStep, hlk, view_none]

theorem Ok.nil_iff (o : Ok cmp key s l T) : l = [] ↔ T = nil := by
  rw [o.list]
  cases T with
  | nil => simp [elems, ids]
  | node i m a b => simp [elems, ids]

theorem step_contains (hc : LawfulCmp cmp) (o : Ok cmp key s l T) {k : κ} (hne : l ≠ []) :
    StepOk cmp key s l (.contains k) := by
  have hT : T ≠ nil := fun h => hne (o.nil_iff.2 h)
  obtain ⟨t, i, m, A, B, _, o', hr, hi, hA, hB, hlv, run⟩ := o.splay hc hT k
  have hlk := lookup_after o'.list hc hA hB
  refine ⟨{ s with t := t }, ?_, ⟨_, o'⟩, rfl, by
    by_cases he : cmp k (key (s.val i)) = .eql
    · exact Touch.ok o' hr he
    · exact Touch.miss (hlk.2 he)⟩
  simp only [step, contains, run, Option.bind_eq_bind, Option.bind_some, specStep]
  by_cases he : cmp k (key (s.val i)) = .eql
  · simp only [hlk.1 he, Option.isSome_some, he]; rfl
  · have he' : (cmp k (key (s.val i)) == .eql) = false := by simpa using he
    simp only [hlk.2 he, Option.isSome_none, he']

theorem begin_eq (o : Ok cmp key s l T) : begin_ s = some (toSlot (endOf false T.ids)) := by
  cases T with
  | nil =>
    have : s.sz = 0 := by rw [o.size, o.list]; rfl
    simp [begin_, this, endOf, ids, toSlot]
  | node i m a b =>
    have hsz : s.sz ≠ 0 := by rw [o.size, o.list]; simp [elems, ids]
    have := minMaxFrom_whole o.whole false
    rw [minMaxFrom, if_neg (by rw [o.root]; exact o.ne_zero (by simp [ids]))] at this
    have hz : endOf false (node i m a b).ids ≠ 0 := by
      apply o.ne_zero
      simp only [endOf, Bool.false_eq_true, if_false]
      cases hi : (node i m a b).ids with
      | nil => simp [ids] at hi
      | cons x xs => simp
    simp only [begin_, if_neg hsz, this, Option.bind_eq_bind, Option.bind_some, toSlot, if_neg hz]

theorem rbegin_eq (o : Ok cmp key s l T) : rbegin s = some (toSlot (endOf true T.ids)) := by
  cases T with
  | nil =>
    have : s.sz = 0 := by rw [o.size, o.list]; rfl
    simp [rbegin, this, endOf, ids, toSlot]
  | node i m a b =>
    have hsz : s.sz ≠ 0 := by rw [o.size, o.list]; simp [elems, ids]
    have := minMaxFrom_whole o.whole true
    rw [minMaxFrom, if_neg (by rw [o.root]; exact o.ne_zero (by simp [ids]))] at this
    have hz : endOf true (node i m a b).ids ≠ 0 := by
      apply o.ne_zero
      simp only [endOf, if_true]
      cases hi : (node i m a b).ids with
      | nil => simp [ids] at hi
      | cons x xs => rw [List.getLastD_eq_getLast?, List.getLast?_eq_some_getLast (by simp)]; exact List.getLast_mem _
    simp only [rbegin, if_neg hsz, this, Option.bind_eq_bind, Option.bind_some, toSlot, if_neg hz]

theorem step_begin (o : Ok cmp key s l T) : StepOk cmp key s l .begin := by
  refine ⟨s, ?_, ⟨T, o⟩, rfl, Touch.no⟩
  simp only [step, begin_eq o, Option.bind_eq_bind, Option.bind_some, specStep, endOf, Bool.false_eq_true, if_false]
  rw [view_head (fun a ha => o.ne_zero ha), o.list]

theorem step_rbegin (o : Ok cmp key s l T) : StepOk cmp key s l .rbegin := by
  refine ⟨s, ?_, ⟨T, o⟩, rfl, Touch.no⟩
  simp only [step, rbegin_eq o, Option.bind_eq_bind, Option.bind_some, specStep, endOf, if_true]
  rw [view_last (fun a ha => o.ne_zero ha), o.list]

theorem Ok.split (o : Ok cmp key s l T) {a : Nat} (h : ∃ e ∈ l, e.1 = a) : ∃ pre post, T.ids = pre ++ a :: post ∧
    a ∉ pre ∧ a ∉ post := by
  obtain ⟨e, he, rfl⟩ := h
  rw [o.list, mem_elems] at he
  obtain ⟨pre, post, hs⟩ := List.append_of_mem he.1
  have hn := o.nodup
  rw [hs, List.nodup_append, List.nodup_cons] at hn
  exact ⟨pre, post, hs, fun hh => hn.2.2 _ hh _ (by simp) rfl, hn.2.1.1⟩

theorem step_next (o : Ok cmp key s l T) {a : Nat} (ok : okOp cmp key s.alloc l (.next a : Op α κ)) :
    StepOk cmp key s l (.next a) := by
  obtain ⟨pre, post, e, h1, h2⟩ := o.split ok
  refine ⟨s, ?_, ⟨T, o⟩, rfl, Touch.no⟩
  simp only [step, next, next_whole o.whole e true, Option.bind_eq_bind, Option.bind_some, specStep, if_true]
  rw [view_head (fun b hb => o.ne_zero (by rw [e]; simp [hb])), o.list, e, dropWhile_split h1]

theorem step_rnext (o : Ok cmp key s l T) {a : Nat} (ok : okOp cmp key s.alloc l (.rnext a : Op α κ)) :
    StepOk cmp key s l (.rnext a) := by
  obtain ⟨pre, post, e, h1, h2⟩ := o.split ok
  refine ⟨s, ?_, ⟨T, o⟩, rfl, Touch.no⟩
  simp only [step, rnext, next_whole o.whole e false, Option.bind_eq_bind, Option.bind_some, specStep, Bool.false_eq_true,
    if_false]
  rw [view_last (fun b hb => o.ne_zero (by rw [e]; simp [hb])), o.list, e]
  have : (elems s.val (pre ++ a :: post)).reverse = elems s.val (post.reverse ++ a :: pre.reverse) := by
    simp [elems]
  rw [this, dropWhile_split (by simpa using h2)]
  simp [elems]

/-- Range queries: the end points, and the state after the two splays. -/
theorem Ok.range (o : Ok cmp key s l T) (hc : LawfulCmp cmp) (b e : κ) (trav : Bool) : ∃ t T',
    Ok cmp key { s with t := t } l T' ∧ T'.ids = T.ids ∧ equalRange cmp key s b e trav = some ({ s with t := t },
      toSlot (((if trav then T.ids else T.ids.reverse).find?
        (fun a => cmp b (key (s.val a)) != (if trav then Cmp.grt else Cmp.les))).getD 0),
      toSlot (((if trav then T.ids else T.ids.reverse).find?
        (fun a => cmp e (key (s.val a)) == (if trav then Cmp.les else Cmp.grt))).getD 0)) := by
  by_cases hT : T = nil
  · subst hT
    have hl : l = [] := o.list
    have hsz : s.sz = 0 := by rw [o.size, hl]; rfl
    refine ⟨s.t, nil, o, rfl, ?_⟩
    rw [equalRange, if_pos hsz]; cases trav <;> rfl
  · have hsz : s.sz ≠ 0 := by
      rw [o.size]; intro h
      exact hT (o.nil_iff.1 (List.eq_nil_of_length_eq_zero h))
    obtain ⟨t, T', run, w, hi, _⟩ := Splay.equalRange_spec o.whole hT (o.cmpAt b) (o.cmpAt e) (o.mono hc b) (o.mono hc e) trav
    refine ⟨t, T', o.reshape w hi, hi, ?_⟩
    rw [equalRange, if_neg hsz, run]; rfl

theorem step_range (hc : LawfulCmp cmp) (o : Ok cmp key s l T) {b e : κ} :
    StepOk cmp key s l (.equalRange b e) ∧ StepOk cmp key s l (.equalRrange b e) := by
  have h0 : ∀ a ∈ T.ids, a ≠ 0 := fun a ha => o.ne_zero ha
  have h0' : ∀ a ∈ T.ids.reverse, a ≠ 0 := by simpa using h0
  have er : (elems s.val T.ids).reverse = elems s.val T.ids.reverse := by simp [elems]
  constructor
  · obtain ⟨t, T', o', _, run⟩ := o.range hc b e true
    refine ⟨{ s with t := t }, ?_, ⟨_, o'⟩, rfl, Touch.no⟩
    simp only [step, run, if_true, Option.bind_eq_bind, Option.bind_some, specStep, firstNotLess, firstGreater]
    rw [o.list, ← view_find h0, ← view_find h0]
    rfl
  · obtain ⟨t, T', o', _, run⟩ := o.range hc b e false
    refine ⟨{ s with t := t }, ?_, ⟨_, o'⟩, rfl, Touch.no⟩
    simp only [step, run, Bool.false_eq_true, if_false, Option.bind_eq_bind, Option.bind_some, specStep, lastNotGreater,
      lastLess]
    rw [o.list, er, ← view_find h0', ← view_find h0']
    rfl

theorem validate_spec (hc : LawfulCmp cmp) (o : Ok cmp key s l T) : validate cmp key s = some true := by
  have hs : T.ids.Pairwise (fun a b => cmp (key (s.val a)) (key (s.val b)) = .les) := by
    have := o.sorted
    rw [o.list] at this
    unfold Sorted elems at this
    rw [List.pairwise_map] at this
    exact this
  have hsz : T.ids.length = s.sz := by rw [o.size, o.list]; simp [elems]
  rw [validate]
  simp only [o.root, areSubtreesValid_spec hc s (low := 0) (high := 0) o.whole.tree hs (by simp) (by simp),
    recursiveSize_spec o.whole.tree, isStoringParent_spec (p := 0) (by simpa using o.whole.tree), Option.bind_eq_bind,
    Option.bind_some, Bool.not_true, Bool.false_eq_true, if_false, hsz, beq_self_eq_true]

theorem clearLoop_spec (hc : LawfulCmp cmp) (n : Nat) : ∀ {s : Om α} {l : List (Nat × α)} {T : Tree}
    (acc : List (Nat × α)), Ok cmp key s l T → l.length = n →
    ∃ s' d, clearLoop cmp key s acc = some (s', acc ++ d) ∧ d.Perm l ∧ Ok cmp key s' [] nil ∧ s'.val = s.val ∧
      s'.alloc = s.alloc := by
  induction n with
  | zero =>
    intro s l T acc o hl
    have hl' : l = [] := List.eq_nil_of_length_eq_zero hl
    have hT := o.nil_iff.1 hl'
    subst hl'; subst hT
    refine ⟨s, [], ?_, List.Perm.refl _, o, rfl, rfl⟩
    rw [clearLoop]; simp [isEmpty, o.empty_iff.2 rfl]
  | succ n ih =>
    intro s l T acc o hl
    have hne : T ≠ nil := by intro h; rw [o.nil_iff.2 h] at hl; simp at hl
    have hr : s.t.root ∈ T.ids := by
      rw [o.root]; cases T with
      | nil => exact absurd rfl hne
      | node i m a b => simp [ids]
    rcases erase_spec o hc (key (s.val s.t.root)) with ⟨pre, x, post, s1, T1, e, hx, h1, h2, hf, o1, i1, v1, a1, hlk⟩ |
      ⟨t, T1, hf, o1, hlk⟩
    · have hl1 : (elems s.val (pre ++ post)).length = n := by
        have := hl
        rw [o.list, e] at this
        simp [elems] at this ⊢
        omega
      obtain ⟨s', d, run', p', o', v', a'⟩ := ih (acc ++ [(x, s1.val x)]) o1 hl1
      refine ⟨s', (x, s1.val x) :: d, ?_, ?_, o', by rw [v', v1], by rw [a', a1]⟩
      · rw [clearLoop]
        simp only [isEmpty, o.not_empty hne, Bool.false_eq_true, if_false, hf, Option.bind_eq_bind, Option.bind_some, run']
        simp
      · rw [v1, o.list, e, elems_append]
        rw [elems_append] at p'
        exact (p'.cons (x, s.val x)).trans (List.perm_middle).symm
    · have : lookup cmp (ekey key) (key (s.val s.t.root)) l ≠ none := by
        intro hh
        have hm : (s.t.root, s.val s.t.root) ∈ l := by rw [o.list, mem_elems]; exact ⟨hr, rfl⟩
        unfold lookup at hh
        have := List.find?_eq_none.1 hh _ hm
        simp [ekey, hc.refl] at this
      exact absurd hlk this

/-- The call does not run into the missing emptiness test of `contains`. -/
def safeOp (l : List (Nat × α)) : Op α κ → Prop
  | .contains _ => l ≠ []
  | _ => True

/-- Every call, from every state that represents a sorted list, answers as specified and leads to a state that
represents the specified list. -/
theorem step_spec (hc : LawfulCmp cmp) (o : Ok cmp key s l T) (op : Op α κ) (ok : okOp cmp key s.alloc l op)
    (sf : safeOp l op) : StepOk cmp key s l op := by
  cases op with
  | insert h x tmp y ans => exact step_insert hc o ok
  | tryInsert h x ans => exact step_tryInsert hc o ok
  | insertOrAssign h x ans => exact step_insertOrAssign hc o ok
  | remove h x => exact step_remove hc o ok
  | orInsert k h x ans => exact step_orInsert hc o ok
  | insertEntry k h x ans => exact step_insertEntry hc o ok
  | removeEntry k => exact step_removeEntry hc o
  | andModify k f => exact step_andModify hc o ok
  | occupied k => exact step_occupied hc o
  | orInsertW k x ans => exact step_orInsertW hc o ok
  | insertEntryW k x ans => exact step_insertEntryW hc o ok
  | tryInsertW k x ans => exact step_tryInsertW hc o ok
  | insertOrAssignW k x ans => exact step_insertOrAssignW hc o ok
  | contains k => exact step_contains hc o sf
  | get k => exact step_get hc o
  | begin => exact step_begin o
  | rbegin => exact step_rbegin o
  | next a => exact step_next o ok
  | rnext a => exact step_rnext o ok
  | equalRange b e => exact (step_range hc o).1
  | equalRrange b e => exact (step_range hc o).2
  | size => exact ⟨s, by simp only [step, size, specStep, o.size], ⟨T, o⟩, rfl, Touch.no⟩
  | isEmpty =>
    refine ⟨s, ?_, ⟨T, o⟩, rfl, Touch.no⟩
    have : empty s = l.isEmpty := by
      by_cases h : T = nil
      · rw [o.empty_iff.2 h, o.nil_iff.2 h]; rfl
      · rw [o.not_empty h]
        cases l with
        | nil => exact absurd (o.nil_iff.1 rfl) h
        | cons => rfl
    simp only [step, isEmpty, specStep, this]
  | validate =>
    refine ⟨s, ?_, ⟨T, o⟩, rfl, Touch.no⟩
    simp only [step, validate_spec hc o, specStep, Option.bind_eq_bind, Option.bind_some]
  | clear =>
    obtain ⟨s', d, run, _, o', _, a'⟩ := clearLoop_spec hc l.length [] o rfl
    refine ⟨s', ?_, ⟨nil, o'⟩, a', Touch.no⟩
    simp only [step, clear, run, specStep, Option.bind_eq_bind, Option.bind_some]

theorem init_ok (mem : Nat → α) (al : Bool) : Ok cmp key (init mem al) [] nil :=
  ⟨⟨rfl, trivial, by simp [ids], rfl⟩, rfl, List.Pairwise.nil, rfl⟩

/-- What is asked of the caller of a history: what the documentation says (`okOp`) and no `contains` on an empty
map. -/
def safeRun (cmp : κ → κ → Cmp) (key : α → κ) (al : Bool) : List (Nat × α) → List (Op α κ) → Prop
  | _, [] => True
  | l, o :: os => okOp cmp key al l o ∧ safeOp l o ∧ safeRun cmp key al (specStep cmp key al l o).1 os

theorem run_spec (hc : LawfulCmp cmp) (ops : List (Op α κ)) : ∀ {s : Om α} {l : List (Nat × α)},
    Sim cmp key s l → safeRun cmp key s.alloc l ops →
    ∃ s', run cmp key s ops = some (s', (specRun cmp key s.alloc l ops).2) ∧
      Sim cmp key s' (specRun cmp key s.alloc l ops).1 ∧ s'.alloc = s.alloc := by
  induction ops with
  | nil => intro s l h _; exact ⟨s, rfl, h, rfl⟩
  | cons o os ih =>
    intro s l ⟨T, h⟩ hok
    obtain ⟨s1, r1, m1, a1, _⟩ := step_spec hc h o hok.1 hok.2.1
    obtain ⟨s2, r2, m2, a2⟩ := ih m1 (by rw [a1]; exact hok.2.2)
    rw [a1] at r2 m2
    refine ⟨s2, ?_, m2, by rw [a2, a1]⟩
    simp only [run, r1, r2, Option.bind_eq_bind, Option.bind_some, specRun]

theorem safeRun_append (al : Bool) (ops ops' : List (Op α κ)) : ∀ {l : List (Nat × α)},
    safeRun cmp key al l (ops ++ ops') ↔
      safeRun cmp key al l ops ∧ safeRun cmp key al (specRun cmp key al l ops).1 ops' := by
  induction ops with
  | nil => intro l; simp [safeRun, specRun]
  | cons o os ih => intro l; simp only [List.cons_append, safeRun, specRun, ih, and_assoc]

end CCC.Om
