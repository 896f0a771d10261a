import Verif.Proof.RealtimeMapStep
import Verif.Spec.PtrMapAny
/-
The realtime ordered map with a comparison function that obeys no rule.
-/
namespace CCC.Rom
open CCC Links Tree Wavl MapSpec PtrMap

variable {α κ : Type} {cmp : κ → κ → Cmp} {key : α → κ}

/-- `s` stores the elements `l`, in a tree of shape `T`; nothing is said about their order. -/
structure Kept (s : Rom α) (l : List (Nat × α)) (T : Tree) : Prop where
  wv : Wv s.t [] T
  valid : Valid T
  list : l = elems s.val T.ids
  size : s.sz = l.length

variable {s : Rom α} {l : List (Nat × α)} {T : Tree}

theorem Ok.shape (o : Ok cmp key s l T) : Kept s l T := ⟨o.wv, o.valid, o.list, o.size⟩

theorem Kept.fresh (o : Kept s l T) {a : Nat} : fresh l a ↔ (a ≠ 0 ∧ a ∉ T.ids) := by
  unfold PtrMap.fresh
  rw [o.list]
  constructor
  · rintro ⟨h0, h⟩; exact ⟨h0, fun hm => h (a, s.val a) (mem_elems.2 ⟨hm, rfl⟩) rfl⟩
  · rintro ⟨h0, h⟩; exact ⟨h0, fun e he hh => h (hh ▸ (mem_elems.1 he).1)⟩

theorem Kept.nodup (o : Kept s l T) : T.ids.Nodup := by simpa using o.wv.whole.nodup
theorem Kept.ne_zero (o : Kept s l T) {a : Nat} (h : a ∈ T.ids) : a ≠ 0 := by
  rintro rfl; exact o.wv.whole.tree.ne_zero h

theorem Kept.mem (o : Kept s l T) {a : Nat} (h : a ∈ T.ids) : (a, s.val a) ∈ l := by
  rw [o.list, mem_elems]; exact ⟨h, rfl⟩

/-- Writing a struct that is not stored. -/
theorem Kept.put (o : Kept s l T) {h : Nat} {x : α} (hf : h ∉ T.ids) : Kept (put s h x) l T := by
  have : elems (upd s.val h x) T.ids = elems s.val T.ids :=
    elems_congr (fun a ha => upd_ne _ _ (fun hh => hf (hh ▸ ha)))
  exact ⟨o.wv, o.valid, by rw [o.list]; exact this.symm, o.size⟩

/-- Overwriting the data of a stored element. -/
theorem Kept.set (o : Kept s l T) (a : Nat) (x : α) : Kept { s with val := upd s.val a x } (setAt a x l) T := by
  refine ⟨o.wv, o.valid, ?_, by rw [o.size]; simp [setAt]⟩
  rw [o.list]
  simp only [setAt, elems, List.map_map]
  refine List.map_congr_left (fun b hb => ?_)
  by_cases hba : b = a
  · subst hba; simp
  · simp [hba, upd_ne _ _ hba]

/-- A place for a new element: where a search that found nothing ended. -/
def Hole (T : Tree) (q : Query) : Prop :=
  T = nil ∨ ∃ f cx, T = plug (f :: cx) nil ∧ q = (if f.dir then .grt else .les, f.id)

/-- What a search answers. -/
theorem Kept.find (o : Kept s l T) (hne : ∀ a b, cmp a b ≠ .err) (k : κ) :
    (∃ pre x post, T.ids = pre ++ x :: post ∧ cmp k (key (s.val x)) = .eql ∧ find cmp key s k = some (.eql, x)) ∨
    (∃ q, find cmp key s k = some q ∧ q.1 ≠ .eql ∧ Hole T q) := by
  have hroot : s.t.root = T.rootId := o.wv.whole.ctx
  rcases findLoop_spec (c := at_ cmp key s k) (cx := []) (by simpa using o.wv.whole.tree) (by simp [PathOk])
    (fun a _ => hne _ _) with ⟨cx, x, j, a, b, e, hx, hf⟩ | ⟨cx, e, _, hf⟩
  · left
    have e2 : T.ids = (before cx ++ a.ids) ++ x :: (b.ids ++ after cx) := by
      have := congrArg Tree.ids e
      rw [plug_nil, plug_ids] at this
      simp [this, ids]
    exact ⟨_, x, _, e2, hx, by rw [Rom.find, Wavl.find, hroot]; exact hf⟩
  · right
    rw [plug_nil] at e
    have hf' : Rom.find cmp key s k = some (lastOf cx, pid cx) := by rw [Rom.find, Wavl.find, hroot]; exact hf
    refine ⟨_, hf', ?_, ?_⟩
    · cases cx with
      | nil => simp [lastOf]
      | cons f cx => simp only [lastOf]; cases f.dir <;> simp
    · cases cx with
      | nil => left; simpa using e
      | cons f cx => right; exact ⟨f, cx, e, rfl⟩

theorem putAt_elems (v : Nat → α) (pre post : List Nat) (e : Nat) :
    putAt pre.length (e, v e) (elems v (pre ++ post)) = elems v (pre ++ e :: post) := by
  simp [putAt, elems, List.take_append, List.drop_append]

theorem dropAt_elems {v : Nat → α} {pre post : List Nat} {e : Nat} (hn : (pre ++ e :: post).Nodup) :
    dropAt e (elems v (pre ++ e :: post)) = elems v (pre ++ post) := by
  rw [List.nodup_append, List.nodup_cons] at hn
  have h1 : ∀ a ∈ pre, a ≠ e := fun a ha => hn.2.2 a ha e (by simp)
  have h2 : ∀ a ∈ post, a ≠ e := fun a ha hh => hn.2.1.1 (hh ▸ ha)
  have key : ∀ m : List Nat, (∀ a ∈ m, a ≠ e) → (elems v m).filter (fun x => x.1 != e) = elems v m := by
    intro m hm
    rw [List.filter_eq_self]
    intro x hx
    have := hm x.1 (mem_elems.1 hx).1
    simpa using this
  rw [dropAt, elems_append, List.filter_append, key pre h1,
    show elems v (e :: post) = (e, v e) :: elems v post from rfl, List.filter_cons, if_neg (by simp), key post h2, elems_append]

theorem insertNode_any (o : Kept s l T) {q : Query} (g : Hole T q) {e : Nat} (e0 : e ≠ 0) (he : e ∉ T.ids) :
    ∃ s' T' i, insertNode s q.2 q.1 e = some s' ∧ Kept s' (putAt i (e, s.val e) l) T' ∧ s'.val = s.val ∧
      s'.alloc = s.alloc ∧ s'.t.live = upd s.t.live e true ∧ T'.ids.Perm (e :: T.ids) := by
  obtain ⟨t1, run1, l1, r1, b1, p1, y1, f1⟩ := initNode_spec (t := { s.t with live := upd s.t.live e true })
    (e := e) (by simp)
  have hz : t1.live 0 = true := by
    rw [l1]; show upd s.t.live e true 0 = true; rw [upd_ne _ _ (Ne.symm e0)]; exact o.wv.whole.live0
  have hpy : t1.parity 0 = true := by rw [(f1 0 (Ne.symm e0)).2.2]; exact o.wv.par0
  rw [insertNode]
  simp only [run1, Option.bind_eq_bind, Option.bind_some]
  rcases g with rfl | ⟨f, cx, rfl, h3⟩
  · have hl : l = [] := o.list
    have hsz : s.sz = 0 := by rw [o.size, hl]; rfl
    rw [if_pos hsz]
    refine ⟨_, node e 1 nil nil, 0, rfl, ⟨⟨⟨rfl, ?_, ?_, hz⟩, ⟨?_, trivial, trivial⟩, trivial, hpy⟩, by simp [Valid],
      by rw [hl]; rfl, by rw [hl, hsz]; rfl⟩, rfl, rfl, l1, by simp [ids]⟩
    · refine ⟨e0, ?_, b1 _, b1 _, p1, trivial, trivial⟩
      show t1.live e = true
      rw [l1]; simp
    · simp [ids]
    · show t1.parity e = ev 1
      rw [y1]; rfl
  · have hsz : s.sz ≠ 0 := by
      rw [o.size, o.list]
      have hm : f.id ∈ (plug (f :: cx) nil).ids := by rw [(plug_ids_perm _ _).mem_iff]; simp
      intro hh
      have : (elems s.val (plug (f :: cx) nil).ids) = [] := List.eq_nil_of_length_eq_zero hh
      simp only [elems, List.map_eq_nil_iff] at this
      rw [this] at hm; simp at hm
    rw [if_neg hsz]
    have wc := Wv.plug.2 o.wv
    have hec : e ∉ cids (f :: cx) := by
      intro hh; apply he; rw [(plug_ids_perm _ _).mem_iff]; simp only [ids, List.nil_append]; exact hh
    have hcid : ∀ a ∈ cids (f :: cx), a ≠ e := fun a ha hh => hec (hh ▸ ha)
    have w1 : Wv t1 (f :: cx) nil := by
      refine ⟨⟨?_, trivial, wc.whole.nodup, hz⟩, trivial, ?_, hpy⟩
      · refine wc.whole.ctx.congr r1 ?_ (fun a ha => (f1 a (hcid a ha)).1) (fun a ha => (f1 a (hcid a ha)).2.1)
        intro a ha; rw [l1]; exact upd_ne _ _ (hcid a ha)
      · exact wc.rpc.congr (fun a ha => (f1 a (hcid a ha)).2.2)
    obtain ⟨h', T', run', w', v', i', l'⟩ := insertBelow_spec w1 o.valid e0 (by rw [l1]; simp) hec b1 y1
    have hl : l = elems s.val (before (f :: cx) ++ after (f :: cx)) := by rw [o.list, plug_ids]; simp [ids]
    have hq1 : q.1 = if f.dir then .grt else .les := by rw [h3]
    have hq2 : q.2 = f.id := by rw [h3]
    rw [hq1, hq2, run']
    refine ⟨_, T', (before (f :: cx)).length, rfl, ⟨w', v', ?_, ?_⟩, rfl, rfl, l'.trans l1, ?_⟩
    · rw [hl, putAt_elems, i']
    · rw [hl, putAt_elems, o.size, hl]; simp [elems]; omega
    · rw [i', plug_ids]; simp only [ids, List.append_nil]; exact List.perm_middle

theorem removeFixup_any (o : Kept s l T) {pre post : List Nat} {x : Nat} (e : T.ids = pre ++ x :: post) :
    ∃ s' T', removeFixup s x = some s' ∧ Kept s' (dropAt x l) T' ∧ T'.ids = pre ++ post ∧
      s'.val = s.val ∧ s'.alloc = s.alloc := by
  have hx : x ∈ T.ids := by rw [e]; simp
  have hn := o.nodup
  have x0 := o.ne_zero hx
  obtain ⟨c, k, L, R, rfl⟩ := mem_split hx
  have wc := Wv.plug.2 o.wv
  have e2 := plug_ids c (node x k L R)
  rw [e, show (node x k L R).ids = L.ids ++ x :: R.ids from rfl,
    show before c ++ (L.ids ++ x :: R.ids) ++ after c = (before c ++ L.ids) ++ x :: (R.ids ++ after c) by simp] at e2
  rw [e] at hn
  obtain ⟨rfl, rfl⟩ := split_unique hn e2
  obtain ⟨h', T', run, w', v', i', l'⟩ := removeLinks_spec wc o.valid
  have hi : T'.ids = (before c ++ L.ids) ++ (R.ids ++ after c) := by rw [i']; simp
  have hld : dropAt x l = elems s.val ((before c ++ L.ids) ++ (R.ids ++ after c)) := by
    rw [o.list, e]; exact dropAt_elems hn
  have hxT : x ∉ T'.ids := by
    rw [hi]
    rw [List.nodup_append, List.nodup_cons] at hn
    simp only [List.mem_append (s := before c ++ L.ids), not_or]
    exact ⟨fun hh => hn.2.2 x hh x (by simp) rfl, hn.2.1.1⟩
  have hlv : ∀ a ∈ T'.ids, upd h'.live x false a = h'.live a := fun a ha => upd_ne _ _ (fun hh => hxT (hh ▸ ha))
  have w2 : Wv { h' with live := upd h'.live x false } [] T' := by
    refine ⟨⟨w'.whole.ctx, ?_, w'.whole.nodup, ?_⟩, ?_, trivial, w'.par0⟩
    · exact w'.whole.tree.congr hlv (fun _ _ => rfl) (fun _ _ => rfl)
    · show upd h'.live x false 0 = true
      rw [upd_ne _ _ (Ne.symm x0)]; exact w'.whole.live0
    · exact w'.rp.congr (fun _ _ => rfl)
  have hl : l = elems s.val (before c ++ L.ids) ++ (x, s.val x) :: elems s.val (R.ids ++ after c) := by
    rw [o.list, e, elems_append]; rfl
  refine ⟨{ s with t := { h' with live := upd h'.live x false }, sz := s.sz - 1 }, T', ?_, ⟨w2, v', ?_, ?_⟩, hi,
    rfl, rfl⟩
  · simp only [removeFixup, run, Option.bind_eq_bind, Option.bind_some]
  · rw [hld, hi]
  · rw [hld, o.size, hl]; simp [elems]; omega

/-! ### The calls -/

/-- Goal of the per-call theorem. -/
def StepAny (cmp : κ → κ → Cmp) (key : α → κ) (s : Rom α) (l : List (Nat × α)) (op : Op α κ) : Prop :=
  ∃ s' c T', Choice.Ok cmp key l op c ∧ step cmp key s op = some (s', (specAny c s.alloc l op).2) ∧
    Kept s' (specAny c s.alloc l op).1 T' ∧ s'.alloc = s.alloc

/-- the choice of a found element -/
def fnd (e : Nat × α) : Choice α := ⟨some e, 0, none, none, true⟩
/-- the choice of a position for a new element -/
def gap (i : Nat) : Choice α := ⟨none, i, none, none, true⟩

theorem fnd_ok {l : List (Nat × α)} {op : Op α κ} {k : κ} (hk : keyOf key op = some k) {a : Nat} {v : α}
    (hm : (a, v) ∈ l) (he : cmp k (key v) = .eql) : Choice.Ok cmp key l op (fnd (a, v)) := by
  refine ⟨?_, ?_, ?_⟩
  · intro e h; simp only [fnd, Option.some.injEq] at h; subst h; exact ⟨hm, k, hk, he⟩
  · intro e h; simp [fnd] at h
  · intro e h; simp [fnd] at h

theorem gap_ok {l : List (Nat × α)} {op : Op α κ} {i : Nat} : Choice.Ok cmp key l op (gap i) :=
  ⟨fun e h => by simp [gap] at h, fun e h => by simp [gap] at h, fun e h => by simp [gap] at h⟩

theorem maybeAlloc_any (o : Kept s l T) {q : Query} (g : Hole T q) {h : Nat} {x : α} (hx : s.val h = x) (fh : fresh l h)
    {ans : Option Nat} (ha : goodAns l ans h) :
    (addAt s.alloc (some h) ans = none ∧ maybeAllocInsert s q.2 q.1 h ans = some (s, none)) ∨
    (∃ n s' T' i, addAt s.alloc (some h) ans = some n ∧ maybeAllocInsert s q.2 q.1 h ans = some (s', some n) ∧
      Kept s' (putAt i (n, x) l) T' ∧ s'.val = upd s.val n x ∧ s'.alloc = s.alloc ∧ (n = h ∨ ans = some n)) := by
  have fh' := o.fresh.1 fh
  subst hx
  cases hal : s.alloc with
  | true =>
    cases ans with
    | none => left; exact ⟨rfl, by simp [maybeAllocInsert, hal]⟩
    | some n =>
      right
      obtain ⟨hf, hnh⟩ := ha n rfl
      rw [o.fresh] at hf
      have o1 : Kept (put s n (s.val h)) l T := o.put hf.2
      obtain ⟨s', T', i, run, o', v', a', _, _⟩ := insertNode_any o1 g hf.1 hf.2
      have hn : (put s n (s.val h)).val n = s.val h := by simp [put]
      rw [hn] at o'
      refine ⟨n, s', T', i, rfl, ?_, o', v', by rw [a', ← hal]; rfl, Or.inr rfl⟩
      rw [maybeAllocInsert, if_pos hal]
      simp only [put] at run
      simp only [run, Option.bind_eq_bind, Option.bind_some]
  | false =>
    right
    obtain ⟨s', T', i, run, o', v', a', _, _⟩ := insertNode_any o g fh'.1 fh'.2
    refine ⟨h, s', T', i, rfl, ?_, o', ?_, by rw [a', hal], Or.inl rfl⟩
    · simp [maybeAllocInsert, hal, run]
    · rw [v']; funext a; by_cases e : a = h <;> simp [upd, e]

theorem any_insert (hne : ∀ a b, cmp a b ≠ .err) (o : Kept s l T) {h tmp : Nat} {x y : α} {ans : Option Nat}
    (ok : okAny s.alloc l (.insert h x tmp y ans : Op α κ)) : StepAny cmp key s l (.insert h x tmp y ans) := by
  obtain ⟨fh, ft, hht, ga, ant⟩ := ok
  have fh' := o.fresh.1 fh
  have ft' := o.fresh.1 ft
  let s1 := put (put s tmp y) h x
  have o1 : Kept s1 l T := (o.put ft'.2).put fh'.2
  have hx : s1.val h = x := put_comm_val
  have hy : s1.val tmp = y := by show upd (upd s.val tmp y) h x tmp = y; rw [upd_ne _ _ (Ne.symm hht)]; simp
  have hal : s1.alloc = s.alloc := rfl
  rcases o1.find (key := key) hne (key x) with ⟨pre, a, post, e, ha, hf⟩ | ⟨q, hf, hq, g⟩
  · have ham : a ∈ T.ids := by rw [e]; simp
    have hah : a ≠ h := fun hh => fh'.2 (hh ▸ ham)
    have hat : a ≠ tmp := fun hh => ft'.2 (hh ▸ ham)
    have o2 := o1.set a x
    have o3 := (o2.put (h := tmp) (x := s1.val a) ft'.2).put (h := h) (x := s1.val a) fh'.2
    refine ⟨{ s1 with val := upd (upd (upd s1.val tmp (s1.val a)) a x) h (s1.val a) }, fnd (a, s1.val a), T,
      fnd_ok rfl (o1.mem ham) ha, ?_, ?_, rfl⟩
    · simp only [step, insert, specAny, fnd]
      rw [show (put (put s tmp y) h x) = s1 from rfl, hx, hf]
      simp only [Option.bind_eq_bind, Option.bind_some, if_true]
      have e1 : upd s1.val tmp (s1.val a) h = x := by rw [upd_ne _ _ hht, hx]
      have e2 : upd (upd s1.val tmp (s1.val a)) a x tmp = s1.val a := by
        rw [upd_ne _ _ (Ne.symm hat)]; simp
      simp only [e1, e2, unwrap_occ, view, Option.map_some, upd_ne _ _ (Ne.symm hht)]
    · have hv : upd (upd (upd s1.val tmp (s1.val a)) a x) h (s1.val a) =
          upd (upd (upd s1.val a x) tmp (s1.val a)) h (s1.val a) := by
        funext b
        simp only [upd]
        by_cases c1 : b = h
        · simp [c1]
        · by_cases c2 : b = a
          · simp [c2, hat]
          · simp [c1, c2]
      simp only [specAny, fnd]
      rw [hv]
      exact o3
  · rcases maybeAlloc_any o1 g hx fh ga with ⟨hn, run⟩ | ⟨n, s', T', i, hn, run, o', v', a', hnh⟩
    · refine ⟨s1, gap 0, T, gap_ok, ?_, ?_, rfl⟩
      · simp only [step, insert, specAny, gap]
        rw [show (put (put s tmp y) h x) = s1 from rfl, hx, hf]
        rw [hal] at hn
        simp only [Option.bind_eq_bind, Option.bind_some, if_neg hq, run, hn, unwrap_ie]
        rw [hy]; rfl
      · rw [hal] at hn
        simp only [specAny, gap, hn]; exact o1
    · refine ⟨s', gap i, T', gap_ok, ?_, ?_, by rw [a', hal]⟩
      · simp only [step, insert, specAny, gap]
        rw [show (put (put s tmp y) h x) = s1 from rfl, hx, hf]
        rw [hal] at hn
        simp only [Option.bind_eq_bind, Option.bind_some, if_neg hq, run, hn, unwrap_vac]
        have htn : tmp ≠ n := by
          rcases hnh with rfl | h'
          · exact Ne.symm hht
          · exact fun hh => ant (by rw [h', hh])
        rw [v', upd_ne _ _ htn, hy]; rfl
      · rw [hal] at hn
        simp only [specAny, gap, hn]; exact o'

theorem any_tryInsert (hne : ∀ a b, cmp a b ≠ .err) (o : Kept s l T) {h : Nat} {x : α} {ans : Option Nat}
    (ok : okAny s.alloc l (.tryInsert h x ans : Op α κ)) : StepAny cmp key s l (.tryInsert h x ans) := by
  obtain ⟨fh, ga⟩ := ok
  have o1 : Kept (put s h x) l T := o.put (o.fresh.1 fh).2
  have hx : (put s h x).val h = x := put_comm_val
  have hal : (put s h x).alloc = s.alloc := rfl
  rcases o1.find (key := key) hne (key x) with ⟨pre, a, post, e, ha, hf⟩ | ⟨q, hf, hq, g⟩
  · refine ⟨put s h x, fnd (a, _), T, fnd_ok rfl (o1.mem (by rw [e]; simp)) ha, ?_, o1, rfl⟩
    simp only [step, tryInsert, specAny, fnd, hx, hf, Option.bind_eq_bind, Option.bind_some, if_true, unwrap_occ,
      view_some]
  · rcases maybeAlloc_any o1 g hx fh ga with ⟨hn, run⟩ | ⟨n, s', T', i, hn, run, o', hv, a', _⟩ <;> rw [hal] at hn
    · refine ⟨put s h x, gap 0, T, gap_ok, ?_, by simp only [specAny, gap, hn]; exact o1, rfl⟩
      simp only [step, tryInsert, specAny, gap, hx, hf, Option.bind_eq_bind, Option.bind_some, if_neg hq, run, hn,
        unwrap_ie, view_none]
    · refine ⟨s', gap i, T', gap_ok, ?_, by simp only [specAny, gap, hn]; exact o', a'⟩
      simp only [step, tryInsert, specAny, gap, hx, hf, Option.bind_eq_bind, Option.bind_some, if_neg hq, run, hn,
        unwrap_vac, view_some, hv, upd_same]

theorem any_insertOrAssign (hne : ∀ a b, cmp a b ≠ .err) (o : Kept s l T) {h : Nat} {x : α} {ans : Option Nat}
    (ok : okAny s.alloc l (.insertOrAssign h x ans : Op α κ)) : StepAny cmp key s l (.insertOrAssign h x ans) := by
  obtain ⟨fh, ga⟩ := ok
  have o1 : Kept (put s h x) l T := o.put (o.fresh.1 fh).2
  have hx : (put s h x).val h = x := put_comm_val
  have hal : (put s h x).alloc = s.alloc := rfl
  rcases o1.find (key := key) hne (key x) with ⟨pre, a, post, e, ha, hf⟩ | ⟨q, hf, hq, g⟩
  · refine ⟨_, fnd (a, _), T, fnd_ok rfl (o1.mem (by rw [e]; simp)) ha, ?_, o1.set a x, rfl⟩
    simp only [step, insertOrAssign, specAny, fnd, hx, hf, Option.bind_eq_bind, Option.bind_some, if_true, unwrap_occ,
      view_some, upd_same]
  · rcases maybeAlloc_any o1 g hx fh ga with ⟨hn, run⟩ | ⟨n, s', T', i, hn, run, o', hv, a', _⟩ <;> rw [hal] at hn
    · refine ⟨put s h x, gap 0, T, gap_ok, ?_, by simp only [specAny, gap, hn]; exact o1, rfl⟩
      simp only [step, insertOrAssign, specAny, gap, hx, hf, Option.bind_eq_bind, Option.bind_some, if_neg hq, run, hn,
        unwrap_ie, view_none]
    · refine ⟨s', gap i, T', gap_ok, ?_, by simp only [specAny, gap, hn]; exact o', a'⟩
      simp only [step, insertOrAssign, specAny, gap, hx, hf, Option.bind_eq_bind, Option.bind_some, if_neg hq, run, hn,
        unwrap_vac, view_some, hv, upd_same]

theorem any_orInsert (hne : ∀ a b, cmp a b ≠ .err) (o : Kept s l T) {k : κ} {h : Nat} {x : α} {ans : Option Nat}
    (ok : okAny s.alloc l (.orInsert k h x ans)) : StepAny cmp key s l (.orInsert k h x ans) := by
  obtain ⟨fh, ga⟩ := ok
  have o1 : Kept (put s h x) l T := o.put (o.fresh.1 fh).2
  have hx : (put s h x).val h = x := put_comm_val
  have hal : (put s h x).alloc = s.alloc := rfl
  rcases o1.find (key := key) hne k with ⟨pre, a, post, e, ha, hf⟩ | ⟨q, hf, hq, g⟩
  · refine ⟨put s h x, fnd (a, _), T, fnd_ok rfl (o1.mem (by rw [e]; simp)) ha, ?_, o1, rfl⟩
    simp only [step, entry_eq hf, orInsert, specAny, fnd, Option.bind_eq_bind, Option.bind_some, if_true, view_some]
  · rcases maybeAlloc_any o1 g hx fh ga with ⟨hn, run⟩ | ⟨n, s', T', i, hn, run, o', hv, a', _⟩ <;> rw [hal] at hn
    · refine ⟨put s h x, gap 0, T, gap_ok, ?_, by simp only [specAny, gap, hn]; exact o1, rfl⟩
      simp only [step, entry_eq hf, orInsert, specAny, gap, Option.bind_eq_bind, Option.bind_some, if_neg hq, run, hn,
        if_neg vac_ne_occ, view_none]
    · refine ⟨s', gap i, T', gap_ok, ?_, by simp only [specAny, gap, hn]; exact o', a'⟩
      simp only [step, entry_eq hf, orInsert, specAny, gap, Option.bind_eq_bind, Option.bind_some, if_neg hq, run, hn,
        if_neg vac_ne_occ, view_some, hv, upd_same]

theorem any_insertEntry (hne : ∀ a b, cmp a b ≠ .err) (o : Kept s l T) {k : κ} {h : Nat} {x : α} {ans : Option Nat}
    (ok : okAny s.alloc l (.insertEntry k h x ans)) : StepAny cmp key s l (.insertEntry k h x ans) := by
  obtain ⟨fh, ga⟩ := ok
  have o1 : Kept (put s h x) l T := o.put (o.fresh.1 fh).2
  have hx : (put s h x).val h = x := put_comm_val
  have hal : (put s h x).alloc = s.alloc := rfl
  rcases o1.find (key := key) hne k with ⟨pre, a, post, e, ha, hf⟩ | ⟨q, hf, hq, g⟩
  · refine ⟨_, fnd (a, _), T, fnd_ok rfl (o1.mem (by rw [e]; simp)) ha, ?_, o1.set a x, rfl⟩
    simp only [step, entry_eq hf, insertEntry, specAny, fnd, Option.bind_eq_bind, Option.bind_some, if_true, view_some,
      hx, upd_same]
  · rcases maybeAlloc_any o1 g hx fh ga with ⟨hn, run⟩ | ⟨n, s', T', i, hn, run, o', hv, a', _⟩ <;> rw [hal] at hn
    · refine ⟨put s h x, gap 0, T, gap_ok, ?_, by simp only [specAny, gap, hn]; exact o1, rfl⟩
      simp only [step, entry_eq hf, insertEntry, specAny, gap, Option.bind_eq_bind, Option.bind_some, if_neg hq, run, hn,
        if_neg vac_ne_occ, view_none]
    · refine ⟨s', gap i, T', gap_ok, ?_, by simp only [specAny, gap, hn]; exact o', a'⟩
      simp only [step, entry_eq hf, insertEntry, specAny, gap, Option.bind_eq_bind, Option.bind_some, if_neg hq, run, hn,
        if_neg vac_ne_occ, view_some, hv, upd_same]

theorem lazy_any (o : Kept s l T) {x : α} {ans : Option Nat} {q : Query} (g : Hole T q) (ga : goodAns l ans 0) {n : Nat}
    (hn : addAt s.alloc none ans = some n) :
    ∃ s' T' i, insertNode { s with val := upd s.val n x } q.2 q.1 n = some s' ∧
      Kept s' (putAt i (n, x) l) T' ∧ s'.val n = x ∧ s'.alloc = s.alloc := by
  have hf : fresh l n := by
    cases hal : s.alloc with
    | true => rw [hal] at hn; exact (ga n hn).1
    | false => rw [hal] at hn; simp [addAt] at hn
  rw [o.fresh] at hf
  obtain ⟨s', T', i, run, o', v', a', _, _⟩ := insertNode_any (o.put (x := x) hf.2) g hf.1 hf.2
  have hv : (put s n x).val n = x := by simp [put]
  rw [hv] at o'
  exact ⟨s', T', i, run, o', by rw [v', hv], a'⟩

theorem any_orInsertW (hne : ∀ a b, cmp a b ≠ .err) (o : Kept s l T) {k : κ} {x : α} {ans : Option Nat}
    (ga : okAny s.alloc l (.orInsertW k x ans)) : StepAny cmp key s l (.orInsertW k x ans) := by
  rcases o.find (key := key) hne k with ⟨pre, a, post, e, ha, hf⟩ | ⟨q, hf, hq, g⟩
  · refine ⟨s, fnd (a, _), T, fnd_ok rfl (o.mem (by rw [e]; simp)) ha, ?_, o, rfl⟩
    simp only [step, entry_eq hf, orInsertW, specAny, fnd, Option.bind_eq_bind, Option.bind_some, if_true, view_some]
  · cases hn : addAt s.alloc none ans with
    | none =>
      refine ⟨s, gap 0, T, gap_ok, ?_, by simp only [specAny, gap, hn]; exact o, rfl⟩
      simp only [step, entry_eq hf, orInsertW, specAny, gap, Option.bind_eq_bind, Option.bind_some, if_neg hq, hn,
        if_neg vac_ne_occ, view_none, newMem_eq, insertKeyVal]
    | some n =>
      obtain ⟨s', T', i, run, sim, hv, a'⟩ := lazy_any (x := x) o g ga hn
      refine ⟨s', gap i, T', gap_ok, ?_, by simp only [specAny, gap, hn]; exact sim, a'⟩
      simp only [step, entry_eq hf, orInsertW, specAny, gap, Option.bind_eq_bind, Option.bind_some, if_neg hq, hn,
        if_neg vac_ne_occ, view_some, newMem_eq, insertKeyVal, run, hv]

theorem any_insertEntryW (hne : ∀ a b, cmp a b ≠ .err) (o : Kept s l T) {k : κ} {x : α} {ans : Option Nat}
    (ga : okAny s.alloc l (.insertEntryW k x ans)) : StepAny cmp key s l (.insertEntryW k x ans) := by
  rcases o.find (key := key) hne k with ⟨pre, a, post, e, ha, hf⟩ | ⟨q, hf, hq, g⟩
  · refine ⟨_, fnd (a, _), T, fnd_ok rfl (o.mem (by rw [e]; simp)) ha, ?_, o.set a x, rfl⟩
    simp only [step, entry_eq hf, insertEntryW, specAny, fnd, Option.bind_eq_bind, Option.bind_some, if_true, view_some,
      occ_occ, Bool.not_true, Bool.false_eq_true, if_false, upd_same]
  · cases hn : addAt s.alloc none ans with
    | none =>
      refine ⟨s, gap 0, T, gap_ok, ?_, by simp only [specAny, gap, hn]; exact o, rfl⟩
      simp only [step, entry_eq hf, insertEntryW, specAny, gap, Option.bind_eq_bind, Option.bind_some, if_neg hq, hn,
        vac_not_occ, Bool.not_false, if_true, view_none, newMem_eq, insertKeyVal]
    | some n =>
      obtain ⟨s', T', i, run, sim, hv, a'⟩ := lazy_any (x := x) o g ga hn
      refine ⟨s', gap i, T', gap_ok, ?_, by simp only [specAny, gap, hn]; exact sim, a'⟩
      simp only [step, entry_eq hf, insertEntryW, specAny, gap, Option.bind_eq_bind, Option.bind_some, if_neg hq, hn,
        vac_not_occ, Bool.not_false, if_true, view_some, newMem_eq, insertKeyVal, run, hv]

theorem any_tryInsertW (hne : ∀ a b, cmp a b ≠ .err) (o : Kept s l T) {k : κ} {x : α} {ans : Option Nat}
    (ga : okAny s.alloc l (.tryInsertW k x ans)) : StepAny cmp key s l (.tryInsertW k x ans) := by
  rcases o.find (key := key) hne k with ⟨pre, a, post, e, ha, hf⟩ | ⟨q, hf, hq, g⟩
  · refine ⟨s, fnd (a, _), T, fnd_ok rfl (o.mem (by rw [e]; simp)) ha, ?_, o, rfl⟩
    simp only [step, tryInsertW, entry_eq hf, specAny, fnd, Option.bind_eq_bind, Option.bind_some, if_true, view_some,
      occ_occ, Bool.not_true, Bool.false_eq_true, if_false, unwrap_occ]
  · cases hn : addAt s.alloc none ans with
    | none =>
      refine ⟨s, gap 0, T, gap_ok, ?_, by simp only [specAny, gap, hn]; exact o, rfl⟩
      simp only [step, tryInsertW, entry_eq hf, specAny, gap, Option.bind_eq_bind, Option.bind_some, if_neg hq, hn,
        vac_not_occ, Bool.not_false, if_true, view_none, newMem_eq, insertAndCopyKey, unwrap_ie]
    | some n =>
      obtain ⟨s', T', i, run, sim, hv, a'⟩ := lazy_any (x := x) o g ga hn
      refine ⟨s', gap i, T', gap_ok, ?_, by simp only [specAny, gap, hn]; exact sim, a'⟩
      simp only [step, tryInsertW, entry_eq hf, specAny, gap, Option.bind_eq_bind, Option.bind_some, if_neg hq, hn,
        vac_not_occ, Bool.not_false, if_true, view_some, newMem_eq, insertAndCopyKey, unwrap_ie, run, hv]

theorem any_insertOrAssignW (hne : ∀ a b, cmp a b ≠ .err) (o : Kept s l T) {k : κ} {x : α} {ans : Option Nat}
    (ga : okAny s.alloc l (.insertOrAssignW k x ans)) : StepAny cmp key s l (.insertOrAssignW k x ans) := by
  rcases o.find (key := key) hne k with ⟨pre, a, post, e, ha, hf⟩ | ⟨q, hf, hq, g⟩
  · refine ⟨_, fnd (a, _), T, fnd_ok rfl (o.mem (by rw [e]; simp)) ha, ?_, o.set a x, rfl⟩
    simp only [step, insertOrAssignW, entry_eq hf, specAny, fnd, Option.bind_eq_bind, Option.bind_some, if_true,
      view_some, occ_occ, Bool.not_true, Bool.false_eq_true, if_false, unwrap_occ, upd_same]
  · cases hn : addAt s.alloc none ans with
    | none =>
      refine ⟨s, gap 0, T, gap_ok, ?_, by simp only [specAny, gap, hn]; exact o, rfl⟩
      simp only [step, insertOrAssignW, entry_eq hf, specAny, gap, Option.bind_eq_bind, Option.bind_some, if_neg hq, hn,
        vac_not_occ, Bool.not_false, if_true, view_none, newMem_eq, insertAndCopyKey, unwrap_ie]
    | some n =>
      obtain ⟨s', T', i, run, sim, hv, a'⟩ := lazy_any (x := x) o g ga hn
      refine ⟨s', gap i, T', gap_ok, ?_, by simp only [specAny, gap, hn]; exact sim, a'⟩
      simp only [step, insertOrAssignW, entry_eq hf, specAny, gap, Option.bind_eq_bind, Option.bind_some, if_neg hq, hn,
        vac_not_occ, Bool.not_false, if_true, view_some, newMem_eq, insertAndCopyKey, unwrap_ie, run, hv]

theorem any_remove (hne : ∀ a b, cmp a b ≠ .err) (o : Kept s l T) {h : Nat} {x : α}
    (ok : okAny s.alloc l (.remove h x : Op α κ)) : StepAny cmp key s l (.remove h x) := by
  have o1 : Kept (put s h x) l T := by
    rcases ok with fh | ⟨_, hm⟩
    · exact o.put (o.fresh.1 fh).2
    · rw [o.list, mem_elems] at hm
      have hp : put s h x = s := by
        simp only [put]
        have : upd s.val h x = s.val := by
          funext b; by_cases hb : b = h
          · rw [hb, upd_same]; exact hm.2
          · exact upd_ne _ _ hb
        rw [this]
      rw [hp]; exact o
  have hx : (put s h x).val h = x := put_comm_val
  rcases o1.find (key := key) hne (key x) with ⟨pre, a, post, e, ha, hf⟩ | ⟨q, hf, hq, g⟩
  · obtain ⟨s', T', run, o', i', v', a'⟩ := removeFixup_any o1 e
    have hal : s'.alloc = s.alloc := a'
    have hc := fnd_ok (op := (.remove h x : Op α κ)) rfl (o1.mem (a := a) (by rw [e]; simp)) ha
    cases hb : s.alloc with
    | true =>
      have fh : fresh l h := by
        rcases ok with fh | ⟨h0, _⟩
        · exact fh
        · rw [hb] at h0; cases h0
      have fh' := o.fresh.1 fh
      have hh : h ∉ T'.ids := by
        rw [i']; intro hh; apply fh'.2; rw [e]
        simp only [List.mem_append, List.mem_cons] at hh ⊢
        rcases hh with hh | hh
        · exact Or.inl hh
        · exact Or.inr (Or.inr hh)
      refine ⟨put s' h (s'.val a), fnd (a, _), T', hc, ?_, o'.put hh, by rw [hb, ← hb]; exact hal⟩
      simp only [step, remove, specAny, fnd, hx, hf, Option.bind_eq_bind, Option.bind_some, ne_eq, not_true_eq_false,
        if_false, run, hal, hb, if_true, unwrap_occ, view_some, upd_same, v']
      simp only [put, hal, hb, v']
    | false =>
      refine ⟨s', fnd (a, _), T', hc, ?_, o', by rw [hal, hb]⟩
      simp only [step, remove, specAny, fnd, hx, hf, Option.bind_eq_bind, Option.bind_some, ne_eq, not_true_eq_false,
        if_false, run, hal, hb, Bool.false_eq_true, unwrap_occ, view_some, v']
  · refine ⟨put s h x, gap 0, T, gap_ok, ?_, o1, rfl⟩
    simp only [step, remove, specAny, gap, hx, hf, Option.bind_eq_bind, Option.bind_some, ne_eq, hq,
      not_false_eq_true, if_true, unwrap_vac, view_none]

theorem any_removeEntry (hne : ∀ a b, cmp a b ≠ .err) (o : Kept s l T) {k : κ} :
    StepAny cmp key s l (.removeEntry k) := by
  rcases o.find (key := key) hne k with ⟨pre, a, post, e, ha, hf⟩ | ⟨q, hf, hq, g⟩
  · obtain ⟨s', T', run, o', i', v', a'⟩ := removeFixup_any o e
    refine ⟨s', fnd (a, _), T', fnd_ok rfl (o.mem (by rw [e]; simp)) ha, ?_, o', a'⟩
    cases hb : s.alloc with
    | true =>
      simp only [step, entry_eq hf, removeEntry, specAny, fnd, Option.bind_eq_bind, Option.bind_some, if_true, run, a',
        hb, unwrap_occ, view_none]
    | false =>
      simp only [step, entry_eq hf, removeEntry, specAny, fnd, Option.bind_eq_bind, Option.bind_some, if_true, run, a',
        hb, Bool.false_eq_true, if_false, unwrap_occ, view_some, v']
  · refine ⟨s, gap 0, T, gap_ok, ?_, o, rfl⟩
    simp only [step, entry_eq hf, removeEntry, specAny, gap, Option.bind_eq_bind, Option.bind_some, if_neg hq,
      if_neg vac_ne_occ, unwrap_vac, view_none]

theorem any_andModify (hne : ∀ a b, cmp a b ≠ .err) (o : Kept s l T) {k : κ} {f : α → α} :
    StepAny cmp key s l (.andModify k f) := by
  rcases o.find (key := key) hne k with ⟨pre, a, post, e, ha, hf⟩ | ⟨q, hf, hq, g⟩
  · refine ⟨_, fnd (a, _), T, fnd_ok rfl (o.mem (by rw [e]; simp)) ha, ?_, o.set a (f (s.val a)), rfl⟩
    simp only [step, entry_eq hf, andModify, specAny, fnd, Option.bind_eq_bind, Option.bind_some, if_true, occ_occ,
      unwrap, view_some, upd_same]
  · refine ⟨s, gap 0, T, gap_ok, ?_, o, rfl⟩
    simp only [step, entry_eq hf, andModify, specAny, gap, Option.bind_eq_bind, Option.bind_some, if_neg hq,
      vac_not_occ, Bool.false_eq_true, if_false, unwrap, view_none]

theorem any_query (hne : ∀ a b, cmp a b ≠ .err) (o : Kept s l T) {k : κ} :
    StepAny cmp key s l (.occupied k) ∧ StepAny cmp key s l (.contains k) ∧ StepAny cmp key s l (.get k) := by
  rcases o.find (key := key) hne k with ⟨pre, a, post, e, ha, hf⟩ | ⟨q, hf, hq, g⟩
  · have hm := o.mem (a := a) (by rw [e]; simp)
    refine ⟨⟨s, fnd (a, _), T, fnd_ok rfl hm ha, ?_, o, rfl⟩, ⟨s, fnd (a, _), T, fnd_ok rfl hm ha, ?_, o, rfl⟩,
      ⟨s, fnd (a, _), T, fnd_ok rfl hm ha, ?_, o, rfl⟩⟩
    · simp only [step, entry_eq hf, specAny, fnd, Option.bind_eq_bind, Option.bind_some, occupied, if_true, occ_occ,
        Option.isSome_some]
    · simp only [step, contains, hf, specAny, fnd, Option.bind_eq_bind, Option.bind_some, Option.isSome_some,
        beq_self_eq_true]
    · simp only [step, get, hf, specAny, fnd, Option.bind_eq_bind, Option.bind_some, beq_self_eq_true, if_true,
        view_some]
  · have hq' : (q.1 == Cmp.eql) = false := by simpa using hq
    refine ⟨⟨s, gap 0, T, gap_ok, ?_, o, rfl⟩, ⟨s, gap 0, T, gap_ok, ?_, o, rfl⟩, ⟨s, gap 0, T, gap_ok, ?_, o, rfl⟩⟩
    · simp only [step, entry_eq hf, specAny, gap, Option.bind_eq_bind, Option.bind_some, occupied, if_neg hq,
        vac_not_occ, Option.isSome_none]
    · simp only [step, contains, hf, specAny, gap, Option.bind_eq_bind, Option.bind_some, Option.isSome_none, hq']
    · simp only [step, get, hf, specAny, gap, Option.bind_eq_bind, Option.bind_some, hq', Bool.false_eq_true, if_false,
        view_none]

theorem Kept.split (o : Kept s l T) {a : Nat} (h : ∃ e ∈ l, e.1 = a) : ∃ pre post, T.ids = pre ++ a :: post ∧
    a ∉ pre ∧ a ∉ post := by
  obtain ⟨e, he, rfl⟩ := h
  rw [o.list, mem_elems] at he
  obtain ⟨pre, post, hs⟩ := List.append_of_mem he.1
  have hn := o.nodup
  rw [hs, List.nodup_append, List.nodup_cons] at hn
  exact ⟨pre, post, hs, fun hh => hn.2.2 _ hh _ (by simp) rfl, hn.2.1.1⟩

theorem any_begin (o : Kept s l T) : StepAny cmp key s l .begin ∧ StepAny cmp key s l .rbegin := by
  refine ⟨⟨s, gap 0, T, gap_ok, ?_, o, rfl⟩, ⟨s, gap 0, T, gap_ok, ?_, o, rfl⟩⟩
  · simp only [step, begin_, minMaxFrom_spec o.wv false, Option.bind_eq_bind, Option.bind_some, specAny, endOf,
      Bool.false_eq_true, if_false]
    rw [view_head (fun a ha => o.ne_zero ha), o.list]
  · simp only [step, rbegin, minMaxFrom_spec o.wv true, Option.bind_eq_bind, Option.bind_some, specAny, endOf, if_true]
    rw [view_last (fun a ha => o.ne_zero ha), o.list]

theorem any_next (o : Kept s l T) {a : Nat} (ok : ∃ e ∈ l, e.1 = a) :
    StepAny cmp key s l (.next a) ∧ StepAny cmp key s l (.rnext a) := by
  obtain ⟨pre, post, e, h1, h2⟩ := o.split ok
  refine ⟨⟨s, gap 0, T, gap_ok, ?_, o, rfl⟩, ⟨s, gap 0, T, gap_ok, ?_, o, rfl⟩⟩
  · simp only [step, next, next_spec o.wv e true, Option.bind_eq_bind, Option.bind_some, specAny, if_true]
    rw [view_head (fun b hb => o.ne_zero (by rw [e]; simp [hb])), o.list, e, dropWhile_split h1]
  · simp only [step, rnext, next_spec o.wv e false, Option.bind_eq_bind, Option.bind_some, specAny, Bool.false_eq_true,
      if_false]
    rw [view_last (fun b hb => o.ne_zero (by rw [e]; simp [hb])), o.list, e]
    have : (elems s.val (pre ++ a :: post)).reverse = elems s.val (post.reverse ++ a :: pre.reverse) := by
      simp [elems]
    rw [this, dropWhile_split (by simpa using h2)]
    simp [elems]

/-- Half of a range query answers a stored element or the end. -/
theorem half_any (hne : ∀ a b, cmp a b ≠ .err) (o : Kept s l T) (hT : T ≠ nil) (k : κ) (p : Cmp → Prop)
    [DecidablePred p] (trav : Bool) : ∃ b, (do
      let b ← Wavl.find s.t (at_ cmp key s k)
      if p b.1 then Wavl.next s.t b.2 trav else some b.2) = some b ∧ ∀ e, view s (toSlot b) = some e → e ∈ l := by
  have main : ∃ q pre post, Wavl.find s.t (at_ cmp key s k) = some q ∧ T.ids = pre ++ q.2 :: post := by
    rcases o.find (key := key) hne k with ⟨pre, a, post, e, ha, hf⟩ | ⟨q, hf, hq, g⟩
    · exact ⟨_, pre, post, hf, e⟩
    · rcases g with rfl | ⟨f, cx, e, rfl⟩
      · exact absurd rfl hT
      · have hm : f.id ∈ T.ids := by rw [e, (plug_ids_perm _ _).mem_iff]; simp
        obtain ⟨pre, post, hs⟩ := List.append_of_mem hm
        exact ⟨_, pre, post, hf, hs⟩
  obtain ⟨q, pre, post, hf, e⟩ := main
  have hview : ∀ b, (b = 0 ∨ b ∈ T.ids) → ∀ e, view s (toSlot b) = some e → e ∈ l := by
    intro b hb e he
    rcases hb with rfl | hb
    · simp [toSlot, view] at he
    · simp only [toSlot, if_neg (o.ne_zero hb), view, Option.map_some, Option.some.injEq] at he
      subst he; exact o.mem hb
  simp only [hf, Option.bind_eq_bind, Option.bind_some]
  by_cases hp : p q.1
  · rw [if_pos hp, next_spec o.wv e trav]
    refine ⟨_, rfl, hview _ ?_⟩
    cases trav with
    | true =>
      simp only [if_true]
      cases post with
      | nil => left; rfl
      | cons b post => right; rw [e]; simp
    | false =>
      simp only [Bool.false_eq_true, if_false]
      rcases List.eq_nil_or_concat pre with rfl | ⟨pre', b, rfl⟩
      · left; rfl
      · right; rw [e]; simp
  · rw [if_neg hp]
    exact ⟨_, rfl, hview _ (Or.inr (by rw [e]; simp))⟩

theorem range_any (hne : ∀ a b, cmp a b ≠ .err) (o : Kept s l T) (b e : κ) (trav : Bool) :
    ∃ r, equalRange cmp key s b e trav = some r ∧ (∀ e, view s r.1 = some e → e ∈ l) ∧
      (∀ e, view s r.2 = some e → e ∈ l) := by
  cases hT : T with
  | nil =>
    subst hT
    have hl : l = [] := o.list
    have hsz : s.sz = 0 := by rw [o.size, hl]; rfl
    exact ⟨(none, none), by simp [equalRange, hsz], by simp [view], by simp [view]⟩
  | node i k x y =>
    have hnn : T ≠ nil := by rw [hT]; simp
    have hsz : s.sz ≠ 0 := by rw [o.size, o.list, hT]; simp [elems, ids]
    obtain ⟨p, hp, mp⟩ := half_any (key := key) hne o hnn b (fun c => c = (if trav then Cmp.grt else Cmp.les)) trav
    obtain ⟨r, hr, mr⟩ := half_any (key := key) hne o hnn e (fun c => c ≠ (if trav then Cmp.les else Cmp.grt)) trav
    refine ⟨(toSlot p, toSlot r), ?_, mp, mr⟩
    simp only [Option.bind_eq_bind] at hp hr
    simp only [equalRange, if_neg hsz, Wavl.equalRange, Option.bind_eq_bind]
    rw [← Option.bind_assoc, hp, Option.bind_some, ← Option.bind_assoc, hr, Option.bind_some]
    rfl

theorem any_range (hne : ∀ a b, cmp a b ≠ .err) (o : Kept s l T) {b e : κ} :
    StepAny cmp key s l (.equalRange b e) ∧ StepAny cmp key s l (.equalRrange b e) := by
  obtain ⟨r, hr, m1, m2⟩ := range_any (key := key) hne o b e true
  obtain ⟨r', hr', m1', m2'⟩ := range_any (key := key) hne o b e false
  refine ⟨⟨s, ⟨none, 0, view s r.1, view s r.2, true⟩, T, ⟨fun _ h => (by cases h), m1, m2⟩, ?_, o, rfl⟩,
    ⟨s, ⟨none, 0, view s r'.1, view s r'.2, true⟩, T, ⟨fun _ h => (by cases h), m1', m2'⟩, ?_, o, rfl⟩⟩
  · simp only [step, hr, Option.bind_eq_bind, Option.bind_some, specAny]
  · simp only [step, hr', Option.bind_eq_bind, Option.bind_some, specAny]

theorem clearLoop_any (n : Nat) : ∀ {s : Rom α} {l : List (Nat × α)} {T : Tree} (acc : List (Nat × α)),
    Kept s l T → l.length = n →
    ∃ s' d, clearLoop s acc = some (s', acc ++ d) ∧ d.Perm l ∧ Kept s' [] nil ∧ s'.val = s.val ∧
      s'.alloc = s.alloc := by
  induction n with
  | zero =>
    intro s l T acc o hl
    have hl' : l = [] := List.eq_nil_of_length_eq_zero hl
    have hT : T = nil := by
      have := o.list
      rw [hl'] at this
      cases T with
      | nil => rfl
      | node i k a b => simp [elems, ids] at this
    subst hl'; subst hT
    refine ⟨s, [], ?_, List.Perm.refl _, o, rfl, rfl⟩
    rw [clearLoop]; simp [o.size]
  | succ n ih =>
    intro s l T acc o hl
    cases T with
    | nil => rw [o.list] at hl; simp [elems, ids] at hl
    | node i k a b =>
      have hroot : s.t.root = i := o.wv.whole.ctx
      have il : s.t.live i = true := o.wv.whole.tree.2.1
      obtain ⟨s1, T1, run, o1, i1, v1, a1⟩ := removeFixup_any o (pre := a.ids) (post := b.ids) (x := i) rfl
      have hld : dropAt i l = elems s.val (a.ids ++ b.ids) := by rw [o1.list, i1, v1]
      rw [hld] at o1
      have hl1 : (elems s.val (a.ids ++ b.ids)).length = n := by
        have := hl
        rw [o.list] at this
        simp [elems, ids] at this ⊢
        omega
      obtain ⟨s', d, run', p', o', v', a'⟩ := ih (acc ++ [(i, s1.val i)]) o1 hl1
      refine ⟨s', (i, s1.val i) :: d, ?_, ?_, o', by rw [v', v1], by rw [a', a1]⟩
      · have hsz : s.sz ≠ 0 := by rw [o.size, hl]; simp
        rw [clearLoop, if_neg hsz]
        simp only [hroot, getBr_live il, Option.bind_eq_bind, Option.bind_some, run]
        rw [run']; simp
      · rw [v1, o.list, show (node i k a b).ids = a.ids ++ i :: b.ids from rfl, elems_append]
        rw [elems_append] at p'
        exact (p'.cons (i, s.val i)).trans (List.perm_middle).symm

theorem areSubtreesValid_any (cmp : κ → κ → Cmp) (key : α → κ) (s : Rom α) : ∀ {t : Tree} {p low high : Nat},
    Rep s.t p t → ∃ b, areSubtreesValid cmp key s low t.rootId high = some b := by
  intro t
  induction t with
  | nil => intro p low high _; exact ⟨true, by rw [areSubtreesValid]; simp⟩
  | node i k a b ia ib =>
    intro p low high hr
    obtain ⟨i0, il, b0, b1, hp, ra, rb⟩ := hr
    obtain ⟨x, ea⟩ := ia (low := low) (high := i) ra
    obtain ⟨y, eb⟩ := ib (low := i) (high := high) rb
    show ∃ b, areSubtreesValid cmp key s low i high = some b
    rw [areSubtreesValid, if_neg i0]
    split
    · exact ⟨_, rfl⟩
    · split
      · exact ⟨_, rfl⟩
      · simp only [getBr_live il, b0, b1, ea, eb, Option.bind_eq_bind, Option.bind_some]
        cases x <;> simp

theorem validate_any (cmp : κ → κ → Cmp) (key : α → κ) (o : Kept s l T) : ∃ b, validate cmp key s = some b := by
  have hroot : s.t.root = T.rootId := o.wv.whole.ctx
  have hsz : T.ids.length = s.sz := by rw [o.size, o.list]; simp [elems]
  obtain ⟨b, hb⟩ := areSubtreesValid_any cmp key s (low := 0) (high := 0) o.wv.whole.tree
  rw [validate]
  simp only [getParity_live o.wv.whole.live0, o.wv.par0, Option.bind_eq_bind, Option.bind_some, hroot, hb,
    recursiveSize_spec o.wv.whole.tree, Bool.not_true, Bool.false_eq_true, if_false, hsz, ne_eq, not_true_eq_false]
  cases b
  · exact ⟨_, rfl⟩
  · exact ⟨_, isStoringParent_spec (by simpa using o.wv.whole.tree)⟩

/-- Every call, from every state that stores a list, whatever the comparison function. -/
theorem step_any (hne : ∀ a b, cmp a b ≠ .err) (o : Kept s l T) (op : Op α κ) (ok : okAny s.alloc l op) :
    StepAny cmp key s l op := by
  cases op with
  | insert h x tmp y ans => exact any_insert hne o ok
  | tryInsert h x ans => exact any_tryInsert hne o ok
  | insertOrAssign h x ans => exact any_insertOrAssign hne o ok
  | remove h x => exact any_remove hne o ok
  | orInsert k h x ans => exact any_orInsert hne o ok
  | insertEntry k h x ans => exact any_insertEntry hne o ok
  | removeEntry k => exact any_removeEntry hne o
  | andModify k f => exact any_andModify hne o
  | occupied k => exact (any_query hne o).1
  | orInsertW k x ans => exact any_orInsertW hne o ok
  | insertEntryW k x ans => exact any_insertEntryW hne o ok
  | tryInsertW k x ans => exact any_tryInsertW hne o ok
  | insertOrAssignW k x ans => exact any_insertOrAssignW hne o ok
  | contains k => exact (any_query hne o).2.1
  | get k => exact (any_query hne o).2.2
  | begin => exact (any_begin o).1
  | rbegin => exact (any_begin o).2
  | next a => exact (any_next o ok).1
  | rnext a => exact (any_next o ok).2
  | equalRange b e => exact (any_range hne o).1
  | equalRrange b e => exact (any_range hne o).2
  | size => exact ⟨s, gap 0, T, gap_ok, by simp only [step, size, specAny, o.size], o, rfl⟩
  | isEmpty =>
    refine ⟨s, gap 0, T, gap_ok, ?_, o, rfl⟩
    have : (s.sz == 0) = l.isEmpty := by rw [o.size]; cases l <;> simp
    simp only [step, isEmpty, specAny, this]
  | validate =>
    obtain ⟨b, hb⟩ := validate_any cmp key o
    refine ⟨s, ⟨none, 0, none, none, b⟩, T, ⟨fun _ h => (by cases h), fun _ h => (by cases h), fun _ h => (by cases h)⟩, ?_, o, rfl⟩
    simp only [step, hb, specAny, Option.bind_eq_bind, Option.bind_some]
  | clear =>
    obtain ⟨s', d, run, _, o', _, a'⟩ := clearLoop_any l.length [] o rfl
    refine ⟨s', gap 0, nil, gap_ok, ?_, o', a'⟩
    simp only [step, clear, run, specAny, Option.bind_eq_bind, Option.bind_some]

theorem Kept.next_walk (o : Kept s l T) :
    (l.map Prod.fst).Nodup ∧
    (∀ pre a post, l.map Prod.fst = pre ++ a :: post → next s a = some post.head?) ∧
    (∀ pre a post, (l.map Prod.fst).reverse = pre ++ a :: post → rnext s a = some post.head?) ∧
    begin_ s = some (l.map Prod.fst).head? ∧ rbegin s = some (l.map Prod.fst).reverse.head? := by
  have hids : l.map Prod.fst = T.ids := by rw [o.list]; exact ids_elems _ _
  have hz : ∀ m : List Nat, (∀ a ∈ m, a ∈ T.ids) → toSlot (m.headD 0) = m.head? := by
    intro m hm
    cases m with
    | nil => rfl
    | cons b m => simp [toSlot, o.ne_zero (hm b (by simp))]
  have hz' : ∀ m : List Nat, (∀ a ∈ m, a ∈ T.ids) → toSlot (m.getLastD 0) = m.reverse.head? := by
    intro m hm
    have := hz m.reverse (by simpa using hm)
    simpa using this
  rw [hids]
  refine ⟨o.nodup, ?_, ?_, ?_, ?_⟩
  · intro pre a post e
    simp only [next, Wavl.next_spec o.wv e true, Option.bind_eq_bind, Option.bind_some, if_true]
    rw [hz post (fun b hb => by rw [e]; simp [hb])]
  · intro pre a post e
    have e' : T.ids = post.reverse ++ a :: pre.reverse := by
      have := congrArg List.reverse e
      simpa using this
    simp only [rnext, Wavl.next_spec o.wv e' false, Option.bind_eq_bind, Option.bind_some, Bool.false_eq_true, if_false]
    rw [hz' _ (fun b hb => by rw [e']; simp [List.mem_reverse.1 hb])]
    simp
  · simp only [begin_, Wavl.minMaxFrom_spec o.wv false, Wavl.endOf, Option.bind_eq_bind, Option.bind_some,
      Bool.false_eq_true, if_false]
    rw [hz _ (fun _ h => h)]
  · simp only [rbegin, Wavl.minMaxFrom_spec o.wv true, Wavl.endOf, Option.bind_eq_bind, Option.bind_some, if_true]
    rw [hz' _ (fun _ h => h)]

end CCC.Rom
