import Verif.Model.RealtimeMap
import Verif.Proof.WavlFind
/-
The realtime ordered map represents a sorted list of elements.
-/
namespace CCC.Rom
open CCC Links Tree Wavl MapSpec PtrMap

variable {α κ : Type} {cmp : κ → κ → Cmp} {key : α → κ}

/-- Elements of a tree with their user data. -/
def elems (val : Nat → α) (is : List Nat) : List (Nat × α) := is.map (fun a => (a, val a))

/-- `s` stores the elements `l`, in a tree of shape `T`. -/
structure Ok (cmp : κ → κ → Cmp) (key : α → κ) (s : Rom α) (l : List (Nat × α)) (T : Tree) : Prop where
  wv : Wv s.t [] T
  valid : Valid T
  list : l = elems s.val T.ids
  sorted : Sorted cmp (ekey key) l
  size : s.sz = l.length

variable {s : Rom α} {l : List (Nat × α)} {T : Tree}

theorem mem_elems {val : Nat → α} {is : List Nat} {e : Nat × α} : e ∈ elems val is ↔ e.1 ∈ is ∧ e.2 = val e.1 := by
  simp only [elems, List.mem_map]
  constructor
  · rintro ⟨a, ha, rfl⟩; exact ⟨ha, rfl⟩
  · rintro ⟨h1, h2⟩; exact ⟨e.1, h1, by rw [← h2]⟩

theorem elems_congr {v v' : Nat → α} {is : List Nat} (h : ∀ a ∈ is, v' a = v a) : elems v' is = elems v is :=
  List.map_congr_left (fun a ha => by rw [h a ha])

theorem elems_upd {v : Nat → α} {is : List Nat} {a : Nat} {x : α} (h : a ∉ is) : elems (upd v a x) is = elems v is :=
  elems_congr (fun _ hb => upd_ne _ _ (fun hh => h (hh ▸ hb)))

theorem elems_append (v : Nat → α) (a b : List Nat) : elems v (a ++ b) = elems v a ++ elems v b := List.map_append

theorem Ok.fresh (o : Ok cmp key s l T) {a : Nat} : fresh l a ↔ (a ≠ 0 ∧ a ∉ T.ids) := by
  unfold PtrMap.fresh
  rw [o.list]
  constructor
  · rintro ⟨h0, h⟩; exact ⟨h0, fun hm => h (a, s.val a) (mem_elems.2 ⟨hm, rfl⟩) rfl⟩
  · rintro ⟨h0, h⟩; exact ⟨h0, fun e he hh => h (hh ▸ (mem_elems.1 he).1)⟩

theorem Ok.nodup (o : Ok cmp key s l T) : T.ids.Nodup := by simpa using o.wv.whole.nodup
theorem Ok.ne_zero (o : Ok cmp key s l T) {a : Nat} (h : a ∈ T.ids) : a ≠ 0 := by
  rintro rfl; exact o.wv.whole.tree.ne_zero h

theorem Ok.mono (o : Ok cmp key s l T) (hc : LawfulCmp cmp) (k : κ) : Mono (at_ cmp key s k) T.ids := by
  have := o.sorted
  rw [o.list] at this
  exact Mono.of_sorted hc this k

/-- Writing a struct that is not stored. -/
theorem Ok.put (o : Ok cmp key s l T) {h : Nat} {x : α} (hf : h ∉ T.ids) : Ok cmp key (put s h x) l T := by
  have : elems (upd s.val h x) T.ids = elems s.val T.ids :=
    elems_congr (fun a ha => upd_ne _ _ (fun hh => hf (hh ▸ ha)))
  exact ⟨o.wv, o.valid, by rw [o.list]; exact this.symm, o.sorted, o.size⟩

/-- Overwriting the data of a stored element by data with an equal key. -/
theorem Ok.set (o : Ok cmp key s l T) (hc : LawfulCmp cmp) {a : Nat} {x : α} {pre post : List Nat}
    (e : T.ids = pre ++ a :: post) (hx : cmp (key x) (key (s.val a)) = .eql) :
    Ok cmp key { s with val := upd s.val a x } (elems s.val pre ++ (a, x) :: elems s.val post) T ∧
    elems (upd s.val a x) T.ids = elems s.val pre ++ (a, x) :: elems s.val post := by
  have hn := o.nodup
  rw [e, List.nodup_append, List.nodup_cons] at hn
  have h1 : a ∉ pre := fun hh => hn.2.2 a hh a (by simp) rfl
  have h2 := hn.2.1.1
  have el : elems (upd s.val a x) T.ids = elems s.val pre ++ (a, x) :: elems s.val post := by
    rw [e, elems_append, elems_upd h1, show elems (upd s.val a x) (a :: post) =
      (a, upd s.val a x a) :: elems (upd s.val a x) post from rfl, elems_upd h2, upd_same]
  have hl : l = elems s.val pre ++ (a, s.val a) :: elems s.val post := by
    rw [o.list, e, elems_append]; rfl
  refine ⟨⟨o.wv, o.valid, el.symm, ?_, ?_⟩, el⟩
  · have := o.sorted
    rw [hl] at this
    exact this.replace hc (by simpa [ekey] using hx)
  · rw [o.size, hl]; simp

/-- A place for a new element: where a search for an absent key ended. -/
def Gap (T : Tree) (c : Nat → Cmp) (q : Query) : Prop :=
  T = nil ∨ ∃ f cx, T = plug (f :: cx) nil ∧ (∀ a ∈ before (f :: cx), c a = .grt) ∧
    (∀ a ∈ after (f :: cx), c a = .les) ∧ q = (if f.dir then .grt else .les, f.id)

theorem Gap.split {c : Nat → Cmp} {q : Query} (g : Gap T c q) : ∃ pre post, T.ids = pre ++ post ∧
    (∀ a ∈ pre, c a = .grt) ∧ (∀ a ∈ post, c a = .les) := by
  rcases g with rfl | ⟨f, cx, rfl, h1, h2, _⟩
  · exact ⟨[], [], rfl, by simp, by simp⟩
  · exact ⟨_, _, by rw [plug_ids]; simp [ids], h1, h2⟩

theorem Gap.congr {c c' : Nat → Cmp} {q : Query} (g : Gap T c q) (h : ∀ a ∈ T.ids, c' a = c a) : Gap T c' q := by
  rcases g with h0 | ⟨f, cx, e, h1, h2, h3⟩
  · exact Or.inl h0
  · refine Or.inr ⟨f, cx, e, ?_, ?_, h3⟩
    · intro a ha; rw [h a (by rw [e, plug_ids]; simp [ha])]; exact h1 a ha
    · intro a ha; rw [h a (by rw [e, plug_ids]; simp [ha])]; exact h2 a ha

/-- What a search answers, in terms of the stored list. -/
theorem Ok.find (o : Ok cmp key s l T) (hc : LawfulCmp cmp) (k : κ) :
    (∃ pre x post, T.ids = pre ++ x :: post ∧ cmp k (key (s.val x)) = .eql ∧
      (∀ e ∈ elems s.val pre, cmp k (ekey key e) = .grt) ∧ (∀ e ∈ elems s.val post, cmp k (ekey key e) = .les) ∧
      find cmp key s k = some (.eql, x) ∧ lookup cmp (ekey key) k l = some (x, s.val x)) ∨
    (∃ q, find cmp key s k = some q ∧ q.1 ≠ .eql ∧ Gap T (at_ cmp key s k) q ∧
      lookup cmp (ekey key) k l = none) := by
  rcases find_cases (by simpa using o.wv.whole.tree) o.wv.whole.ctx (o.mono hc k) with
    ⟨pre, x, post, e, hx, h1, h2, hf⟩ | ⟨rfl, hf⟩ | ⟨f, cx, e, h1, h2, hf⟩
  · left
    have h1' : ∀ e ∈ elems s.val pre, cmp k (ekey key e) = .grt := by
      intro e he
      obtain ⟨m, v⟩ := mem_elems.1 he
      simp only [ekey, v]; exact h1 _ m
    have h2' : ∀ e ∈ elems s.val post, cmp k (ekey key e) = .les := by
      intro e he
      obtain ⟨m, v⟩ := mem_elems.1 he
      simp only [ekey, v]; exact h2 _ m
    refine ⟨pre, x, post, e, hx, h1', h2', hf, ?_⟩
    rw [o.list, e, elems_append]
    exact lookup_split h1' hx
  · right
    refine ⟨_, hf, by simp, Or.inl rfl, ?_⟩
    rw [o.list]; rfl
  · right
    refine ⟨_, hf, by cases f.dir <;> simp, Or.inr ⟨f, cx, e, h1, h2, rfl⟩, ?_⟩
    rw [o.list, e, plug_ids]
    simp only [ids, List.append_nil, elems_append]
    refine lookup_none ?_ ?_
    · intro e he
      obtain ⟨m, v⟩ := mem_elems.1 he
      simp only [ekey, v]; exact h1 _ m
    · intro e he
      obtain ⟨m, v⟩ := mem_elems.1 he
      simp only [ekey, v]; exact h2 _ m

theorem initNode_spec {t : Links} {e : Nat} (hl : t.live e = true) : ∃ t', initNode t e = some t' ∧
    t'.live = t.live ∧ t'.root = t.root ∧ (∀ d, t'.br e d = 0) ∧ t'.par e = 0 ∧ t'.parity e = false ∧
    (∀ a, a ≠ e → t'.br a = t.br a ∧ t'.par a = t.par a ∧ t'.parity a = t.parity a) := by
  have run : ∃ t', initNode t e = some t' ∧ t' = { t with
      br := fun b d => if b = e ∧ d = true then 0 else if b = e ∧ d = false then 0 else t.br b d
      par := upd t.par e 0
      parity := upd t.parity e false } := by
    refine ⟨_, ?_, rfl⟩
    simp only [initNode, Option.bind_eq_bind]
    rw [setBr_live hl, Option.bind_some, setBr_live (by exact hl), Option.bind_some, setPar_live (by exact hl),
      Option.bind_some, setParity_live (by exact hl)]
  obtain ⟨t', run, rfl⟩ := run
  refine ⟨_, run, ?_⟩
  · refine ⟨rfl, rfl, ?_, ?_, ?_, ?_⟩
    · intro d; cases d <;> simp
    · simp
    · simp
    · intro a ha
      refine ⟨?_, upd_ne _ _ ha, upd_ne _ _ ha⟩
      funext d; simp [ha]

theorem insertNode_spec' (o : Ok cmp key s l T) (hc : LawfulCmp cmp) {c : Nat → Cmp} {q : Query} (g : Gap T c q)
    {e : Nat} (e0 : e ≠ 0) (he : e ∉ T.ids) (hk : ∀ a ∈ T.ids, c a = cmp (key (s.val e)) (key (s.val a))) :
    ∃ s' T', insertNode s q.2 q.1 e = some s' ∧ Ok cmp key s' (place cmp (ekey key) (e, s.val e) l) T' ∧
      s'.val = s.val ∧ s'.alloc = s.alloc ∧ s'.t.live = upd s.t.live e true ∧ T'.ids.Perm (e :: T.ids) := by
  obtain ⟨t1, run1, l1, r1, b1, p1, y1, f1⟩ := initNode_spec (t := { s.t with live := upd s.t.live e true })
    (e := e) (by simp)
  obtain ⟨pre, post, eids, hpre, hpost⟩ := g.split
  have hpre' : ∀ x ∈ elems s.val pre, cmp (ekey key (e, s.val e)) (ekey key x) = .grt := by
    intro x hx
    obtain ⟨m, v⟩ := mem_elems.1 hx
    simp only [ekey, v]
    rw [← hk _ (by rw [eids]; simp [m])]; exact hpre _ m
  have hpost' : ∀ x ∈ elems s.val post, cmp (ekey key (e, s.val e)) (ekey key x) = .les := by
    intro x hx
    obtain ⟨m, v⟩ := mem_elems.1 hx
    simp only [ekey, v]
    rw [← hk _ (by rw [eids]; simp [m])]; exact hpost _ m
  have hl : l = elems s.val pre ++ elems s.val post := by rw [o.list, eids, elems_append]
  have hplace : place cmp (ekey key) (e, s.val e) l = elems s.val (pre ++ e :: post) := by
    rw [hl, place_split hpre' hpost', elems_append]; rfl
  have hsorted : Sorted cmp (ekey key) (elems s.val (pre ++ e :: post)) := by
    have := o.sorted
    rw [hl] at this
    rw [elems_append]
    exact this.place hc hpre' hpost'
  have hlen : s.sz + 1 = (elems s.val (pre ++ e :: post)).length := by
    rw [o.size, hl]; simp [elems]; omega
  have hlv : ∀ a ∈ T.ids, t1.live a = s.t.live a := by
    intro a ha; rw [l1]; exact upd_ne _ _ (fun hh => he (hh ▸ ha))
  have hz : t1.live 0 = true := by
    rw [l1]; show upd s.t.live e true 0 = true; rw [upd_ne _ _ (Ne.symm e0)]; exact o.wv.whole.live0
  have hpy : t1.parity 0 = true := by rw [(f1 0 (Ne.symm e0)).2.2]; exact o.wv.par0
  rw [insertNode]
  simp only [run1, Option.bind_eq_bind, Option.bind_some]
  rcases g with rfl | ⟨f, cx, rfl, h1, h2, h3⟩
  · have hp : pre = [] ∧ post = [] := by simpa [ids] using eids.symm
    obtain ⟨rfl, rfl⟩ := hp
    have hsz : s.sz = 0 := by rw [o.size, o.list]; rfl
    rw [if_pos hsz]
    refine ⟨_, node e 1 nil nil, rfl, ⟨⟨⟨rfl, ?_, ?_, hz⟩, ⟨?_, trivial, trivial⟩, trivial, hpy⟩, by simp [Valid],
      hplace, by rw [hplace]; exact hsorted, by rw [hplace]; exact hlen⟩, rfl, rfl, l1, by simp [ids]⟩
    · refine ⟨e0, ?_, b1 _, b1 _, p1, trivial, trivial⟩
      show t1.live e = true
      rw [l1]; simp
    · simp [ids]
    · show t1.parity e = ev 1
      rw [y1]; rfl
  · have hsz : s.sz ≠ 0 := by
      rw [o.size, o.list]
      have hm : f.id ∈ (plug (f :: cx) nil).ids := by rw [(plug_ids_perm _ _).mem_iff]; simp
      intro hh
      have : (elems s.val (plug (f :: cx) nil).ids) = [] := List.eq_nil_of_length_eq_zero hh
      simp only [elems, List.map_eq_nil_iff] at this
      rw [this] at hm; simp at hm
    rw [if_neg hsz]
    have wc := Wv.plug.2 o.wv
    have hec : e ∉ cids (f :: cx) := by
      intro hh; apply he; rw [(plug_ids_perm _ _).mem_iff]; simp only [ids, List.nil_append]; exact hh
    have hcid : ∀ a ∈ cids (f :: cx), a ≠ e := fun a ha hh => hec (hh ▸ ha)
    have w1 : Wv t1 (f :: cx) nil := by
      refine ⟨⟨?_, trivial, wc.whole.nodup, hz⟩, trivial, ?_, hpy⟩
      · refine wc.whole.ctx.congr r1 ?_ (fun a ha => (f1 a (hcid a ha)).1) (fun a ha => (f1 a (hcid a ha)).2.1)
        intro a ha; rw [l1]; exact upd_ne _ _ (hcid a ha)
      · exact wc.rpc.congr (fun a ha => (f1 a (hcid a ha)).2.2)
    obtain ⟨h', T', run', w', v', i', l'⟩ := insertBelow_spec w1 o.valid e0 (by rw [l1]; simp) hec b1 y1
    have hi : T'.ids = pre ++ e :: post := by
      have e2 : before (f :: cx) ++ after (f :: cx) = pre ++ post := by
        rw [← eids, plug_ids]; simp [ids]
      have hbf : before (f :: cx) = pre ∧ after (f :: cx) = post := by
        have key : ∀ (A B C D : List Nat), A ++ B = C ++ D → (∀ a ∈ A, c a = .grt) → (∀ a ∈ B, c a = .les) →
            (∀ a ∈ C, c a = .grt) → (∀ a ∈ D, c a = .les) → A = C ∧ B = D := by
          intro A
          induction A with
          | nil =>
            intro B C D h _ hB hC _
            cases C with
            | nil => simpa using h
            | cons y C =>
              have y1 := hC y (by simp)
              have y2 := hB y (by rw [List.nil_append] at h; rw [h]; simp)
              rw [y1] at y2; cases y2
          | cons x A ih =>
            intro B C D h hA hB hC hD
            cases C with
            | nil =>
              have y1 := hA x (by simp)
              have y2 := hD x (by rw [List.nil_append] at h; rw [← h]; simp)
              rw [y1] at y2; cases y2
            | cons y C =>
              simp only [List.cons_append, List.cons.injEq] at h
              obtain ⟨rfl, h⟩ := h
              obtain ⟨r1, r2⟩ := ih B C D h (fun a ha => hA a (by simp [ha])) hB
                (fun a ha => hC a (by simp [ha])) hD
              exact ⟨by rw [r1], r2⟩
        exact key _ _ _ _ e2 h1 h2 hpre hpost
      rw [i', hbf.1, hbf.2]
    have hq1 : q.1 = if f.dir then .grt else .les := by rw [h3]
    have hq2 : q.2 = f.id := by rw [h3]
    rw [hq1, hq2, run']
    refine ⟨_, T', rfl, ⟨w', v', ?_, by rw [hplace]; exact hsorted, by rw [hplace]; exact hlen⟩, rfl, rfl,
      l'.trans l1, ?_⟩
    · rw [hplace, hi]
    · rw [hi, eids]; exact List.perm_middle

theorem insertNode_spec (o : Ok cmp key s l T) (hc : LawfulCmp cmp) {c : Nat → Cmp} {q : Query} (g : Gap T c q)
    {e : Nat} (e0 : e ≠ 0) (he : e ∉ T.ids) (hk : ∀ a ∈ T.ids, c a = cmp (key (s.val e)) (key (s.val a))) :
    ∃ s' T', insertNode s q.2 q.1 e = some s' ∧ Ok cmp key s' (place cmp (ekey key) (e, s.val e) l) T' ∧
      s'.val = s.val ∧ s'.alloc = s.alloc := by
  obtain ⟨s', T', run, o', v', a', _⟩ := insertNode_spec' o hc g e0 he hk
  exact ⟨s', T', run, o', v', a'⟩

theorem removeFixup_spec (o : Ok cmp key s l T) {pre post : List Nat} {x : Nat} (e : T.ids = pre ++ x :: post) :
    ∃ s' T', removeFixup s x = some s' ∧ Ok cmp key s' (elems s.val (pre ++ post)) T' ∧ T'.ids = pre ++ post ∧
      s'.val = s.val ∧ s'.alloc = s.alloc := by
  have hx : x ∈ T.ids := by rw [e]; simp
  have hn := o.nodup
  have x0 := o.ne_zero hx
  obtain ⟨c, k, L, R, rfl⟩ := mem_split hx
  have wc := Wv.plug.2 o.wv
  have e2 := plug_ids c (node x k L R)
  rw [e, show (node x k L R).ids = L.ids ++ x :: R.ids from rfl,
    show before c ++ (L.ids ++ x :: R.ids) ++ after c = (before c ++ L.ids) ++ x :: (R.ids ++ after c) by simp] at e2
  rw [e] at hn
  obtain ⟨rfl, rfl⟩ := split_unique hn e2
  obtain ⟨h', T', run, w', v', i', l'⟩ := removeLinks_spec wc o.valid
  have hi : T'.ids = (before c ++ L.ids) ++ (R.ids ++ after c) := by rw [i']; simp
  have hxT : x ∉ T'.ids := by
    rw [hi]
    rw [List.nodup_append, List.nodup_cons] at hn
    simp only [List.mem_append (s := before c ++ L.ids), not_or]
    exact ⟨fun hh => hn.2.2 x hh x (by simp) rfl, hn.2.1.1⟩
  have hlv : ∀ a ∈ T'.ids, upd h'.live x false a = h'.live a := fun a ha => upd_ne _ _ (fun hh => hxT (hh ▸ ha))
  have w2 : Wv { h' with live := upd h'.live x false } [] T' := by
    refine ⟨⟨w'.whole.ctx, ?_, w'.whole.nodup, ?_⟩, ?_, trivial, w'.par0⟩
    · exact w'.whole.tree.congr hlv (fun _ _ => rfl) (fun _ _ => rfl)
    · show upd h'.live x false 0 = true
      rw [upd_ne _ _ (Ne.symm x0)]; exact w'.whole.live0
    · exact w'.rp.congr (fun _ _ => rfl)
  have hl : l = elems s.val (before c ++ L.ids) ++ (x, s.val x) :: elems s.val (R.ids ++ after c) := by
    rw [o.list, e, elems_append]; rfl
  have hsz : s.sz - 1 = (elems s.val ((before c ++ L.ids) ++ (R.ids ++ after c))).length := by
    rw [o.size, hl]; simp [elems]; omega
  refine ⟨{ s with t := { h' with live := upd h'.live x false }, sz := s.sz - 1 }, T', ?_, ⟨w2, v', ?_, ?_, hsz⟩, hi,
    rfl, rfl⟩
  · simp only [removeFixup, run, Option.bind_eq_bind, Option.bind_some]
  · rw [hi]
  · have := o.sorted
    rw [hl] at this
    rw [elems_append]
    exact this.erase

end CCC.Rom
