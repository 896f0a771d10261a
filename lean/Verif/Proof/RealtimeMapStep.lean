import Verif.Proof.RealtimeMap
/-
Every call of the realtime ordered map answers as specified.
-/
namespace CCC.Rom
open CCC Links Tree Wavl MapSpec PtrMap

variable {α κ : Type} {cmp : κ → κ → Cmp} {key : α → κ} {s : Rom α} {l : List (Nat × α)} {T : Tree}

/-! ### Insertion -/

theorem maybeAllocInsert_spec (o : Ok cmp key s l T) (hc : LawfulCmp cmp) {k : κ} {q : Query}
    (g : Gap T (at_ cmp key s k) q) {h : Nat} (h0 : h ≠ 0) (hh : h ∉ T.ids) {ans : Option Nat}
    (ha : goodAns l ans h) (hk : cmp k (key (s.val h)) = .eql) :
    (addAt s.alloc (some h) ans = none ∧ maybeAllocInsert s q.2 q.1 h ans = some (s, none)) ∨
    (∃ n s' T', addAt s.alloc (some h) ans = some n ∧ maybeAllocInsert s q.2 q.1 h ans = some (s', some n) ∧
      Ok cmp key s' (place cmp (ekey key) (n, s.val h) l) T' ∧ s'.val = upd s.val n (s.val h) ∧
      s'.alloc = s.alloc ∧ (n = h ∨ ans = some n)) := by
  cases hal : s.alloc with
  | true =>
    cases ans with
    | none => left; exact ⟨rfl, by simp [maybeAllocInsert, hal]⟩
    | some n =>
      right
      obtain ⟨hf, hnh⟩ := ha n rfl
      rw [o.fresh] at hf
      have o1 : Ok cmp key (put s n (s.val h)) l T := o.put hf.2
      obtain ⟨s', T', run, o', v', a'⟩ := insertNode_spec o1 hc g hf.1 hf.2 (by
        intro a hm
        have : (put s n (s.val h)).val a = s.val a := upd_ne _ _ (fun e => hf.2 (e ▸ hm))
        rw [this]
        have hn : (put s n (s.val h)).val n = s.val h := by simp [put]
        rw [hn]
        exact hc.eql_congr_left hk _)
      have hn : (put s n (s.val h)).val n = s.val h := by simp [put]
      rw [hn] at o'
      refine ⟨n, s', T', rfl, ?_, o', v', by rw [a', ← hal]; rfl, Or.inr rfl⟩
      rw [maybeAllocInsert, if_pos hal]
      simp only [put] at run
      simp only [run, Option.bind_eq_bind, Option.bind_some]
  | false =>
    right
    obtain ⟨s', T', run, o', v', a'⟩ := insertNode_spec o hc g h0 hh (by
      intro a _; exact hc.eql_congr_left hk _)
    refine ⟨h, s', T', rfl, ?_, o', ?_, by rw [a', hal], Or.inl rfl⟩
    · simp [maybeAllocInsert, hal, run]
    · rw [v']; funext a; by_cases e : a = h <;> simp [upd, e]

theorem insertMem_spec (o : Ok cmp key s l T) (hc : LawfulCmp cmp) {k : κ} {q : Query}
    (g : Gap T (at_ cmp key s k) q) {n : Nat} {x : α} (hf : fresh l n) (hk : cmp k (key x) = .eql) :
    ∃ s' T', insertNode { s with val := upd s.val n x } q.2 q.1 n = some s' ∧
      Ok cmp key s' (place cmp (ekey key) (n, x) l) T' ∧ s'.val = upd s.val n x ∧ s'.alloc = s.alloc := by
  rw [o.fresh] at hf
  have o1 : Ok cmp key (put s n x) l T := o.put hf.2
  have hn : (put s n x).val n = x := by simp [put]
  obtain ⟨s', T', run, o', v', a'⟩ := insertNode_spec o1 hc g hf.1 hf.2 (by
    intro a hm
    have : (put s n x).val a = s.val a := upd_ne _ _ (fun e => hf.2 (e ▸ hm))
    rw [this, hn]
    exact hc.eql_congr_left hk _)
  rw [hn] at o'
  exact ⟨s', T', run, o', v', a'⟩

/-! ### Removal -/

theorem remove_list {val : Nat → α} {k : κ} {pre post : List Nat} {x : Nat}
    (h1 : ∀ e ∈ elems val pre, cmp k (ekey key e) = .grt) (hx : cmp k (key (val x)) = .eql)
    (h2 : ∀ e ∈ elems val post, cmp k (ekey key e) = .les) :
    erase cmp (ekey key) k (elems val (pre ++ x :: post)) = elems val (pre ++ post) := by
  rw [elems_append, elems_append]
  exact erase_split h1 hx h2

theorem ids_elems (v : Nat → α) (is : List Nat) : (elems v is).map Prod.fst = is := by
  induction is with
  | nil => rfl
  | cons a is ih => simpa [elems] using ih

/-! ### Clearing -/

theorem clearLoop_spec (n : Nat) : ∀ {s : Rom α} {l : List (Nat × α)} {T : Tree} (acc : List (Nat × α)),
    Ok cmp key s l T → l.length = n →
    ∃ s' d, clearLoop s acc = some (s', acc ++ d) ∧ d.Perm l ∧ Ok cmp key s' [] nil ∧ s'.val = s.val ∧
      s'.alloc = s.alloc := by
  induction n with
  | zero =>
    intro s l T acc o hl
    have hl' : l = [] := List.eq_nil_of_length_eq_zero hl
    have hT : T = nil := by
      have := o.list
      rw [hl'] at this
      cases T with
      | nil => rfl
      | node i k a b => simp [elems, ids] at this
    subst hl'; subst hT
    refine ⟨s, [], ?_, List.Perm.refl _, o, rfl, rfl⟩
    rw [clearLoop]; simp [o.size]
  | succ n ih =>
    intro s l T acc o hl
    cases T with
    | nil => rw [o.list] at hl; simp [elems, ids] at hl
    | node i k a b =>
      have hroot : s.t.root = i := o.wv.whole.ctx
      have il : s.t.live i = true := o.wv.whole.tree.2.1
      obtain ⟨s1, T1, run, o1, i1, v1, a1⟩ := removeFixup_spec o (pre := a.ids) (post := b.ids) (x := i) rfl
      have hl1 : (elems s.val (a.ids ++ b.ids)).length = n := by
        have := hl
        rw [o.list] at this
        simp [elems, ids] at this ⊢
        omega
      obtain ⟨s', d, run', p', o', v', a'⟩ := ih (acc ++ [(i, s1.val i)]) o1 hl1
      refine ⟨s', (i, s1.val i) :: d, ?_, ?_, o', by rw [v', v1], by rw [a', a1]⟩
      · have hsz : s.sz ≠ 0 := by rw [o.size, hl]; simp
        rw [clearLoop, if_neg hsz]
        simp only [hroot, getBr_live il, Option.bind_eq_bind, Option.bind_some, run]
        rw [run']; simp
      · rw [v1, o.list, show (node i k a b).ids = a.ids ++ i :: b.ids from rfl, elems_append]
        rw [elems_append] at p'
        exact (p'.cons (i, s.val i)).trans (List.perm_middle).symm

/-! ### Validation -/

theorem recursiveSize_spec {h : Links} : ∀ {t : Tree} {p : Nat}, Rep h p t →
    recursiveSize h t.rootId = some t.ids.length := by
  intro t
  induction t with
  | nil => intro p _; rw [recursiveSize]; simp [ids]
  | node i k a b ia ib =>
    intro p hr
    obtain ⟨i0, il, b0, b1, _, ra, rb⟩ := hr
    rw [recursiveSize]
    simp only [node_rootId, i0, if_false, getBr_live il, b0, b1, Option.bind_eq_bind, Option.bind_some, ia ra, ib rb]
    simp [ids]; omega

theorem isStoringParent_spec {h : Links} : ∀ {t : Tree} {p : Nat}, Rep h p t →
    isStoringParent h p t.rootId = some true := by
  intro t
  induction t with
  | nil => intro p _; rw [isStoringParent]; simp
  | node i k a b ia ib =>
    intro p hr
    obtain ⟨i0, il, b0, b1, hp, ra, rb⟩ := hr
    rw [isStoringParent]
    simp [i0, getBr_live il, getPar_live il, hp, b0, b1, ia ra, ib rb]

theorem areSubtreesValid_spec (hc : LawfulCmp cmp) (s : Rom α) : ∀ {t : Tree} {p low high : Nat}, Rep s.t p t →
    t.ids.Pairwise (fun a b => cmp (key (s.val a)) (key (s.val b)) = .les) →
    (low ≠ 0 → ∀ a ∈ t.ids, cmp (key (s.val low)) (key (s.val a)) = .les) →
    (high ≠ 0 → ∀ a ∈ t.ids, cmp (key (s.val high)) (key (s.val a)) = .grt) →
    areSubtreesValid cmp key s low t.rootId high = some true := by
  intro t
  induction t with
  | nil => intro p low high _ _ _ _; rw [areSubtreesValid]; simp
  | node i k a b ia ib =>
    intro p low high hr hs h1 h2
    obtain ⟨i0, il, b0, b1, hp, ra, rb⟩ := hr
    simp only [ids] at hs
    rw [List.pairwise_append, List.pairwise_cons] at hs
    obtain ⟨sa, ⟨sib, sb⟩, sab⟩ := hs
    have ea := ia (low := low) (high := i) ra sa (fun hl x hx => h1 hl x (by simp [ids, hx]))
      (fun _ x hx => hc.grt_iff.2 (sab x hx i (by simp)))
    have eb := ib (low := i) (high := high) rb sb (fun _ x hx => sib x hx)
      (fun hh x hx => h2 hh x (by simp [ids, hx]))
    show areSubtreesValid cmp key s low i high = some true
    rw [areSubtreesValid]
    have n1 : ¬ (low ≠ 0 ∧ at_ cmp key s (key (s.val low)) i ≠ .les) := by
      rintro ⟨x, y⟩; exact y (h1 x i (by simp [ids]))
    have n2 : ¬ (high ≠ 0 ∧ at_ cmp key s (key (s.val high)) i ≠ .grt) := by
      rintro ⟨x, y⟩; exact y (h2 x i (by simp [ids]))
    rw [if_neg i0, if_neg n1, if_neg n2]
    simp [getBr_live il, b0, b1, ea, eb]

theorem validate_spec (hc : LawfulCmp cmp) (o : Ok cmp key s l T) : validate cmp key s = some true := by
  have hroot : s.t.root = T.rootId := o.wv.whole.ctx
  have hs : T.ids.Pairwise (fun a b => cmp (key (s.val a)) (key (s.val b)) = .les) := by
    have := o.sorted
    rw [o.list] at this
    unfold Sorted elems at this
    rw [List.pairwise_map] at this
    exact this
  have hsz : T.ids.length = s.sz := by rw [o.size, o.list]; simp [elems]
  rw [validate]
  simp only [getParity_live o.wv.whole.live0, o.wv.par0, Option.bind_eq_bind, Option.bind_some, hroot,
    areSubtreesValid_spec hc s (low := 0) (high := 0) o.wv.whole.tree hs (by simp) (by simp), recursiveSize_spec o.wv.whole.tree,
    Bool.not_true, Bool.false_eq_true, if_false, hsz, ne_eq, not_true_eq_false]
  exact isStoringParent_spec (by simpa using o.wv.whole.tree)

/-! ### What the user sees through returned pointers -/

theorem view_head {s : Rom α} {is : List Nat} (h0 : ∀ a ∈ is, a ≠ 0) :
    view s (toSlot (is.headD 0)) = (elems s.val is).head? := by
  cases is with
  | nil => simp [toSlot, view, elems]
  | cons a is => simp [toSlot, view, elems, h0 a (by simp)]

theorem view_last {s : Rom α} {is : List Nat} (h0 : ∀ a ∈ is, a ≠ 0) :
    view s (toSlot (is.getLastD 0)) = (elems s.val is).getLast? := by
  rw [← List.head?_reverse, elems, ← List.map_reverse]
  have := view_head (s := s) (is := is.reverse) (by simpa using h0)
  rw [elems] at this
  rw [← this]; simp

theorem view_find {s : Rom α} {is : List Nat} (h0 : ∀ a ∈ is, a ≠ 0) (p : Nat × α → Bool) :
    view s (toSlot ((is.find? (fun a => p (a, s.val a))).getD 0)) = (elems s.val is).find? p := by
  rw [elems, List.find?_map]
  cases h : is.find? (fun a => p (a, s.val a)) with
  | none =>
    have : is.find? (p ∘ fun a => (a, s.val a)) = none := h
    simp [this, toSlot, view]
  | some a =>
    have h' : is.find? (p ∘ fun a => (a, s.val a)) = some a := h
    have := h0 a (List.mem_of_find?_eq_some h)
    simp [h', toSlot, view, this]

theorem dropWhile_split {val : Nat → α} {pre post : List Nat} {a : Nat} (h : a ∉ pre) :
    ((elems val (pre ++ a :: post)).dropWhile (fun e => e.1 != a)).tail = elems val post := by
  induction pre with
  | nil => simp [elems]
  | cons b pre ih =>
    simp only [List.mem_cons, not_or] at h
    have hb : ((b, val b) : Nat × α).1 != a := by simpa using Ne.symm h.1
    rw [show elems val (b :: pre ++ a :: post) = (b, val b) :: elems val (pre ++ a :: post) from rfl,
      List.dropWhile_cons, if_pos hb]
    exact ih h.2

/-! ### One call -/

/-- The state after a call represents the specified contents. -/
def Sim (cmp : κ → κ → Cmp) (key : α → κ) (s : Rom α) (l : List (Nat × α)) : Prop := ∃ T, Ok cmp key s l T

theorem put_comm_val {s : Rom α} {h : Nat} {x : α} : (put s h x).val h = x := by simp [put]

theorem assign_elems {l : List (Nat × α)} {val : Nat → α} {x : α} {pre post : List Nat} {a : Nat}
    (hl : l = elems val (pre ++ a :: post)) (h1 : ∀ e ∈ elems val pre, cmp (key x) (ekey key e) = .grt)
    (hx : cmp (key x) (key (val a)) = .eql) (h2 : ∀ e ∈ elems val post, cmp (key x) (ekey key e) = .les) :
    assign cmp (ekey key) (a, x) l = elems val pre ++ (a, x) :: elems val post := by
  rw [hl, elems_append]
  exact assign_split (e := (a, x)) h1 hx h2

theorem entry_eq {s : Rom α} {k : κ} {q : Query} (h : find cmp key s k = some q) : entry cmp key s k =
    some ⟨q.1, q.2, if q.1 = .eql then Stat.occupied else Stat.vacant ||| Stat.noUnwrap⟩ := by
  simp only [entry, h, Option.bind_eq_bind, Option.bind_some]
  split <;> simp_all

theorem vac_ne_occ : (Stat.vacant ||| Stat.noUnwrap) ≠ Stat.occupied := by decide
theorem vac_not_occ : Stat.has (Stat.vacant ||| Stat.noUnwrap) Stat.occupied = false := by decide
theorem occ_occ : Stat.has Stat.occupied Stat.occupied = true := by decide
theorem unwrap_occ (p : Slot) : Ent.unwrap (some ⟨p, Stat.occupied⟩) = p := by
  have : Stat.has Stat.occupied Stat.noUnwrap = false := by decide
  simp [Ent.unwrap, this]
theorem unwrap_vac (p : Slot) : Ent.unwrap (some ⟨p, Stat.vacant⟩) = p := by
  have : Stat.has Stat.vacant Stat.noUnwrap = false := by decide
  simp [Ent.unwrap, this]
theorem unwrap_ie (p : Slot) : Ent.unwrap (some ⟨p, Stat.insertError⟩) = p := by
  have : Stat.has Stat.insertError Stat.noUnwrap = false := by decide
  simp [Ent.unwrap, this]

/-- Goal of the per-call theorem. -/
def StepOk (cmp : κ → κ → Cmp) (key : α → κ) (s : Rom α) (l : List (Nat × α)) (op : Op α κ) : Prop :=
  ∃ s', step cmp key s op = some (s', (specStep cmp key s.alloc l op).2) ∧
    Sim cmp key s' (specStep cmp key s.alloc l op).1 ∧ s'.alloc = s.alloc

theorem step_insert (hc : LawfulCmp cmp) (o : Ok cmp key s l T) {h tmp : Nat} {x y : α} {ans : Option Nat}
    (ok : okOp cmp key s.alloc l (.insert h x tmp y ans)) : StepOk cmp key s l (.insert h x tmp y ans) := by
  obtain ⟨fh, ft, hne, ga, ant⟩ := ok
  have fh' := o.fresh.1 fh
  have ft' := o.fresh.1 ft
  let s1 := put (put s tmp y) h x
  have o1 : Ok cmp key s1 l T := (o.put ft'.2).put fh'.2
  have hx : s1.val h = x := put_comm_val
  have hy : s1.val tmp = y := by show upd (upd s.val tmp y) h x tmp = y; rw [upd_ne _ _ (Ne.symm hne)]; simp
  have hal : s1.alloc = s.alloc := rfl
  rcases o1.find hc (key x) with ⟨pre, a, post, e, ha, h1, h2, hf, hlk⟩ | ⟨q, hf, hq, g, hlk⟩
  · have ham : a ∈ T.ids := by rw [e]; simp
    have hah : a ≠ h := fun hh => fh'.2 (hh ▸ ham)
    have hat : a ≠ tmp := fun hh => ft'.2 (hh ▸ ham)
    obtain ⟨o2, el2⟩ := o1.set hc (x := x) e ha
    have o3 := (o2.put (h := tmp) (x := s1.val a) ft'.2).put (h := h) (x := s1.val a) fh'.2
    refine ⟨{ s1 with val := upd (upd (upd s1.val tmp (s1.val a)) a x) h (s1.val a) }, ?_, ⟨T, ?_⟩, ?_⟩
    · simp only [step, insert, specStep]
      rw [show (put (put s tmp y) h x) = s1 from rfl, hx, hf, hlk]
      simp only [Option.bind_eq_bind, Option.bind_some, if_true]
      have e1 : upd s1.val tmp (s1.val a) h = x := by rw [upd_ne _ _ hne, hx]
      have e2 : upd (upd s1.val tmp (s1.val a)) a x tmp = s1.val a := by
        rw [upd_ne _ _ (Ne.symm hat)]; simp
      simp only [e1, e2, unwrap_occ, view, Option.map_some, upd_ne _ _ (Ne.symm hne)]
    · have hv : upd (upd (upd s1.val tmp (s1.val a)) a x) h (s1.val a) =
          upd (upd (upd s1.val a x) tmp (s1.val a)) h (s1.val a) := by
        funext b
        simp only [upd]
        by_cases c1 : b = h
        · simp [c1]
        · by_cases c2 : b = a
          · simp [c2, hat]
          · simp [c1, c2]
      simp only [specStep, hlk]
      rw [assign_elems (o1.list.trans (by rw [e])) h1 ha h2, hv]
      exact o3
    · rfl
  · have g' := g
    rcases maybeAllocInsert_spec o1 hc g fh'.1 fh'.2 (ans := ans) ga (by rw [hx]; exact hc.refl _) with
      ⟨hn, run⟩ | ⟨n, s', T', hn, run, o', v', a', hnh⟩
    · refine ⟨s1, ?_, ⟨T, ?_⟩, rfl⟩
      · simp only [step, insert, specStep]
        rw [show (put (put s tmp y) h x) = s1 from rfl, hx, hf, hlk]
        rw [hal] at hn
        simp only [Option.bind_eq_bind, Option.bind_some, if_neg hq, run, hn, unwrap_ie]
        rw [hy]; rfl
      · rw [hal] at hn
        simp only [specStep, hlk, hn]; exact o1
    · refine ⟨s', ?_, ⟨T', ?_⟩, by rw [a', hal]⟩
      · simp only [step, insert, specStep]
        rw [show (put (put s tmp y) h x) = s1 from rfl, hx, hf, hlk]
        rw [hal] at hn
        simp only [Option.bind_eq_bind, Option.bind_some, if_neg hq, run, hn, unwrap_vac]
        have htn : tmp ≠ n := by
          rcases hnh with rfl | h'
          · exact Ne.symm hne
          · exact fun hh => ant (by rw [h', hh])
        rw [v', upd_ne _ _ htn, hy]; rfl
      · rw [hal] at hn
        rw [hx] at o'
        simp only [specStep, hlk, hn]; exact o'

/-- Where `maybe_alloc_insert` is the last thing a call does with the map. -/
theorem vacant_case (hc : LawfulCmp cmp) {s1 : Rom α} (o1 : Ok cmp key s1 l T) {k : κ} {h : Nat} {x : α} {ans : Option Nat}
    {q : Query} (g : Gap T (at_ cmp key s1 k) q) (hx : s1.val h = x) (fh : fresh l h) (ga : goodAns l ans h)
    (hk : cmp k (key x) = .eql) :
    (addAt s1.alloc (some h) ans = none ∧ maybeAllocInsert s1 q.2 q.1 h ans = some (s1, none)) ∨
    (∃ n s', addAt s1.alloc (some h) ans = some n ∧ maybeAllocInsert s1 q.2 q.1 h ans = some (s', some n) ∧
      Sim cmp key s' (place cmp (ekey key) (n, x) l) ∧ s'.val n = x ∧ s'.alloc = s1.alloc) := by
  have fh' := o1.fresh.1 fh
  rcases maybeAllocInsert_spec o1 hc g fh'.1 fh'.2 (ans := ans) ga (by rw [hx]; exact hk) with
    ⟨hn, run⟩ | ⟨n, s', T', hn, run, o', v', a', _⟩
  · exact Or.inl ⟨hn, run⟩
  · refine Or.inr ⟨n, s', hn, run, ⟨T', by rw [hx] at o'; exact o'⟩, by rw [v', hx]; simp, a'⟩

/-- Overwriting the found element. -/
theorem occupied_set (hc : LawfulCmp cmp) {s1 : Rom α} (o1 : Ok cmp key s1 l T) {k : κ} {x : α} {pre post : List Nat}
    {a : Nat} (e : T.ids = pre ++ a :: post) (ha : cmp k (key (s1.val a)) = .eql)
    (h1 : ∀ e ∈ elems s1.val pre, cmp k (ekey key e) = .grt) (h2 : ∀ e ∈ elems s1.val post, cmp k (ekey key e) = .les)
    (hk : cmp k (key x) = .eql) :
    Sim cmp key { s1 with val := upd s1.val a x } (assign cmp (ekey key) (a, x) l) := by
  have hk' := hc.symm hk
  have ha' : cmp (key x) (key (s1.val a)) = .eql := by rw [hc.eql_congr_left hk']; exact ha
  obtain ⟨o2, _⟩ := o1.set hc (x := x) e ha'
  rw [assign_elems (o1.list.trans (by rw [e])) (fun e he => by rw [hc.eql_congr_left hk']; exact h1 e he) ha'
    (fun e he => by rw [hc.eql_congr_left hk']; exact h2 e he)]
  exact ⟨T, o2⟩

theorem view_some {s : Rom α} {a : Nat} : view s (some a) = some (a, s.val a) := rfl
theorem view_none {s : Rom α} : view s none = none := rfl

theorem step_tryInsert (hc : LawfulCmp cmp) (o : Ok cmp key s l T) {h : Nat} {x : α} {ans : Option Nat}
    (ok : okOp cmp key s.alloc l (.tryInsert h x ans)) : StepOk cmp key s l (.tryInsert h x ans) := by
  obtain ⟨fh, ga⟩ := ok
  have fh' := o.fresh.1 fh
  have o1 : Ok cmp key (put s h x) l T := o.put fh'.2
  have hx : (put s h x).val h = x := put_comm_val
  rcases o1.find hc (key x) with ⟨pre, a, post, e, ha, h1, h2, hf, hlk⟩ | ⟨q, hf, hq, g, hlk⟩
  · refine ⟨put s h x, ?_, ⟨T, by simp only [specStep, hlk]; exact o1⟩, rfl⟩
    simp only [step, tryInsert, specStep, hx, hf, hlk, Option.bind_eq_bind, Option.bind_some, if_true, unwrap_occ,
      view_some]
  · rcases vacant_case hc o1 g hx fh ga (hc.refl _) with ⟨hn, run⟩ | ⟨n, s', hn, run, sim, hv, a'⟩
    · rw [show (put s h x).alloc = s.alloc from rfl] at hn
      refine ⟨put s h x, ?_, ⟨T, by simp only [specStep, hlk, hn]; exact o1⟩, rfl⟩
      simp only [step, tryInsert, specStep, hx, hf, hlk, Option.bind_eq_bind, Option.bind_some, if_neg hq, run, hn,
        unwrap_ie, view_none]
    · rw [show (put s h x).alloc = s.alloc from rfl] at hn a'
      refine ⟨s', ?_, by simp only [specStep, hlk, hn]; exact sim, a'⟩
      simp only [step, tryInsert, specStep, hx, hf, hlk, Option.bind_eq_bind, Option.bind_some, if_neg hq, run, hn,
        unwrap_vac, view_some, hv]

theorem step_insertOrAssign (hc : LawfulCmp cmp) (o : Ok cmp key s l T) {h : Nat} {x : α} {ans : Option Nat}
    (ok : okOp cmp key s.alloc l (.insertOrAssign h x ans)) : StepOk cmp key s l (.insertOrAssign h x ans) := by
  obtain ⟨fh, ga⟩ := ok
  have fh' := o.fresh.1 fh
  have o1 : Ok cmp key (put s h x) l T := o.put fh'.2
  have hx : (put s h x).val h = x := put_comm_val
  rcases o1.find hc (key x) with ⟨pre, a, post, e, ha, h1, h2, hf, hlk⟩ | ⟨q, hf, hq, g, hlk⟩
  · refine ⟨{ put s h x with val := upd (put s h x).val a x }, ?_, by simp only [specStep, hlk]; exact occupied_set hc o1 e ha h1 h2 (hc.refl _), rfl⟩
    simp only [step, insertOrAssign, specStep, hx, hf, hlk, Option.bind_eq_bind, Option.bind_some, if_true, unwrap_occ,
      view_some, upd_same]
  · rcases vacant_case hc o1 g hx fh ga (hc.refl _) with ⟨hn, run⟩ | ⟨n, s', hn, run, sim, hv, a'⟩
    · rw [show (put s h x).alloc = s.alloc from rfl] at hn
      refine ⟨put s h x, ?_, ⟨T, by simp only [specStep, hlk, hn]; exact o1⟩, rfl⟩
      simp only [step, insertOrAssign, specStep, hx, hf, hlk, Option.bind_eq_bind, Option.bind_some, if_neg hq, run, hn,
        unwrap_ie, view_none]
    · rw [show (put s h x).alloc = s.alloc from rfl] at hn a'
      refine ⟨s', ?_, by simp only [specStep, hlk, hn]; exact sim, a'⟩
      simp only [step, insertOrAssign, specStep, hx, hf, hlk, Option.bind_eq_bind, Option.bind_some, if_neg hq, run, hn,
        unwrap_vac, view_some, hv]

theorem step_orInsert (hc : LawfulCmp cmp) (o : Ok cmp key s l T) {k : κ} {h : Nat} {x : α} {ans : Option Nat}
    (ok : okOp cmp key s.alloc l (.orInsert k h x ans)) : StepOk cmp key s l (.orInsert k h x ans) := by
  obtain ⟨fh, ga, hk⟩ := ok
  have fh' := o.fresh.1 fh
  have o1 : Ok cmp key (put s h x) l T := o.put fh'.2
  have hx : (put s h x).val h = x := put_comm_val
  rcases o1.find hc k with ⟨pre, a, post, e, ha, h1, h2, hf, hlk⟩ | ⟨q, hf, hq, g, hlk⟩
  · refine ⟨put s h x, ?_, ⟨T, by simp only [specStep, hlk]; exact o1⟩, rfl⟩
    simp only [step, entry_eq hf, orInsert, specStep, hlk, Option.bind_eq_bind, Option.bind_some, if_true, view_some]
  · rcases vacant_case hc o1 g hx fh ga hk with ⟨hn, run⟩ | ⟨n, s', hn, run, sim, hv, a'⟩
    · rw [show (put s h x).alloc = s.alloc from rfl] at hn
      refine ⟨put s h x, ?_, ⟨T, by simp only [specStep, hlk, hn]; exact o1⟩, rfl⟩
      simp only [step, entry_eq hf, orInsert, specStep, hlk, Option.bind_eq_bind, Option.bind_some, if_neg hq, run, hn,
        if_neg vac_ne_occ, view_none]
    · rw [show (put s h x).alloc = s.alloc from rfl] at hn a'
      refine ⟨s', ?_, by simp only [specStep, hlk, hn]; exact sim, a'⟩
      simp only [step, entry_eq hf, orInsert, specStep, hlk, Option.bind_eq_bind, Option.bind_some, if_neg hq, run, hn,
        if_neg vac_ne_occ, view_some, hv]

theorem step_insertEntry (hc : LawfulCmp cmp) (o : Ok cmp key s l T) {k : κ} {h : Nat} {x : α} {ans : Option Nat}
    (ok : okOp cmp key s.alloc l (.insertEntry k h x ans)) : StepOk cmp key s l (.insertEntry k h x ans) := by
  obtain ⟨fh, ga, hk⟩ := ok
  have fh' := o.fresh.1 fh
  have o1 : Ok cmp key (put s h x) l T := o.put fh'.2
  have hx : (put s h x).val h = x := put_comm_val
  rcases o1.find hc k with ⟨pre, a, post, e, ha, h1, h2, hf, hlk⟩ | ⟨q, hf, hq, g, hlk⟩
  · refine ⟨{ put s h x with val := upd (put s h x).val a x }, ?_, by simp only [specStep, hlk]; exact occupied_set hc o1 e ha h1 h2 hk, rfl⟩
    simp only [step, entry_eq hf, insertEntry, specStep, hlk, Option.bind_eq_bind, Option.bind_some, if_true, view_some,
      hx, upd_same]
  · rcases vacant_case hc o1 g hx fh ga hk with ⟨hn, run⟩ | ⟨n, s', hn, run, sim, hv, a'⟩
    · rw [show (put s h x).alloc = s.alloc from rfl] at hn
      refine ⟨put s h x, ?_, ⟨T, by simp only [specStep, hlk, hn]; exact o1⟩, rfl⟩
      simp only [step, entry_eq hf, insertEntry, specStep, hlk, Option.bind_eq_bind, Option.bind_some, if_neg hq, run, hn,
        if_neg vac_ne_occ, view_none]
    · rw [show (put s h x).alloc = s.alloc from rfl] at hn a'
      refine ⟨s', ?_, by simp only [specStep, hlk, hn]; exact sim, a'⟩
      simp only [step, entry_eq hf, insertEntry, specStep, hlk, Option.bind_eq_bind, Option.bind_some, if_neg hq, run, hn,
        if_neg vac_ne_occ, view_some, hv]

/-! The lazily evaluating macros. -/

theorem newMem_eq (s : Rom α) (ans : Option Nat) : newMem s ans = addAt s.alloc none ans := rfl

theorem lazy_case (hc : LawfulCmp cmp) (o : Ok cmp key s l T) {k : κ} {x : α} {ans : Option Nat} {q : Query}
    (g : Gap T (at_ cmp key s k) q) (ga : goodAns l ans 0) (hk : cmp k (key x) = .eql) {n : Nat}
    (hn : addAt s.alloc none ans = some n) :
    ∃ s', insertNode { s with val := upd s.val n x } q.2 q.1 n = some s' ∧
      Sim cmp key s' (place cmp (ekey key) (n, x) l) ∧ s'.val n = x ∧ s'.alloc = s.alloc := by
  have hf : fresh l n := by
    cases hal : s.alloc with
    | true => rw [hal] at hn; exact (ga n hn).1
    | false => rw [hal] at hn; simp [addAt] at hn
  obtain ⟨s', T', run, o', v', a'⟩ := insertMem_spec o hc g hf hk
  exact ⟨s', run, ⟨T', o'⟩, by rw [v']; simp, a'⟩

theorem step_orInsertW (hc : LawfulCmp cmp) (o : Ok cmp key s l T) {k : κ} {x : α} {ans : Option Nat}
    (ok : okOp cmp key s.alloc l (.orInsertW k x ans)) : StepOk cmp key s l (.orInsertW k x ans) := by
  obtain ⟨ga, hk⟩ := ok
  rcases o.find hc k with ⟨pre, a, post, e, ha, h1, h2, hf, hlk⟩ | ⟨q, hf, hq, g, hlk⟩
  · refine ⟨s, ?_, ⟨T, by simp only [specStep, hlk]; exact o⟩, rfl⟩
    simp only [step, entry_eq hf, orInsertW, specStep, hlk, Option.bind_eq_bind, Option.bind_some, if_true, view_some]
  · cases hn : addAt s.alloc none ans with
    | none =>
      refine ⟨s, ?_, ⟨T, by simp only [specStep, hlk, hn]; exact o⟩, rfl⟩
      simp only [step, entry_eq hf, orInsertW, specStep, hlk, Option.bind_eq_bind, Option.bind_some, if_neg hq, hn,
        if_neg vac_ne_occ, view_none, newMem_eq, insertKeyVal]
    | some n =>
      obtain ⟨s', run, sim, hv, a'⟩ := lazy_case hc o g ga hk hn
      refine ⟨s', ?_, by simp only [specStep, hlk, hn]; exact sim, a'⟩
      simp only [step, entry_eq hf, orInsertW, specStep, hlk, Option.bind_eq_bind, Option.bind_some, if_neg hq, hn,
        if_neg vac_ne_occ, view_some, newMem_eq, insertKeyVal, run, hv]

theorem step_insertEntryW (hc : LawfulCmp cmp) (o : Ok cmp key s l T) {k : κ} {x : α} {ans : Option Nat}
    (ok : okOp cmp key s.alloc l (.insertEntryW k x ans)) : StepOk cmp key s l (.insertEntryW k x ans) := by
  obtain ⟨ga, hk⟩ := ok
  rcases o.find hc k with ⟨pre, a, post, e, ha, h1, h2, hf, hlk⟩ | ⟨q, hf, hq, g, hlk⟩
  · refine ⟨{ s with val := upd s.val a x }, ?_, by simp only [specStep, hlk]; exact occupied_set hc o e ha h1 h2 hk, rfl⟩
    simp only [step, entry_eq hf, insertEntryW, specStep, hlk, Option.bind_eq_bind, Option.bind_some, if_true, view_some,
      occ_occ, Bool.not_true, Bool.false_eq_true, if_false, upd_same]
  · cases hn : addAt s.alloc none ans with
    | none =>
      refine ⟨s, ?_, ⟨T, by simp only [specStep, hlk, hn]; exact o⟩, rfl⟩
      simp only [step, entry_eq hf, insertEntryW, specStep, hlk, Option.bind_eq_bind, Option.bind_some, if_neg hq, hn,
        vac_not_occ, Bool.not_false, if_true, view_none, newMem_eq, insertKeyVal]
    | some n =>
      obtain ⟨s', run, sim, hv, a'⟩ := lazy_case hc o g ga hk hn
      refine ⟨s', ?_, by simp only [specStep, hlk, hn]; exact sim, a'⟩
      simp only [step, entry_eq hf, insertEntryW, specStep, hlk, Option.bind_eq_bind, Option.bind_some, if_neg hq, hn,
        vac_not_occ, Bool.not_false, if_true, view_some, newMem_eq, insertKeyVal, run, hv]

theorem step_tryInsertW (hc : LawfulCmp cmp) (o : Ok cmp key s l T) {k : κ} {x : α} {ans : Option Nat}
    (ok : okOp cmp key s.alloc l (.tryInsertW k x ans)) : StepOk cmp key s l (.tryInsertW k x ans) := by
  obtain ⟨ga, hk⟩ := ok
  rcases o.find hc k with ⟨pre, a, post, e, ha, h1, h2, hf, hlk⟩ | ⟨q, hf, hq, g, hlk⟩
  · refine ⟨s, ?_, ⟨T, by simp only [specStep, hlk]; exact o⟩, rfl⟩
    simp only [step, tryInsertW, entry_eq hf, specStep, hlk, Option.bind_eq_bind, Option.bind_some, if_true, view_some,
      occ_occ, Bool.not_true, Bool.false_eq_true, if_false, unwrap_occ]
  · cases hn : addAt s.alloc none ans with
    | none =>
      refine ⟨s, ?_, ⟨T, by simp only [specStep, hlk, hn]; exact o⟩, rfl⟩
      simp only [step, tryInsertW, entry_eq hf, specStep, hlk, Option.bind_eq_bind, Option.bind_some, if_neg hq, hn,
        vac_not_occ, Bool.not_false, if_true, view_none, newMem_eq, insertAndCopyKey, unwrap_ie]
    | some n =>
      obtain ⟨s', run, sim, hv, a'⟩ := lazy_case hc o g ga hk hn
      refine ⟨s', ?_, by simp only [specStep, hlk, hn]; exact sim, a'⟩
      simp only [step, tryInsertW, entry_eq hf, specStep, hlk, Option.bind_eq_bind, Option.bind_some, if_neg hq, hn,
        vac_not_occ, Bool.not_false, if_true, view_some, newMem_eq, insertAndCopyKey, unwrap_ie, run, hv]

theorem step_insertOrAssignW (hc : LawfulCmp cmp) (o : Ok cmp key s l T) {k : κ} {x : α} {ans : Option Nat}
    (ok : okOp cmp key s.alloc l (.insertOrAssignW k x ans)) : StepOk cmp key s l (.insertOrAssignW k x ans) := by
  obtain ⟨ga, hk⟩ := ok
  rcases o.find hc k with ⟨pre, a, post, e, ha, h1, h2, hf, hlk⟩ | ⟨q, hf, hq, g, hlk⟩
  · refine ⟨{ s with val := upd s.val a x }, ?_, by simp only [specStep, hlk]; exact occupied_set hc o e ha h1 h2 hk, rfl⟩
    simp only [step, insertOrAssignW, entry_eq hf, specStep, hlk, Option.bind_eq_bind, Option.bind_some, if_true,
      view_some, occ_occ, Bool.not_true, Bool.false_eq_true, if_false, unwrap_occ, upd_same]
  · cases hn : addAt s.alloc none ans with
    | none =>
      refine ⟨s, ?_, ⟨T, by simp only [specStep, hlk, hn]; exact o⟩, rfl⟩
      simp only [step, insertOrAssignW, entry_eq hf, specStep, hlk, Option.bind_eq_bind, Option.bind_some, if_neg hq, hn,
        vac_not_occ, Bool.not_false, if_true, view_none, newMem_eq, insertAndCopyKey, unwrap_ie]
    | some n =>
      obtain ⟨s', run, sim, hv, a'⟩ := lazy_case hc o g ga hk hn
      refine ⟨s', ?_, by simp only [specStep, hlk, hn]; exact sim, a'⟩
      simp only [step, insertOrAssignW, entry_eq hf, specStep, hlk, Option.bind_eq_bind, Option.bind_some, if_neg hq, hn,
        vac_not_occ, Bool.not_false, if_true, view_some, newMem_eq, insertAndCopyKey, unwrap_ie, run, hv]

/-! Removal, modification. -/

theorem step_remove (hc : LawfulCmp cmp) (o : Ok cmp key s l T) {h : Nat} {x : α}
    (ok : okOp cmp key s.alloc l (.remove h x)) : StepOk cmp key s l (.remove h x) := by
  have o1 : Ok cmp key (put s h x) l T := by
    rcases ok with fh | ⟨_, hm⟩
    · exact o.put (o.fresh.1 fh).2
    · rw [o.list, mem_elems] at hm
      have hp : put s h x = s := by
        simp only [put]
        have : upd s.val h x = s.val := by
          funext b; by_cases hb : b = h
          · rw [hb, upd_same]; exact hm.2
          · exact upd_ne _ _ hb
        rw [this]
      rw [hp]; exact o
  have hx : (put s h x).val h = x := put_comm_val
  rcases o1.find hc (key x) with ⟨pre, a, post, e, ha, h1, h2, hf, hlk⟩ | ⟨q, hf, hq, g, hlk⟩
  · obtain ⟨s', T', run, o', i', v', a'⟩ := removeFixup_spec o1 e
    have hl : erase cmp (ekey key) (key x) l = elems (put s h x).val (pre ++ post) := by
      rw [o1.list, e]; exact remove_list h1 ha h2
    have hal : s'.alloc = s.alloc := a'
    cases hb : s.alloc with
    | true =>
      have fh : fresh l h := by
        rcases ok with fh | ⟨h0, _⟩
        · exact fh
        · rw [hb] at h0; cases h0
      have fh' := o.fresh.1 fh
      have hh : h ∉ T'.ids := by
        rw [i']; intro hh; apply fh'.2; rw [e]
        simp only [List.mem_append, List.mem_cons] at hh ⊢
        rcases hh with hh | hh
        · exact Or.inl hh
        · exact Or.inr (Or.inr hh)
      refine ⟨put s' h (s'.val a), ?_, ⟨T', ?_⟩, by rw [hb, ← hb]; exact hal⟩
      · simp only [step, remove, specStep, hx, hf, hlk, Option.bind_eq_bind, Option.bind_some, ne_eq, not_true_eq_false,
          if_false, run, hal, hb, if_true, unwrap_occ, view_some, upd_same, v']
        simp only [put, hal, hb, v']
      · simp only [specStep, hlk, hl]; exact o'.put hh
    | false =>
      refine ⟨s', ?_, ⟨T', by simp only [specStep, hlk, hl]; exact o'⟩, by rw [hal, hb]⟩
      simp only [step, remove, specStep, hx, hf, hlk, Option.bind_eq_bind, Option.bind_some, ne_eq, not_true_eq_false,
        if_false, run, hal, hb, Bool.false_eq_true, unwrap_occ, view_some, v']
  · refine ⟨put s h x, ?_, ⟨T, by simp only [specStep, hlk]; exact o1⟩, rfl⟩
    simp only [step, remove, specStep, hx, hf, hlk, Option.bind_eq_bind, Option.bind_some, ne_eq, hq,
      not_false_eq_true, if_true, unwrap_vac, view_none]

theorem step_removeEntry (hc : LawfulCmp cmp) (o : Ok cmp key s l T) {k : κ} :
    StepOk cmp key s l (.removeEntry k) := by
  rcases o.find hc k with ⟨pre, a, post, e, ha, h1, h2, hf, hlk⟩ | ⟨q, hf, hq, g, hlk⟩
  · obtain ⟨s', T', run, o', i', v', a'⟩ := removeFixup_spec o e
    have hl : erase cmp (ekey key) k l = elems s.val (pre ++ post) := by
      rw [o.list, e]; exact remove_list h1 ha h2
    refine ⟨s', ?_, ⟨T', by simp only [specStep, hlk, hl]; exact o'⟩, a'⟩
    cases hb : s.alloc with
    | true =>
      simp only [step, entry_eq hf, removeEntry, specStep, hlk, Option.bind_eq_bind, Option.bind_some, if_true, run, a',
        hb, unwrap_occ, view_none]
    | false =>
      simp only [step, entry_eq hf, removeEntry, specStep, hlk, Option.bind_eq_bind, Option.bind_some, if_true, run, a',
        hb, Bool.false_eq_true, if_false, unwrap_occ, view_some, v']
  · refine ⟨s, ?_, ⟨T, by simp only [specStep, hlk]; exact o⟩, rfl⟩
    simp only [step, entry_eq hf, removeEntry, specStep, hlk, Option.bind_eq_bind, Option.bind_some, if_neg hq,
      if_neg vac_ne_occ, unwrap_vac, view_none]

theorem step_andModify (hc : LawfulCmp cmp) (o : Ok cmp key s l T) {k : κ} {f : α → α}
    (ok : okOp cmp key s.alloc l (.andModify k f)) : StepOk cmp key s l (.andModify k f) := by
  rcases o.find hc k with ⟨pre, a, post, e, ha, h1, h2, hf, hlk⟩ | ⟨q, hf, hq, g, hlk⟩
  · have hm : (a, s.val a) ∈ l := by rw [o.list, mem_elems]; exact ⟨by rw [e]; simp, rfl⟩
    have hk := ok (a, s.val a) hm ha
    obtain ⟨o2, el2⟩ := o.set hc (x := f (s.val a)) e hk
    have hmap : l.map (fun e => if e.1 = a then (a, f e.2) else e) = elems (upd s.val a (f (s.val a))) T.ids := by
      rw [o.list]
      simp only [elems, List.map_map]
      refine List.map_congr_left (fun b hb => ?_)
      by_cases hba : b = a
      · subst hba; simp
      · simp [hba, upd_ne _ _ hba]
    refine ⟨{ s with val := upd s.val a (f (s.val a)) }, ?_, ⟨T, by simp only [specStep, hlk]; rw [hmap]; exact el2 ▸ o2⟩, rfl⟩
    simp only [step, entry_eq hf, andModify, specStep, hlk, Option.bind_eq_bind, Option.bind_some, if_true, occ_occ,
      unwrap, view_some, upd_same]
  · refine ⟨s, ?_, ⟨T, by simp only [specStep, hlk]; exact o⟩, rfl⟩
    simp only [step, entry_eq hf, andModify, specStep, hlk, Option.bind_eq_bind, Option.bind_some, if_neg hq,
      vac_not_occ, Bool.false_eq_true, if_false, unwrap, view_none]

/-! Queries. -/

theorem step_query (hc : LawfulCmp cmp) (o : Ok cmp key s l T) {k : κ} :
    StepOk cmp key s l (.occupied k) ∧ StepOk cmp key s l (.contains k) ∧ StepOk cmp key s l (.get k) := by
  rcases o.find hc k with ⟨pre, a, post, e, ha, h1, h2, hf, hlk⟩ | ⟨q, hf, hq, g, hlk⟩
  · refine ⟨⟨s, ?_, ⟨T, o⟩, rfl⟩, ⟨s, ?_, ⟨T, o⟩, rfl⟩, ⟨s, ?_, ⟨T, o⟩, rfl⟩⟩
    · simp only [step, entry_eq hf, specStep, hlk, Option.bind_eq_bind, Option.bind_some, occupied, if_true, occ_occ,
        Option.isSome_some]
    · simp only [step, contains, hf, specStep, hlk, Option.bind_eq_bind, Option.bind_some, Option.isSome_some,
        beq_self_eq_true]
    · simp only [step, get, hf, specStep, hlk, Option.bind_eq_bind, Option.bind_some, beq_self_eq_true, if_true,
        view_some]
  · have hq' : (q.1 == Cmp.eql) = false := by simpa using hq
    refine ⟨⟨s, ?_, ⟨T, o⟩, rfl⟩, ⟨s, ?_, ⟨T, o⟩, rfl⟩, ⟨s, ?_, ⟨T, o⟩, rfl⟩⟩
    · simp only [step, entry_eq hf, specStep, hlk, Option.bind_eq_bind, Option.bind_some, occupied, if_neg hq,
        vac_not_occ, Option.isSome_none]
    · simp only [step, contains, hf, specStep, hlk, Option.bind_eq_bind, Option.bind_some, Option.isSome_none, hq']
    · simp only [step, get, hf, specStep, hlk, Option.bind_eq_bind, Option.bind_some, hq', Bool.false_eq_true, if_false,
        view_none]

theorem step_begin (o : Ok cmp key s l T) : StepOk cmp key s l .begin := by
  refine ⟨s, ?_, ⟨T, o⟩, rfl⟩
  simp only [step, begin_, minMaxFrom_spec o.wv false, Option.bind_eq_bind, Option.bind_some, specStep, endOf,
    Bool.false_eq_true, if_false]
  rw [view_head (fun a ha => o.ne_zero ha), o.list]

theorem step_rbegin (o : Ok cmp key s l T) : StepOk cmp key s l .rbegin := by
  refine ⟨s, ?_, ⟨T, o⟩, rfl⟩
  simp only [step, rbegin, minMaxFrom_spec o.wv true, Option.bind_eq_bind, Option.bind_some, specStep, endOf, if_true]
  rw [view_last (fun a ha => o.ne_zero ha), o.list]

theorem Ok.split (o : Ok cmp key s l T) {a : Nat} (h : ∃ e ∈ l, e.1 = a) : ∃ pre post, T.ids = pre ++ a :: post ∧
    a ∉ pre ∧ a ∉ post := by
  obtain ⟨e, he, rfl⟩ := h
  rw [o.list, mem_elems] at he
  obtain ⟨pre, post, hs⟩ := List.append_of_mem he.1
  have hn := o.nodup
  rw [hs, List.nodup_append, List.nodup_cons] at hn
  exact ⟨pre, post, hs, fun hh => hn.2.2 _ hh _ (by simp) rfl, hn.2.1.1⟩

theorem step_next (o : Ok cmp key s l T) {a : Nat} (ok : okOp cmp key s.alloc l (.next a : Op α κ)) :
    StepOk cmp key s l (.next a) := by
  obtain ⟨pre, post, e, h1, h2⟩ := o.split ok
  refine ⟨s, ?_, ⟨T, o⟩, rfl⟩
  simp only [step, next, next_spec o.wv e true, Option.bind_eq_bind, Option.bind_some, specStep, if_true]
  rw [view_head (fun b hb => o.ne_zero (by rw [e]; simp [hb])), o.list, e, dropWhile_split h1]

theorem step_rnext (o : Ok cmp key s l T) {a : Nat} (ok : okOp cmp key s.alloc l (.rnext a : Op α κ)) :
    StepOk cmp key s l (.rnext a) := by
  obtain ⟨pre, post, e, h1, h2⟩ := o.split ok
  refine ⟨s, ?_, ⟨T, o⟩, rfl⟩
  simp only [step, rnext, next_spec o.wv e false, Option.bind_eq_bind, Option.bind_some, specStep, Bool.false_eq_true,
    if_false]
  rw [view_last (fun b hb => o.ne_zero (by rw [e]; simp [hb])), o.list, e]
  have : (elems s.val (pre ++ a :: post)).reverse = elems s.val (post.reverse ++ a :: pre.reverse) := by
    simp [elems]
  rw [this, dropWhile_split (by simpa using h2)]
  simp [elems]

theorem step_range (hc : LawfulCmp cmp) (o : Ok cmp key s l T) {b e : κ} :
    StepOk cmp key s l (.equalRange b e) ∧ StepOk cmp key s l (.equalRrange b e) := by
  cases hT : T with
  | nil =>
    subst hT
    have hl : l = [] := o.list
    have hsz : s.sz = 0 := by rw [o.size, hl]; rfl
    refine ⟨⟨s, ?_, ⟨_, o⟩, rfl⟩, ⟨s, ?_, ⟨_, o⟩, rfl⟩⟩
    · simp [step, equalRange, hsz, specStep, hl, view_none, firstNotLess, firstGreater]
    · simp [step, equalRange, hsz, specStep, hl, view_none, lastNotGreater, lastLess]
  | node i k x y =>
    have hne : T ≠ nil := by rw [hT]; simp
    have hsz : s.sz ≠ 0 := by rw [o.size, o.list, hT]; simp [elems, ids]
    have h0 : ∀ a ∈ T.ids, a ≠ 0 := fun a ha => o.ne_zero ha
    have h0' : ∀ a ∈ T.ids.reverse, a ≠ 0 := by simpa using h0
    have er : (elems s.val T.ids).reverse = elems s.val T.ids.reverse := by simp [elems]
    refine ⟨⟨s, ?_, ⟨T, o⟩, rfl⟩, ⟨s, ?_, ⟨T, o⟩, rfl⟩⟩
    · simp only [step, equalRange, if_neg hsz, equalRange_spec o.wv hne (o.mono hc b) (o.mono hc e) true, if_true,
        Option.bind_eq_bind, Option.bind_some, specStep, firstNotLess, firstGreater]
      rw [o.list, ← view_find h0, ← view_find h0]
      rfl
    · simp only [step, equalRange, if_neg hsz, equalRange_spec o.wv hne (o.mono hc b) (o.mono hc e) false,
        Bool.false_eq_true, if_false, Option.bind_eq_bind, Option.bind_some, specStep, lastNotGreater, lastLess]
      rw [o.list, er, ← view_find h0', ← view_find h0']
      rfl

/-- Every call, from every state that represents a sorted list, answers as specified and leads to a state that
represents the specified list. -/
theorem step_spec (hc : LawfulCmp cmp) (o : Ok cmp key s l T) (op : Op α κ) (ok : okOp cmp key s.alloc l op) :
    StepOk cmp key s l op := by
  cases op with
  | insert h x tmp y ans => exact step_insert hc o ok
  | tryInsert h x ans => exact step_tryInsert hc o ok
  | insertOrAssign h x ans => exact step_insertOrAssign hc o ok
  | remove h x => exact step_remove hc o ok
  | orInsert k h x ans => exact step_orInsert hc o ok
  | insertEntry k h x ans => exact step_insertEntry hc o ok
  | removeEntry k => exact step_removeEntry hc o
  | andModify k f => exact step_andModify hc o ok
  | occupied k => exact (step_query hc o).1
  | orInsertW k x ans => exact step_orInsertW hc o ok
  | insertEntryW k x ans => exact step_insertEntryW hc o ok
  | tryInsertW k x ans => exact step_tryInsertW hc o ok
  | insertOrAssignW k x ans => exact step_insertOrAssignW hc o ok
  | contains k => exact (step_query hc o).2.1
  | get k => exact (step_query hc o).2.2
  | begin => exact step_begin o
  | rbegin => exact step_rbegin o
  | next a => exact step_next o ok
  | rnext a => exact step_rnext o ok
  | equalRange b e => exact (step_range hc o).1
  | equalRrange b e => exact (step_range hc o).2
  | size => exact ⟨s, by simp only [step, size, specStep, o.size], ⟨T, o⟩, rfl⟩
  | isEmpty =>
    refine ⟨s, ?_, ⟨T, o⟩, rfl⟩
    have : (s.sz == 0) = l.isEmpty := by rw [o.size]; cases l <;> simp
    simp only [step, isEmpty, specStep, this]
  | validate =>
    refine ⟨s, ?_, ⟨T, o⟩, rfl⟩
    simp only [step, validate_spec hc o, specStep, Option.bind_eq_bind, Option.bind_some]
  | clear =>
    obtain ⟨s', d, run, _, o', _, a'⟩ := clearLoop_spec l.length [] o rfl
    refine ⟨s', ?_, ⟨nil, o'⟩, a'⟩
    simp only [step, clear, run, specStep, Option.bind_eq_bind, Option.bind_some]

theorem init_ok (mem : Nat → α) (al : Bool) : Ok cmp key (init mem al) [] nil :=
  ⟨⟨⟨rfl, trivial, by simp [ids], rfl⟩, trivial, trivial, rfl⟩, trivial, rfl, List.Pairwise.nil, rfl⟩

theorem run_spec (hc : LawfulCmp cmp) (ops : List (Op α κ)) : ∀ {s : Rom α} {l : List (Nat × α)},
    Sim cmp key s l → okRun cmp key s.alloc l ops →
    ∃ s', run cmp key s ops = some (s', (specRun cmp key s.alloc l ops).2) ∧
      Sim cmp key s' (specRun cmp key s.alloc l ops).1 ∧ s'.alloc = s.alloc := by
  induction ops with
  | nil => intro s l h _; exact ⟨s, rfl, h, rfl⟩
  | cons o os ih =>
    intro s l ⟨T, h⟩ hok
    obtain ⟨s1, r1, m1, a1⟩ := step_spec hc h o hok.1
    obtain ⟨s2, r2, m2, a2⟩ := ih m1 (by rw [a1]; exact hok.2)
    rw [a1] at r2 m2
    refine ⟨s2, ?_, m2, by rw [a2, a1]⟩
    simp only [run, r1, r2, Option.bind_eq_bind, Option.bind_some, specRun]

theorem lookup_congr (hc : LawfulCmp cmp) {k k' : κ} (h : cmp k k' = .eql) {l : List (Nat × α)} :
    lookup cmp (ekey key) k l = lookup cmp (ekey key) k' l := by
  unfold lookup
  congr 1
  funext x
  rw [hc.eql_congr_left h]

theorem specRun_append (al : Bool) (ops ops' : List (Op α κ)) : ∀ {l : List (Nat × α)},
    (specRun cmp key al l (ops ++ ops')).1 = (specRun cmp key al (specRun cmp key al l ops).1 ops').1 := by
  induction ops with
  | nil => intro l; rfl
  | cons o os ih => intro l; simp only [List.cons_append, specRun]; exact ih

theorem okRun_append (al : Bool) (ops ops' : List (Op α κ)) : ∀ {l : List (Nat × α)},
    okRun cmp key al l (ops ++ ops') ↔
      okRun cmp key al l ops ∧ okRun cmp key al (specRun cmp key al l ops).1 ops' := by
  induction ops with
  | nil => intro l; simp [okRun, specRun]
  | cons o os ih => intro l; simp only [List.cons_append, okRun, specRun, ih, and_assoc]

end CCC.Rom
