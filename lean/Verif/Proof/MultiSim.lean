import Verif.Proof.MultiWalk
/-
The multimap in memory stands for what the specification says is stored.
-/
namespace CCC.Omm
open CCC Links Tree Wavl Splay PtrMap MultiSpec

set_option linter.unusedSimpArgs false

variable {α κ : Type} {cmp : κ → κ → Cmp} {key : α → κ}
variable {H : Omm α} {A : List Nat} {N : Nat → Prop} {D : Nat → List Nat} {h : Links} {T : Tree}

theorem Core.nodupA (c : Core cmp key H A N D h T) (hc : LawfulCmp cmp) : A.Nodup := by
  have := c.flat_nodup true
  rw [← c.arrange hc true] at this
  exact (arrange_perm A).nodup_iff.1 this

theorem drop_length {A : List Nat} (hn : A.Nodup) {r : Nat} (hr : r ∈ A) : (drop r A).length = A.length - 1 := by
  obtain ⟨p, q, rfl⟩ := List.append_of_mem hr
  rw [List.nodup_append] at hn
  obtain ⟨n1, n2, n3⟩ := hn
  rw [List.nodup_cons] at n2
  have f1 : p.filter (fun a => a != r) = p := by
    rw [List.filter_eq_self]; intro a ha; simp only [bne_iff_ne, ne_eq]; rintro rfl; exact n3 a ha a (by simp) rfl
  have f2 : q.filter (fun a => a != r) = q := by
    rw [List.filter_eq_self]; intro a ha; simp only [bne_iff_ne, ne_eq]; rintro rfl; exact n2.1 ha
  rw [drop_eq, List.filter_append, List.filter_cons, f1, f2]
  simp

/-- The memory `H` stands for `st`: the stored structs are those at the addresses `A`, oldest first. -/
structure SimA (cmp : κ → κ → Cmp) (key : α → κ) (al : Bool) (off : Nat) (H : Omm α) (st : St α) (A : List Nat)
    (D : Nat → List Nat) (h : Links) (T : Tree) : Prop where
  core : Core cmp key H A (fun a => a ∈ st.out ∧ a ∉ st.later) D h T
  sz : H.sz = A.length
  elems : st.elems = A.map (fun a => (a, H.val a))
  own : al = true → ∀ a ∈ A, H.own a = true
  out : ∀ a ∈ st.out, H.live a = true ∧ a ≠ 0 ∧ a ∉ A
  alloc : H.alloc = al
  off : H.off = off

def Sim (cmp : κ → κ → Cmp) (key : α → κ) (al : Bool) (off : Nat) (H : Omm α) (st : St α) : Prop :=
  ∃ A D h T, SimA cmp key al off H st A D h T

variable {al : Bool} {off : Nat} {st : St α}

/-- The element at an address. -/
def cell (val : Nat → α) (a : Nat) : Nat × α := (a, val a)

theorem SimA.mem (s : SimA cmp key al off H st A D h T) {a : Nat} : (∃ e ∈ st.elems, e.1 = a) ↔ a ∈ A := by
  rw [s.elems]
  constructor
  · rintro ⟨e, he, rfl⟩
    obtain ⟨b, hb, rfl⟩ := List.mem_map.1 he
    exact hb
  · intro ha; exact ⟨(a, H.val a), List.mem_map.2 ⟨a, ha, rfl⟩, rfl⟩

theorem SimA.fresh (s : SimA cmp key al off H st A D h T) {a : Nat} : fresh st.elems a ↔ a ≠ 0 ∧ a ∉ A := by
  unfold PtrMap.fresh
  rw [s.elems]
  constructor
  · rintro ⟨h1, h2⟩
    exact ⟨h1, fun hh => h2 (a, H.val a) (List.mem_map.2 ⟨a, hh, rfl⟩) rfl⟩
  · rintro ⟨h1, h2⟩
    refine ⟨h1, ?_⟩
    intro e he hh
    obtain ⟨b, hb, rfl⟩ := List.mem_map.1 he
    exact h2 (hh ▸ hb)

theorem SimA.oldest (s : SimA cmp key al off H st A D h T) (k : κ) :
    MultiSpec.oldest cmp key k st.elems = (first cmp key H.val k A).map (cell H.val) := by
  unfold MultiSpec.oldest first
  rw [s.elems, List.find?_map]; rfl

theorem SimA.without (s : SimA cmp key al off H st A D h T) (a : Nat) :
    MultiSpec.without a st.elems = (drop a A).map (cell H.val) := by
  unfold MultiSpec.without
  rw [s.elems, List.filter_map, drop_eq]; rfl

theorem SimA.write (s : SimA cmp key al off H st A D h T) (a : Nat) (x : α) :
    MultiSpec.write a x st.elems = A.map (cell (upd H.val a x)) := by
  unfold MultiSpec.write
  rw [s.elems, List.map_map]
  refine List.map_congr_left ?_
  intro b _
  by_cases hb : b = a
  · subst hb; simp [cell]
  · simp [cell, hb, upd_ne]

theorem SimA.descending (s : SimA cmp key al off H st A D h T) (hc : LawfulCmp cmp) :
    MultiSpec.descending cmp key st.elems = (flat false D T).map (cell H.val) := by
  unfold MultiSpec.descending
  rw [s.elems, arrange_map, ← s.core.arrange hc false]; rfl

theorem SimA.ascending (s : SimA cmp key al off H st A D h T) (hc : LawfulCmp cmp) :
    MultiSpec.ascending cmp key st.elems = (flat true D T).map (cell H.val) := by
  unfold MultiSpec.ascending
  rw [s.elems, arrange_map, ← s.core.arrange hc true]; rfl

theorem SimA.at (s : SimA cmp key al off H st A D h T) (a : Nat) :
    st.elems.find? (fun e => e.1 == a) = if a ∈ A then some (cell H.val a) else none := by
  rw [s.elems, List.find?_map]
  have : ((fun e : Nat × α => e.1 == a) ∘ fun a => (a, H.val a)) = (fun b => b == a) := rfl
  rw [this]
  split
  · rename_i ha
    have : A.find? (fun b => b == a) = some a := by
      cases hf : A.find? (fun b => b == a) with
      | none => rw [List.find?_eq_none] at hf; exact absurd (by simp) (hf a ha)
      | some b => have := List.find?_some hf; simp at this; rw [this]
    rw [this]; rfl
  · rename_i ha
    have : A.find? (fun b => b == a) = none := by
      rw [List.find?_eq_none]; intro b hb hh; simp at hh; exact ha (hh ▸ hb)
    rw [this]; rfl

theorem SimA.isLater (s : SimA cmp key al off H st A D h T) {a : Nat} (ha : a ∈ A) :
    MultiSpec.isLater cmp key a st.elems = !decide (a ∈ (likes cmp key H.val a A).take 2) := by
  unfold MultiSpec.isLater
  rw [s.at, if_pos ha]
  simp only [cell]
  congr 1
  unfold MultiSpec.equals likes
  rw [s.elems, List.filter_map, ← List.map_take, List.any_map]
  have : ((fun d : Nat × α => d.1 == a) ∘ fun a => (a, H.val a)) = (fun b => b == a) := rfl
  rw [this]
  have : ((fun e : Nat × α => cmp (key (H.val a)) (key e.2) == Cmp.eql) ∘ fun a => (a, H.val a)) =
    (fun b => cmp (key (H.val a)) (key (H.val b)) == Cmp.eql) := rfl
  rw [this, Bool.eq_iff_iff]
  simp

theorem behind_map (val : Nat → α) {pre post : List Nat} {a : Nat} (ha : a ∉ pre) :
    MultiSpec.behind a ((pre ++ a :: post).map (cell val)) = post.head?.map (cell val) := by
  unfold MultiSpec.behind
  have : ((pre ++ a :: post).map (cell val)).dropWhile (fun e => e.1 != a) = (a :: post).map (cell val) := by
    induction pre with
    | nil => simp [cell]
    | cons b pre ih =>
      simp only [List.mem_cons, not_or] at ha
      have hb : (b != a) = true := by simpa using Ne.symm ha.1
      simp only [List.cons_append, List.map_cons]
      rw [List.dropWhile_cons, show (cell val b).1 = b from rfl, hb]
      exact ih ha.2
  rw [this]
  cases post <;> rfl

/-- Only links have changed. -/
theorem SimA.only (s : SimA cmp key al off H st A D h T) {H' : Omm α} {D' : Nat → List Nat} {h' : Links} {T' : Tree}
    (c : Core cmp key H' A (fun a => a ∈ st.out ∧ a ∉ st.later) D' h' T') (o : Only H H') :
    SimA cmp key al off H' st A D' h' T' := by
  obtain ⟨v1, v2, v3, v4, v5, v6⟩ := o.val
  refine ⟨c, by rw [v4]; exact s.sz, by rw [v1]; exact s.elems, ?_, ?_, v5.trans s.alloc, v6.trans s.off⟩
  · rw [v3]; exact s.own
  · rw [v2]; exact s.out

theorem SimA.forget (s : SimA cmp key al off H st A D h T) {st' : St α} (he : st'.elems = st.elems)
    (ho : ∀ a ∈ st'.out, a ∈ st.out) (hl : ∀ a ∈ st'.out, a ∈ st.later → a ∈ st'.later) :
    SimA cmp key al off H st' A D h T :=
  ⟨s.core.weaken (fun a ha => ⟨ho a ha.1, fun hh => ha.2 (hl a ha.1 hh)⟩), s.sz, by rw [he]; exact s.elems, s.own,
    fun a ha => s.out a (ho a ha), s.alloc, s.off⟩

/-- Nothing has changed but the struct at one address. -/
structure At (n : Nat) (H H' : Omm α) : Prop where
  root : H'.root = H.root
  sz : H'.sz = H.sz
  alloc : H'.alloc = H.alloc
  off : H'.off = H.off
  rest : ∀ a, a ≠ n → H'.br a = H.br a ∧ H'.par a = H.par a ∧ H'.live a = H.live a ∧ H'.own a = H.own a ∧ H'.val a = H.val a

/-- A struct that is not stored changes. -/
theorem SimA.aside (s : SimA cmp key al off H st A D h T) (hc : LawfulCmp cmp) {H' : Omm α} {st' : St α} {n : Nat} (o : At n H H')
    (n0 : n ≠ 0) (hn : n ∉ A) (he : st'.elems = st.elems) (ho : ∀ a ∈ st'.out, a ∈ st.out)
    (hl : ∀ a ∈ st'.out, a ∈ st.later → a ∈ st'.later)
    (hN : n ∈ st'.out → H'.br n = H.br n ∧ H'.par n = H.par n ∧ H'.live n = true) : SimA cmp key al off H' st' A D h T := by
  have inA : ∀ a ∈ A, a ≠ n := fun a ha => by rintro rfl; exact hn ha
  refine ⟨s.core.frame hc (fun a ha => ⟨ho a ha.1, fun hh => ha.2 (hl a ha.1 hh)⟩) o.root ?_ ?_, o.sz.trans s.sz, ?_, ?_, ?_,
    o.alloc.trans s.alloc, o.off.trans s.off⟩
  · intro a ha
    by_cases hq : a = n
    · subst hq
      rcases ha with ha | ha | ha
      · exact absurd ha n0
      · exact absurd ha hn
      · obtain ⟨p1, p2, p3⟩ := hN ha.1
        exact ⟨p1, p2, by rw [p3, (s.out a (ho a ha.1)).1]⟩
    · obtain ⟨p1, p2, p3, _, _⟩ := o.rest a hq
      exact ⟨p1, p2, p3⟩
  · intro a ha
    rw [(o.rest a (inA a ha)).2.2.2.2]; exact hc.refl _
  · rw [he, s.elems]
    refine List.map_congr_left ?_
    intro a ha
    rw [(o.rest a (inA a ha)).2.2.2.2]
  · intro hal a ha
    rw [(o.rest a (inA a ha)).2.2.2.1]; exact s.own hal a ha
  · intro a ha
    obtain ⟨p1, p2, p3⟩ := s.out a (ho a ha)
    refine ⟨?_, p2, p3⟩
    by_cases hq : a = n
    · subst hq; exact (hN ha).2.2
    · rw [(o.rest a hq).2.2.1]; exact p1

/-- The data of a stored struct changes, but not its key. -/
theorem SimA.assign (s : SimA cmp key al off H st A D h T) (hc : LawfulCmp cmp) {a : Nat} {x : α}
    (hx : cmp (key x) (key (H.val a)) = .eql) :
    SimA cmp key al off { H with val := upd H.val a x } { st with elems := MultiSpec.write a x st.elems } A D h T := by
  refine ⟨s.core.frame hc (fun _ h => h) rfl (fun _ _ => ⟨rfl, rfl, rfl⟩) ?_, s.sz, s.write a x, s.own, s.out, s.alloc, s.off⟩
  intro b _
  show cmp (key (upd H.val a x b)) (key (H.val b)) = .eql
  by_cases hb : b = a
  · subst hb; rw [upd_same]; exact hx
  · rw [upd_ne _ _ hb]; exact hc.refl _

/-- The user fills a struct. -/
theorem SimA.put (s : SimA cmp key al off H st A D h T) (hc : LawfulCmp cmp) {n : Nat} {x : α} (n0 : n ≠ 0) (hn : n ∉ A) :
    SimA cmp key al off (Omm.put H n x) st A D h T := by
  refine s.aside hc (n := n) ⟨rfl, rfl, rfl, rfl, ?_⟩ n0 hn rfl (fun _ h => h) (fun _ _ h => h) ?_
  · intro a ha
    exact ⟨rfl, rfl, upd_ne _ _ ha, rfl, upd_ne _ _ ha⟩
  · intro _
    exact ⟨rfl, rfl, upd_same ..⟩

/-- `multimap_insert`. -/
theorem SimA.insert (s : SimA cmp key al off H st A D h T) (hc : LawfulCmp cmp) {n : Nat} (n0 : n ≠ 0) (hn : n ∉ A)
    (hl : H.live n = true) (ho : al = true → H.own n = true) :
    ∃ H' D' h' T', insertNode cmp key H n = some (H', ⟨some n, insertStat (first cmp key H.val (key (H.val n)) A)⟩) ∧
      SimA cmp key al off H' (st.add n (H.val n)) (A ++ [n]) D' h' T' ∧ H'.val = H.val := by
  obtain ⟨H', D', h', T', run, c, o⟩ := s.core.insert hc s.sz n0 hl hn
  obtain ⟨v1, v2, v3, v4, v5, v6⟩ := o.val
  refine ⟨H', D', h', T', run, ⟨c.weaken ?_, ?_, ?_, ?_, ?_, v5.trans s.alloc, v6.trans s.off⟩, v1⟩
  · rintro a ⟨h1, h2⟩
    simp only [St.add, St.forget, List.mem_filter, bne_iff_ne, ne_eq] at h1 h2
    exact ⟨⟨h1.1, fun hh => h2 ⟨hh, h1.2⟩⟩, h1.2⟩
  · rw [v4, s.sz]; simp
  · show st.elems ++ _ = _
    rw [s.elems, v1]; simp
  · intro hal a ha
    rw [v3]
    rcases List.mem_append.1 ha with ha | ha
    · exact s.own hal a ha
    · simp at ha; subst ha; exact ho hal
  · intro a ha
    simp only [St.add, St.forget, List.mem_filter, bne_iff_ne, ne_eq] at ha
    obtain ⟨p1, p2, p3⟩ := s.out a ha.1
    refine ⟨by rw [v2]; exact p1, p2, ?_⟩
    simp [p3, ha.2]

/-- A struct has left. -/
theorem SimA.taken (s : SimA cmp key al off H st A D h T) (hc : LawfulCmp cmp) {H' : Omm α} {D' : Nat → List Nat} {h' : Links} {T' : Tree}
    {r : Nat} (hr : r ∈ A) {M : Nat → Prop} (lt : Bool)
    (c : Core cmp key H' (drop r A) M D' h' T') (hM : ∀ a, (a ∈ st.out ∧ a ∉ st.later) ∨ (a = r ∧ lt = false) → M a)
    (o : OnlyS (H.sz - 1) H H') :
    SimA cmp key al off H' (st.take false lt r) (drop r A) D' h' T' := by
  obtain ⟨v1, v2, v3, v4, v5, v6⟩ := o.val
  refine ⟨c.weaken ?_, ?_, ?_, ?_, ?_, v5.trans s.alloc, v6.trans s.off⟩
  · intro a ha
    apply hM
    simp only [St.take, Bool.false_eq_true, if_false, List.mem_cons] at ha
    obtain ⟨h1, h2⟩ := ha
    cases lt with
    | false =>
      simp only [Bool.false_eq_true, if_false] at h2
      rcases h1 with h1 | h1
      · exact Or.inr ⟨h1, rfl⟩
      · exact Or.inl ⟨h1, h2⟩
    | true =>
      simp only [if_true, List.mem_cons, not_or] at h2
      rcases h1 with h1 | h1
      · exact absurd h1 h2.1
      · exact Or.inl ⟨h1, h2.2⟩
  · rw [v4, s.sz, drop_length (s.core.nodupA hc) hr]
  · show MultiSpec.without r st.elems = _
    rw [s.without, v1]; rfl
  · intro hal a ha
    rw [v3]; exact s.own hal a (mem_drop.1 ha).1
  · intro a ha
    simp only [St.take, Bool.false_eq_true, if_false, List.mem_cons] at ha
    rw [v2]
    rcases ha with rfl | ha
    · exact ⟨s.core.alive hr, s.core.ne_zero hr, fun hh => (mem_drop.1 hh).2 rfl⟩
    · obtain ⟨p1, p2, p3⟩ := s.out a ha
      exact ⟨p1, p2, fun hh => p3 (mem_drop.1 hh).1⟩

/-- A struct that has just left is freed. -/
theorem SimA.freed (s : SimA cmp key al off H st A D h T) (hc : LawfulCmp cmp) (hal : al = true) {H' : Omm α} {D' : Nat → List Nat}
    {h' : Links} {T' : Tree} {r : Nat} (hr : r ∈ A) (s' : SimA cmp key al off H' (st.take false false r) (drop r A) D' h' T')
    (ho : H'.own = H.own) :
    ∃ H2, Omm.free H' r = some H2 ∧ SimA cmp key al off H2 (st.take true false r) (drop r A) D' h' T' ∧ H2.val = H'.val := by
  have hl : H'.live r = true := (s'.out r (by simp [St.take])).1
  have r0 := s.core.ne_zero hr
  have hrn : r ∉ drop r A := fun hh => (mem_drop.1 hh).2 rfl
  refine ⟨{ H' with live := upd H'.live r false, own := upd H'.own r false }, ?_, ?_, rfl⟩
  · simp [Omm.free, hl, ho, s.own hal r hr]
  · refine s'.aside hc (n := r) ⟨rfl, rfl, rfl, rfl, ?_⟩ r0 hrn rfl ?_ ?_ ?_
    · intro a ha
      exact ⟨rfl, rfl, upd_ne _ _ ha, upd_ne _ _ ha, rfl⟩
    · intro a ha; simp only [St.take, if_true] at ha; simp [St.take, ha]
    · intro a ha hh; simpa [St.take] using hh
    · intro hh
      simp only [St.take, if_true] at hh
      exact absurd hr (s.out r hh).2.2

/-- `find`. -/
theorem SimA.find (s : SimA cmp key al off H st A D h T) (hc : LawfulCmp cmp) (k : κ) :
    ∃ H' h' T', Omm.find cmp key H k = some (H', first cmp key H.val k A) ∧ SimA cmp key al off H' st A D h' T' ∧ Only H H' ∧
      (∀ a, first cmp key H.val k A = some a → H'.root = a) := by
  obtain ⟨H', h', T', run, c, o, _, hr⟩ := s.core.find hc k
  exact ⟨H', h', T', run, s.only c o, o, fun a ha => (hr a ha).1⟩

theorem first_mem {val : Nat → α} {k : κ} {a : Nat} (e : first cmp key val k A = some a) :
    a ∈ A ∧ cmp k (key (val a)) = .eql := by
  refine ⟨List.mem_of_find?_eq_some e, ?_⟩
  have := List.find?_some e
  simpa using this

/-- `multimap_erase`. -/
theorem SimA.erase (s : SimA cmp key al off H st A D h T) (hc : LawfulCmp cmp) (k : κ) :
    (first cmp key H.val k A = none ∧ ∃ H' h' T', Omm.erase cmp key H k = some (H', none) ∧ SimA cmp key al off H' st A D h' T') ∨
    (∃ r H' D' h' T', first cmp key H.val k A = some r ∧ Omm.erase cmp key H k = some (H', some r) ∧
      SimA cmp key al off H' (st.take false false r) (drop r A) D' h' T' ∧ H'.val = H.val ∧ H'.own = H.own) := by
  rcases s.core.erase hc s.sz k with ⟨e, H', h', T', run, c, o⟩ | ⟨r, H', D', h', T', e, run, c, o⟩
  · exact Or.inl ⟨e, H', h', T', run, s.only c o⟩
  · exact Or.inr ⟨r, H', D', h', T', e, run, s.taken hc (first_mem e).1 false c
      (fun a ha => ha.imp (fun h => h) (fun h => h.1)) o, o.val.1, o.val.2.2.1⟩

/-- `pop_max` (`true`) and `pop_min`, without freeing. -/
theorem SimA.eraseEnd (s : SimA cmp key al off H st A D h T) (hc : LawfulCmp cmp) (d : Bool) :
    (st.elems = [] ∧ eraseMaxOrMin cmp key H (if d then .grt else .les) = some (H, none)) ∨
    (∃ r H' D' h' T', (flat (!d) D T).head? = some r ∧ r ∈ A ∧
      eraseMaxOrMin cmp key H (if d then .grt else .les) = some (H', some r) ∧
      SimA cmp key al off H' (st.take false false r) (drop r A) D' h' T' ∧ H'.val = H.val ∧ H'.own = H.own) := by
  rcases s.core.eraseEnd hc s.sz d with ⟨hA, run⟩ | ⟨hA, H', D', h', T', run, hm, c, o⟩
  · refine Or.inl ⟨by rw [s.elems, hA]; rfl, run⟩
  · refine Or.inr ⟨_, H', D', h', T', ?_, s.core.memT hm, run, s.taken hc (s.core.memT hm) false c
      (fun a ha => ha.imp (fun h => h) (fun h => h.1)) o, o.val.1, o.val.2.2.1⟩
    rw [flat_head _ (fun hh => hA (s.core.nil_iff.1 hh)), Bool.not_not]

/-- `extract` of a stored struct. -/
theorem SimA.extract (s : SimA cmp key al off H st A D h T) (hc : LawfulCmp cmp) {a : Nat} (ha : a ∈ A) :
    (∃ l r, H.br a false = some l ∧ H.br a true = some r) ∧ ∃ H' D' h' T', eraseNode cmp key H a = some (H', some a) ∧
      SimA cmp key al off H' (st.take false (MultiSpec.isLater cmp key a st.elems) a) (drop a A) D' h' T' ∧ H'.val = H.val ∧
      H'.live = H.live ∧ H'.own = H.own := by
  obtain ⟨hb, H', D', h', T', run, o, c⟩ := s.core.extract hc s.sz ha
  refine ⟨hb, H', D', h', T', run, s.taken hc ha _ c ?_ o, o.val.1, o.val.2.1, o.val.2.2.1⟩
  intro b hb
  refine hb.imp (fun h => h) ?_
  rintro ⟨rfl, h2⟩
  refine ⟨rfl, ?_⟩
  rw [s.isLater ha] at h2
  simpa using h2

/-- `extract` of a struct that is not stored. -/
theorem SimA.extractOut (s : SimA cmp key al off H st A D h T) {a : Nat} (ha : a ∈ st.out)
    (hs : a ∉ st.later ∨ st.elems = []) : eraseNode cmp key H a = some (H, none) := by
  have hl := (s.out a ha).1
  unfold eraseNode
  rw [getBr_live hl, getBr_live hl]
  simp only [Option.bind_eq_bind, Option.bind_some]
  rcases hs with hs | hs
  · have := (s.core.rel.null a ⟨ha, hs⟩).2.1
    rw [if_pos (Or.inl (this true))]
  · have : Omm.isEmpty H = true := by
      have hA : A = [] := by
        have := s.elems
        rw [hs] at this
        simpa using this.symm
      simp [Omm.isEmpty, s.sz, hA]
    rw [if_pos this]
    split <;> rfl

/-- `update` of a stored struct. -/
theorem SimA.update (s : SimA cmp key al off H st A D h T) (hc : LawfulCmp cmp) {a : Nat} (f : α → α) (ha : a ∈ A) :
    ∃ H' D' h' T', Omm.update cmp key H a f = some (H', true) ∧
      SimA cmp key al off H' { st with elems := MultiSpec.without a st.elems ++ [(a, f (H.val a))] } (drop a A ++ [a]) D' h' T' := by
  obtain ⟨⟨l, r, e1, e2⟩, H1, D1, h1, T1, run1, s1, v1, v2, v3⟩ := s.extract hc ha
  have a0 := s.core.ne_zero ha
  have hl := s.core.alive ha
  have hna : a ∉ drop a A := fun hh => (mem_drop.1 hh).2 rfl
  have s2 : SimA cmp key al off { H1 with val := upd H1.val a (f (H1.val a)) }
      (st.take false (MultiSpec.isLater cmp key a st.elems) a) (drop a A) D1 h1 T1 := by
    refine s1.aside hc (n := a) ⟨rfl, rfl, rfl, rfl, ?_⟩ a0 hna rfl (fun _ h => h) (fun _ _ h => h) ?_
    · intro b hb; exact ⟨rfl, rfl, rfl, rfl, upd_ne _ _ hb⟩
    · intro _
      exact ⟨rfl, rfl, by show H1.live a = true; rw [v2]; exact hl⟩
  obtain ⟨H3, D3, h3, T3, run3, s3, v4⟩ := s2.insert hc a0 hna (by show H1.live a = true; rw [v2]; exact hl)
    (fun hal => by show H1.own a = true; rw [v3]; exact s.own hal a ha)
  refine ⟨H3, D3, h3, T3, ?_, s3.forget ?_ ?_ ?_⟩
  · unfold Omm.update
    rw [getBr_live hl, getBr_live hl, e1, e2]
    simp only [Option.bind_eq_bind, Option.bind_some, reduceCtorEq, or_self, if_false, run1]
    rw [run3]; rfl
  · show MultiSpec.without a st.elems ++ _ = MultiSpec.without a st.elems ++ [(a, upd H1.val a (f (H1.val a)) a)]
    rw [upd_same, v1]
  · intro b hb
    have hba : b ≠ a := by rintro rfl; exact (s.out b hb).2.2 ha
    simp only [St.add, St.forget, St.take, Bool.false_eq_true, if_false, List.mem_filter, List.mem_cons, bne_iff_ne]
    exact ⟨Or.inr hb, hba⟩
  · intro b hb hh
    have hba : b ≠ a := by rintro rfl; exact (s.out b hb).2.2 ha
    simp only [St.add, St.forget, St.take, Bool.false_eq_true, if_false, List.mem_filter, bne_iff_ne] at hh
    have := hh.1
    split at this
    · simp only [List.mem_cons] at this
      exact this.resolve_left hba
    · exact this

theorem SimA.updateOut (s : SimA cmp key al off H st A D h T) {a : Nat} (f : α → α) (ha : a ∈ st.out)
    (hs : a ∉ st.later ∨ st.elems = []) : Omm.update cmp key H a f = some (H, false) := by
  have hl := (s.out a ha).1
  unfold Omm.update
  rw [getBr_live hl, getBr_live hl]
  simp only [Option.bind_eq_bind, Option.bind_some, s.extractOut ha hs]
  split <;> rfl

end CCC.Omm
