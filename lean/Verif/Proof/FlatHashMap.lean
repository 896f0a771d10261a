import Verif.Model.FlatHashMap
/-
Facts about probing: the Robin Hood invariant and what `find`, `insert` and `erase` do to the table.
-/
namespace CCC.Fhm
open CCC HashMap

variable {α κ : Type} {c : Cfg κ α}

/-! ### Slots arranged in a circle -/

theorem toI_range (c : Cfg κ α) {cap : Nat} (h : 3 ≤ cap) (x : UInt64) : 2 ≤ toI c cap x ∧ toI c cap x < cap := by
  have hx : x.toNat < 2 ^ 64 := x.toNat_lt
  have h1 : x.toNat * cap / 2 ^ 64 < cap := by
    apply Nat.div_lt_of_lt_mul
    exact Nat.mul_lt_mul_of_pos_right hx (by omega)
  have h2 : x.toNat % cap < cap := Nat.mod_lt _ (by omega)
  unfold toI
  cases c.wide <;> simp only [if_true, Bool.false_eq_true, if_false] <;> split <;> omega

theorem inc_range {cap i : Nat} (h : 3 ≤ cap) : 2 ≤ i → 2 ≤ increment cap i ∧ increment cap i < cap := by
  unfold increment; split <;> omega

theorem dist_lt {cap i j : Nat} (hi : 2 ≤ i) (hi' : i < cap) (hj : 2 ≤ j) (hj' : j < cap) :
    distance cap i j < cap - 2 := by
  unfold distance; split <;> omega

theorem dist_self {cap i : Nat} : distance cap i i = 0 := by simp [distance]

theorem dist_eq_zero {cap i j : Nat} (hi : 2 ≤ i) (hi' : i < cap) (hj : 2 ≤ j) (hj' : j < cap)
    (h : distance cap i j = 0) : i = j := by
  unfold distance at h; split at h <;> omega

theorem dist_inc {cap i j : Nat} (hi : 2 ≤ i) (hi' : i < cap) (hj : 2 ≤ j) (hj' : j < cap)
    (h : distance cap i j + 1 < cap - 2) : distance cap (increment cap i) j = distance cap i j + 1 := by
  unfold distance increment at *; split at h <;> split <;> split <;> omega

theorem dist_inc_pos {cap i j : Nat} (hi : 2 ≤ i) (hi' : i < cap) (hj : 2 ≤ j) (hj' : j < cap)
    (h : 0 < distance cap (increment cap i) j) : distance cap (increment cap i) j = distance cap i j + 1 := by
  unfold distance increment at *; split at h <;> split at h <;> (repeat' split) <;> omega

theorem dist_to_inc {cap i j : Nat} (hi : 2 ≤ i) (hi' : i < cap) (hj : 2 ≤ j) (hj' : j < cap) (h : i ≠ j) :
    distance cap j i = distance cap j (increment cap i) + 1 := by
  unfold distance increment at *; split <;> split <;> split <;> omega

theorem inc_inj {cap i j : Nat} (hi : 2 ≤ i) (hi' : i < cap) (hj : 2 ≤ j) (hj' : j < cap)
    (h : increment cap i = increment cap j) : i = j := by
  unfold increment at h; split at h <;> split at h <;> omega

theorem inc_ne {cap i : Nat} (h : 4 ≤ cap) (hi : 2 ≤ i) (hi' : i < cap) : increment cap i ≠ i := by
  unfold increment; split <;> omega

theorem inc_inc_ne {cap i : Nat} (h : 5 ≤ cap) (hi : 2 ≤ i) (hi' : i < cap) :
    increment cap (increment cap i) ≠ i := by
  unfold increment; split <;> split <;> omega

theorem dec_range {cap i : Nat} (h : 3 ≤ cap) (hi : 2 ≤ i) (hi' : i < cap) :
    2 ≤ decrement cap i ∧ decrement cap i < cap := by
  unfold decrement; simp only; split <;> split <;> omega

theorem inc_dec {cap i : Nat} (h : 3 ≤ cap) (hi : 2 ≤ i) (hi' : i < cap) : increment cap (decrement cap i) = i := by
  unfold decrement increment; simp only; split <;> split <;> split <;> omega

theorem dec_inc {cap i : Nat} (h : 3 ≤ cap) (hi : 2 ≤ i) (hi' : i < cap) : decrement cap (increment cap i) = i := by
  have h1 := inc_range (cap := cap) h hi
  have h2 := dec_range (cap := cap) h h1.1 h1.2
  exact inc_inj h2.1 h2.2 hi hi' (inc_dec h h1.1 h1.2)

/-! ### Table contents -/

/-- How far the element in slot `i` is from home. -/
def dd (c : Cfg κ α) (mem : Nat → Cell α) (cap i : Nat) : Nat := distance cap i (toI c cap (mem i).hash)

/-- The Robin Hood invariant: an element that is not at home stands right behind an element which is at most one step
closer to its own home. -/
def RH (c : Cfg κ α) (mem : Nat → Cell α) (cap : Nat) : Prop :=
  ∀ i, 2 ≤ i → i < cap → (mem (increment cap i)).hash ≠ 0 → 0 < dd c mem cap (increment cap i) →
    (mem i).hash ≠ 0 ∧ dd c mem cap (increment cap i) ≤ dd c mem cap i + 1

/-- The occupied cells of the table, in slot order. -/
def cells (mem : Nat → Cell α) (cap : Nat) : List (Cell α) :=
  ((List.range' 2 (cap - 2)).map mem).filter (fun x => decide (x.hash ≠ 0))

def opt (x : Cell α) : List (Cell α) := if x.hash ≠ 0 then [x] else []

theorem opt_empty {x : Cell α} (h : x.hash = 0) : opt x = [] := by simp [opt, h]
theorem opt_full {x : Cell α} (h : x.hash ≠ 0) : opt x = [x] := by simp [opt, h]

theorem cells_congr {m m' : Nat → Cell α} {cap : Nat} (h : ∀ i, 2 ≤ i → i < cap → m i = m' i) :
    cells m cap = cells m' cap := by
  unfold cells
  congr 1
  apply List.map_congr_left
  intro i hi
  rw [List.mem_range'_1] at hi
  exact h i hi.1 (by omega)

theorem mem_cells {m : Nat → Cell α} {cap : Nat} {x : Cell α} :
    x ∈ cells m cap ↔ ∃ i, 2 ≤ i ∧ i < cap ∧ (m i).hash ≠ 0 ∧ m i = x := by
  unfold cells
  rw [List.mem_filter, List.mem_map]
  constructor
  · rintro ⟨⟨i, hi, rfl⟩, h⟩
    rw [List.mem_range'_1] at hi
    exact ⟨i, hi.1, by omega, by simpa using h, rfl⟩
  · rintro ⟨i, h1, h2, h3, rfl⟩
    exact ⟨⟨i, by rw [List.mem_range'_1]; omega, rfl⟩, by simpa using h3⟩

theorem cells_eq_filterMap (m : Nat → Cell α) (cap : Nat) :
    cells m cap = (List.range' 2 (cap - 2)).flatMap (fun i => opt (m i)) := by
  unfold cells
  generalize List.range' 2 (cap - 2) = l
  induction l with
  | nil => rfl
  | cons a l ih =>
    rw [List.map_cons, List.filter_cons, List.flatMap_cons, ih]
    by_cases h : (m a).hash = 0 <;> simp [opt, h]

theorem range_split {cap i : Nat} (hi : 2 ≤ i) (hi' : i < cap) :
    List.range' 2 (cap - 2) = List.range' 2 (i - 2) ++ i :: List.range' (i + 1) (cap - i - 1) := by
  have h1 : cap - 2 = (i - 2) + ((cap - i - 1) + 1) := by omega
  rw [h1, ← List.range'_append_1, List.range'_succ, show 2 + (i - 2) = i by omega]

theorem flatMap_congr' {β γ : Type} {f g : β → List γ} : ∀ {l : List β}, (∀ x ∈ l, f x = g x) → l.flatMap f = l.flatMap g
  | [], _ => rfl
  | a :: l, h => by
    rw [List.flatMap_cons, List.flatMap_cons, h a (by simp), flatMap_congr' (fun x hx => h x (by simp [hx]))]

/-- Writing one slot of the table. -/
theorem cells_upd {m : Nat → Cell α} {cap i : Nat} (x : Cell α) (hi : 2 ≤ i) (hi' : i < cap) :
    (opt (m i) ++ cells (upd m i x) cap).Perm (opt x ++ cells m cap) := by
  simp only [cells_eq_filterMap, range_split hi hi', List.flatMap_append, List.flatMap_cons, upd_same]
  have h1 : (List.range' 2 (i - 2)).flatMap (fun j => opt (upd m i x j)) =
      (List.range' 2 (i - 2)).flatMap (fun j => opt (m j)) := by
    apply flatMap_congr'
    intro j hj
    rw [List.mem_range'_1] at hj
    rw [upd_ne _ _ (by omega)]
  have h2 : (List.range' (i + 1) (cap - i - 1)).flatMap (fun j => opt (upd m i x j)) =
      (List.range' (i + 1) (cap - i - 1)).flatMap (fun j => opt (m j)) := by
    apply flatMap_congr'
    intro j hj
    rw [List.mem_range'_1] at hj
    rw [upd_ne _ _ (by omega)]
  rw [h1, h2]
  generalize (List.range' 2 (i - 2)).flatMap (fun j => opt (m j)) = A
  generalize (List.range' (i + 1) (cap - i - 1)).flatMap (fun j => opt (m j)) = B
  generalize opt (m i) = p
  generalize opt x = q
  have sw : ∀ (X Y Z : List (Cell α)), (X ++ (Y ++ Z)).Perm (Y ++ (X ++ Z)) := by
    intro X Y Z
    rw [← List.append_assoc, ← List.append_assoc]
    exact (List.perm_append_comm).append_right Z
  exact ((List.Perm.append_left p (sw A q B)).trans (sw p q (A ++ B))).trans (List.Perm.append_left q (sw p A B))

theorem cells_fill {m : Nat → Cell α} {cap i : Nat} {x : Cell α} (hi : 2 ≤ i) (hi' : i < cap) (he : (m i).hash = 0)
    (hx : x.hash ≠ 0) : (cells (upd m i x) cap).Perm (x :: cells m cap) := by
  have := cells_upd (m := m) x hi hi'
  rw [opt_empty he, opt_full hx] at this
  exact this

theorem cells_replace {m : Nat → Cell α} {cap i : Nat} {x : Cell α} (hi : 2 ≤ i) (hi' : i < cap) (he : (m i).hash ≠ 0)
    (hx : x.hash ≠ 0) : (m i :: cells (upd m i x) cap).Perm (x :: cells m cap) := by
  have := cells_upd (m := m) x hi hi'
  rw [opt_full he, opt_full hx] at this
  exact this

theorem cells_empty {m : Nat → Cell α} {cap i : Nat} {x : Cell α} (hi : 2 ≤ i) (hi' : i < cap) (he : (m i).hash ≠ 0)
    (hx : x.hash = 0) : (m i :: cells (upd m i x) cap).Perm (cells m cap) := by
  have := cells_upd (m := m) x hi hi'
  rw [opt_full he, opt_empty hx] at this
  exact this

/-- Two occupied slots with equal keys are the same slot. -/
theorem slot_unique {m : Nat → Cell α} {cap : Nat} {R : Cell α → Cell α → Prop} (hs : ∀ x y, R x y → R y x)
    (h : (cells m cap).Pairwise R) {i j : Nat} (hi : 2 ≤ i) (hi' : i < cap) (hj : 2 ≤ j) (hj' : j < cap)
    (oi : (m i).hash ≠ 0) (oj : (m j).hash ≠ 0) (hne : i ≠ j) : R (m i) (m j) := by
  unfold cells at h
  rw [List.pairwise_filter, List.pairwise_map] at h
  have key : ∀ {a b : Nat}, 2 ≤ a → a < cap → 2 ≤ b → b < cap → (m a).hash ≠ 0 → (m b).hash ≠ 0 → a < b →
      R (m a) (m b) := by
    intro a b ha ha' hb hb' oa ob hlt
    have hp := h
    rw [range_split ha ha'] at hp
    rw [List.pairwise_append] at hp
    have h3 := (List.pairwise_cons.1 hp.2.1).1 b (by rw [List.mem_range'_1]; omega)
    exact h3 (by simpa using oa) (by simpa using ob)
  rcases Nat.lt_or_gt_of_ne hne with hlt | hlt
  · exact key hi hi' hj hj' oi oj hlt
  · exact hs _ _ (key hj hj' hi hi' oj oi hlt)

/-- If not all slots are occupied one is empty. -/
theorem exists_empty {m : Nat → Cell α} {cap : Nat} (h : (cells m cap).length < cap - 2) :
    ∃ j, 2 ≤ j ∧ j < cap ∧ (m j).hash = 0 := by
  by_cases hn : ∃ j, 2 ≤ j ∧ j < cap ∧ (m j).hash = 0
  · exact hn
  · exfalso
    have hall : ∀ j, 2 ≤ j → j < cap → (m j).hash ≠ 0 := fun j h1 h2 h3 => hn ⟨j, h1, h2, h3⟩
    have : cells m cap = (List.range' 2 (cap - 2)).map m := by
      unfold cells
      rw [List.filter_eq_self]
      intro x hx
      rw [List.mem_map] at hx
      obtain ⟨i, hi, rfl⟩ := hx
      rw [List.mem_range'_1] at hi
      simpa using hall i hi.1 (by omega)
    rw [this] at h
    simp at h

/-! ### Consequences of the invariant -/

/-- An element's way from its home does not cross an empty slot. -/
theorem RH.below {mem : Nat → Cell α} {cap : Nat} (hcap : 3 ≤ cap) (h : RH c mem cap) {j : Nat} (hj : 2 ≤ j)
    (hj' : j < cap) (he : (mem j).hash = 0) : ∀ n i, distance cap i j = n → 2 ≤ i → i < cap → (mem i).hash ≠ 0 →
    dd c mem cap i < distance cap i j := by
  intro n
  induction n with
  | zero =>
    intro i hn hi hi' ho
    have := dist_eq_zero hi hi' hj hj' hn
    subst this
    exact absurd he ho
  | succ n ih =>
    intro i hn hi hi' ho
    by_cases hd : dd c mem cap i = 0
    · omega
    · have hp := dec_range hcap hi hi'
      have hid := inc_dec hcap hi hi'
      have := h (decrement cap i) hp.1 hp.2 (by rw [hid]; exact ho) (by rw [hid]; omega)
      rw [hid] at this
      have h1 := dist_inc_pos (cap := cap) (i := decrement cap i) (j := j) hp.1 hp.2 hj hj' (by rw [hid]; omega)
      rw [hid] at h1
      have h2 := ih (decrement cap i) (by omega) hp.1 hp.2 this.1
      omega

/-- All slots between an element's home and the element are occupied, by elements that are at least as far from home as
the slot is. -/
theorem RH.chain {mem : Nat → Cell α} {cap : Nat} (hcap : 3 ≤ cap) (h : RH c mem cap) {j : Nat} (hj : 2 ≤ j)
    (hj' : j < cap) (ho : (mem j).hash ≠ 0) : ∀ n i, 2 ≤ i → i < cap →
    distance cap i (toI c cap (mem j).hash) + n = dd c mem cap j →
    (mem i).hash ≠ 0 ∧ distance cap i (toI c cap (mem j).hash) ≤ dd c mem cap i := by
  have hh := toI_range c hcap (mem j).hash
  intro n
  induction n with
  | zero =>
    intro i hi hi' hd
    have : i = j := by
      unfold dd at hd
      unfold distance at hd
      split at hd <;> split at hd <;> omega
    subst this
    exact ⟨ho, Nat.le_refl _⟩
  | succ n ih =>
    intro i hi hi' hd
    have hlt : dd c mem cap j < cap - 2 := dist_lt hj hj' hh.1 hh.2
    have h1 := dist_inc hi hi' hh.1 hh.2 (by omega)
    have hr := inc_range (cap := cap) hcap hi
    have h2 := ih (increment cap i) hr.1 hr.2 (by omega)
    have h3 := h i hi hi' h2.1 (by omega)
    exact ⟨h3.1, by omega⟩

theorem RH.congr {m m' : Nat → Cell α} {cap : Nat} (hcap : 3 ≤ cap) (h : RH c m cap)
    (e : ∀ i, 2 ≤ i → i < cap → m i = m' i) : RH c m' cap := by
  intro i hi hi'
  have hr := inc_range (cap := cap) hcap hi
  have := h i hi hi'
  unfold dd at *
  rw [← e i hi hi', ← e _ hr.1 hr.2]
  exact this

/-- The place `i` is right for an element with hash `x`: what is before it is far enough from home. -/
def Right (c : Cfg κ α) (mem : Nat → Cell α) (cap : Nat) (x : UInt64) (i : Nat) : Prop :=
  0 < distance cap i (toI c cap x) → ∃ p, 2 ≤ p ∧ p < cap ∧ increment cap p = i ∧ (mem p).hash ≠ 0 ∧
    distance cap i (toI c cap x) ≤ dd c mem cap p + 1

/-- Storing an element at a right place that is empty or held by an element closer to home. -/
theorem RH.put {mem : Nat → Cell α} {cap i : Nat} {f : Cell α} (hcap : 5 ≤ cap) (h : RH c mem cap) (hi : 2 ≤ i)
    (hi' : i < cap) (hr : Right c mem cap f.hash i)
    (hd : (mem i).hash ≠ 0 → dd c mem cap i ≤ distance cap i (toI c cap f.hash)) (hf : f.hash ≠ 0) :
    RH c (upd mem i f) cap := by
  intro q hq hq' ho hpos
  have hiq := inc_range (cap := cap) (by omega) hq
  have hne := inc_ne (cap := cap) (by omega) hq hq'
  by_cases h1 : increment cap q = i
  · have hqi : q ≠ i := fun e => hne (h1.trans e.symm)
    have e1 : dd c (upd mem i f) cap (increment cap q) = distance cap i (toI c cap f.hash) := by
      unfold dd; rw [h1, upd_same]
    rw [e1] at hpos ⊢
    obtain ⟨p, hp, hp', hpi, hpo, hpd⟩ := hr hpos
    have hpq : p = q := inc_inj hp hp' hq hq' (hpi.trans h1.symm)
    subst hpq
    unfold dd
    rw [upd_ne _ _ hqi]
    exact ⟨hpo, hpd⟩
  · rw [upd_ne _ _ h1] at ho
    have e1 : dd c (upd mem i f) cap (increment cap q) = dd c mem cap (increment cap q) := by
      unfold dd; rw [upd_ne _ _ h1]
    rw [e1] at hpos ⊢
    have h2 := h q hq hq' ho hpos
    by_cases h3 : q = i
    · subst h3
      have h4 := hd h2.1
      unfold dd at *
      rw [upd_same]
      exact ⟨hf, by omega⟩
    · unfold dd at *
      rw [upd_ne _ _ h3]
      exact h2

/-! ### Single steps -/

theorem at_eq {s : Fhm α} {i : Nat} (h : i < s.cap) : at_ s i = some (s.mem i) := by simp [at_, h]
theorem put_eq {s : Fhm α} {i : Nat} {x : Cell α} (h : i < s.cap) : put s i x = some { s with mem := upd s.mem i x } := by
  simp [put, h]
theorem putHash_eq {s : Fhm α} {i : Nat} {x : UInt64} (h : i < s.cap) :
    putHash s i x = some { s with mem := upd s.mem i ⟨x, (s.mem i).val⟩ } := by
  simp [putHash, at_eq h, put_eq h]
theorem swap_eq {s : Fhm α} {t a b : Nat} (h1 : t < s.cap) (h2 : a < s.cap) (h3 : b < s.cap) (hab : a ≠ b) (hta : t ≠ a)
    (htb : t ≠ b) : swap s t a b =
      some { s with mem := upd (upd (upd s.mem t (s.mem a)) a (s.mem b)) b (s.mem a) } := by
  simp [swap, hab, at_, put, h1, h2, h3, upd, htb.symm, hta]

/-- A table in order, apart from slots 0 and 1. -/
structure Tbl (c : Cfg κ α) (s : Fhm α) : Prop where
  cap : 6 ≤ s.cap
  rh : RH c s.mem s.cap
  z0 : (s.mem 0).hash = 0
  z1 : (s.mem 1).hash = 0
  good : ∀ x ∈ cells s.mem s.cap, x.hash = filter c (c.key x.val)
  uniq : (cells s.mem s.cap).Pairwise (fun x y => c.eq (c.key x.val) (c.key y.val) = false)
  sz : s.sz = (cells s.mem s.cap).length + 2
  room : s.sz < s.cap

theorem eq_false_symm (hl : Lawful c) {a b : κ} (h : c.eq a b = false) : c.eq b a = false := by
  cases hb : c.eq b a with
  | false => rfl
  | true => rw [hl.symm _ _ hb] at h; exact h

theorem filter_ne (c : Cfg κ α) (k : κ) : filter c k ≠ 0 := by
  unfold filter
  split
  · rename_i h; rw [h]; decide
  · assumption

theorem filter_congr (hl : Lawful c) {a b : κ} (h : c.eq a b = true) : filter c a = filter c b := by
  unfold Fhm.filter; rw [hl.hash a b h]

theorem Tbl.exists_empty {s : Fhm α} (t : Tbl c s) : ∃ j, 2 ≤ j ∧ j < s.cap ∧ (s.mem j).hash = 0 :=
  Fhm.exists_empty (by have := t.sz; have := t.room; omega)

/-- Where the search for a key ends. -/
structure Found (c : Cfg κ α) (s : Fhm α) (k : κ) (e : Ent) : Prop where
  out : ∃ i, 2 ≤ i ∧ i < s.cap ∧ e.e = some i ∧
    ((e.stats = Stat.occupied ∧ (s.mem i).hash ≠ 0 ∧ c.eq k (c.key (s.mem i).val) = true) ∨
     (e.stats = Stat.vacant ||| Stat.noUnwrap ∧ (∀ x ∈ cells s.mem s.cap, c.eq k (c.key x.val) = false) ∧
      Right c s.mem s.cap (filter c k) i ∧
      ((s.mem i).hash ≠ 0 → dd c s.mem s.cap i < distance s.cap i (toI c s.cap (filter c k)))))

theorem findLoop_spec (hl : Lawful c) {s : Fhm α} (t : Tbl c s) (k : κ) {j : Nat} (hj : 2 ≤ j) (hj' : j < s.cap)
    (he : (s.mem j).hash = 0) : ∀ n i dist, distance s.cap j i = n → 2 ≤ i → i < s.cap →
    dist = distance s.cap i (toI c s.cap (filter c k)) → Right c s.mem s.cap (filter c k) i →
    (∀ p, 2 ≤ p → p < s.cap → distance s.cap p (toI c s.cap (filter c k)) < dist → (s.mem p).hash ≠ 0 →
      c.eq k (c.key (s.mem p).val) = false) →
    ∃ e m, findLoop c s k (filter c k) i dist = some (e, m) ∧ m ≤ s.cap - 2 ∧ Found c s k e := by
  have hcap := t.cap
  have hh := toI_range c (cap := s.cap) (by omega) (filter c k)
  intro n
  induction n with
  | zero =>
    intro i dist hn hi hi' hdist hR hpass
    have := dist_eq_zero hj hj' hi hi' hn
    subst this
    refine ⟨_, _, by rw [findLoop]; simp [at_eq hj', he]; exact ⟨rfl, rfl⟩, ?_, ⟨j, hj, hj', rfl, .inr ⟨rfl, ?_, hR, ?_⟩⟩⟩
    · have := dist_lt (cap := s.cap) hi hi' hh.1 hh.2; omega
    · intro x hx
      by_cases hk : c.eq k (c.key x.val) = true
      · exfalso
        obtain ⟨p, hp, hp', hpo, rfl⟩ := mem_cells.1 hx
        have hg := t.good _ hx
        rw [← filter_congr hl hk] at hg
        have hd : dd c s.mem s.cap p = distance s.cap p (toI c s.cap (filter c k)) := by unfold dd; rw [hg]
        by_cases hlt : distance s.cap p (toI c s.cap (filter c k)) < dist
        · rw [hpass p hp hp' hlt hpo] at hk; simp at hk
        · have := RH.chain (by omega) t.rh hp hp' hpo (dd c s.mem s.cap p - dist) j hj hj' (by rw [hg]; omega)
          exact this.1 he
      · simpa using hk
    · intro h; exact absurd he h
  | succ n ih =>
    intro i dist hn hi hi' hdist hR hpass
    have hne : i ≠ j := by
      intro e; subst e; rw [dist_self] at hn; omega
    have hlt := dist_lt (cap := s.cap) hi hi' hh.1 hh.2
    by_cases hstop : (s.mem i).hash = 0 ∨ dist > distance s.cap i (toI c s.cap (s.mem i).hash)
    · refine ⟨⟨some i, Stat.vacant ||| Stat.noUnwrap⟩, dist + 1,
        by rw [findLoop]; simp only [at_eq hi', Option.bind_eq_bind, Option.bind_some, if_pos hstop], by omega,
        ⟨i, hi, hi', rfl, .inr ⟨rfl, ?_, hR, ?_⟩⟩⟩
      · intro x hx
        by_cases hk : c.eq k (c.key x.val) = true
        · exfalso
          obtain ⟨p, hp, hp', hpo, rfl⟩ := mem_cells.1 hx
          have hg := t.good _ hx
          rw [← filter_congr hl hk] at hg
          have hd : dd c s.mem s.cap p = distance s.cap p (toI c s.cap (filter c k)) := by unfold dd; rw [hg]
          by_cases hlt : distance s.cap p (toI c s.cap (filter c k)) < dist
          · rw [hpass p hp hp' hlt hpo] at hk; simp at hk
          · have := RH.chain (by omega) t.rh hp hp' hpo (dd c s.mem s.cap p - dist) i hi hi' (by rw [hg]; omega)
            rw [hg] at this
            rcases hstop with h | h
            · exact this.1 h
            · have h2 := this.2; unfold dd at h2; omega
        · simpa using hk
      · intro ho
        rcases hstop with h | h
        · exact absurd h ho
        · rw [← hdist]; exact h
    · have ho : (s.mem i).hash ≠ 0 := fun e => hstop (.inl e)
      have hle : dist ≤ dd c s.mem s.cap i := by
        have : ¬ dist > distance s.cap i (toI c s.cap (s.mem i).hash) := fun e => hstop (.inr e)
        unfold dd; omega
      by_cases hm : filter c k = (s.mem i).hash ∧ c.eq k (c.key (s.mem i).val) = true
      · refine ⟨⟨some i, Stat.occupied⟩, dist + 1,
          by rw [findLoop]; simp only [at_eq hi', Option.bind_eq_bind, Option.bind_some, if_neg hstop, if_pos hm], by omega,
          ⟨i, hi, hi', rfl, .inl ⟨rfl, ho, hm.2⟩⟩⟩
      · have hb := RH.below (by omega) t.rh hj hj' he _ i rfl hi hi' ho
        have hl2 := dist_lt (cap := s.cap) hi hi' hj hj'
        have hinc := dist_inc hi hi' hh.1 hh.2 (by omega)
        have hr := inc_range (cap := s.cap) (by omega) hi
        have hto := dist_to_inc hi hi' hj hj' hne
        obtain ⟨e, m, h1, h2, h3⟩ := ih (increment s.cap i) (dist + 1) (by omega) hr.1 hr.2 (by omega) (by
            intro _
            exact ⟨i, hi, hi', rfl, ho, by omega⟩) (by
            intro p hp hp' hpd hpo
            by_cases hpd' : distance s.cap p (toI c s.cap (filter c k)) < dist
            · exact hpass p hp hp' hpd' hpo
            · have : p = i := by
                have e1 : distance s.cap p (toI c s.cap (filter c k)) = distance s.cap i (toI c s.cap (filter c k)) := by
                  omega
                unfold distance at e1
                split at e1 <;> split at e1 <;> omega
              subst this
              have hx : s.mem p ∈ cells s.mem s.cap := mem_cells.2 ⟨p, hp, hp', hpo, rfl⟩
              by_cases hk : c.eq k (c.key (s.mem p).val) = true
              · exact absurd ⟨(filter_congr hl hk).trans (t.good _ hx).symm, hk⟩ hm
              · simpa using hk)
        refine ⟨e, m, ?_, h2, h3⟩
        rw [findLoop]
        simp only [at_eq hi', Option.bind_eq_bind, Option.bind_some, if_neg hstop, if_neg hm]
        exact h1

/-- The search ends after at most `capacity` probes, at the element with the key if there is one. -/
theorem Tbl.find (hl : Lawful c) {s : Fhm α} (t : Tbl c s) (k : κ) :
    ∃ e m, find c s k (filter c k) = some (e, m) ∧ m ≤ s.cap - 2 ∧ Found c s k e := by
  obtain ⟨j, hj, hj', he⟩ := t.exists_empty
  have hcap := t.cap
  have hh := toI_range c (cap := s.cap) (by omega) (filter c k)
  obtain ⟨e, m, h1, h2, h3⟩ := findLoop_spec hl t k hj hj' he _ (toI c s.cap (filter c k)) 0 rfl hh.1 hh.2 dist_self.symm
    (by intro h; rw [dist_self] at h; omega) (by intro p _ _ h; omega)
  refine ⟨e, m, ?_, h2, h3⟩
  have := t.room
  rw [Fhm.find, if_neg (by omega), if_neg (by omega)]
  exact h1

/-- What the insertion loop does: it stores the element waiting in slot 0, and moves others that are in the way.  `j` is
any empty slot; slots behind it are not touched. -/
theorem insertLoop_spec {j cap : Nat} (hcap : 5 ≤ cap) (hj : 2 ≤ j) (hj' : j < cap) : ∀ n (s : Fhm α) i m,
    s.cap = cap → distance cap j i = n → 2 ≤ i → i < cap → (s.mem j).hash = 0 → RH c s.mem cap →
    (s.mem 0).hash ≠ 0 → Right c s.mem cap (s.mem 0).hash i → s.sz < cap →
    ∃ s' m', insertLoop c s i (distance cap i (toI c cap (s.mem 0).hash)) m = some (s', m') ∧ m' ≤ m + n + 1 ∧
      s'.cap = cap ∧ s'.hasAlloc = s.hasAlloc ∧ s'.sz = s.sz + 1 ∧ RH c s'.mem cap ∧ (s'.mem 0).hash = 0 ∧
      (s'.mem 1).hash = 0 ∧ (cells s'.mem cap).Perm (s.mem 0 :: cells s.mem cap) ∧
      (∀ p, 2 ≤ p → p < cap → n < distance cap p i → s'.mem p = s.mem p) ∧
      (((s.mem i).hash ≠ 0 → dd c s.mem cap i < distance cap i (toI c cap (s.mem 0).hash)) → s'.mem i = s.mem 0) := by
  intro n
  induction n with
  | zero =>
    intro s i m hc hn hi hi' he hrh hf hR hsz
    subst hc
    have := dist_eq_zero hj hj' hi hi' hn
    subst this
    have h0 : 0 < s.cap := by omega
    have h1 : 1 < s.cap := by omega
    refine ⟨{ s with mem := upd (upd (upd s.mem j (s.mem 0)) 0 ⟨0, (s.mem 0).val⟩) 1 ⟨0, (s.mem 1).val⟩, sz := s.sz + 1 },
      m + 1, ?_, by omega, rfl, rfl, rfl, ?_, ?_, ?_, ?_, ?_, ?_⟩
    · rw [insertLoop]
      simp only [at_eq hi', Option.bind_eq_bind, Option.bind_some, if_pos he, at_eq h0, put_eq hi']
      rw [putHash_eq (by exact h0)]
      simp only [Option.bind_some]
      rw [putHash_eq (by exact h1)]
      have e1 : upd s.mem j (s.mem 0) 0 = s.mem 0 := upd_ne _ _ (by omega)
      have e2 : upd (upd s.mem j (s.mem 0)) 0 ⟨0, (s.mem 0).val⟩ 1 = s.mem 1 := by
        rw [upd_ne _ _ (by omega), upd_ne _ _ (by omega)]
      simp only [sizePlus, e1, e2, Option.bind_some]
      rw [if_neg (by omega)]
    · have := RH.put (i := j) (f := s.mem 0) hcap hrh hi hi' hR (fun h => absurd he h) hf
      refine RH.congr (by omega) this ?_
      intro q hq _
      simp only
      rw [upd_ne _ _ (by omega : q ≠ 1), upd_ne _ _ (by omega : q ≠ 0)]
    · simp only; rw [upd_ne _ _ (by omega), upd_same]
    · simp only; rw [upd_same]
    · simp only
      refine List.Perm.trans (List.Perm.of_eq ?_) (cells_fill hi hi' he hf)
      apply cells_congr
      intro q hq _
      rw [upd_ne _ _ (by omega : q ≠ 1), upd_ne _ _ (by omega : q ≠ 0)]
    · intro p hp _ hd
      simp only
      have : p ≠ j := by intro e; subst e; rw [dist_self] at hd; omega
      rw [upd_ne _ _ (by omega : p ≠ 1), upd_ne _ _ (by omega : p ≠ 0), upd_ne _ _ this]
    · intro _
      simp only
      rw [upd_ne _ _ (by omega), upd_ne _ _ (by omega), upd_same]
  | succ n ih =>
    intro s i m hc hn hi hi' he hrh hf hR hsz
    subst hc
    have hne : i ≠ j := by intro e; subst e; rw [dist_self] at hn; omega
    have h0 : 0 < s.cap := by omega
    have h1 : 1 < s.cap := by omega
    have hr := inc_range (cap := s.cap) (by omega) hi
    have hto := dist_to_inc hi hi' hj hj' hne
    have hfar : ∀ q, 2 ≤ q → q < s.cap → q ≠ i → distance s.cap q i = distance s.cap q (increment s.cap i) + 1 := by
      intro q hq hq' hqi
      exact dist_to_inc hi hi' hq hq' hqi.symm
    by_cases hemp : (s.mem i).hash = 0
    · refine ⟨{ s with mem := upd (upd (upd s.mem i (s.mem 0)) 0 ⟨0, (s.mem 0).val⟩) 1 ⟨0, (s.mem 1).val⟩, sz := s.sz + 1 },
        m + 1, ?_, by omega, rfl, rfl, rfl, ?_, ?_, ?_, ?_, ?_, ?_⟩
      · rw [insertLoop]
        simp only [at_eq hi', Option.bind_eq_bind, Option.bind_some, if_pos hemp, at_eq h0, put_eq hi']
        rw [putHash_eq (by exact h0)]
        simp only [Option.bind_some]
        rw [putHash_eq (by exact h1)]
        have e1 : upd s.mem i (s.mem 0) 0 = s.mem 0 := upd_ne _ _ (by omega)
        have e2 : upd (upd s.mem i (s.mem 0)) 0 ⟨0, (s.mem 0).val⟩ 1 = s.mem 1 := by
          rw [upd_ne _ _ (by omega), upd_ne _ _ (by omega)]
        simp only [sizePlus, e1, e2, Option.bind_some]
        rw [if_neg (by omega)]
      · have := RH.put (i := i) (f := s.mem 0) hcap hrh hi hi' hR (fun h => absurd hemp h) hf
        refine RH.congr (by omega) this ?_
        intro q hq _
        simp only
        rw [upd_ne _ _ (by omega : q ≠ 1), upd_ne _ _ (by omega : q ≠ 0)]
      · simp only; rw [upd_ne _ _ (by omega), upd_same]
      · simp only; rw [upd_same]
      · simp only
        refine List.Perm.trans (List.Perm.of_eq ?_) (cells_fill hi hi' hemp hf)
        apply cells_congr
        intro q hq _
        rw [upd_ne _ _ (by omega : q ≠ 1), upd_ne _ _ (by omega : q ≠ 0)]
      · intro p hp _ hd
        simp only
        have : p ≠ i := by intro e; subst e; rw [dist_self] at hd; omega
        rw [upd_ne _ _ (by omega : p ≠ 1), upd_ne _ _ (by omega : p ≠ 0), upd_ne _ _ this]
      · intro _
        simp only
        rw [upd_ne _ _ (by omega), upd_ne _ _ (by omega), upd_same]
    · have hb := RH.below (by omega) hrh hj hj' he _ i rfl hi hi' hemp
      have hl2 := dist_lt (cap := s.cap) hi hi' hj hj'
      by_cases hsw : distance s.cap i (toI c s.cap (s.mem 0).hash) > distance s.cap i (toI c s.cap (s.mem i).hash)
      · -- the element in slot `i` makes room
        have hh := toI_range c (cap := s.cap) (by omega) (s.mem i).hash
        have hinc := dist_inc hi hi' hh.1 hh.2 (by unfold dd at hb; omega)
        let s1 : Fhm α := { s with mem := upd (upd (upd s.mem 1 (s.mem 0)) 0 (s.mem i)) i (s.mem 0) }
        have hs1 : swap s 1 0 i = some s1 := swap_eq h1 h0 hi' (by omega) (by omega) (by omega)
        have g0 : s1.mem 0 = s.mem i := by simp only [s1]; rw [upd_ne _ _ (by omega), upd_same]
        have gi : s1.mem i = s.mem 0 := by simp only [s1]; rw [upd_same]
        have gq : ∀ q, 2 ≤ q → q ≠ i → s1.mem q = s.mem q := by
          intro q hq hqi
          simp only [s1]
          rw [upd_ne _ _ hqi, upd_ne _ _ (by omega), upd_ne _ _ (by omega)]
        have gu : ∀ q, 2 ≤ q → upd s.mem i (s.mem 0) q = s1.mem q := by
          intro q hq
          by_cases hqi : q = i
          · subst hqi; rw [gi, upd_same]
          · rw [gq q hq hqi, upd_ne _ _ hqi]
        have hrh1 : RH c s1.mem s.cap := by
          have := RH.put (i := i) (f := s.mem 0) hcap hrh hi hi' hR (fun _ => by unfold dd; omega) hf
          exact RH.congr (by omega) this (fun q hq _ => gu q hq)
        obtain ⟨s', m', k1, k2, k3, k4, k5, k6, k7, k8, k9, k10, _⟩ := ih s1 (increment s.cap i) (m + 1) rfl (by omega)
          hr.1 hr.2 (by rw [gq j hj hne.symm]; exact he) hrh1 (by rw [g0]; exact hemp) (by
            intro _
            refine ⟨i, hi, hi', rfl, by rw [gi]; exact hf, ?_⟩
            rw [g0]; unfold dd; rw [gi]; omega) hsz
        refine ⟨s', m', ?_, by omega, k3, k4, k5, k6, k7, k8, ?_, ?_, ?_⟩
        · rw [insertLoop]
          simp only [at_eq hi', Option.bind_eq_bind, Option.bind_some, if_neg hemp, if_pos hsw, hs1]
          rw [g0] at k1
          rw [← hinc]; exact k1
        · rw [g0] at k9
          refine k9.trans ?_
          have e1 : cells s1.mem s.cap = cells (upd s.mem i (s.mem 0)) s.cap :=
            cells_congr (fun q hq _ => (gu q hq).symm)
          rw [e1]
          exact cells_replace hi hi' hemp hf
        · intro p hp hp' hd
          have hpi : p ≠ i := by intro e; subst e; rw [dist_self] at hd; omega
          have := hfar p hp hp' hpi
          rw [k10 p hp hp' (by omega), gq p hp hpi]
        · intro _
          have hii : distance s.cap i (increment s.cap i) = s.cap - 3 := by
            unfold distance increment; split <;> split <;> omega
          have hl3 := dist_lt (cap := s.cap) hj hj' hi hi'
          rw [k10 i hi hi' (by omega), gi]
      · -- not displaced
        have hh := toI_range c (cap := s.cap) (by omega) (s.mem 0).hash
        have hinc := dist_inc hi hi' hh.1 hh.2 (by unfold dd at hb; omega)
        obtain ⟨s', m', k1, k2, k3, k4, k5, k6, k7, k8, k9, k10, _⟩ := ih s (increment s.cap i) (m + 1) rfl (by omega)
          hr.1 hr.2 he hrh hf (by
            intro _
            exact ⟨i, hi, hi', rfl, hemp, by unfold dd; omega⟩) hsz
        refine ⟨s', m', ?_, by omega, k3, k4, k5, k6, k7, k8, k9, ?_, ?_⟩
        · rw [insertLoop]
          simp only [at_eq hi', Option.bind_eq_bind, Option.bind_some, if_neg hemp, if_neg hsw]
          rw [← hinc]; exact k1
        · intro p hp hp' hd
          have hpi : p ≠ i := by intro e; subst e; rw [dist_self] at hd; omega
          have := hfar p hp hp' hpi
          exact k10 p hp hp' (by omega)
        · intro h
          have := h hemp
          unfold dd at this
          omega

/-- Storing a new element at the place where the search for its key ended. -/
theorem insertAt_spec {s : Fhm α} {i j : Nat} {x : α} {h : UInt64} (hcap : 5 ≤ s.cap) (hrh : RH c s.mem s.cap)
    (hsz : s.sz < s.cap) (hj : 2 ≤ j) (hj' : j < s.cap) (he : (s.mem j).hash = 0) (hi : 2 ≤ i) (hi' : i < s.cap)
    (hR : Right c s.mem s.cap h i) (hh : h ≠ 0) :
    ∃ s' m, insertAt c s x h i = some (s', m) ∧ m ≤ s.cap - 2 ∧ s'.cap = s.cap ∧ s'.hasAlloc = s.hasAlloc ∧
      s'.sz = s.sz + 1 ∧ RH c s'.mem s.cap ∧ (s'.mem 0).hash = 0 ∧ (s'.mem 1).hash = 0 ∧
      (cells s'.mem s.cap).Perm (⟨h, x⟩ :: cells s.mem s.cap) ∧
      (∀ p, 2 ≤ p → p < s.cap → distance s.cap j i < distance s.cap p i → s'.mem p = s.mem p) ∧
      (((s.mem i).hash ≠ 0 → dd c s.mem s.cap i < distance s.cap i (toI c s.cap h)) → s'.mem i = ⟨h, x⟩) := by
  let s1 : Fhm α := { s with mem := upd s.mem 0 ⟨h, x⟩ }
  have hs1 : put s 0 ⟨h, x⟩ = some s1 := put_eq (by omega)
  have gq : ∀ q, 2 ≤ q → s1.mem q = s.mem q := fun q hq => upd_ne _ _ (by omega)
  have g0 : s1.mem 0 = ⟨h, x⟩ := by simp [s1]
  have hdist := dist_lt (cap := s.cap) hj hj' hi hi'
  obtain ⟨s', m', k1, k2, k3, k4, k5, k6, k7, k8, k9, k10, k11⟩ := insertLoop_spec (c := c) (cap := s.cap) (by omega) hj hj'
    (distance s.cap j i) s1 i 0 rfl rfl hi hi' (by rw [gq j hj]; exact he)
    (RH.congr (by omega) hrh (fun q hq _ => (gq q hq).symm)) (by rw [g0]; exact hh) (by
      rw [g0]
      intro hpos
      obtain ⟨p, hp, hp', e1, e2, e3⟩ := hR hpos
      refine ⟨p, hp, hp', e1, by rw [gq p hp]; exact e2, ?_⟩
      unfold dd at *
      rw [gq p hp]; exact e3) hsz
  rw [g0] at k9 k1 k11
  refine ⟨s', m', ?_, by omega, k3, k4, k5, k6, k7, k8, ?_, ?_, fun hd => k11 ?_⟩
  · simp only [insertAt, hs1, Option.bind_eq_bind, Option.bind_some]
    exact k1
  · rw [show cells s1.mem s.cap = cells s.mem s.cap from cells_congr (fun q hq _ => gq q hq)] at k9
    exact k9
  · intro p hp hp' hpd
    rw [k10 p hp hp' hpd, gq p hp]
  · unfold dd at *
    rw [gq i hi]; exact hd

/-- The invariant with a hole at `i` left by a removed element: what follows the hole may move up into it. -/
def Hole (c : Cfg κ α) (mem : Nat → Cell α) (cap i : Nat) : Prop :=
  (mem i).hash = 0 ∧
  (∀ p, 2 ≤ p → p < cap → p ≠ i → (mem (increment cap p)).hash ≠ 0 → 0 < dd c mem cap (increment cap p) →
    (mem p).hash ≠ 0 ∧ dd c mem cap (increment cap p) ≤ dd c mem cap p + 1) ∧
  (∀ q, 2 ≤ q → q < cap → increment cap q = i → (mem (increment cap i)).hash ≠ 0 → 1 < dd c mem cap (increment cap i) →
    (mem q).hash ≠ 0 ∧ dd c mem cap (increment cap i) ≤ dd c mem cap q + 2)

theorem eraseLoop_spec {j cap : Nat} (hcap : 5 ≤ cap) (hj : 2 ≤ j) (hj' : j < cap) : ∀ n (s : Fhm α) i m,
    s.cap = cap → distance cap j (increment cap i) = n → 2 ≤ i → i < cap → j ≠ i → (s.mem j).hash = 0 →
    Hole c s.mem cap i → (s.mem 1).hash = 0 →
    ∃ s' m', eraseLoop c s i (increment cap i) m = some (s', m') ∧ m' ≤ m + n + 1 ∧ s'.cap = cap ∧
      s'.hasAlloc = s.hasAlloc ∧ s'.sz = s.sz - 1 ∧ RH c s'.mem cap ∧ (s'.mem 0).hash = 0 ∧ (s'.mem 1).hash = 0 ∧
      (cells s'.mem cap).Perm (cells s.mem cap) := by
  intro n
  induction n with
  | zero =>
    intro s i m hc hn hi hi' hji he hH h1z
    subst hc
    have hr := inc_range (cap := s.cap) (by omega) hi
    have := dist_eq_zero hj hj' hr.1 hr.2 hn
    subst this
    have h0 : 0 < s.cap := by omega
    refine ⟨sizeMinus { s with mem := upd s.mem 0 ⟨0, (s.mem 0).val⟩ } 1, m + 1, by
      rw [eraseLoop]
      simp only [at_eq hr.2, Option.bind_eq_bind, Option.bind_some, he, true_or, if_true, putHash_eq h0], by omega, rfl, rfl, ?_, ?_, ?_, ?_, ?_⟩
    · simp only [sizeMinus]; split <;> omega
    · simp only [sizeMinus]
      have hrh : RH c s.mem s.cap := by
        intro p hp hp' ho hd
        by_cases hpi : p = i
        · subst hpi; exact absurd he ho
        · exact hH.2.1 p hp hp' hpi ho hd
      exact RH.congr (by omega) hrh (fun q hq _ => (upd_ne _ _ (by omega)).symm)
    · simp [sizeMinus]
    · simp only [sizeMinus]; rw [upd_ne _ _ (by omega)]; exact h1z
    · simp only [sizeMinus]
      exact List.Perm.of_eq (cells_congr (fun q hq _ => upd_ne _ _ (by omega)))
  | succ n ih =>
    intro s i m hc hn hi hi' hji he hH h1z
    subst hc
    have hr := inc_range (cap := s.cap) (by omega) hi
    have h0 : 0 < s.cap := by omega
    by_cases hstop : (s.mem (increment s.cap i)).hash = 0 ∨ distance s.cap (increment s.cap i)
        (toI c s.cap (s.mem (increment s.cap i)).hash) = 0
    · refine ⟨sizeMinus { s with mem := upd s.mem 0 ⟨0, (s.mem 0).val⟩ } 1, m + 1, by
        rw [eraseLoop]
        simp only [at_eq hr.2, Option.bind_eq_bind, Option.bind_some, if_pos hstop, putHash_eq h0], by omega, rfl, rfl, ?_, ?_, ?_, ?_, ?_⟩
      · simp only [sizeMinus]; split <;> omega
      · simp only [sizeMinus]
        have hrh : RH c s.mem s.cap := by
          intro p hp hp' ho hd
          by_cases hpi : p = i
          · subst hpi
            rcases hstop with h | h
            · exact absurd h ho
            · unfold dd at hd; omega
          · exact hH.2.1 p hp hp' hpi ho hd
        exact RH.congr (by omega) hrh (fun q hq _ => (upd_ne _ _ (by omega)).symm)
      · simp [sizeMinus]
      · simp only [sizeMinus]; rw [upd_ne _ _ (by omega)]; exact h1z
      · simp only [sizeMinus]
        exact List.Perm.of_eq (cells_congr (fun q hq _ => upd_ne _ _ (by omega)))
    · have ho : (s.mem (increment s.cap i)).hash ≠ 0 := fun e => hstop (.inl e)
      have hpos : 0 < dd c s.mem s.cap (increment s.cap i) := by
        have : ¬ distance s.cap (increment s.cap i) (toI c s.cap (s.mem (increment s.cap i)).hash) = 0 :=
          fun e => hstop (.inr e)
        unfold dd; omega
      have hne := inc_ne (cap := s.cap) (by omega) hi hi'
      have hnn := inc_inc_ne (cap := s.cap) (by omega) hi hi'
      have hnx := inc_ne (cap := s.cap) (by omega) hr.1 hr.2
      have hrr := inc_range (cap := s.cap) (by omega) hr.1
      have hjn : j ≠ increment s.cap i := by intro e; rw [e] at he; exact ho he
      let nx := increment s.cap i
      let s1 : Fhm α := { s with mem := upd (upd (upd s.mem 0 (s.mem nx)) nx (s.mem i)) i (s.mem nx) }
      have hs1 : swap s 0 nx i = some s1 := swap_eq h0 hr.2 hi' hne (by omega) (by omega)
      have gi : s1.mem i = s.mem nx := by simp only [s1]; rw [upd_same]
      have gn : s1.mem nx = s.mem i := by simp only [s1]; rw [upd_ne _ _ hne, upd_same]
      have gq : ∀ q, 1 ≤ q → q ≠ i → q ≠ nx → s1.mem q = s.mem q := by
        intro q hq h1 h2
        simp only [s1]
        rw [upd_ne _ _ h1, upd_ne _ _ h2, upd_ne _ _ (by omega)]
      have hh := toI_range c (cap := s.cap) (by omega) (s.mem nx).hash
      have hdn : dd c s.mem s.cap nx = distance s.cap i (toI c s.cap (s.mem nx).hash) + 1 :=
        dist_inc_pos hi hi' hh.1 hh.2 hpos
      have hdi : dd c s1.mem s.cap i + 1 = dd c s.mem s.cap nx := by rw [hdn]; unfold dd; rw [gi]
      have hH1 : Hole c s1.mem s.cap nx := by
        refine ⟨by rw [gn]; exact hH.1, ?_, ?_⟩
        · intro p hp hp' hpn hpo hpd
          have hpr := inc_range (cap := s.cap) (by omega) hp
          have hpne := inc_ne (cap := s.cap) (by omega) hp hp'
          by_cases hpi : p = i
          · subst hpi
            exact absurd (by rw [gn]; exact hH.1) hpo
          · by_cases h2 : increment s.cap p = i
            · -- `p` is before the filled hole
              rw [h2] at hpd ⊢
              have := hH.2.2 p hp hp' h2 ho (by show 1 < dd c s.mem s.cap nx; omega)
              rw [gq p (by omega) hpi hpn]
              refine ⟨this.1, ?_⟩
              have e1 : dd c s1.mem s.cap p = dd c s.mem s.cap p := by unfold dd; rw [gq p (by omega) hpi hpn]
              have h3 := this.2
              rw [e1]
              show dd c s1.mem s.cap i ≤ _
              have h4 : dd c s.mem s.cap nx ≤ dd c s.mem s.cap p + 2 := h3
              omega
            · have h3 : increment s.cap p ≠ nx := fun e => hpi (inc_inj hp hp' hi hi' e)
              rw [gq _ (by omega) h2 h3] at hpo
              have e1 : dd c s1.mem s.cap p = dd c s.mem s.cap p := by unfold dd; rw [gq p (by omega) hpi hpn]
              have e2 : dd c s1.mem s.cap (increment s.cap p) = dd c s.mem s.cap (increment s.cap p) := by
                unfold dd; rw [gq _ (by omega) h2 h3]
              rw [e2] at hpd ⊢
              rw [e1, gq p (by omega) hpi hpn]
              exact hH.2.1 p hp hp' hpi hpo hpd
        · intro q hq hq' hqn hno hnd
          have hqi : q = i := inc_inj hq hq' hi hi' hqn
          subst hqi
          rw [gq _ (by omega) hnn hnx] at hno
          have e2 : dd c s1.mem s.cap (increment s.cap nx) = dd c s.mem s.cap (increment s.cap nx) := by
            unfold dd; rw [gq _ (by omega) hnn hnx]
          rw [e2] at hnd ⊢
          have h3 := hH.2.1 nx hr.1 hr.2 hne hno (by omega)
          rw [gi]
          refine ⟨ho, ?_⟩
          have h4 := h3.2
          omega
      have hto := dist_to_inc hr.1 hr.2 hj hj' hjn.symm
      obtain ⟨s', m', k1, k2, k3, k4, k5, k6, k7, k8, k9⟩ := ih s1 nx (m + 1) rfl (by
          show distance s.cap j (increment s.cap (increment s.cap i)) = n; omega) hr.1 hr.2 hjn
        (by rw [gq j (by omega) hji hjn]; exact he) hH1 (by rw [gq 1 (by omega) (by omega) (by show 1 ≠ increment s.cap i; omega)]; exact h1z)
      refine ⟨s', m', ?_, by omega, k3, k4, k5, k6, k7, k8, k9.trans ?_⟩
      · rw [eraseLoop]
        simp only [at_eq hr.2, Option.bind_eq_bind, Option.bind_some, if_neg hstop]
        rw [show swap s 0 (increment s.cap i) i = some s1 from hs1]
        exact k1
      · have e1 : cells s1.mem s.cap = cells (upd (upd s.mem i (s.mem nx)) nx (s.mem i)) s.cap := by
          apply cells_congr
          intro q hq _
          by_cases h1 : q = i
          · subst h1; rw [gi, upd_ne _ _ (Ne.symm hne), upd_same]
          · by_cases h2 : q = nx
            · subst h2; rw [gn, upd_same]
            · rw [gq q (by omega) h1 h2, upd_ne _ _ h2, upd_ne _ _ h1]
        rw [e1]
        have p1 := cells_fill (m := s.mem) hi hi' hH.1 (x := s.mem nx) ho
        have e2 : upd s.mem i (s.mem nx) nx = s.mem nx := upd_ne _ _ hne
        have p2 := cells_empty (m := upd s.mem i (s.mem nx)) hr.1 hr.2 (x := s.mem i) (by rw [e2]; exact ho) hH.1
        rw [show upd s.mem i (s.mem nx) (increment s.cap i) = s.mem nx from e2] at p2
        exact (List.Perm.cons_inv (p2.trans p1))

/-- Removing the element in slot `i`. -/
theorem erase_spec (hl : Lawful c) {s : Fhm α} {i : Nat} (t : Tbl c s) (hi : 2 ≤ i) (hi' : i < s.cap) (ho : (s.mem i).hash ≠ 0) :
    ∃ s' m, erase c s i = some (s', m) ∧ m ≤ s.cap - 2 ∧ Tbl c s' ∧ s'.cap = s.cap ∧ s'.hasAlloc = s.hasAlloc ∧
      (s.mem i :: cells s'.mem s'.cap).Perm (cells s.mem s.cap) := by
  obtain ⟨j, hj, hj', he⟩ := t.exists_empty
  have hcap := t.cap
  have hji : j ≠ i := by intro e; subst e; exact ho he
  let s1 : Fhm α := { s with mem := upd s.mem i ⟨0, (s.mem i).val⟩ }
  have hs1 : putHash s i 0 = some s1 := putHash_eq hi'
  have gq : ∀ q, q ≠ i → s1.mem q = s.mem q := fun q hq => upd_ne _ _ hq
  have gi : (s1.mem i).hash = 0 := by simp [s1]
  have hr := inc_range (cap := s.cap) (by omega) hi
  have hne := inc_ne (cap := s.cap) (by omega) hi hi'
  have hH : Hole c s1.mem s.cap i := by
    refine ⟨gi, ?_, ?_⟩
    · intro p hp hp' hpi hpo hpd
      by_cases h2 : increment s.cap p = i
      · rw [h2] at hpo; exact absurd gi hpo
      · rw [gq _ h2] at hpo
        have := t.rh p hp hp' hpo (by unfold dd at *; rw [gq _ h2] at hpd; exact hpd)
        unfold dd at *
        rw [gq _ h2, gq _ hpi]; exact this
    · intro q hq hq' hqi hno hnd
      rw [gq _ hne] at hno
      have e1 : dd c s1.mem s.cap (increment s.cap i) = dd c s.mem s.cap (increment s.cap i) := by
        unfold dd; rw [gq _ hne]
      rw [e1] at hnd ⊢
      have h1 := t.rh i hi hi' hno (by omega)
      have h2 := t.rh q hq hq' (by rw [hqi]; exact ho) (by rw [hqi]; omega)
      rw [hqi] at h2
      have hqne : q ≠ i := by intro e; subst e; exact inc_ne (by omega) hi hi' hqi
      unfold dd at *
      rw [gq _ hqne]
      exact ⟨h2.1, by omega⟩
  have hdl := dist_lt (cap := s.cap) hj hj' hr.1 hr.2
  obtain ⟨s', m', k1, k2, k3, k4, k5, k6, k7, k8, k9⟩ := eraseLoop_spec (c := c) (cap := s.cap) (by omega) hj hj'
    _ s1 i 0 rfl rfl hi hi' hji (by rw [gq j hji]; exact he) hH (by rw [gq 1 (by omega)]; exact t.z1)
  have hp : (s.mem i :: cells s'.mem s'.cap).Perm (cells s.mem s.cap) := by
    rw [k3]
    exact (List.Perm.cons _ k9).trans (cells_empty hi hi' ho rfl)
  have hlen := hp.length_eq
  simp only [List.length_cons] at hlen
  refine ⟨s', m', ?_, by omega, ?_, k3, k4, hp⟩
  · simp only [erase, hs1, Option.bind_eq_bind, Option.bind_some]
    exact k1
  · have hsz := t.sz
    have hrm := t.room
    have hu := t.uniq
    have hsub : ∀ x ∈ cells s'.mem s'.cap, x ∈ cells s.mem s.cap := fun x hx => hp.subset (List.mem_cons_of_mem _ hx)
    refine ⟨by rw [k3]; exact hcap, by rw [k3]; exact k6, k7, k8, fun x hx => t.good x (hsub x hx), ?_, ?_, ?_⟩
    · exact (List.pairwise_cons.1 ((hp.pairwise_iff (fun h => eq_false_symm hl h)).2 hu)).2
    · rw [k5]; show s.sz - 1 = _; omega
    · rw [k5, k3]; show s.sz - 1 < _; omega

end CCC.Fhm
