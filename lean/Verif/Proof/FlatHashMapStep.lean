import Verif.Proof.FlatHashMap
/-
Every call of the flat hash map answers as the specification says.
-/
namespace CCC.Fhm
open CCC HashMap

variable {α κ : Type} {c : Cfg κ α}

/-! ### Lists of elements with different keys -/

/-- No two elements with equal keys. -/
def Uniq (c : Cfg κ α) (l : List α) : Prop := l.Pairwise (fun x y => c.eq (c.key x) (c.key y) = false)

theorem Uniq.perm (hl : Lawful c) {l l' : List α} (h : Uniq c l) (p : l.Perm l') : Uniq c l' :=
  (p.pairwise_iff (fun h => eq_false_symm hl h)).1 h

theorem eq_false_of (hl : Lawful c) {k a b : κ} (h1 : c.eq k a = true) (h2 : c.eq a b = false) : c.eq k b = false := by
  cases hb : c.eq k b with
  | false => rfl
  | true => rw [hl.trans _ _ _ (hl.symm _ _ h1) hb] at h2; exact h2

/-- The list around an element. -/
theorem Uniq.split (hl : Lawful c) {l : List α} (h : Uniq c l) {k : κ} {v : α} (hv : v ∈ l) (hk : c.eq k (c.key v) = true) :
    ∃ A B, l = A ++ v :: B ∧ (∀ x ∈ A, c.eq k (c.key x) = false) ∧ (∀ x ∈ B, c.eq k (c.key x) = false) := by
  obtain ⟨A, B, rfl⟩ := List.append_of_mem hv
  have h' := h
  unfold Uniq at h'
  rw [List.pairwise_append, List.pairwise_cons] at h'
  refine ⟨A, B, rfl, ?_, ?_⟩
  · intro x hx
    exact eq_false_of hl hk (eq_false_symm hl (h'.2.2 x hx v (by simp)))
  · intro x hx
    exact eq_false_of hl hk (h'.2.1.1 x hx)

theorem lookup_some (hl : Lawful c) {l : List α} (h : Uniq c l) {k : κ} {v : α} (hv : v ∈ l)
    (hk : c.eq k (c.key v) = true) : lookup c k l = some v := by
  obtain ⟨A, B, rfl, hA, _⟩ := h.split hl hv hk
  unfold lookup
  rw [List.find?_append]
  have : A.find? (fun x => c.eq k (c.key x)) = none := by
    rw [List.find?_eq_none]
    intro x hx; rw [hA x hx]; simp
  rw [this]
  simp [hk]

theorem lookup_none {l : List α} {k : κ} (h : ∀ x ∈ l, c.eq k (c.key x) = false) : lookup c k l = none := by
  unfold lookup
  rw [List.find?_eq_none]
  intro x hx; rw [h x hx]; simp

theorem lookup_mem {l : List α} {k : κ} {v : α} (h : lookup c k l = some v) : v ∈ l ∧ c.eq k (c.key v) = true := by
  unfold lookup at h
  exact ⟨List.mem_of_find?_eq_some h, by simpa using List.find?_some h⟩

theorem lookup_eq_none {l : List α} {k : κ} (h : lookup c k l = none) : ∀ x ∈ l, c.eq k (c.key x) = false := by
  unfold lookup at h
  rw [List.find?_eq_none] at h
  intro x hx
  simpa using h x hx

theorem assign_split {A B : List α} {k : κ} {v x : α} (hk : c.eq k (c.key v) = true)
    (hA : ∀ x ∈ A, c.eq k (c.key x) = false) (hB : ∀ x ∈ B, c.eq k (c.key x) = false) :
    assign c k x (A ++ v :: B) = A ++ x :: B := by
  unfold assign
  rw [List.map_append, List.map_cons, if_pos hk]
  congr 1
  · conv => rhs; rw [← List.map_id A]
    apply List.map_congr_left
    intro y hy; rw [hA y hy]; rfl
  · congr 1
    conv => rhs; rw [← List.map_id B]
    apply List.map_congr_left
    intro y hy; rw [hB y hy]; rfl

theorem without_split {A B : List α} {k : κ} {v : α} (hk : c.eq k (c.key v) = true)
    (hA : ∀ x ∈ A, c.eq k (c.key x) = false) (hB : ∀ x ∈ B, c.eq k (c.key x) = false) :
    without c k (A ++ v :: B) = A ++ B := by
  unfold without
  rw [List.filter_append, List.filter_cons]
  simp only [hk, Bool.not_true, Bool.false_eq_true, if_false]
  congr 1
  · rw [List.filter_eq_self]; intro y hy; rw [hA y hy]; rfl
  · rw [List.filter_eq_self]; intro y hy; rw [hB y hy]; rfl

theorem perm_assign (hl : Lawful c) {l L' : List α} (h : Uniq c l) {k : κ} {v x : α} (hv : v ∈ l)
    (hk : c.eq k (c.key v) = true) (p : (v :: L').Perm (x :: l)) : L'.Perm (assign c k x l) := by
  obtain ⟨A, B, rfl, hA, hB⟩ := h.split hl hv hk
  rw [assign_split hk hA hB]
  have p1 : (x :: (A ++ v :: B)).Perm (v :: (x :: (A ++ B))) :=
    (List.Perm.cons x List.perm_middle).trans (List.Perm.swap _ _ _)
  exact ((p.trans p1).cons_inv).trans List.perm_middle.symm

theorem perm_without (hl : Lawful c) {l L' : List α} (h : Uniq c l) {k : κ} {v : α} (hv : v ∈ l)
    (hk : c.eq k (c.key v) = true) (p : (v :: L').Perm l) : L'.Perm (without c k l) := by
  obtain ⟨A, B, rfl, hA, hB⟩ := h.split hl hv hk
  rw [without_split hk hA hB]
  exact (p.trans List.perm_middle).cons_inv

/-! ### Tables -/

/-- The stored data in slot order. -/
def vals (s : Fhm α) : List α := (cells s.mem s.cap).map Cell.val

theorem Tbl.uniqVals {s : Fhm α} (t : Tbl c s) : Uniq c (vals s) := by
  unfold Uniq vals
  rw [List.pairwise_map]
  exact t.uniq

theorem Tbl.length {s : Fhm α} (t : Tbl c s) : s.sz = (vals s).length + 2 := by
  rw [t.sz]; simp [vals]

theorem Tbl.mem_vals {s : Fhm α} {i : Nat} (hi : 2 ≤ i) (hi' : i < s.cap) (ho : (s.mem i).hash ≠ 0) :
    (s.mem i).val ∈ vals s := by
  unfold vals
  rw [List.mem_map]
  exact ⟨_, mem_cells.2 ⟨i, hi, hi', ho, rfl⟩, rfl⟩

/-- A table extended by one element. -/
theorem Tbl.extend (hl : Lawful c) {s s' : Fhm α} {k : κ} {x : α} (t : Tbl c s)
    (hno : ∀ y ∈ cells s.mem s.cap, c.eq k (c.key y.val) = false) (hx : c.eq k (c.key x) = true)
    (hcap : s'.cap = s.cap) (hsz : s'.sz = s.sz + 1) (hroom : s.sz + 1 < s.cap) (hrh : RH c s'.mem s.cap)
    (h0 : (s'.mem 0).hash = 0) (h1 : (s'.mem 1).hash = 0)
    (hp : (cells s'.mem s.cap).Perm (⟨filter c k, x⟩ :: cells s.mem s.cap)) :
    Tbl c s' ∧ (vals s').Perm (x :: vals s) := by
  have hlen := hp.length_eq
  simp only [List.length_cons] at hlen
  have hsz0 := t.sz
  refine ⟨⟨by rw [hcap]; exact t.cap, by rw [hcap]; exact hrh, h0, h1, ?_, ?_, ?_, ?_⟩, ?_⟩
  · intro y hy
    rw [hcap] at hy
    rcases List.mem_cons.1 (hp.subset hy) with rfl | hy
    · exact filter_congr hl hx
    · exact t.good y hy
  · rw [hcap]
    refine (hp.pairwise_iff (fun h => eq_false_symm hl h)).2 ?_
    rw [List.pairwise_cons]
    exact ⟨fun y hy => eq_false_of hl (hl.symm _ _ hx) (hno y hy), t.uniq⟩
  · rw [hcap]; omega
  · rw [hcap]; omega
  · unfold vals
    rw [hcap]
    exact hp.map Cell.val

/-- Storing a new element through `insert`. -/
theorem Tbl.insertAt (hl : Lawful c) {s : Fhm α} {k : κ} {x : α} {i : Nat} (t : Tbl c s)
    (hno : ∀ y ∈ cells s.mem s.cap, c.eq k (c.key y.val) = false) (hx : c.eq k (c.key x) = true)
    (hroom : s.sz + 1 < s.cap) (hi : 2 ≤ i) (hi' : i < s.cap) (hR : Right c s.mem s.cap (filter c k) i)
    (hd : (s.mem i).hash ≠ 0 → dd c s.mem s.cap i < distance s.cap i (toI c s.cap (filter c k))) :
    ∃ s' m, insertAt c s x (filter c k) i = some (s', m) ∧ m ≤ s.cap - 2 ∧ Tbl c s' ∧ s'.cap = s.cap ∧
      s'.hasAlloc = s.hasAlloc ∧ (cells s'.mem s.cap).Perm (⟨filter c k, x⟩ :: cells s.mem s.cap) ∧
      (vals s').Perm (x :: vals s) ∧ s'.mem i = ⟨filter c k, x⟩ := by
  obtain ⟨j, hj, hj', he⟩ := t.exists_empty
  have hcap := t.cap
  obtain ⟨s', m, k1, k2, k3, k4, k5, k6, k7, k8, k9, _, k11⟩ := insertAt_spec (c := c) (x := x) (by omega) t.rh t.room
    hj hj' he hi hi' hR (filter_ne c k)
  obtain ⟨t', hv⟩ := t.extend hl hno hx k3 k5 hroom k6 k7 k8 k9
  exact ⟨s', m, k1, k2, t', k3, k4, k9, hv, k11 hd⟩

/-- Storing a new element through the macro `ccc_impl_fhm_swaps`. -/
theorem Tbl.swaps (hl : Lawful c) {s : Fhm α} {k : κ} {x : α} {i : Nat} {e : FEnt} (t : Tbl c s)
    (he1 : e.ent.e = some i) (he2 : e.hash = filter c k)
    (hno : ∀ y ∈ cells s.mem s.cap, c.eq k (c.key y.val) = false) (hx : c.eq k (c.key x) = true)
    (hroom : s.sz + 1 < s.cap) (hi : 2 ≤ i) (hi' : i < s.cap) (hR : Right c s.mem s.cap (filter c k) i)
    (hd : (s.mem i).hash ≠ 0 → dd c s.mem s.cap i < distance s.cap i (toI c s.cap (filter c k))) :
    ∃ s', swaps c s e x = some (s', some i) ∧ Tbl c s' ∧ s'.cap = s.cap ∧
      s'.hasAlloc = s.hasAlloc ∧ (vals s').Perm (x :: vals s) ∧ s'.mem i = ⟨filter c k, x⟩ := by
  obtain ⟨j, hj, hj', hej⟩ := t.exists_empty
  have hcap := t.cap
  have hrh1 := RH.put (i := i) (f := ⟨filter c k, x⟩) (by omega) t.rh hi hi' hR (fun h => Nat.le_of_lt (hd h))
    (filter_ne c k)
  let s1 : Fhm α := { s with mem := upd s.mem i ⟨filter c k, x⟩ }
  have hs1 : put s i ⟨e.hash, x⟩ = some s1 := by rw [he2]; exact put_eq hi'
  by_cases h0 : (s.mem i).hash = 0
  · refine ⟨sizePlus s1 1, ?_, ?_⟩
    · simp only [Fhm.swaps, he1, Option.bind_eq_bind, Option.bind_some, at_eq hi', if_pos h0, hs1]
    · have hsz : (sizePlus s1 1).sz = s.sz + 1 := by
        simp only [sizePlus, s1]; rw [if_neg (by omega)]
      have hp : (cells (sizePlus s1 1).mem s.cap).Perm (⟨filter c k, x⟩ :: cells s.mem s.cap) :=
        cells_fill hi hi' h0 (filter_ne c k)
      obtain ⟨t', hv⟩ := t.extend (s' := sizePlus s1 1) hl hno hx rfl hsz hroom hrh1
        (by show (upd s.mem i _ 0).hash = 0; rw [upd_ne _ _ (by omega)]; exact t.z0)
        (by show (upd s.mem i _ 1).hash = 0; rw [upd_ne _ _ (by omega)]; exact t.z1) hp
      exact ⟨t', rfl, rfl, hv, upd_same _ _ _⟩
  · have hji : j ≠ i := by intro e; subst e; exact h0 hej
    have hr := inc_range (cap := s.cap) (by omega) hi
    have hb := RH.below (by omega) t.rh hj hj' hej _ i rfl hi hi' h0
    have hl2 := dist_lt (cap := s.cap) hi hi' hj hj'
    have hh := toI_range c (cap := s.cap) (by omega) (s.mem i).hash
    have hinc := dist_inc hi hi' hh.1 hh.2 (by unfold dd at hb; omega)
    have hd1 := hd h0
    obtain ⟨s', m, k1, k2, k3, k4, k5, k6, k7, k8, k9, k10, _⟩ := insertAt_spec (c := c) (s := s1) (x := (s.mem i).val)
      (h := (s.mem i).hash) (i := increment s.cap i) (by exact (by omega : 5 ≤ s.cap)) hrh1 t.room hj hj'
      (by show (upd s.mem i _ j).hash = 0; rw [upd_ne _ _ hji]; exact hej) hr.1 hr.2 (by
        intro _
        refine ⟨i, hi, hi', rfl, ?_, ?_⟩
        · show (upd s.mem i _ i).hash ≠ 0; rw [upd_same]; exact filter_ne c k
        · show distance s.cap (increment s.cap i) _ ≤ distance s.cap i (toI c s.cap (upd s.mem i _ i).hash) + 1
          rw [upd_same]
          unfold dd at hd1
          show distance s.cap (increment s.cap i) (toI c s.cap (s.mem i).hash) ≤ distance s.cap i (toI c s.cap (filter c k)) + 1
          omega) h0
    refine ⟨s', ?_, ?_⟩
    · simp only [Fhm.swaps, he1, Option.bind_eq_bind, Option.bind_some, at_eq hi', if_neg h0, hs1]
      rw [show increment s1.cap i = increment s.cap i from rfl, k1]
      rfl
    · have hp : (cells s'.mem s.cap).Perm (⟨filter c k, x⟩ :: cells s.mem s.cap) :=
        k9.trans (cells_replace hi hi' h0 (filter_ne c k))
      obtain ⟨t', hv⟩ := t.extend hl hno hx k3 k5 hroom k6 k7 k8 hp
      refine ⟨t', k3, k4, hv, ?_⟩
      have hto := dist_to_inc hi hi' hj hj' hji.symm
      have hl3 := dist_lt (cap := s.cap) hj hj' hi hi'
      have hii : distance s.cap i (increment s.cap i) = s.cap - 3 := by
        unfold distance increment; split <;> split <;> omega
      rw [k10 i hi hi' (by show distance s.cap j (increment s.cap i) < distance s.cap i (increment s.cap i); omega)]
      exact upd_same _ _ _

/-- Overwriting the element in slot `i` by one with the same key, and possibly the data of slot 0. -/
theorem Tbl.over (hl : Lawful c) {s s' : Fhm α} {k : κ} {x : α} {i : Nat} {h : UInt64} (t : Tbl c s) (hi : 2 ≤ i)
    (hi' : i < s.cap) (ho : (s.mem i).hash ≠ 0) (hk : c.eq k (c.key (s.mem i).val) = true)
    (hx : c.eq k (c.key x) = true) (hh : h = filter c k)
    (hq : ∀ q, 1 ≤ q → s'.mem q = upd s.mem i ⟨h, x⟩ q) (h0 : (s'.mem 0).hash = 0) (hcap : s'.cap = s.cap)
    (hsz : s'.sz = s.sz) : Tbl c s' ∧ ((s.mem i).val :: vals s').Perm (x :: vals s) := by
  have hg := t.good _ (mem_cells.2 ⟨i, hi, hi', ho, rfl⟩)
  rw [← filter_congr hl hk] at hg
  have hc3 := t.cap
  have hce : cells s'.mem s.cap = cells (upd s.mem i ⟨h, x⟩) s.cap := cells_congr (fun q hq' _ => hq q (by omega))
  have hp : (s.mem i :: cells s'.mem s.cap).Perm (⟨h, x⟩ :: cells s.mem s.cap) := by
    rw [hce]; exact cells_replace hi hi' ho (by rw [hh]; exact filter_ne c k)
  have hlen := hp.length_eq
  simp only [List.length_cons] at hlen
  have hu : ((⟨h, x⟩ : Cell α) :: cells s.mem s.cap).Perm (s.mem i :: cells s'.mem s.cap) := hp.symm
  have hmem : ∀ q, 2 ≤ q → q < s.cap → q ≠ i → (s.mem q).hash ≠ 0 → c.eq k (c.key (s.mem q).val) = false := by
    intro q hq1 hq2 hqi hqo
    have := slot_unique (R := fun x y => c.eq (c.key x.val) (c.key y.val) = false) (fun _ _ => eq_false_symm hl) t.uniq
      hi hi' hq1 hq2 ho hqo hqi.symm
    exact eq_false_of hl hk this
  have hgood : ∀ y ∈ cells s'.mem s.cap, y.hash = filter c (c.key y.val) := by
    intro y hy
    rw [hce] at hy
    obtain ⟨q, hq1, hq2, hqo, rfl⟩ := mem_cells.1 hy
    by_cases hqi : q = i
    · subst hqi; rw [upd_same]; rw [hh]; exact filter_congr hl hx
    · rw [upd_ne _ _ hqi] at hqo ⊢
      exact t.good _ (mem_cells.2 ⟨q, hq1, hq2, hqo, rfl⟩)
  refine ⟨⟨by rw [hcap]; exact hc3, ?_, h0, ?_, by rw [hcap]; exact hgood, ?_, ?_, ?_⟩, ?_⟩
  · rw [hcap]
    intro q hq1 hq2 hqo hqd
    have hr := inc_range (cap := s.cap) (by omega) hq1
    have hsame : ∀ p, 2 ≤ p → (s'.mem p).hash = (s.mem p).hash := by
      intro p hp1
      rw [hq p (by omega)]
      by_cases hpi : p = i
      · subst hpi; rw [upd_same, hh]; exact hg.symm
      · rw [upd_ne _ _ hpi]
    unfold dd at *
    rw [hsame _ hr.1] at hqo hqd ⊢
    rw [hsame q hq1]
    exact t.rh q hq1 hq2 hqo hqd
  · rw [hq 1 (by omega), upd_ne _ _ (by omega)]; exact t.z1
  · rw [hcap, hce]
    unfold cells
    rw [List.pairwise_filter, List.pairwise_map]
    have hu := t.uniq
    unfold cells at hu
    rw [List.pairwise_filter, List.pairwise_map] at hu
    have hnd := List.nodup_range' (s := 2) (n := s.cap - 2)
    refine List.Pairwise.imp_of_mem ?_ (hnd.and hu)
    intro a b ha hb hab oa ob
    rw [List.mem_range'_1] at ha hb
    by_cases hai : a = i
    · subst hai
      have hbi : b ≠ a := fun e => hab.1 e.symm
      rw [upd_ne _ _ hbi] at ob ⊢
      rw [upd_same]
      exact eq_false_of hl (hl.symm _ _ hx) (hmem b hb.1 (by omega) hbi (by simpa using ob))
    · rw [upd_ne _ _ hai] at oa ⊢
      by_cases hbi : b = i
      · subst hbi
        rw [upd_same]
        exact eq_false_symm hl (eq_false_of hl (hl.symm _ _ hx) (hmem a ha.1 (by omega) hai (by simpa using oa)))
      · rw [upd_ne _ _ hbi] at ob ⊢
        exact hab.2 oa ob
  · rw [hcap, hsz]; have := t.sz; omega
  · rw [hcap, hsz]; exact t.room
  · unfold vals
    rw [hcap]
    exact hp.map Cell.val

/-! ### Growth -/

/-- The occupied cells from slot `i` on. -/
def todo (mem : Nat → Cell α) (i n : Nat) : List (Cell α) := (List.range' i n).flatMap (fun i => opt (mem i))

theorem rehash_from (hl : Lawful c) {old : Fhm α} (hu : (cells old.mem old.cap).Pairwise
      (fun x y => c.eq (c.key x.val) (c.key y.val) = false))
    (hg : ∀ x ∈ cells old.mem old.cap, x.hash = filter c (c.key x.val)) :
    ∀ n i (t : Fhm α), i + n = old.cap → Tbl c t → (cells old.mem old.cap).length + 2 < t.cap →
    (cells t.mem t.cap ++ todo old.mem i n).Perm (cells old.mem old.cap) →
    ∃ t', rehashLoop c old t i = some t' ∧ Tbl c t' ∧ t'.cap = t.cap ∧ t'.hasAlloc = t.hasAlloc ∧
      (cells t'.mem t'.cap).Perm (cells old.mem old.cap) := by
  intro n
  induction n with
  | zero =>
    intro i t hi ht _ hp
    refine ⟨t, ?_, ht, rfl, rfl, ?_⟩
    · rw [rehashLoop, if_pos (by omega)]
    · simpa [todo] using hp
  | succ n ih =>
    intro i t hi ht hroom hp
    have hlt : i < old.cap := by omega
    have htodo : todo old.mem i (n + 1) = opt (old.mem i) ++ todo old.mem (i + 1) n := by
      unfold todo
      rw [List.range'_succ, List.flatMap_cons]
    rw [htodo] at hp
    by_cases h0 : (old.mem i).hash = 0
    · rw [opt_empty h0] at hp
      obtain ⟨t', k1, k2⟩ := ih (i + 1) t (by omega) ht hroom hp
      refine ⟨t', ?_, k2⟩
      rw [rehashLoop, if_neg (by omega)]
      simp only [at_eq hlt, Option.bind_eq_bind, Option.bind_some, h0, ne_eq, not_true_eq_false, if_false]
      exact k1
    · rw [opt_full h0] at hp
      have hpu := (hp.pairwise_iff (fun h => eq_false_symm hl h)).2 hu
      rw [List.pairwise_append] at hpu
      have hmem : old.mem i ∈ cells old.mem old.cap := hp.subset (by simp)
      have hh := hg _ hmem
      have hlen := hp.length_eq
      simp only [List.length_append, List.length_cons, List.length_nil] at hlen
      obtain ⟨e, m, hf, _, ⟨p, hp1, hp2, hp3, hp4⟩⟩ := ht.find hl (c.key (old.mem i).val)
      rcases hp4 with ⟨_, ho, hk⟩ | ⟨_, hno, hR, hd⟩
      · exfalso
        have := hpu.2.2 (t.mem p) (mem_cells.2 ⟨p, hp1, hp2, ho, rfl⟩) (old.mem i) (by simp)
        rw [hl.symm _ _ hk] at this
        simp at this
      · have hsz := ht.sz
        obtain ⟨t1, m1, k1, _, k3, k4, k5, k6, _, _⟩ := ht.insertAt hl (x := (old.mem i).val) hno (hl.refl _) (by omega)
          hp1 hp2 hR hd
        obtain ⟨t', j1, j2, j3, j4, j5⟩ := ih (i + 1) t1 (by omega) k3 (by rw [k4]; exact hroom) (by
          rw [k4]
          refine List.Perm.trans (List.Perm.append_right _ k6) ?_
          refine List.Perm.trans ?_ hp
          rw [← hh]
          exact List.perm_middle.symm)
        refine ⟨t', ?_, j2, j3.trans k4, j4.trans k5, j5⟩
        rw [rehashLoop, if_neg (by omega)]
        rw [← hh] at hf k1
        simp only [at_eq hlt, Option.bind_eq_bind, Option.bind_some, ne_eq, h0, not_false_eq_true, if_true, hf, hp3, k1]
        exact j1

theorem nextPrime_spec {n : Nat} (h : nextPrime n ≠ 0) : n < nextPrime n ∧ 6 ≤ nextPrime n := by
  unfold nextPrime at *
  cases hf : primes.find? (fun p => decide (p > n)) with
  | none => rw [hf] at h; simp at h
  | some p =>
    simp only [Option.getD_some]
    have h1 := List.find?_some hf
    have h2 := List.mem_of_find?_eq_some hf
    simp only [gt_iff_lt, decide_eq_true_eq] at h1
    have h3 : ∀ q ∈ primes, 6 ≤ q := by decide
    exact ⟨h1, h3 p h2⟩

/-- An empty table. -/
theorem empty_tbl {s : Fhm α} (hcap : 6 ≤ s.cap) (h : ∀ i, i < s.cap → (s.mem i).hash = 0) (hsz : s.sz = 2) :
    Tbl c s ∧ cells s.mem s.cap = [] := by
  have hc : cells s.mem s.cap = [] := by
    rw [List.eq_nil_iff_forall_not_mem]
    intro x hx
    obtain ⟨i, _, h2, h3, _⟩ := mem_cells.1 hx
    exact h3 (h i h2)
  refine ⟨⟨hcap, ?_, h 0 (by omega), h 1 (by omega), by rw [hc]; simp, by rw [hc]; exact List.Pairwise.nil,
    by rw [hc, hsz]; rfl, by omega⟩, hc⟩
  intro i hi _ ho
  exact absurd (h _ (inc_range (by omega) hi).2) ho

/-- A map that grows. -/
theorem Tbl.grow (hl : Lawful c) {s : Fhm α} {cap' : Nat} (t : Tbl c s) (h1 : s.sz < cap') (h2 : 6 ≤ cap')
    (junk : Nat → α) : ∃ t', rehashLoop c s (sizeSet { mem := wipe (fun i => ⟨0, junk i⟩), sz := 0, cap := cap', hasAlloc := s.hasAlloc } 2) 0 =
      some t' ∧ Tbl c t' ∧ t'.cap = cap' ∧ t'.hasAlloc = s.hasAlloc ∧ (vals t').Perm (vals s) := by
  have hc := t.cap
  obtain ⟨t0, hc0⟩ := empty_tbl (c := c)
    (s := sizeSet { mem := wipe (fun i => ⟨0, junk i⟩), sz := 0, cap := cap', hasAlloc := s.hasAlloc } 2) h2
    (fun i _ => rfl) (by simp only [sizeSet]; rw [if_neg (by omega)])
  have hsz := t.sz
  obtain ⟨t', k1, k2, k3, k4, k5⟩ := rehash_from hl t.uniq t.good s.cap 0 _ (by omega) t0
    (by show _ < cap'; omega) (by
      rw [hc0]
      refine List.Perm.of_eq ?_
      rw [List.nil_append, cells_eq_filterMap]
      unfold todo
      rw [show s.cap = 2 + (s.cap - 2) by omega, ← List.range'_append_1, List.flatMap_append]
      rw [show 2 + (s.cap - 2) - 2 = s.cap - 2 by omega]
      simp [List.range'_succ, opt, t.z0, t.z1])
  exact ⟨t', k1, k2, k3, k4, k5.map Cell.val⟩

/-! ### Simulation -/

/-- The state of the map represents a state of the specification. -/
structure Sim (c : Cfg κ α) (s : Fhm α) (st : St α) : Prop where
  cap : s.cap = st.cap
  body : (Tbl c s ∧ (vals s).Perm st.l) ∨
    (s.sz = 0 ∧ st.l = [] ∧ (s.cap = 0 ∨ (6 ≤ s.cap ∧ (st.stale = false → ∀ i, i < s.cap → (s.mem i).hash = 0))))

theorem Sim.uniq (hl : Lawful c) {s : Fhm α} {st : St α} (h : Sim c s st) : Uniq c st.l := by
  rcases h.body with ⟨t, p⟩ | ⟨_, hl', _⟩
  · exact t.uniqVals.perm hl p
  · rw [hl']; exact List.Pairwise.nil

/-- Making room: what `maybe_resize` does. -/
theorem maybeResize_spec (hl : Lawful c) {s : Fhm α} {st : St α} (h : Sim c s st) (ans : AllocAns α) :
    ∃ s' r, maybeResize c s ans = some (s', r) ∧ s'.hasAlloc = s.hasAlloc ∧
      s'.cap = (room s.hasAlloc ans.isSome st).1.cap ∧
      (((room s.hasAlloc ans.isSome st).2 = true ∧ r = .ok ∧ Tbl c s' ∧ (vals s').Perm st.l ∧ s'.sz + 1 < s'.cap) ∨
       ((room s.hasAlloc ans.isSome st).2 = false ∧ r ≠ .ok ∧
        ((Tbl c s' ∧ (vals s').Perm st.l ∧ s' = s) ∨ (s'.sz = 0 ∧ s'.cap = 0 ∧ st.l = [] ∧ s' = s)))) := by
  have hcs := h.cap
  rcases h.body with ⟨t, p⟩ | ⟨hz, hn, hb⟩
  · -- in use
    have hlen := p.length_eq
    have hsz := t.length
    have hrm := t.room
    have hcap := t.cap
    have hz : ¬ (s.cap ≠ 0 ∧ s.sz < 2) := by omega
    have hw : (if s.cap ≠ 0 then nextPrime (s.sz * 2) else 11) = wanted st.l.length st.cap := by
      rw [if_pos (by omega), wanted, if_neg (by omega), show s.sz * 2 = 2 * (st.l.length + 2) by omega]
      rfl
    by_cases hload : s.cap ≠ 0 ∧ 5 * s.sz ≤ 4 * s.cap
    · have hr : room s.hasAlloc ans.isSome st = ({ st with stale := false }, true) := by
        rw [room, if_pos (by rw [← hlen, ← hcs, ← hsz]; exact hload)]
      refine ⟨s, .ok, ?_, rfl, ?_, .inl ⟨?_, rfl, t, p, by omega⟩⟩
      · simp only [maybeResize, if_neg hz, if_pos hload]
      · rw [hr]; exact hcs
      · rw [hr]
    · have hload' : ¬ (st.cap ≠ 0 ∧ 5 * (st.l.length + 2) ≤ 4 * st.cap) := by
        rw [← hlen, ← hcs, ← hsz]; exact hload
      have hfail : ¬ (s.hasAlloc = true ∧ ans.isSome = true ∧ s.cap < wanted st.l.length st.cap) →
          room s.hasAlloc ans.isSome st = ({ st with stale := false }, false) := by
        intro hx
        rw [room, if_neg hload', if_neg]
        simp only [Bool.and_eq_true, decide_eq_true_eq, ← hcs]
        rw [← hcs] at hx
        rintro ⟨⟨h1, h2⟩, h3⟩
        exact hx ⟨h1, h2, h3⟩
      by_cases hal : s.hasAlloc = true
      · by_cases hw2 : wanted st.l.length st.cap ≤ s.cap
        · have hr := hfail (by omega)
          refine ⟨s, .memErr, ?_, rfl, ?_, .inr ⟨?_, by simp, .inl ⟨t, p, rfl⟩⟩⟩
          · simp only [maybeResize, if_neg hz, if_neg hload, hal, Bool.not_true, Bool.false_eq_true, if_false, hw, if_pos hw2]
          · rw [hr]; exact hcs
          · rw [hr]
        · cases ans with
          | none =>
            have hr := hfail (by simp)
            refine ⟨s, .memErr, ?_, rfl, ?_, .inr ⟨?_, by simp, .inl ⟨t, p, rfl⟩⟩⟩
            · simp only [maybeResize, if_neg hz, if_neg hload, hal, Bool.not_true, Bool.false_eq_true, if_false, hw, if_neg hw2]
            · rw [hr]; exact hcs
            · rw [hr]
          | some junk =>
            have hnp : nextPrime (s.sz * 2) = wanted st.l.length st.cap := by
              rw [← hw, if_pos (by omega)]
            have hns := nextPrime_spec (n := s.sz * 2) (by rw [hnp]; omega)
            rw [hnp] at hns
            obtain ⟨t', k1, k2, k3, k4, k5⟩ := t.grow hl (cap' := wanted st.l.length st.cap) (by omega) (by omega) junk
            have hr : room s.hasAlloc (some junk).isSome st =
                ({ st with cap := wanted st.l.length st.cap, stale := false }, true) := by
              rw [room, if_neg hload', if_pos]
              simp only [hal, Option.isSome_some, Bool.and_eq_true, decide_eq_true_eq, true_and]
              omega
            refine ⟨t', .ok, ?_, k4, ?_, .inl ⟨?_, rfl, k2, k5.trans p, ?_⟩⟩
            · rw [hal] at k1
              simp only [maybeResize, if_neg hz, if_neg hload, hal, Bool.not_true, Bool.false_eq_true, if_false, hw, if_neg hw2]
              simp only [k1, Option.bind_eq_bind, Option.bind_some]
            · rw [hr]; exact k3
            · rw [hr]
            · have hl2 := k2.length
              have hl3 := k5.length_eq
              rw [k3]; omega
      · have hal' : s.hasAlloc = false := by simpa using hal
        have hr := hfail (by rw [hal']; simp)
        refine ⟨s, .noAlloc, ?_, rfl, ?_, .inr ⟨?_, by simp, .inl ⟨t, p, rfl⟩⟩⟩
        · simp only [maybeResize, if_neg hz, if_neg hload, hal', Bool.not_false, if_true]
        · rw [hr]; exact hcs
        · rw [hr]
  · rcases hb with hb | ⟨hb, _⟩
    · -- no memory
      have hz' : ¬ (s.cap ≠ 0 ∧ s.sz < 2) := by omega
      have hload : ¬ (s.cap ≠ 0 ∧ 5 * s.sz ≤ 4 * s.cap) := by omega
      have hw : (if s.cap ≠ 0 then nextPrime (s.sz * 2) else 11) = wanted st.l.length st.cap := by
        rw [if_neg (by omega), wanted, if_pos (by omega)]
      have hw11 : wanted st.l.length st.cap = 11 := by rw [wanted, if_pos (by omega)]
      have hload' : ¬ (st.cap ≠ 0 ∧ 5 * (st.l.length + 2) ≤ 4 * st.cap) := by omega
      have hfail : ¬ (s.hasAlloc = true ∧ ans.isSome = true) →
          room s.hasAlloc ans.isSome st = ({ st with stale := false }, false) := by
        intro hx
        rw [room, if_neg hload', if_neg]
        simp only [Bool.and_eq_true, decide_eq_true_eq]
        rintro ⟨⟨h1, h2⟩, _⟩
        exact hx ⟨h1, h2⟩
      by_cases hal : s.hasAlloc = true
      · have hw2 : ¬ 11 ≤ s.cap := by omega
        cases ans with
        | none =>
          have hr := hfail (by simp)
          refine ⟨s, .memErr, ?_, rfl, ?_, .inr ⟨?_, by simp, .inr ⟨hz, hb, hn, rfl⟩⟩⟩
          · simp only [maybeResize, if_neg hz', if_neg hload, hal, Bool.not_true, Bool.false_eq_true, if_false, hw, hw11,
              if_neg hw2]
          · rw [hr]; exact hcs
          · rw [hr]
        | some junk =>
          let t0 : Fhm α := sizeSet { mem := wipe (fun i => ⟨0, junk i⟩), sz := 0, cap := 11, hasAlloc := s.hasAlloc } 2
          obtain ⟨k1, k2⟩ := empty_tbl (c := c) (s := t0) (by show 6 ≤ 11; omega) (fun i _ => rfl) rfl
          have hr : room s.hasAlloc (some junk).isSome st = ({ st with cap := 11, stale := false }, true) := by
            rw [room, if_neg hload', if_pos, hw11]
            rw [hw11]
            simp only [hal, Option.isSome_some, Bool.and_eq_true, decide_eq_true_eq, true_and]
            omega
          refine ⟨t0, .ok, ?_, rfl, ?_, .inl ⟨?_, rfl, k1, ?_, by show 2 + 1 < 11; omega⟩⟩
          · simp only [maybeResize, if_neg hz', if_neg hload, hal, Bool.not_true, Bool.false_eq_true, if_false, hw, hw11,
              if_neg hw2]
            rw [rehashLoop, if_pos (by omega)]
            simp only [Option.bind_eq_bind, Option.bind_some, t0, hal]
          · rw [hr]; rfl
          · rw [hr]
          · rw [hn]; unfold vals; rw [k2]; exact List.Perm.refl _
      · have hal' : s.hasAlloc = false := by simpa using hal
        have hr := hfail (by rw [hal']; simp)
        refine ⟨s, .noAlloc, ?_, rfl, ?_, .inr ⟨?_, by simp, .inr ⟨hz, hb, hn, rfl⟩⟩⟩
        · simp only [maybeResize, if_neg hz', if_neg hload, hal', Bool.not_false, if_true]
        · rw [hr]; exact hcs
        · rw [hr]
    · -- memory not in order yet
      let s1 : Fhm α := sizeSet { s with mem := wipe s.mem } 2
      have hs1 : s1.sz = 2 := by simp only [s1, sizeSet]; rw [if_neg (by omega)]
      obtain ⟨k1, k2⟩ := empty_tbl (c := c) (s := s1) hb (fun i _ => rfl) hs1
      have hr : room s.hasAlloc ans.isSome st = ({ st with stale := false }, true) := by
        rw [room, if_pos]
        rw [hn, ← hcs]
        simp only [List.length_nil]
        omega
      have hload : s1.cap ≠ 0 ∧ 5 * s1.sz ≤ 4 * s1.cap := by
        rw [hs1]; show s.cap ≠ 0 ∧ 5 * 2 ≤ 4 * s.cap; omega
      refine ⟨s1, .ok, ?_, rfl, ?_, .inl ⟨?_, rfl, k1, ?_, ?_⟩⟩
      · simp only [maybeResize]
        rw [if_pos (by omega : s.cap ≠ 0 ∧ s.sz < 2)]
        show (if s1.cap ≠ 0 ∧ 5 * s1.sz ≤ 4 * s1.cap then some (s1, Res.ok) else _) = _
        rw [if_pos hload]
      · rw [hr]; exact hcs
      · rw [hr]
      · rw [hn]; unfold vals; rw [k2]; exact List.Perm.refl _
      · rw [hs1]; show 2 + 1 < s.cap; omega

theorem Sim.live {s : Fhm α} {st : St α} (hc : s.cap = st.cap) (t : Tbl c s) (p : (vals s).Perm st.l) : Sim c s st :=
  ⟨hc, .inl ⟨t, p⟩⟩

theorem room_l (al ok : Bool) (st : St α) : (room al ok st).1.l = st.l := by
  unfold room; split
  · rfl
  · split <;> rfl

theorem room_stale (al ok : Bool) (st : St α) : (room al ok st).1.stale = false := by
  unfold room; split
  · rfl
  · split <;> rfl

theorem Tbl.lookup_none {s : Fhm α} {l : List α} {k : κ} (p : (vals s).Perm l)
    (h : ∀ x ∈ cells s.mem s.cap, c.eq k (c.key x.val) = false) : lookup c k l = none := by
  apply CCC.Fhm.lookup_none
  intro x hx
  have := p.symm.subset hx
  unfold vals at this
  rw [List.mem_map] at this
  obtain ⟨y, hy, rfl⟩ := this
  exact h y hy

/-- The slot where a key that is not stored belongs. -/
structure Place (c : Cfg κ α) (s : Fhm α) (k : κ) (i : Nat) : Prop where
  ge : 2 ≤ i
  lt : i < s.cap
  no : ∀ y ∈ cells s.mem s.cap, c.eq k (c.key y.val) = false
  right : Right c s.mem s.cap (filter c k) i
  dist : (s.mem i).hash ≠ 0 → dd c s.mem s.cap i < distance s.cap i (toI c s.cap (filter c k))

/-- The slot that stores the element `v` with key `k`. -/
structure Holds (c : Cfg κ α) (s : Fhm α) (k : κ) (i : Nat) (v : α) : Prop where
  ge : 2 ≤ i
  lt : i < s.cap
  occ : (s.mem i).hash ≠ 0
  val : (s.mem i).val = v
  key : c.eq k (c.key v) = true

/-- What `find` answers on a table. -/
theorem find_cases (hl : Lawful c) {s : Fhm α} (t : Tbl c s) {l : List α} (p : (vals s).Perm l) (k : κ) :
    ∃ e m, find c s k (filter c k) = some (e, m) ∧
      ((∃ i v, lookup c k l = some v ∧ e = ⟨some i, Stat.occupied⟩ ∧ Holds c s k i v) ∨
       (lookup c k l = none ∧ ∃ i, e = ⟨some i, Stat.vacant ||| Stat.noUnwrap⟩ ∧ Place c s k i)) := by
  obtain ⟨⟨es, estats⟩, m, h1, _, ⟨i, hi, hi', h2, h3⟩⟩ := t.find hl k
  simp only at h2
  subst h2
  refine ⟨_, m, h1, ?_⟩
  rcases h3 with ⟨h3, ho, hk⟩ | ⟨h3, hno, hR, hd⟩
  · simp only at h3
    subst h3
    refine .inl ⟨i, (s.mem i).val, ?_, rfl, hi, hi', ho, rfl, hk⟩
    exact lookup_some hl (t.uniqVals.perm hl p) (p.subset (Tbl.mem_vals hi hi' ho)) hk
  · simp only at h3
    subst h3
    exact .inr ⟨Tbl.lookup_none p hno, i, rfl, hi, hi', hno, hR, hd⟩

/-- What `entry` answers. -/
theorem entry_cases (hl : Lawful c) {s : Fhm α} {st : St α} (h : Sim c s st) (k : κ) (ans : AllocAns α) :
    ∃ s' e, entry c s k ans = some (s', e) ∧ s'.hasAlloc = s.hasAlloc ∧ e.hash = filter c k ∧
      s'.cap = (room s.hasAlloc ans.isSome st).1.cap ∧
      ((∃ i v, lookup c k st.l = some v ∧
          e.ent = ⟨some i, if (room s.hasAlloc ans.isSome st).2 = true then Stat.occupied else Stat.occupied ||| Stat.insertError⟩ ∧
          Tbl c s' ∧ (vals s').Perm st.l ∧ Holds c s' k i v) ∨
       (lookup c k st.l = none ∧ (room s.hasAlloc ans.isSome st).2 = true ∧ ∃ i, e.ent = ⟨some i, Stat.vacant ||| Stat.noUnwrap⟩ ∧
          Tbl c s' ∧ (vals s').Perm st.l ∧ s'.sz + 1 < s'.cap ∧ Place c s' k i) ∨
       (lookup c k st.l = none ∧ (room s.hasAlloc ans.isSome st).2 = false ∧
          (e.ent.stats = Stat.noUnwrap ||| Stat.insertError ∨ e.ent = ⟨none, Stat.insertError⟩) ∧
          Sim c s' (room s.hasAlloc ans.isSome st).1)) := by
  obtain ⟨s', r, h1, h2, h3, h4⟩ := maybeResize_spec hl h ans
  rcases h4 with ⟨hr, rfl, t, p, hsz⟩ | ⟨hr, hrne, h4⟩
  · obtain ⟨e, m, f1, f2⟩ := find_cases hl t p k
    refine ⟨s', ⟨⟨e.e, e.stats⟩, filter c k⟩, ?_, h2, rfl, h3, ?_⟩
    · simp only [entry, h1, Option.bind_eq_bind, Option.bind_some, f1, ne_eq, not_true_eq_false, if_false]
    · rcases f2 with ⟨i, v, g1, rfl, g3⟩ | ⟨g1, i, rfl, g3⟩
      · exact .inl ⟨i, v, g1, by rw [if_pos hr], t, p, g3⟩
      · exact .inr (.inl ⟨g1, hr, i, rfl, t, p, hsz, g3⟩)
  · rcases h4 with ⟨t, p, hs⟩ | ⟨hz, hc, hn, hs⟩
    · obtain ⟨e, m, f1, f2⟩ := find_cases hl t p k
      refine ⟨s', ⟨⟨e.e, e.stats ||| Stat.insertError⟩, filter c k⟩, ?_, h2, rfl, h3, ?_⟩
      · simp only [entry, h1, Option.bind_eq_bind, Option.bind_some, f1, ne_eq, hrne, not_false_eq_true, if_true]
      · rcases f2 with ⟨i, v, g1, rfl, g3⟩ | ⟨g1, i, rfl, g3⟩
        · exact .inl ⟨i, v, g1, by rw [if_neg (by rw [hr]; simp)], t, p, g3⟩
        · exact .inr (.inr ⟨g1, hr, .inl rfl, .live h3 t (by rw [room_l]; exact p)⟩)
    · refine ⟨s', ⟨⟨none, Stat.vacant ||| Stat.insertError⟩, filter c k⟩, ?_, h2, rfl, h3, ?_⟩
      · simp only [entry, h1, Option.bind_eq_bind, Option.bind_some, ne_eq, hrne, not_false_eq_true, if_true, find, if_pos hc]
      · refine .inr (.inr ⟨?_, hr, .inr rfl, ⟨h3, .inr ⟨hz, by rw [room_l]; exact hn, .inl hc⟩⟩⟩)
        rw [hn]; rfl

/-- Store a new element at its place. -/
theorem Place.store (hl : Lawful c) {s : Fhm α} {st : St α} {l : List α} {k : κ} {i : Nat} {x : α} (P : Place c s k i) (t : Tbl c s)
    (p : (vals s).Perm l) (hsz : s.sz + 1 < s.cap) (hx : c.eq k (c.key x) = true) (hcap : s.cap = st.cap) :
    ∃ s' m, insertAt c s x (filter c k) i = some (s', m) ∧ Sim c s' { st with l := x :: l } ∧ Tbl c s' ∧
      s'.hasAlloc = s.hasAlloc ∧ Holds c s' k i x ∧ s'.mem i = ⟨filter c k, x⟩ ∧ (vals s').Perm (x :: l) := by
  obtain ⟨s', m, k1, _, k3, k4, k5, _, k7, k8⟩ := t.insertAt hl P.no hx hsz P.ge P.lt P.right P.dist
  refine ⟨s', m, k1, .live (k4.trans hcap) k3 (k7.trans (p.cons x)), k3, k5, ⟨P.ge, by rw [k4]; exact P.lt, ?_, ?_, hx⟩,
    k8, k7.trans (p.cons x)⟩
  · rw [k8]; exact filter_ne c k
  · rw [k8]

theorem Place.storeW (hl : Lawful c) {s : Fhm α} {st : St α} {l : List α} {k : κ} {i : Nat} {x : α} {e : FEnt} (P : Place c s k i)
    (t : Tbl c s) (p : (vals s).Perm l) (hsz : s.sz + 1 < s.cap) (hx : c.eq k (c.key x) = true) (hcap : s.cap = st.cap)
    (he1 : e.ent.e = some i) (he2 : e.hash = filter c k) :
    ∃ s', swaps c s e x = some (s', some i) ∧ Sim c s' { st with l := x :: l } ∧ s'.hasAlloc = s.hasAlloc ∧
      s'.mem i = ⟨filter c k, x⟩ := by
  obtain ⟨s', k1, k3, k4, k5, k7, k8⟩ := t.swaps hl he1 he2 P.no hx hsz P.ge P.lt P.right P.dist
  exact ⟨s', k1, .live (k4.trans hcap) k3 (k7.trans (p.cons x)), k5, k8⟩

/-- Overwrite a stored element. -/
theorem Holds.store (hl : Lawful c) {s : Fhm α} {st : St α} {l : List α} {k : κ} {i : Nat} {v x : α} (H : Holds c s k i v)
    (t : Tbl c s) (p : (vals s).Perm l) (hx : c.eq k (c.key x) = true) (hcap : s.cap = st.cap) :
    ∃ s', put s i ⟨filter c k, x⟩ = some s' ∧ Sim c s' { st with l := assign c k x l } ∧ s'.hasAlloc = s.hasAlloc ∧
      (s'.mem i).val = x := by
  refine ⟨{ s with mem := upd s.mem i ⟨filter c k, x⟩ }, put_eq H.lt, ?_, rfl, ?_⟩
  · obtain ⟨t', p'⟩ := t.over (s' := { s with mem := upd s.mem i ⟨filter c k, x⟩ }) hl H.ge H.lt H.occ
      (by rw [H.val]; exact H.key) hx rfl (fun q _ => rfl)
      (by show (upd s.mem i _ 0).hash = 0; have := H.ge; rw [upd_ne _ _ (by omega)]; exact t.z0) rfl rfl
    rw [H.val] at p'
    have hv : v ∈ vals s := by rw [← H.val]; exact Tbl.mem_vals H.ge H.lt H.occ
    exact .live hcap t' (perm_assign hl (t.uniqVals.perm hl p) (p.subset hv) H.key (p'.trans (p.cons x)))
  · show (upd s.mem i _ i).val = x
    rw [upd_same]

/-- A write through a pointer to a stored element. -/
theorem Holds.poke (hl : Lawful c) {s : Fhm α} {st : St α} {l : List α} {k : κ} {i : Nat} {v : α} (H : Holds c s k i v)
    (t : Tbl c s) (p : (vals s).Perm l) {f : α → α} (hx : c.eq k (c.key (f v)) = true) (hcap : s.cap = st.cap) :
    ∃ s', put s i { s.mem i with val := f (s.mem i).val } = some s' ∧ Sim c s' { st with l := assign c k (f v) l } ∧
      s'.hasAlloc = s.hasAlloc ∧ (s'.mem i).val = f v := by
  obtain ⟨s', h1, h2⟩ := H.store hl t p hx hcap
  refine ⟨s', ?_, h2⟩
  have hg := t.good _ (mem_cells.2 ⟨i, H.ge, H.lt, H.occ, rfl⟩)
  rw [H.val, ← filter_congr hl H.key] at hg
  show put s i ⟨(s.mem i).hash, f (s.mem i).val⟩ = _
  rw [hg, H.val]
  exact h1

/-- Remove a stored element. -/
theorem Holds.erase (hl : Lawful c) {s : Fhm α} {st : St α} {l : List α} {k : κ} {i : Nat} {v : α} (H : Holds c s k i v)
    (t : Tbl c s) (p : (vals s).Perm l) (hcap : s.cap = st.cap) :
    ∃ s' m, Fhm.erase c s i = some (s', m) ∧ s'.hasAlloc = s.hasAlloc ∧ Sim c s' { st with l := without c k l } := by
  obtain ⟨s', m, h1, _, h3, h4, h5, h6⟩ := erase_spec hl t H.ge H.lt H.occ
  have hv : v ∈ vals s := by rw [← H.val]; exact Tbl.mem_vals H.ge H.lt H.occ
  have hp : (v :: vals s').Perm (vals s) := by
    have := h6.map Cell.val
    rw [List.map_cons, H.val] at this
    exact this
  exact ⟨s', m, h1, h5, .live (h4.trans hcap) h3 (perm_without hl (t.uniqVals.perm hl p) (p.subset hv) H.key (hp.trans p))⟩

/-! ### Validation -/

theorem validLoop_spec {s : Fhm α} (t : Tbl c s) (z : Nat) {j : Nat} (hj : 2 ≤ j) (hj' : j < s.cap) (ho : (s.mem j).hash ≠ 0) :
    ∀ n i, distance s.cap i (toI c s.cap (s.mem j).hash) = n → n ≤ dd c s.mem s.cap j → 2 ≤ i → i < s.cap →
      validLoop c { s with sz := z } (decrement s.cap (toI c s.cap (s.mem j).hash)) i n = some true := by
  have hcap := t.cap
  have hh := toI_range c (cap := s.cap) (by omega) (s.mem j).hash
  intro n
  induction n with
  | zero =>
    intro i hn _ hi hi'
    have hi0 := dist_eq_zero hi hi' hh.1 hh.2 hn
    have hc := RH.chain (by omega) t.rh hj hj' ho (dd c s.mem s.cap j) i hi hi' (by omega)
    have hne : i ≠ decrement s.cap (toI c s.cap (s.mem j).hash) := by
      rw [← hi0]; unfold decrement; simp only; split <;> split <;> omega
    rw [validLoop, if_neg hne]
    simp only [at_eq (s := { s with sz := z }) hi', Option.bind_eq_bind, Option.bind_some, hc.1, if_false, gt_iff_lt, Nat.not_lt_zero]
    rw [validLoop, if_pos (by rw [← hi0])]
  | succ n ih =>
    intro i hn hle hi hi'
    have hc := RH.chain (by omega) t.rh hj hj' ho (dd c s.mem s.cap j - (n + 1)) i hi hi' (by omega)
    rw [validLoop]
    split
    · rfl
    · simp only [at_eq (s := { s with sz := z }) hi', Option.bind_eq_bind, Option.bind_some, hc.1, if_false]
      have h2 := hc.2
      unfold dd at h2
      rw [if_neg (by omega), if_neg (by omega), Nat.add_sub_cancel]
      have hr := dec_range (cap := s.cap) (by omega) hi hi'
      refine ih _ ?_ (by omega) hr.1 hr.2
      have h3 := dist_inc_pos (cap := s.cap) hr.1 hr.2 hh.1 hh.2 (by rw [inc_dec (by omega) hi hi']; omega)
      rw [inc_dec (by omega) hi hi'] at h3
      omega

theorem validateLoop_spec {s : Fhm α} (t : Tbl c s) (z : Nat) : ∀ n i em oc, i + n = s.cap →
    validateLoop c { s with sz := z } i em oc =
      some (oc + (todo s.mem i n).length == size { s with sz := z } && em + (n - (todo s.mem i n).length) == s.cap - (oc + (todo s.mem i n).length)) ∧
    (todo s.mem i n).length ≤ n := by
  intro n
  induction n with
  | zero => intro i em oc hi; rw [validateLoop, if_pos (by exact (by omega : i = s.cap))]; simp [todo]
  | succ n ih =>
    intro i em oc hi
    have hlt : i < s.cap := by omega
    have htodo : todo s.mem i (n + 1) = opt (s.mem i) ++ todo s.mem (i + 1) n := by
      unfold todo
      rw [List.range'_succ, List.flatMap_cons]
    rw [validateLoop, if_neg (by exact (by omega : ¬ i = s.cap)), htodo]
    by_cases h0 : (s.mem i).hash = 0
    · rw [opt_empty h0]
      obtain ⟨h1, h2⟩ := ih (i + 1) (em + 1) oc (by omega)
      simp only [at_eq (s := { s with sz := z }) hlt, Option.bind_eq_bind, Option.bind_some, if_pos h0, h1, List.nil_append]
      refine ⟨?_, by omega⟩
      rw [show em + 1 + (n - (todo s.mem (i + 1) n).length) = em + (n + 1 - (todo s.mem (i + 1) n).length) by omega]
    · rw [opt_full h0]
      have hi2 : 2 ≤ i := by
        have h1 := t.z0
        have h2 := t.z1
        rcases Nat.lt_or_ge i 2 with h | h
        · have : i = 0 ∨ i = 1 := by omega
          rcases this with rfl | rfl
          · exact absurd h1 h0
          · exact absurd h2 h0
        · exact h
      have hv : validDistance c { s with sz := z } i (s.mem i).hash = some true := by
        unfold validDistance
        exact validLoop_spec t z hi2 hlt h0 _ i rfl (Nat.le_refl _) hi2 hlt
      obtain ⟨h1, h2⟩ := ih (i + 1) em (oc + 1) (by omega)
      simp only [at_eq (s := { s with sz := z }) hlt, Option.bind_eq_bind, Option.bind_some, if_neg h0, hv, Bool.not_true, Bool.false_eq_true, if_false,
        h1, List.length_append, List.length_cons, List.length_nil]
      refine ⟨?_, by omega⟩
      rw [show oc + 1 + (todo s.mem (i + 1) n).length = oc + (0 + 1 + (todo s.mem (i + 1) n).length) by omega,
        show n - (todo s.mem (i + 1) n).length = n + 1 - (0 + 1 + (todo s.mem (i + 1) n).length) by omega]

theorem todo_all {mem : Nat → Cell α} {cap : Nat} (hcap : 2 ≤ cap) (h0 : (mem 0).hash = 0) (h1 : (mem 1).hash = 0) :
    todo mem 0 cap = cells mem cap := by
  rw [cells_eq_filterMap]
  unfold todo
  conv => lhs; rw [show cap = 2 + (cap - 2) by omega, ← List.range'_append_1, List.flatMap_append]
  simp [List.range'_succ, opt, h0, h1]

theorem Tbl.validate {s : Fhm α} (t : Tbl c s) : validate c s = some true := by
  have hcap := t.cap
  obtain ⟨h1, h2⟩ := validateLoop_spec t s.sz s.cap 0 0 0 (by omega)
  rw [todo_all (by omega) t.z0 t.z1] at h1 h2
  unfold Fhm.validate
  rw [h1]
  have hsz := t.sz
  have hr := t.room
  have : size { s with sz := s.sz } = (cells s.mem s.cap).length := by
    unfold size; rw [if_neg (by omega), if_neg (by omega)]; omega
  rw [this]
  simp

/-- Memory that was never used, or that is all zero. -/
theorem validate_blank {s : Fhm α} (h0 : s.sz = 0) (h : ∀ i, i < s.cap → (s.mem i).hash = 0) : validate c s = some true := by
  have hi : ∀ n i em, i + n = s.cap → em = i → validateLoop c s i em 0 = some true := by
    intro n
    induction n with
    | zero =>
      intro i em hi he
      rw [validateLoop, if_pos (by omega)]
      simp [size, h0]; omega
    | succ n ih =>
      intro i em hi he
      have hlt : i < s.cap := by omega
      rw [validateLoop, if_neg (by omega)]
      simp only [at_eq hlt, Option.bind_eq_bind, Option.bind_some, if_pos (h i hlt)]
      exact ih (i + 1) (em + 1) (by omega) (by omega)
  exact hi s.cap 0 0 (by omega) rfl

theorem Sim.size {s : Fhm α} {st : St α} (h : Sim c s st) : size s = st.l.length := by
  rcases h.body with ⟨t, p⟩ | ⟨hz, hn, _⟩
  · have := t.length
    have := p.length_eq
    unfold Fhm.size; rw [if_neg (by omega), if_neg (by omega)]; omega
  · unfold Fhm.size; rw [if_pos hz, hn]; rfl

end CCC.Fhm
