import Verif.Proof.FlatHashMapRun
import Verif.Spec.HashMapAny
/-
The flat hash map under hash functions and key equalities that obey no rule.  The table keeps its order by the hashes
stored in it; the proofs follow `Proof/FlatHashMap.lean`, `Proof/FlatHashMapStep.lean` and `Proof/FlatHashMapRun.lean`
without anything about keys.
-/
namespace CCC.Fhm.Loose
open CCC HashMap

variable {α κ : Type} {c : Cfg κ α}

/-- A table in order, apart from slots 0 and 1: `Fhm.Tbl` without its two claims about keys. -/
structure Tbl (c : Cfg κ α) (s : Fhm α) : Prop where
  cap : 6 ≤ s.cap
  rh : RH c s.mem s.cap
  z0 : (s.mem 0).hash = 0
  z1 : (s.mem 1).hash = 0
  sz : s.sz = (cells s.mem s.cap).length + 2
  room : s.sz < s.cap

/-- The order of the table does not depend on the functions. -/
theorem Tbl.change {c c' : Cfg κ α} (h : c.wide = c'.wide) {s : Fhm α} (t : Tbl c s) : Tbl c' s := by
  have he : toI c = toI c' := by funext a b; simp only [toI, h]
  refine ⟨t.cap, ?_, t.z0, t.z1, t.sz, t.room⟩
  have := t.rh
  unfold RH dd at *
  rw [← he]; exact this

theorem Tbl.exists_empty {s : Fhm α} (t : Tbl c s) : ∃ j, 2 ≤ j ∧ j < s.cap ∧ (s.mem j).hash = 0 :=
  Fhm.exists_empty (by have := t.sz; have := t.room; omega)

/-- Where the search for a key with hash `h` ends. -/
structure Found (c : Cfg κ α) (s : Fhm α) (k : κ) (h : UInt64) (e : Ent) : Prop where
  out : ∃ i, 2 ≤ i ∧ i < s.cap ∧ e.e = some i ∧ Right c s.mem s.cap h i ∧
    ((e.stats = Stat.occupied ∧ (s.mem i).hash ≠ 0 ∧ (s.mem i).hash = h ∧ c.eq k (c.key (s.mem i).val) = true) ∨
     (e.stats = Stat.vacant ||| Stat.noUnwrap ∧
      ((s.mem i).hash ≠ 0 → dd c s.mem s.cap i < distance s.cap i (toI c s.cap h))))

theorem findLoop_spec {s : Fhm α} (t : Tbl c s) (k : κ) (h : UInt64) {j : Nat} (hj : 2 ≤ j) (hj' : j < s.cap)
    (he : (s.mem j).hash = 0) : ∀ n i dist, distance s.cap j i = n → 2 ≤ i → i < s.cap →
    dist = distance s.cap i (toI c s.cap h) → Right c s.mem s.cap h i →
    ∃ e m, findLoop c s k h i dist = some (e, m) ∧ Found c s k h e := by
  have hcap := t.cap
  have hh := toI_range c (cap := s.cap) (by omega) h
  intro n
  induction n with
  | zero =>
    intro i dist hn hi hi' hdist hR
    have := dist_eq_zero hj hj' hi hi' hn
    subst this
    refine ⟨_, _, by rw [findLoop]; simp [at_eq hj', he]; exact ⟨rfl, rfl⟩, ⟨j, hj, hj', rfl, hR, .inr ⟨rfl, ?_⟩⟩⟩
    intro h; exact absurd he h
  | succ n ih =>
    intro i dist hn hi hi' hdist hR
    have hne : i ≠ j := by
      intro e; subst e; rw [dist_self] at hn; omega
    have hlt := dist_lt (cap := s.cap) hi hi' hh.1 hh.2
    by_cases hstop : (s.mem i).hash = 0 ∨ dist > distance s.cap i (toI c s.cap (s.mem i).hash)
    · refine ⟨⟨some i, Stat.vacant ||| Stat.noUnwrap⟩, dist + 1,
        by rw [findLoop]; simp only [at_eq hi', Option.bind_eq_bind, Option.bind_some, if_pos hstop],
        ⟨i, hi, hi', rfl, hR, .inr ⟨rfl, ?_⟩⟩⟩
      intro ho
      rcases hstop with h | h
      · exact absurd h ho
      · rw [← hdist]; exact h
    · have ho : (s.mem i).hash ≠ 0 := fun e => hstop (.inl e)
      have hle : dist ≤ dd c s.mem s.cap i := by
        have : ¬ dist > distance s.cap i (toI c s.cap (s.mem i).hash) := fun e => hstop (.inr e)
        unfold dd; omega
      by_cases hm : h = (s.mem i).hash ∧ c.eq k (c.key (s.mem i).val) = true
      · exact ⟨⟨some i, Stat.occupied⟩, dist + 1,
          by rw [findLoop]; simp only [at_eq hi', Option.bind_eq_bind, Option.bind_some, if_neg hstop, if_pos hm],
          ⟨i, hi, hi', rfl, hR, .inl ⟨rfl, ho, hm.1.symm, hm.2⟩⟩⟩
      · have hb := RH.below (by omega) t.rh hj hj' he _ i rfl hi hi' ho
        have hl2 := dist_lt (cap := s.cap) hi hi' hj hj'
        have hinc := dist_inc hi hi' hh.1 hh.2 (by omega)
        have hr := inc_range (cap := s.cap) (by omega) hi
        have hto := dist_to_inc hi hi' hj hj' hne
        obtain ⟨e, m, h1, h3⟩ := ih (increment s.cap i) (dist + 1) (by omega) hr.1 hr.2 (by omega) (by
            intro _
            exact ⟨i, hi, hi', rfl, ho, by omega⟩)
        refine ⟨e, m, ?_, h3⟩
        rw [findLoop]
        simp only [at_eq hi', Option.bind_eq_bind, Option.bind_some, if_neg hstop, if_neg hm]
        exact h1

/-- The search ends. -/
theorem Tbl.find {s : Fhm α} (t : Tbl c s) (k : κ) (h : UInt64) :
    ∃ e m, find c s k h = some (e, m) ∧ Found c s k h e := by
  obtain ⟨j, hj, hj', he⟩ := t.exists_empty
  have hcap := t.cap
  have hh := toI_range c (cap := s.cap) (by omega) h
  obtain ⟨e, m, h1, h3⟩ := findLoop_spec t k h hj hj' he _ (toI c s.cap h) 0 rfl hh.1 hh.2 dist_self.symm
    (by intro h; rw [dist_self] at h; omega)
  refine ⟨e, m, ?_, h3⟩
  have := t.room
  rw [Fhm.find, if_neg (by omega), if_neg (by omega)]
  exact h1

theorem erase_spec {s : Fhm α} {i : Nat} (t : Tbl c s) (hi : 2 ≤ i) (hi' : i < s.cap) (ho : (s.mem i).hash ≠ 0) :
    ∃ s' m, erase c s i = some (s', m) ∧ m ≤ s.cap - 2 ∧ Tbl c s' ∧ s'.cap = s.cap ∧ s'.hasAlloc = s.hasAlloc ∧
      (s.mem i :: cells s'.mem s'.cap).Perm (cells s.mem s.cap) := by
  obtain ⟨j, hj, hj', he⟩ := t.exists_empty
  have hcap := t.cap
  have hji : j ≠ i := by intro e; subst e; exact ho he
  let s1 : Fhm α := { s with mem := upd s.mem i ⟨0, (s.mem i).val⟩ }
  have hs1 : putHash s i 0 = some s1 := putHash_eq hi'
  have gq : ∀ q, q ≠ i → s1.mem q = s.mem q := fun q hq => upd_ne _ _ hq
  have gi : (s1.mem i).hash = 0 := by simp [s1]
  have hr := inc_range (cap := s.cap) (by omega) hi
  have hne := inc_ne (cap := s.cap) (by omega) hi hi'
  have hH : Hole c s1.mem s.cap i := by
    refine ⟨gi, ?_, ?_⟩
    · intro p hp hp' hpi hpo hpd
      by_cases h2 : increment s.cap p = i
      · rw [h2] at hpo; exact absurd gi hpo
      · rw [gq _ h2] at hpo
        have := t.rh p hp hp' hpo (by unfold dd at *; rw [gq _ h2] at hpd; exact hpd)
        unfold dd at *
        rw [gq _ h2, gq _ hpi]; exact this
    · intro q hq hq' hqi hno hnd
      rw [gq _ hne] at hno
      have e1 : dd c s1.mem s.cap (increment s.cap i) = dd c s.mem s.cap (increment s.cap i) := by
        unfold dd; rw [gq _ hne]
      rw [e1] at hnd ⊢
      have h1 := t.rh i hi hi' hno (by omega)
      have h2 := t.rh q hq hq' (by rw [hqi]; exact ho) (by rw [hqi]; omega)
      rw [hqi] at h2
      have hqne : q ≠ i := by intro e; subst e; exact inc_ne (by omega) hi hi' hqi
      unfold dd at *
      rw [gq _ hqne]
      exact ⟨h2.1, by omega⟩
  have hdl := dist_lt (cap := s.cap) hj hj' hr.1 hr.2
  obtain ⟨s', m', k1, k2, k3, k4, k5, k6, k7, k8, k9⟩ := eraseLoop_spec (c := c) (cap := s.cap) (by omega) hj hj'
    _ s1 i 0 rfl rfl hi hi' hji (by rw [gq j hji]; exact he) hH (by rw [gq 1 (by omega)]; exact t.z1)
  have hp : (s.mem i :: cells s'.mem s'.cap).Perm (cells s.mem s.cap) := by
    rw [k3]
    exact (List.Perm.cons _ k9).trans (cells_empty hi hi' ho rfl)
  have hlen := hp.length_eq
  simp only [List.length_cons] at hlen
  refine ⟨s', m', ?_, by omega, ?_, k3, k4, hp⟩
  · simp only [erase, hs1, Option.bind_eq_bind, Option.bind_some]
    exact k1
  · have hsz := t.sz
    have hrm := t.room
    refine ⟨by rw [k3]; exact hcap, by rw [k3]; exact k6, k7, k8, ?_, ?_⟩
    · rw [k5]; show s.sz - 1 = _; omega
    · rw [k5, k3]; show s.sz - 1 < _; omega

theorem Tbl.length {s : Fhm α} (t : Tbl c s) : s.sz = (vals s).length + 2 := by
  rw [t.sz]; simp [vals]

/-- A table extended by one element. -/
theorem Tbl.extend {s s' : Fhm α} {h : UInt64} {x : α} (t : Tbl c s)
    (hcap : s'.cap = s.cap) (hsz : s'.sz = s.sz + 1) (hroom : s.sz + 1 < s.cap) (hrh : RH c s'.mem s.cap)
    (h0 : (s'.mem 0).hash = 0) (h1 : (s'.mem 1).hash = 0)
    (hp : (cells s'.mem s.cap).Perm (⟨h, x⟩ :: cells s.mem s.cap)) :
    Tbl c s' ∧ (vals s').Perm (x :: vals s) := by
  have hlen := hp.length_eq
  simp only [List.length_cons] at hlen
  have hsz0 := t.sz
  refine ⟨⟨by rw [hcap]; exact t.cap, by rw [hcap]; exact hrh, h0, h1, ?_, ?_⟩, ?_⟩
  · rw [hcap]; omega
  · rw [hcap]; omega
  · unfold vals
    rw [hcap]
    exact hp.map Cell.val

/-- Storing a new element through `insert`. -/
theorem Tbl.insertAt {s : Fhm α} {h : UInt64} {x : α} {i : Nat} (t : Tbl c s) (h0 : h ≠ 0)
    (hroom : s.sz + 1 < s.cap) (hi : 2 ≤ i) (hi' : i < s.cap) (hR : Right c s.mem s.cap h i) :
    ∃ s' m, insertAt c s x h i = some (s', m) ∧ Tbl c s' ∧ s'.cap = s.cap ∧
      s'.hasAlloc = s.hasAlloc ∧ (cells s'.mem s.cap).Perm (⟨h, x⟩ :: cells s.mem s.cap) ∧
      (vals s').Perm (x :: vals s) ∧
      (((s.mem i).hash ≠ 0 → dd c s.mem s.cap i < distance s.cap i (toI c s.cap h)) → s'.mem i = ⟨h, x⟩) := by
  obtain ⟨j, hj, hj', he⟩ := t.exists_empty
  have hcap := t.cap
  obtain ⟨s', m, k1, k2, k3, k4, k5, k6, k7, k8, k9, _, k11⟩ := insertAt_spec (c := c) (x := x) (by omega) t.rh t.room
    hj hj' he hi hi' hR h0
  obtain ⟨t', hv⟩ := t.extend k3 k5 hroom k6 k7 k8 k9
  exact ⟨s', m, k1, t', k3, k4, k9, hv, k11⟩

/-- Storing a new element through the macro `ccc_impl_fhm_swaps`. -/
theorem Tbl.swaps {s : Fhm α} {h : UInt64} {x : α} {i : Nat} {e : FEnt} (t : Tbl c s) (hz : h ≠ 0)
    (he1 : e.ent.e = some i) (he2 : e.hash = h)
    
    (hroom : s.sz + 1 < s.cap) (hi : 2 ≤ i) (hi' : i < s.cap) (hR : Right c s.mem s.cap (h) i)
    (hd : (s.mem i).hash ≠ 0 → dd c s.mem s.cap i < distance s.cap i (toI c s.cap (h))) :
    ∃ s', swaps c s e x = some (s', some i) ∧ Tbl c s' ∧ s'.cap = s.cap ∧
      s'.hasAlloc = s.hasAlloc ∧ (vals s').Perm (x :: vals s) ∧ s'.mem i = ⟨h, x⟩ := by
  obtain ⟨j, hj, hj', hej⟩ := t.exists_empty
  have hcap := t.cap
  have hrh1 := RH.put (i := i) (f := ⟨h, x⟩) (by omega) t.rh hi hi' hR (fun h => Nat.le_of_lt (hd h))
    hz
  let s1 : Fhm α := { s with mem := upd s.mem i ⟨h, x⟩ }
  have hs1 : put s i ⟨e.hash, x⟩ = some s1 := by rw [he2]; exact put_eq hi'
  by_cases h0 : (s.mem i).hash = 0
  · refine ⟨sizePlus s1 1, ?_, ?_⟩
    · simp only [Fhm.swaps, he1, Option.bind_eq_bind, Option.bind_some, at_eq hi', if_pos h0, hs1]
    · have hsz : (sizePlus s1 1).sz = s.sz + 1 := by
        simp only [sizePlus, s1]; rw [if_neg (by omega)]
      have hp : (cells (sizePlus s1 1).mem s.cap).Perm (⟨h, x⟩ :: cells s.mem s.cap) :=
        cells_fill hi hi' h0 hz
      obtain ⟨t', hv⟩ := t.extend (s' := sizePlus s1 1) rfl hsz hroom hrh1
        (by show (upd s.mem i _ 0).hash = 0; rw [upd_ne _ _ (by omega)]; exact t.z0)
        (by show (upd s.mem i _ 1).hash = 0; rw [upd_ne _ _ (by omega)]; exact t.z1) hp
      exact ⟨t', rfl, rfl, hv, upd_same _ _ _⟩
  · have hji : j ≠ i := by intro e; subst e; exact h0 hej
    have hr := inc_range (cap := s.cap) (by omega) hi
    have hb := RH.below (by omega) t.rh hj hj' hej _ i rfl hi hi' h0
    have hl2 := dist_lt (cap := s.cap) hi hi' hj hj'
    have hh := toI_range c (cap := s.cap) (by omega) (s.mem i).hash
    have hinc := dist_inc hi hi' hh.1 hh.2 (by unfold dd at hb; omega)
    have hd1 := hd h0
    obtain ⟨s', m, k1, k2, k3, k4, k5, k6, k7, k8, k9, k10, _⟩ := insertAt_spec (c := c) (s := s1) (x := (s.mem i).val)
      (h := (s.mem i).hash) (i := increment s.cap i) (by exact (by omega : 5 ≤ s.cap)) hrh1 t.room hj hj'
      (by show (upd s.mem i _ j).hash = 0; rw [upd_ne _ _ hji]; exact hej) hr.1 hr.2 (by
        intro _
        refine ⟨i, hi, hi', rfl, ?_, ?_⟩
        · show (upd s.mem i _ i).hash ≠ 0; rw [upd_same]; exact hz
        · show distance s.cap (increment s.cap i) _ ≤ distance s.cap i (toI c s.cap (upd s.mem i _ i).hash) + 1
          rw [upd_same]
          unfold dd at hd1
          show distance s.cap (increment s.cap i) (toI c s.cap (s.mem i).hash) ≤ distance s.cap i (toI c s.cap (h)) + 1
          omega) h0
    refine ⟨s', ?_, ?_⟩
    · simp only [Fhm.swaps, he1, Option.bind_eq_bind, Option.bind_some, at_eq hi', if_neg h0, hs1]
      rw [show increment s1.cap i = increment s.cap i from rfl, k1]
      rfl
    · have hp : (cells s'.mem s.cap).Perm (⟨h, x⟩ :: cells s.mem s.cap) :=
        k9.trans (cells_replace hi hi' h0 hz)
      obtain ⟨t', hv⟩ := t.extend k3 k5 hroom k6 k7 k8 hp
      refine ⟨t', k3, k4, hv, ?_⟩
      have hto := dist_to_inc hi hi' hj hj' hji.symm
      have hl3 := dist_lt (cap := s.cap) hj hj' hi hi'
      have hii : distance s.cap i (increment s.cap i) = s.cap - 3 := by
        unfold distance increment; split <;> split <;> omega
      rw [k10 i hi hi' (by show distance s.cap j (increment s.cap i) < distance s.cap i (increment s.cap i); omega)]
      exact upd_same _ _ _

/-- Overwriting the element in slot `i` by any other, and possibly the data of slot 0. -/
theorem Tbl.over {s s' : Fhm α} {x : α} {i : Nat} (t : Tbl c s) (hi : 2 ≤ i)
    (hi' : i < s.cap) (ho : (s.mem i).hash ≠ 0)
    (hq : ∀ q, 1 ≤ q → s'.mem q = upd s.mem i ⟨(s.mem i).hash, x⟩ q) (h0 : (s'.mem 0).hash = 0) (hcap : s'.cap = s.cap)
    (hsz : s'.sz = s.sz) : Tbl c s' ∧ ((s.mem i).val :: vals s').Perm (x :: vals s) := by
  have hc3 := t.cap
  have hce : cells s'.mem s.cap = cells (upd s.mem i ⟨(s.mem i).hash, x⟩) s.cap :=
    cells_congr (fun q hq' _ => hq q (by omega))
  have hp : (s.mem i :: cells s'.mem s.cap).Perm (⟨(s.mem i).hash, x⟩ :: cells s.mem s.cap) := by
    rw [hce]; exact cells_replace hi hi' ho ho
  have hlen := hp.length_eq
  simp only [List.length_cons] at hlen
  refine ⟨⟨by rw [hcap]; exact hc3, ?_, h0, ?_, ?_, ?_⟩, ?_⟩
  · rw [hcap]
    intro q hq1 hq2 hqo hqd
    have hr := inc_range (cap := s.cap) (by omega) hq1
    have hsame : ∀ p, 2 ≤ p → (s'.mem p).hash = (s.mem p).hash := by
      intro p hp1
      rw [hq p (by omega)]
      by_cases hpi : p = i
      · subst hpi; rw [upd_same]
      · rw [upd_ne _ _ hpi]
    unfold dd at *
    rw [hsame _ hr.1] at hqo hqd ⊢
    rw [hsame q hq1]
    exact t.rh q hq1 hq2 hqo hqd
  · rw [hq 1 (by omega), upd_ne _ _ (by omega)]; exact t.z1
  · rw [hcap, hsz]; have := t.sz; omega
  · rw [hcap, hsz]; exact t.room
  · unfold vals
    rw [hcap]
    exact hp.map Cell.val

/-! ### Growth -/

theorem rehash_from {old : Fhm α} :
    ∀ n i (t : Fhm α), i + n = old.cap → Tbl c t → (cells old.mem old.cap).length + 2 < t.cap →
    (cells t.mem t.cap ++ todo old.mem i n).Perm (cells old.mem old.cap) →
    ∃ t', rehashLoop c old t i = some t' ∧ Tbl c t' ∧ t'.cap = t.cap ∧ t'.hasAlloc = t.hasAlloc ∧
      (cells t'.mem t'.cap).Perm (cells old.mem old.cap) := by
  intro n
  induction n with
  | zero =>
    intro i t hi ht _ hp
    refine ⟨t, ?_, ht, rfl, rfl, ?_⟩
    · rw [rehashLoop, if_pos (by omega)]
    · simpa [todo] using hp
  | succ n ih =>
    intro i t hi ht hroom hp
    have hlt : i < old.cap := by omega
    have htodo : todo old.mem i (n + 1) = opt (old.mem i) ++ todo old.mem (i + 1) n := by
      unfold todo
      rw [List.range'_succ, List.flatMap_cons]
    rw [htodo] at hp
    by_cases h0 : (old.mem i).hash = 0
    · rw [opt_empty h0] at hp
      obtain ⟨t', k1, k2⟩ := ih (i + 1) t (by omega) ht hroom hp
      refine ⟨t', ?_, k2⟩
      rw [rehashLoop, if_neg (by omega)]
      simp only [at_eq hlt, Option.bind_eq_bind, Option.bind_some, h0, ne_eq, not_true_eq_false, if_false]
      exact k1
    · rw [opt_full h0] at hp
      have hlen := hp.length_eq
      simp only [List.length_append, List.length_cons, List.length_nil] at hlen
      obtain ⟨e, m, hf, ⟨p, hp1, hp2, hp3, hR, _⟩⟩ := ht.find (c.key (old.mem i).val) (old.mem i).hash
      have hsz := ht.sz
      obtain ⟨t1, m1, k1, k3, k4, k5, k6, _, _⟩ := ht.insertAt (x := (old.mem i).val) h0 (by omega) hp1 hp2 hR
      obtain ⟨t', j1, j2, j3, j4, j5⟩ := ih (i + 1) t1 (by omega) k3 (by rw [k4]; exact hroom) (by
        rw [k4]
        refine List.Perm.trans (List.Perm.append_right _ k6) ?_
        refine List.Perm.trans ?_ hp
        exact List.perm_middle.symm)
      refine ⟨t', ?_, j2, j3.trans k4, j4.trans k5, j5⟩
      rw [rehashLoop, if_neg (by omega)]
      simp only [at_eq hlt, Option.bind_eq_bind, Option.bind_some, ne_eq, h0, not_false_eq_true, if_true, hf, hp3, k1]
      exact j1

theorem empty_tbl {s : Fhm α} (hcap : 6 ≤ s.cap) (h : ∀ i, i < s.cap → (s.mem i).hash = 0) (hsz : s.sz = 2) :
    Tbl c s ∧ cells s.mem s.cap = [] := by
  have hc : cells s.mem s.cap = [] := by
    rw [List.eq_nil_iff_forall_not_mem]
    intro x hx
    obtain ⟨i, _, h2, h3, _⟩ := mem_cells.1 hx
    exact h3 (h i h2)
  refine ⟨⟨hcap, ?_, h 0 (by omega), h 1 (by omega), by rw [hc, hsz]; rfl, by omega⟩, hc⟩
  intro i hi _ ho
  exact absurd (h _ (inc_range (by omega) hi).2) ho

theorem Tbl.grow {s : Fhm α} {cap' : Nat} (t : Tbl c s) (h1 : s.sz < cap') (h2 : 6 ≤ cap')
    (junk : Nat → α) : ∃ t', rehashLoop c s (sizeSet { mem := wipe (fun i => ⟨0, junk i⟩), sz := 0, cap := cap', hasAlloc := s.hasAlloc } 2) 0 =
      some t' ∧ Tbl c t' ∧ t'.cap = cap' ∧ t'.hasAlloc = s.hasAlloc ∧ (vals t').Perm (vals s) := by
  have hc := t.cap
  obtain ⟨t0, hc0⟩ := empty_tbl (c := c)
    (s := sizeSet { mem := wipe (fun i => ⟨0, junk i⟩), sz := 0, cap := cap', hasAlloc := s.hasAlloc } 2) h2
    (fun i _ => rfl) (by simp only [sizeSet]; rw [if_neg (by omega)])
  have hsz := t.sz
  obtain ⟨t', k1, k2, k3, k4, k5⟩ := rehash_from (old := s) s.cap 0 _ (by omega) t0
    (by show _ < cap'; omega) (by
      rw [hc0]
      refine List.Perm.of_eq ?_
      rw [List.nil_append, cells_eq_filterMap]
      unfold todo
      rw [show s.cap = 2 + (s.cap - 2) by omega, ← List.range'_append_1, List.flatMap_append]
      rw [show 2 + (s.cap - 2) - 2 = s.cap - 2 by omega]
      simp [List.range'_succ, opt, t.z0, t.z1])
  exact ⟨t', k1, k2, k3, k4, k5.map Cell.val⟩

/-- The state of the map represents a state of the specification. -/
structure Sim (c : Cfg κ α) (s : Fhm α) (st : St α) : Prop where
  cap : s.cap = st.cap
  body : (Tbl c s ∧ (vals s).Perm st.l) ∨
    (s.sz = 0 ∧ st.l = [] ∧ (s.cap = 0 ∨ (6 ≤ s.cap ∧ (st.stale = false → ∀ i, i < s.cap → (s.mem i).hash = 0))))

theorem Sim.change {c c' : Cfg κ α} (h : c.wide = c'.wide) {s : Fhm α} {st : St α} (m : Sim c s st) : Sim c' s st :=
  ⟨m.cap, m.body.imp (fun x => ⟨x.1.change h, x.2⟩) id⟩

theorem maybeResize_spec {s : Fhm α} {st : St α} (h : Sim c s st) (ans : AllocAns α) :
    ∃ s' r, maybeResize c s ans = some (s', r) ∧ s'.hasAlloc = s.hasAlloc ∧
      s'.cap = (room s.hasAlloc ans.isSome st).1.cap ∧
      (((room s.hasAlloc ans.isSome st).2 = true ∧ r = .ok ∧ Tbl c s' ∧ (vals s').Perm st.l ∧ s'.sz + 1 < s'.cap) ∨
       ((room s.hasAlloc ans.isSome st).2 = false ∧ r ≠ .ok ∧
        ((Tbl c s' ∧ (vals s').Perm st.l ∧ s' = s) ∨ (s'.sz = 0 ∧ s'.cap = 0 ∧ st.l = [] ∧ s' = s)))) := by
  have hcs := h.cap
  rcases h.body with ⟨t, p⟩ | ⟨hz, hn, hb⟩
  · -- in use
    have hlen := p.length_eq
    have hsz := t.length
    have hrm := t.room
    have hcap := t.cap
    have hz : ¬ (s.cap ≠ 0 ∧ s.sz < 2) := by omega
    have hw : (if s.cap ≠ 0 then nextPrime (s.sz * 2) else 11) = wanted st.l.length st.cap := by
      rw [if_pos (by omega), wanted, if_neg (by omega), show s.sz * 2 = 2 * (st.l.length + 2) by omega]
      rfl
    by_cases hload : s.cap ≠ 0 ∧ 5 * s.sz ≤ 4 * s.cap
    · have hr : room s.hasAlloc ans.isSome st = ({ st with stale := false }, true) := by
        rw [room, if_pos (by rw [← hlen, ← hcs, ← hsz]; exact hload)]
      refine ⟨s, .ok, ?_, rfl, ?_, .inl ⟨?_, rfl, t, p, by omega⟩⟩
      · simp only [maybeResize, if_neg hz, if_pos hload]
      · rw [hr]; exact hcs
      · rw [hr]
    · have hload' : ¬ (st.cap ≠ 0 ∧ 5 * (st.l.length + 2) ≤ 4 * st.cap) := by
        rw [← hlen, ← hcs, ← hsz]; exact hload
      have hfail : ¬ (s.hasAlloc = true ∧ ans.isSome = true ∧ s.cap < wanted st.l.length st.cap) →
          room s.hasAlloc ans.isSome st = ({ st with stale := false }, false) := by
        intro hx
        rw [room, if_neg hload', if_neg]
        simp only [Bool.and_eq_true, decide_eq_true_eq, ← hcs]
        rw [← hcs] at hx
        rintro ⟨⟨h1, h2⟩, h3⟩
        exact hx ⟨h1, h2, h3⟩
      by_cases hal : s.hasAlloc = true
      · by_cases hw2 : wanted st.l.length st.cap ≤ s.cap
        · have hr := hfail (by omega)
          refine ⟨s, .memErr, ?_, rfl, ?_, .inr ⟨?_, by simp, .inl ⟨t, p, rfl⟩⟩⟩
          · simp only [maybeResize, if_neg hz, if_neg hload, hal, Bool.not_true, Bool.false_eq_true, if_false, hw, if_pos hw2]
          · rw [hr]; exact hcs
          · rw [hr]
        · cases ans with
          | none =>
            have hr := hfail (by simp)
            refine ⟨s, .memErr, ?_, rfl, ?_, .inr ⟨?_, by simp, .inl ⟨t, p, rfl⟩⟩⟩
            · simp only [maybeResize, if_neg hz, if_neg hload, hal, Bool.not_true, Bool.false_eq_true, if_false, hw, if_neg hw2]
            · rw [hr]; exact hcs
            · rw [hr]
          | some junk =>
            have hnp : nextPrime (s.sz * 2) = wanted st.l.length st.cap := by
              rw [← hw, if_pos (by omega)]
            have hns := nextPrime_spec (n := s.sz * 2) (by rw [hnp]; omega)
            rw [hnp] at hns
            obtain ⟨t', k1, k2, k3, k4, k5⟩ := t.grow (cap' := wanted st.l.length st.cap) (by omega) (by omega) junk
            have hr : room s.hasAlloc (some junk).isSome st =
                ({ st with cap := wanted st.l.length st.cap, stale := false }, true) := by
              rw [room, if_neg hload', if_pos]
              simp only [hal, Option.isSome_some, Bool.and_eq_true, decide_eq_true_eq, true_and]
              omega
            refine ⟨t', .ok, ?_, k4, ?_, .inl ⟨?_, rfl, k2, k5.trans p, ?_⟩⟩
            · rw [hal] at k1
              simp only [maybeResize, if_neg hz, if_neg hload, hal, Bool.not_true, Bool.false_eq_true, if_false, hw, if_neg hw2]
              simp only [k1, Option.bind_eq_bind, Option.bind_some]
            · rw [hr]; exact k3
            · rw [hr]
            · have hl2 := k2.length
              have hl3 := k5.length_eq
              rw [k3]; omega
      · have hal' : s.hasAlloc = false := by simpa using hal
        have hr := hfail (by rw [hal']; simp)
        refine ⟨s, .noAlloc, ?_, rfl, ?_, .inr ⟨?_, by simp, .inl ⟨t, p, rfl⟩⟩⟩
        · simp only [maybeResize, if_neg hz, if_neg hload, hal', Bool.not_false, if_true]
        · rw [hr]; exact hcs
        · rw [hr]
  · rcases hb with hb | ⟨hb, _⟩
    · -- no memory
      have hz' : ¬ (s.cap ≠ 0 ∧ s.sz < 2) := by omega
      have hload : ¬ (s.cap ≠ 0 ∧ 5 * s.sz ≤ 4 * s.cap) := by omega
      have hw : (if s.cap ≠ 0 then nextPrime (s.sz * 2) else 11) = wanted st.l.length st.cap := by
        rw [if_neg (by omega), wanted, if_pos (by omega)]
      have hw11 : wanted st.l.length st.cap = 11 := by rw [wanted, if_pos (by omega)]
      have hload' : ¬ (st.cap ≠ 0 ∧ 5 * (st.l.length + 2) ≤ 4 * st.cap) := by omega
      have hfail : ¬ (s.hasAlloc = true ∧ ans.isSome = true) →
          room s.hasAlloc ans.isSome st = ({ st with stale := false }, false) := by
        intro hx
        rw [room, if_neg hload', if_neg]
        simp only [Bool.and_eq_true, decide_eq_true_eq]
        rintro ⟨⟨h1, h2⟩, _⟩
        exact hx ⟨h1, h2⟩
      by_cases hal : s.hasAlloc = true
      · have hw2 : ¬ 11 ≤ s.cap := by omega
        cases ans with
        | none =>
          have hr := hfail (by simp)
          refine ⟨s, .memErr, ?_, rfl, ?_, .inr ⟨?_, by simp, .inr ⟨hz, hb, hn, rfl⟩⟩⟩
          · simp only [maybeResize, if_neg hz', if_neg hload, hal, Bool.not_true, Bool.false_eq_true, if_false, hw, hw11,
              if_neg hw2]
          · rw [hr]; exact hcs
          · rw [hr]
        | some junk =>
          let t0 : Fhm α := sizeSet { mem := wipe (fun i => ⟨0, junk i⟩), sz := 0, cap := 11, hasAlloc := s.hasAlloc } 2
          obtain ⟨k1, k2⟩ := empty_tbl (c := c) (s := t0) (by show 6 ≤ 11; omega) (fun i _ => rfl) rfl
          have hr : room s.hasAlloc (some junk).isSome st = ({ st with cap := 11, stale := false }, true) := by
            rw [room, if_neg hload', if_pos, hw11]
            rw [hw11]
            simp only [hal, Option.isSome_some, Bool.and_eq_true, decide_eq_true_eq, true_and]
            omega
          refine ⟨t0, .ok, ?_, rfl, ?_, .inl ⟨?_, rfl, k1, ?_, by show 2 + 1 < 11; omega⟩⟩
          · simp only [maybeResize, if_neg hz', if_neg hload, hal, Bool.not_true, Bool.false_eq_true, if_false, hw, hw11,
              if_neg hw2]
            rw [rehashLoop, if_pos (by omega)]
            simp only [Option.bind_eq_bind, Option.bind_some, t0, hal]
          · rw [hr]; rfl
          · rw [hr]
          · rw [hn]; unfold vals; rw [k2]; exact List.Perm.refl _
      · have hal' : s.hasAlloc = false := by simpa using hal
        have hr := hfail (by rw [hal']; simp)
        refine ⟨s, .noAlloc, ?_, rfl, ?_, .inr ⟨?_, by simp, .inr ⟨hz, hb, hn, rfl⟩⟩⟩
        · simp only [maybeResize, if_neg hz', if_neg hload, hal', Bool.not_false, if_true]
        · rw [hr]; exact hcs
        · rw [hr]
    · -- memory not in order yet
      let s1 : Fhm α := sizeSet { s with mem := wipe s.mem } 2
      have hs1 : s1.sz = 2 := by simp only [s1, sizeSet]; rw [if_neg (by omega)]
      obtain ⟨k1, k2⟩ := empty_tbl (c := c) (s := s1) hb (fun i _ => rfl) hs1
      have hr : room s.hasAlloc ans.isSome st = ({ st with stale := false }, true) := by
        rw [room, if_pos]
        rw [hn, ← hcs]
        simp only [List.length_nil]
        omega
      have hload : s1.cap ≠ 0 ∧ 5 * s1.sz ≤ 4 * s1.cap := by
        rw [hs1]; show s.cap ≠ 0 ∧ 5 * 2 ≤ 4 * s.cap; omega
      refine ⟨s1, .ok, ?_, rfl, ?_, .inl ⟨?_, rfl, k1, ?_, ?_⟩⟩
      · simp only [maybeResize]
        rw [if_pos (by omega : s.cap ≠ 0 ∧ s.sz < 2)]
        show (if s1.cap ≠ 0 ∧ 5 * s1.sz ≤ 4 * s1.cap then some (s1, Res.ok) else _) = _
        rw [if_pos hload]
      · rw [hr]; exact hcs
      · rw [hr]
      · rw [hn]; unfold vals; rw [k2]; exact List.Perm.refl _
      · rw [hs1]; show 2 + 1 < s.cap; omega

theorem Sim.live {s : Fhm α} {st : St α} (hc : s.cap = st.cap) (t : Tbl c s) (p : (vals s).Perm st.l) : Sim c s st :=
  ⟨hc, .inl ⟨t, p⟩⟩

/-- The slot where an element with hash `h` belongs. -/
structure Place (c : Cfg κ α) (s : Fhm α) (h : UInt64) (i : Nat) : Prop where
  ge : 2 ≤ i
  lt : i < s.cap
  right : Right c s.mem s.cap h i
  dist : (s.mem i).hash ≠ 0 → dd c s.mem s.cap i < distance s.cap i (toI c s.cap h)

/-- The slot that stores the element `v` under the hash `h`. -/
structure Holds (s : Fhm α) (h : UInt64) (i : Nat) (v : α) : Prop where
  ge : 2 ≤ i
  lt : i < s.cap
  occ : (s.mem i).hash ≠ 0
  hash : (s.mem i).hash = h
  val : (s.mem i).val = v

/-- The element found. -/
structure Hit (c : Cfg κ α) (k : κ) (l : List α) (v : α) (r : List α) : Prop where
  perm : (v :: r).Perm l
  key : c.eq k (c.key v) = true

theorem Hit.mem {k : κ} {l r : List α} {v : α} (h : Hit c k l v r) : v ∈ l := h.perm.subset List.mem_cons_self

theorem Hit.pick {k : κ} {l r : List α} {v : α} (h : Hit c k l v r) {op : Op α κ} (hk : keyOf c.key op = some k) :
    pickOk c.eq c.key l op (some (v, r)) := by
  intro v' r' e
  simp only [Option.some.injEq, Prod.mk.injEq] at e
  obtain ⟨rfl, rfl⟩ := e
  exact ⟨h.perm, k, hk, h.key⟩

theorem pick_none {eq : κ → κ → Bool} {key : α → κ} {l : List α} {op : Op α κ} : pickOk eq key l op none := by
  intro v r e; simp at e

theorem exists_rest {l : List α} {v : α} (h : v ∈ l) : ∃ r, (v :: r).Perm l := by
  obtain ⟨A, B, rfl⟩ := List.append_of_mem h
  exact ⟨A ++ B, List.perm_middle.symm⟩

/-- What `find` answers on a table. -/
theorem find_cases {s : Fhm α} (t : Tbl c s) {l : List α} (p : (vals s).Perm l) (k : κ) :
    ∃ e m, find c s k (filter c k) = some (e, m) ∧
      ((∃ i v r, Hit c k l v r ∧ e = ⟨some i, Stat.occupied⟩ ∧ Holds s (filter c k) i v) ∨
       (∃ i, e = ⟨some i, Stat.vacant ||| Stat.noUnwrap⟩ ∧ Place c s (filter c k) i)) := by
  obtain ⟨⟨es, estats⟩, m, h1, ⟨i, hi, hi', h2, hR, h3⟩⟩ := t.find k (filter c k)
  simp only at h2
  subst h2
  refine ⟨_, m, h1, ?_⟩
  rcases h3 with ⟨h3, ho, hh, hk⟩ | ⟨h3, hd⟩
  · simp only at h3
    subst h3
    obtain ⟨r, hr⟩ := exists_rest (p.subset (Fhm.Tbl.mem_vals hi hi' ho))
    exact .inl ⟨i, (s.mem i).val, r, ⟨hr, hk⟩, rfl, hi, hi', ho, hh, rfl⟩
  · simp only at h3
    subst h3
    exact .inr ⟨i, rfl, hi, hi', hR, hd⟩

/-- What `entry` answers. -/
theorem entry_cases {s : Fhm α} {st : St α} (h : Sim c s st) (k : κ) (ans : AllocAns α) :
    ∃ s' e, entry c s k ans = some (s', e) ∧ s'.hasAlloc = s.hasAlloc ∧ e.hash = filter c k ∧
      s'.cap = (room s.hasAlloc ans.isSome st).1.cap ∧
      ((∃ i v r, Hit c k st.l v r ∧
          e.ent = ⟨some i, if (room s.hasAlloc ans.isSome st).2 = true then Stat.occupied else Stat.occupied ||| Stat.insertError⟩ ∧
          Tbl c s' ∧ (vals s').Perm st.l ∧ Holds s' (filter c k) i v) ∨
       ((room s.hasAlloc ans.isSome st).2 = true ∧ ∃ i, e.ent = ⟨some i, Stat.vacant ||| Stat.noUnwrap⟩ ∧
          Tbl c s' ∧ (vals s').Perm st.l ∧ s'.sz + 1 < s'.cap ∧ Place c s' (filter c k) i) ∨
       ((room s.hasAlloc ans.isSome st).2 = false ∧
          (e.ent.stats = Stat.noUnwrap ||| Stat.insertError ∨ e.ent = ⟨none, Stat.insertError⟩) ∧
          Sim c s' (room s.hasAlloc ans.isSome st).1)) := by
  obtain ⟨s', r, h1, h2, h3, h4⟩ := maybeResize_spec h ans
  rcases h4 with ⟨hr, rfl, t, p, hsz⟩ | ⟨hr, hrne, h4⟩
  · obtain ⟨e, m, f1, f2⟩ := find_cases t p k
    refine ⟨s', ⟨⟨e.e, e.stats⟩, filter c k⟩, ?_, h2, rfl, h3, ?_⟩
    · simp only [entry, h1, Option.bind_eq_bind, Option.bind_some, f1, ne_eq, not_true_eq_false, if_false]
    · rcases f2 with ⟨i, v, r, g1, rfl, g3⟩ | ⟨i, rfl, g3⟩
      · exact .inl ⟨i, v, r, g1, by rw [if_pos hr], t, p, g3⟩
      · exact .inr (.inl ⟨hr, i, rfl, t, p, hsz, g3⟩)
  · rcases h4 with ⟨t, p, hs⟩ | ⟨hz, hc, hn, hs⟩
    · obtain ⟨e, m, f1, f2⟩ := find_cases t p k
      refine ⟨s', ⟨⟨e.e, e.stats ||| Stat.insertError⟩, filter c k⟩, ?_, h2, rfl, h3, ?_⟩
      · simp only [entry, h1, Option.bind_eq_bind, Option.bind_some, f1, ne_eq, hrne, not_false_eq_true, if_true]
      · rcases f2 with ⟨i, v, r, g1, rfl, g3⟩ | ⟨i, rfl, g3⟩
        · exact .inl ⟨i, v, r, g1, by rw [if_neg (by rw [hr]; simp)], t, p, g3⟩
        · exact .inr (.inr ⟨hr, .inl rfl, .live h3 t (by rw [room_l]; exact p)⟩)
    · refine ⟨s', ⟨⟨none, Stat.vacant ||| Stat.insertError⟩, filter c k⟩, ?_, h2, rfl, h3, ?_⟩
      · simp only [entry, h1, Option.bind_eq_bind, Option.bind_some, ne_eq, hrne, not_false_eq_true, if_true, Fhm.find, if_pos hc]
      · exact .inr (.inr ⟨hr, .inr rfl, ⟨h3, .inr ⟨hz, by rw [room_l]; exact hn, .inl hc⟩⟩⟩)

/-- Store a new element at its place. -/
theorem Place.store {s : Fhm α} {st : St α} {l : List α} {h : UInt64} {i : Nat} {x : α} (P : Place c s h i) (t : Tbl c s)
    (p : (vals s).Perm l) (hsz : s.sz + 1 < s.cap) (hz : h ≠ 0) (hcap : s.cap = st.cap) :
    ∃ s' m, insertAt c s x h i = some (s', m) ∧ Sim c s' { st with l := x :: l } ∧ Tbl c s' ∧
      s'.hasAlloc = s.hasAlloc ∧ Holds s' h i x ∧ s'.mem i = ⟨h, x⟩ ∧ (vals s').Perm (x :: l) := by
  obtain ⟨s', m, k1, k3, k4, k5, _, k7, k8⟩ := t.insertAt (x := x) hz hsz P.ge P.lt P.right
  have k8 := k8 P.dist
  refine ⟨s', m, k1, .live (k4.trans hcap) k3 (k7.trans (p.cons x)), k3, k5, ⟨P.ge, by rw [k4]; exact P.lt, ?_, ?_, ?_⟩,
    k8, k7.trans (p.cons x)⟩
  · rw [k8]; exact hz
  · rw [k8]
  · rw [k8]

theorem Place.storeW {s : Fhm α} {st : St α} {l : List α} {h : UInt64} {i : Nat} {x : α} {e : FEnt} (P : Place c s h i)
    (t : Tbl c s) (p : (vals s).Perm l) (hsz : s.sz + 1 < s.cap) (hz : h ≠ 0) (hcap : s.cap = st.cap)
    (he1 : e.ent.e = some i) (he2 : e.hash = h) :
    ∃ s', swaps c s e x = some (s', some i) ∧ Sim c s' { st with l := x :: l } ∧ s'.hasAlloc = s.hasAlloc ∧
      s'.mem i = ⟨h, x⟩ := by
  obtain ⟨s', k1, k3, k4, k5, k7, k8⟩ := t.swaps (x := x) hz he1 he2 hsz P.ge P.lt P.right P.dist
  exact ⟨s', k1, .live (k4.trans hcap) k3 (k7.trans (p.cons x)), k5, k8⟩

theorem swap_out {l L r : List α} {v x : α} (p' : (v :: L).Perm (x :: l)) (hr : (v :: r).Perm l) : L.Perm (x :: r) :=
  ((p'.trans (List.Perm.cons x hr.symm)).trans (List.Perm.swap _ _ _)).cons_inv

/-- Overwrite a stored element. -/
theorem Holds.store {s : Fhm α} {st : St α} {l r : List α} {h : UInt64} {i : Nat} {v x : α} (H : Holds s h i v)
    (t : Tbl c s) (p : (vals s).Perm l) (hit : (v :: r).Perm l) (hcap : s.cap = st.cap) :
    ∃ s', put s i ⟨h, x⟩ = some s' ∧ Sim c s' { st with l := x :: r } ∧ s'.hasAlloc = s.hasAlloc ∧
      (s'.mem i).val = x := by
  refine ⟨{ s with mem := upd s.mem i ⟨h, x⟩ }, put_eq H.lt, ?_, rfl, ?_⟩
  · obtain ⟨t', p'⟩ := t.over (s' := { s with mem := upd s.mem i ⟨h, x⟩ }) (x := x) H.ge H.lt H.occ
      (fun q _ => by rw [H.hash])
      (by show (upd s.mem i _ 0).hash = 0; have := H.ge; rw [upd_ne _ _ (by omega)]; exact t.z0) rfl rfl
    rw [H.val] at p'
    exact .live hcap t' (swap_out (p'.trans (p.cons x)) hit)
  · show (upd s.mem i _ i).val = x
    rw [upd_same]

/-- A write through a pointer to a stored element. -/
theorem Holds.poke {s : Fhm α} {st : St α} {l r : List α} {h : UInt64} {i : Nat} {v : α} (H : Holds s h i v)
    (t : Tbl c s) (p : (vals s).Perm l) {f : α → α} (hit : (v :: r).Perm l) (hcap : s.cap = st.cap) :
    ∃ s', put s i { s.mem i with val := f (s.mem i).val } = some s' ∧ Sim c s' { st with l := f v :: r } ∧
      s'.hasAlloc = s.hasAlloc ∧ (s'.mem i).val = f v := by
  obtain ⟨s', h1, h2⟩ := H.store (x := f v) t p hit hcap
  refine ⟨s', ?_, h2⟩
  show put s i ⟨(s.mem i).hash, f (s.mem i).val⟩ = _
  rw [H.hash, H.val]
  exact h1

/-- Remove a stored element. -/
theorem Holds.erase {s : Fhm α} {st : St α} {l r : List α} {h : UInt64} {i : Nat} {v : α} (H : Holds s h i v)
    (t : Tbl c s) (p : (vals s).Perm l) (hit : (v :: r).Perm l) (hcap : s.cap = st.cap) :
    ∃ s' m, Fhm.erase c s i = some (s', m) ∧ s'.hasAlloc = s.hasAlloc ∧ Sim c s' { st with l := r } := by
  obtain ⟨s', m, h1, _, h3, h4, h5, h6⟩ := erase_spec t H.ge H.lt H.occ
  have hp : (v :: vals s').Perm (vals s) := by
    have := h6.map Cell.val
    rw [List.map_cons, H.val] at this
    exact this
  exact ⟨s', m, h1, h5, .live (h4.trans hcap) h3 ((hp.trans (p.trans hit.symm)).cons_inv)⟩

/-! ### Validation -/

theorem validLoop_spec {s : Fhm α} (t : Tbl c s) (z : Nat) {j : Nat} (hj : 2 ≤ j) (hj' : j < s.cap) (ho : (s.mem j).hash ≠ 0) :
    ∀ n i, distance s.cap i (toI c s.cap (s.mem j).hash) = n → n ≤ dd c s.mem s.cap j → 2 ≤ i → i < s.cap →
      validLoop c { s with sz := z } (decrement s.cap (toI c s.cap (s.mem j).hash)) i n = some true := by
  have hcap := t.cap
  have hh := toI_range c (cap := s.cap) (by omega) (s.mem j).hash
  intro n
  induction n with
  | zero =>
    intro i hn _ hi hi'
    have hi0 := dist_eq_zero hi hi' hh.1 hh.2 hn
    have hc := RH.chain (by omega) t.rh hj hj' ho (dd c s.mem s.cap j) i hi hi' (by omega)
    have hne : i ≠ decrement s.cap (toI c s.cap (s.mem j).hash) := by
      rw [← hi0]; unfold decrement; simp only; split <;> split <;> omega
    rw [validLoop, if_neg hne]
    simp only [at_eq (s := { s with sz := z }) hi', Option.bind_eq_bind, Option.bind_some, hc.1, if_false, gt_iff_lt, Nat.not_lt_zero]
    rw [validLoop, if_pos (by rw [← hi0])]
  | succ n ih =>
    intro i hn hle hi hi'
    have hc := RH.chain (by omega) t.rh hj hj' ho (dd c s.mem s.cap j - (n + 1)) i hi hi' (by omega)
    rw [validLoop]
    split
    · rfl
    · simp only [at_eq (s := { s with sz := z }) hi', Option.bind_eq_bind, Option.bind_some, hc.1, if_false]
      have h2 := hc.2
      unfold dd at h2
      rw [if_neg (by omega), if_neg (by omega), Nat.add_sub_cancel]
      have hr := dec_range (cap := s.cap) (by omega) hi hi'
      refine ih _ ?_ (by omega) hr.1 hr.2
      have h3 := dist_inc_pos (cap := s.cap) hr.1 hr.2 hh.1 hh.2 (by rw [inc_dec (by omega) hi hi']; omega)
      rw [inc_dec (by omega) hi hi'] at h3
      omega

theorem validateLoop_spec {s : Fhm α} (t : Tbl c s) (z : Nat) : ∀ n i em oc, i + n = s.cap →
    validateLoop c { s with sz := z } i em oc =
      some (oc + (todo s.mem i n).length == size { s with sz := z } && em + (n - (todo s.mem i n).length) == s.cap - (oc + (todo s.mem i n).length)) ∧
    (todo s.mem i n).length ≤ n := by
  intro n
  induction n with
  | zero => intro i em oc hi; rw [validateLoop, if_pos (by exact (by omega : i = s.cap))]; simp [todo]
  | succ n ih =>
    intro i em oc hi
    have hlt : i < s.cap := by omega
    have htodo : todo s.mem i (n + 1) = opt (s.mem i) ++ todo s.mem (i + 1) n := by
      unfold todo
      rw [List.range'_succ, List.flatMap_cons]
    rw [validateLoop, if_neg (by exact (by omega : ¬ i = s.cap)), htodo]
    by_cases h0 : (s.mem i).hash = 0
    · rw [opt_empty h0]
      obtain ⟨h1, h2⟩ := ih (i + 1) (em + 1) oc (by omega)
      simp only [at_eq (s := { s with sz := z }) hlt, Option.bind_eq_bind, Option.bind_some, if_pos h0, h1, List.nil_append]
      refine ⟨?_, by omega⟩
      rw [show em + 1 + (n - (todo s.mem (i + 1) n).length) = em + (n + 1 - (todo s.mem (i + 1) n).length) by omega]
    · rw [opt_full h0]
      have hi2 : 2 ≤ i := by
        have h1 := t.z0
        have h2 := t.z1
        rcases Nat.lt_or_ge i 2 with h | h
        · have : i = 0 ∨ i = 1 := by omega
          rcases this with rfl | rfl
          · exact absurd h1 h0
          · exact absurd h2 h0
        · exact h
      have hv : validDistance c { s with sz := z } i (s.mem i).hash = some true := by
        unfold validDistance
        exact validLoop_spec t z hi2 hlt h0 _ i rfl (Nat.le_refl _) hi2 hlt
      obtain ⟨h1, h2⟩ := ih (i + 1) em (oc + 1) (by omega)
      simp only [at_eq (s := { s with sz := z }) hlt, Option.bind_eq_bind, Option.bind_some, if_neg h0, hv, Bool.not_true, Bool.false_eq_true, if_false,
        h1, List.length_append, List.length_cons, List.length_nil]
      refine ⟨?_, by omega⟩
      rw [show oc + 1 + (todo s.mem (i + 1) n).length = oc + (0 + 1 + (todo s.mem (i + 1) n).length) by omega,
        show n - (todo s.mem (i + 1) n).length = n + 1 - (0 + 1 + (todo s.mem (i + 1) n).length) by omega]

theorem Tbl.validate {s : Fhm α} (t : Tbl c s) : validate c s = some true := by
  have hcap := t.cap
  obtain ⟨h1, h2⟩ := validateLoop_spec t s.sz s.cap 0 0 0 (by omega)
  rw [todo_all (by omega) t.z0 t.z1] at h1 h2
  unfold Fhm.validate
  rw [h1]
  have hsz := t.sz
  have hr := t.room
  have : size { s with sz := s.sz } = (cells s.mem s.cap).length := by
    unfold size; rw [if_neg (by omega), if_neg (by omega)]; omega
  rw [this]
  simp

theorem Sim.size {s : Fhm α} {st : St α} (h : Sim c s st) : size s = st.l.length := by
  rcases h.body with ⟨t, p⟩ | ⟨hz, hn, _⟩
  · have := t.length
    have := p.length_eq
    unfold Fhm.size; rw [if_neg (by omega), if_neg (by omega)]; omega
  · unfold Fhm.size; rw [if_pos hz, hn]; rfl

/-! ### Whole calls -/

/-- What a call does, for something that it may find. -/
def Good (c : Cfg κ α) (s : Fhm α) (st : St α) (op : Op α κ) : Prop :=
  ∃ f s', pickOk c.eq c.key st.l op f ∧ step c s op = some (s', (specAny f s.hasAlloc st op).2) ∧
    Sim c s' (specAny f s.hasAlloc st op).1 ∧ s'.hasAlloc = s.hasAlloc

theorem Sim.room {s : Fhm α} {st : St α} {al ok : Bool} (hc : s.cap = (room al ok st).1.cap) (t : Tbl c s)
    (p : (vals s).Perm st.l) : Sim c s (HashMap.room al ok st).1 := .live hc t (by rw [room_l]; exact p)

theorem insert_good {s : Fhm α} {st : St α} (h : Sim c s st) (x : α) (ans : AllocAns α) :
    Good c s st (.insert x ans) := by
  obtain ⟨s1, ⟨en, hs⟩, h1, h2, h3, h4, h5⟩ := entry_cases h (c.key x) ans
  simp only at h3 h5
  subst h3
  rcases h5 with ⟨i, v, r, l1, rfl, t, p, H⟩ | ⟨hr, i, rfl, t, p, hsz, P⟩ | ⟨hr, hst, hsim⟩
  · have hge := H.ge
    have hlt := H.lt
    let s2 : Fhm α := { s1 with mem := upd s1.mem 0 (s1.mem i) }
    let s3 : Fhm α := { s1 with mem := upd s2.mem i ⟨filter c (c.key x), x⟩ }
    let s4 : Fhm α := { s1 with mem := upd s3.mem 0 { s3.mem 0 with hash := 0 } }
    have e2 : put s1 0 (s1.mem i) = some s2 := put_eq (by omega)
    have e3 : put s2 i ⟨filter c (c.key x), x⟩ = some s3 := put_eq hlt
    have e4 : putHash s3 0 0 = some s4 := putHash_eq (by exact (by omega : 0 < s1.cap))
    obtain ⟨t', p'⟩ := t.over (s' := s4) (x := x) H.ge H.lt H.occ
      (by
        intro q hq
        rw [H.hash]
        show upd (upd (upd s1.mem 0 _) i _) 0 _ q = _
        rw [upd_ne _ _ (by omega)]
        by_cases hqi : q = i
        · subst hqi; rw [upd_same, upd_same]
        · rw [upd_ne _ _ hqi, upd_ne _ _ hqi, upd_ne _ _ (by omega)])
      (by
        show (upd s3.mem 0 ⟨0, (s3.mem 0).val⟩ 0).hash = 0
        rw [upd_same]) rfl rfl
    rw [H.val] at p'
    refine ⟨some (v, r), s4, l1.pick rfl, ?_, ?_, h2⟩
    · simp only [step, insert, h1, Option.bind_eq_bind, Option.bind_some, has_occ, if_true, at_eq hlt, e2, e3, e4, H.val]
      simp only [specAny]
    · simp only [specAny]
      exact .live h4 t' (swap_out (p'.trans (p.cons x)) l1.perm)
  · obtain ⟨s2, m, k1, k2, _, k3, _⟩ := P.store (x := x) t p hsz (filter_ne c _) h4
    refine ⟨none, s2, pick_none, ?_, ?_, k3.trans h2⟩
    · simp only [step, insert, h1, Option.bind_eq_bind, Option.bind_some, has_vac_occ, has_vac_ins, Bool.false_eq_true,
        if_false, k1]
      simp only [specAny, hr]
    · simp only [specAny, hr]; exact k2
  · obtain ⟨e1, e2, _⟩ := has_err hst
    refine ⟨none, s1, pick_none, ?_, ?_, h2⟩
    · simp only [step, insert, h1, Option.bind_eq_bind, Option.bind_some, e1, e2, Bool.false_eq_true,
        if_false, if_true]
      simp only [specAny, hr]
    · simp only [specAny, hr]; exact hsim

theorem tryInsert_good {s : Fhm α} {st : St α} (h : Sim c s st) (x : α) (ans : AllocAns α) :
    Good c s st (.tryInsert x ans) := by
  obtain ⟨s1, ⟨en, hs⟩, h1, h2, h3, h4, h5⟩ := entry_cases h (c.key x) ans
  simp only at h3 h5
  subst h3
  rcases h5 with ⟨i, v, r, l1, rfl, t, p, H⟩ | ⟨hr, i, rfl, t, p, hsz, P⟩ | ⟨hr, hst, hsim⟩
  · refine ⟨some (v, r), s1, l1.pick rfl, ?_, ?_, h2⟩
    · simp only [step, tryInsert, h1, Option.bind_eq_bind, Option.bind_some, has_occ, if_true, unwrap_occ, view_of H.val]
      simp only [specAny]; rfl
    · simp only [specAny]; exact Sim.room h4 t p
  · obtain ⟨s2, m, k1, k2, _, k3, _, k5, _⟩ := P.store (x := x) t p hsz (filter_ne c _) h4
    refine ⟨none, s2, pick_none, ?_, ?_, k3.trans h2⟩
    · simp only [step, tryInsert, h1, Option.bind_eq_bind, Option.bind_some, has_vac_occ, has_vac_ins, Bool.false_eq_true,
        if_false, k1, unwrap_vac, view_of (show (s2.mem i).val = x by rw [k5])]
      simp only [specAny, hr]; rfl
    · simp only [specAny, hr]; exact k2
  · obtain ⟨e1, e2, _⟩ := has_err hst
    refine ⟨none, s1, pick_none, ?_, ?_, h2⟩
    · simp only [step, tryInsert, h1, Option.bind_eq_bind, Option.bind_some, e1, e2, Bool.false_eq_true,
        if_false, if_true]
      simp only [specAny, hr]; rfl
    · simp only [specAny, hr]; exact hsim

theorem insertOrAssign_good {s : Fhm α} {st : St α} (h : Sim c s st) (x : α) (ans : AllocAns α) :
    Good c s st (.insertOrAssign x ans) := by
  obtain ⟨s1, ⟨en, hs⟩, h1, h2, h3, h4, h5⟩ := entry_cases h (c.key x) ans
  simp only at h3 h5
  subst h3
  rcases h5 with ⟨i, v, r, l1, rfl, t, p, H⟩ | ⟨hr, i, rfl, t, p, hsz, P⟩ | ⟨hr, hst, hsim⟩
  · obtain ⟨s2, k1, k2, k3, k4⟩ := H.store (x := x) t p l1.perm h4
    refine ⟨some (v, r), s2, l1.pick rfl, ?_, ?_, k3.trans h2⟩
    · simp only [step, insertOrAssign, h1, Option.bind_eq_bind, Option.bind_some, has_occ, if_true, k1, unwrap_occ,
        view_of k4]
      simp only [specAny]; rfl
    · simp only [specAny]; exact k2
  · obtain ⟨s2, m, k1, k2, _, k3, _, k5, _⟩ := P.store (x := x) t p hsz (filter_ne c _) h4
    refine ⟨none, s2, pick_none, ?_, ?_, k3.trans h2⟩
    · simp only [step, insertOrAssign, h1, Option.bind_eq_bind, Option.bind_some, has_vac_occ, has_vac_ins, Bool.false_eq_true,
        if_false, k1, unwrap_vac, view_of (show (s2.mem i).val = x by rw [k5])]
      simp only [specAny, hr]; rfl
    · simp only [specAny, hr]; exact k2
  · obtain ⟨e1, e2, _⟩ := has_err hst
    refine ⟨none, s1, pick_none, ?_, ?_, h2⟩
    · simp only [step, insertOrAssign, h1, Option.bind_eq_bind, Option.bind_some, e1, e2, Bool.false_eq_true,
        if_false, if_true]
      simp only [specAny, hr]; rfl
    · simp only [specAny, hr]; exact hsim

theorem tryInsertW_good {s : Fhm α} {st : St α} (h : Sim c s st) (k : κ) (x : α) (ans : AllocAns α)
    (hsafe : (∀ v ∈ st.l, c.eq k (c.key v) = false) ∨ (room s.hasAlloc ans.isSome st).2 = true) :
    Good c s st (.tryInsertW k x ans) := by
  obtain ⟨s1, ⟨en, hs⟩, h1, h2, h3, h4, h5⟩ := entry_cases h k ans
  simp only at h3 h5
  subst h3
  rcases h5 with ⟨i, v, r, l1, rfl, t, p, H⟩ | ⟨hr, i, rfl, t, p, hsz, P⟩ | ⟨hr, hst, hsim⟩
  · have hr : (room s.hasAlloc ans.isSome st).2 = true := by
      rcases hsafe with hh | hh
      · exact absurd l1.key (by rw [hh v l1.mem]; simp)
      · exact hh
    refine ⟨some (v, r), s1, l1.pick rfl, ?_, ?_, h2⟩
    · simp only [step, tryInsertW, h1, Option.bind_eq_bind, Option.bind_some, hr, if_true, unwrap_occ, view_of H.val,
        show Stat.has Stat.occupied Stat.occupied = true from rfl, Bool.true_or]
      simp only [specAny]; rfl
    · simp only [specAny]; exact Sim.room h4 t p
  · obtain ⟨s2, k1, k2, k3, k5⟩ := P.storeW (x := x) (e := ⟨⟨some i, Stat.vacant ||| Stat.noUnwrap⟩, filter c k⟩) t p hsz (filter_ne c _) h4
      rfl rfl
    refine ⟨none, s2, pick_none, ?_, ?_, k3.trans h2⟩
    · simp only [step, tryInsertW, h1, Option.bind_eq_bind, Option.bind_some, has_vac_occ, has_vac_ins, Bool.false_eq_true,
        if_false, k1, unwrap_vac, view_of (show (s2.mem i).val = x by rw [k5]), Bool.or_self]
      simp only [specAny, hr]; rfl
    · simp only [specAny, hr]; exact k2
  · obtain ⟨e1, e2, _⟩ := has_err hst
    refine ⟨none, s1, pick_none, ?_, ?_, h2⟩
    · simp only [step, tryInsertW, h1, Option.bind_eq_bind, Option.bind_some, e1, e2, Bool.or_true, if_true]
      simp only [specAny, hr]
      rw [(show_err hst).1, (show_err hst).2]; rfl
    · simp only [specAny, hr]; exact hsim

theorem insertOrAssignW_good {s : Fhm α} {st : St α} (h : Sim c s st) (k : κ) (x : α) (ans : AllocAns α)
    (hsafe : (∀ v ∈ st.l, c.eq k (c.key v) = false) ∨ (room s.hasAlloc ans.isSome st).2 = true) :
    Good c s st (.insertOrAssignW k x ans) := by
  obtain ⟨s1, ⟨en, hs⟩, h1, h2, h3, h4, h5⟩ := entry_cases h k ans
  simp only at h3 h5
  subst h3
  rcases h5 with ⟨i, v, r, l1, rfl, t, p, H⟩ | ⟨hr, i, rfl, t, p, hsz, P⟩ | ⟨hr, hst, hsim⟩
  · have hr : (room s.hasAlloc ans.isSome st).2 = true := by
      rcases hsafe with hh | hh
      · exact absurd l1.key (by rw [hh v l1.mem]; simp)
      · exact hh
    obtain ⟨s2, k1, k2, k3, k4⟩ := H.store (x := x) t p l1.perm h4
    refine ⟨some (v, r), s2, l1.pick rfl, ?_, ?_, k3.trans h2⟩
    · simp only [step, insertOrAssignW, h1, Option.bind_eq_bind, Option.bind_some, hr, if_true, unwrap_occ, k1, view_of k4,
        show Stat.has Stat.occupied Stat.occupied = true from rfl]
      simp only [specAny]; rfl
    · simp only [specAny]; exact k2
  · obtain ⟨s2, k1, k2, k3, k5⟩ := P.storeW (x := x) (e := ⟨⟨some i, Stat.vacant ||| Stat.noUnwrap⟩, filter c k⟩) t p hsz (filter_ne c _) h4
      rfl rfl
    refine ⟨none, s2, pick_none, ?_, ?_, k3.trans h2⟩
    · simp only [step, insertOrAssignW, h1, Option.bind_eq_bind, Option.bind_some, has_vac_occ, has_vac_ins, Bool.false_eq_true,
        if_false, k1, unwrap_vac, view_of (show (s2.mem i).val = x by rw [k5])]
      simp only [specAny, hr]; rfl
    · simp only [specAny, hr]; exact k2
  · obtain ⟨e1, e2, _⟩ := has_err hst
    refine ⟨none, s1, pick_none, ?_, ?_, h2⟩
    · simp only [step, insertOrAssignW, h1, Option.bind_eq_bind, Option.bind_some, e1, e2, Bool.false_eq_true, if_false, if_true]
      simp only [specAny, hr]; rfl
    · simp only [specAny, hr]; exact hsim

theorem remove_good {s : Fhm α} {st : St α} (h : Sim c s st) (x : α)
    (hsafe : st.cap = 0 ∨ st.stale = false) :
    Good c s st (.remove x) := by
  rcases h.body with ⟨t, p⟩ | ⟨hz, hn, hb⟩
  · obtain ⟨e, m, f1, f2⟩ := find_cases t p (c.key x)
    rcases f2 with ⟨i, v, r, l1, rfl, H⟩ | ⟨i, rfl, P⟩
    · obtain ⟨s2, m2, k1, k2, k3⟩ := H.erase (st := st) t p l1.perm h.cap
      refine ⟨some (v, r), s2, l1.pick rfl, ?_, ?_, k2⟩
      · simp only [step, remove, f1, Option.bind_eq_bind, Option.bind_some,
          show Stat.has Stat.occupied Stat.occupied = true from rfl, if_true, at_eq H.lt, k1, H.val]
        simp only [specAny]
      · simp only [specAny]; exact k3
    · refine ⟨none, s, pick_none, ?_, ?_, rfl⟩
      · simp only [step, remove, f1, Option.bind_eq_bind, Option.bind_some, has_vac_occ, Bool.false_eq_true, if_false]
        simp only [specAny]
      · simp only [specAny]; exact h
  · refine ⟨none, s, pick_none, ?_, h, rfl⟩
    rcases hb with hb | ⟨hb, hw⟩
    · simp only [step, remove, find, if_pos hb, Option.bind_eq_bind, Option.bind_some]
      rfl
    · have hw := hw (by have := h.cap; have : st.cap ≠ 0 := by omega
                        simpa [this] using hsafe)
      have hh := toI_range c (cap := s.cap) (by omega) (filter c (c.key x))
      simp only [step, remove, find, if_neg (show ¬ s.cap = 0 by omega), if_neg (show ¬ s.sz ≥ s.cap by omega)]
      rw [findLoop]
      simp only [at_eq hh.2, hw _ hh.2, true_or, if_true, Option.bind_eq_bind, Option.bind_some, has_vac_occ,
        Bool.false_eq_true, if_false, specAny]

theorem get_good {s : Fhm α} {st : St α} (h : Sim c s st) (k : κ) (f : α → α)
    (hsafe : st.cap = 0 ∨ st.stale = false) :
    Good c s st (.get k f) := by
  rcases h.body with ⟨t, p⟩ | ⟨hz, hn, hb⟩
  · have hcap := t.cap
    obtain ⟨e, m, f1, f2⟩ := find_cases t p k
    rcases f2 with ⟨i, v, r, l1, rfl, H⟩ | ⟨i, rfl, P⟩
    · obtain ⟨s2, k1, k2, k3, k4⟩ := H.poke (st := st) (f := f) t p l1.perm h.cap
      refine ⟨some (v, r), s2, l1.pick rfl, ?_, ?_, k3⟩
      · simp only [step, get, if_neg (show ¬ s.cap = 0 by omega), f1, Option.bind_eq_bind, Option.bind_some,
          show Stat.has Stat.occupied Stat.occupied = true from rfl, if_true, poke, at_eq H.lt, k1, view_of H.val]
        simp only [specAny]
      · simp only [specAny]; exact k2
    · refine ⟨none, s, pick_none, ?_, ?_, rfl⟩
      · simp only [step, get, if_neg (show ¬ s.cap = 0 by omega), f1, Option.bind_eq_bind, Option.bind_some, has_vac_occ,
          Bool.false_eq_true, if_false, poke]
        simp only [specAny]; rfl
      · simp only [specAny]; exact h
  · refine ⟨none, s, pick_none, ?_, h, rfl⟩
    rcases hb with hb | ⟨hb, hw⟩
    · simp only [step, get, if_pos hb, Option.bind_eq_bind, Option.bind_some, poke]
      rfl
    · have hw := hw (by have := h.cap; have : st.cap ≠ 0 := by omega
                        simpa [this] using hsafe)
      have hh := toI_range c (cap := s.cap) (by omega) (filter c k)
      simp only [step, get, find, if_neg (show ¬ s.cap = 0 by omega), if_neg (show ¬ s.sz ≥ s.cap by omega)]
      rw [findLoop]
      simp only [at_eq hh.2, hw _ hh.2, true_or, if_true, Option.bind_eq_bind, Option.bind_some, has_vac_occ,
        Bool.false_eq_true, if_false, poke]
      rfl

theorem orInsert_good {s : Fhm α} {st : St α} (h : Sim c s st) (k : κ) (x : α) (f : α → α) (ans : AllocAns α) :
    Good c s st (.orInsert k x f ans) := by
  obtain ⟨s1, ⟨en, hs⟩, h1, h2, h3, h4, h5⟩ := entry_cases h k ans
  simp only at h3 h5
  subst h3
  rcases h5 with ⟨i, v, r, l1, rfl, t, p, H⟩ | ⟨hr, i, rfl, t, p, hsz, P⟩ | ⟨hr, hst, hsim⟩
  · obtain ⟨s2, k1, k2, k3, k4⟩ := H.poke (f := f) t p l1.perm h4
    refine ⟨some (v, r), s2, l1.pick rfl, ?_, ?_, k3.trans h2⟩
    · simp only [step, orInsert, h1, Option.bind_eq_bind, Option.bind_some, has_occ, if_true, poke, at_eq H.lt, k1, view_of H.val]
      simp only [specAny]
    · simp only [specAny]; exact k2
  · obtain ⟨s2, m, k1, k2, t2, k3, H2, k5, p2⟩ := P.store (st := (room s.hasAlloc ans.isSome st).1) (x := x) t p hsz (filter_ne c _) h4
    obtain ⟨s3, j1, j2, j3, j4⟩ := H2.poke (f := f) (st := (room s.hasAlloc ans.isSome st).1) t2 p2 (List.Perm.refl _) k2.cap
    refine ⟨none, s3, pick_none, ?_, ?_, j3.trans (k3.trans h2)⟩
    · simp only [step, orInsert, h1, Option.bind_eq_bind, Option.bind_some, has_vac_occ, has_vac_ins, Bool.false_eq_true,
        if_false, k1, poke, at_eq H2.lt, j1, view_of H2.val]
      simp only [specAny, hr]
    · simp only [specAny, hr]
      exact j2
  · obtain ⟨e1, e2, _⟩ := has_err hst
    refine ⟨none, s1, pick_none, ?_, ?_, h2⟩
    · simp only [step, orInsert, h1, Option.bind_eq_bind, Option.bind_some, e1, e2, Bool.false_eq_true,
        if_false, if_true, poke]
      simp only [specAny, hr]; rfl
    · simp only [specAny, hr]; exact hsim

theorem orInsertW_good {s : Fhm α} {st : St α} (h : Sim c s st) (k : κ) (x : α) (ans : AllocAns α)
    (hsafe : (∀ v ∈ st.l, c.eq k (c.key v) = false) ∨ (room s.hasAlloc ans.isSome st).2 = true) :
    Good c s st (.orInsertW k x ans) := by
  obtain ⟨s1, ⟨en, hs⟩, h1, h2, h3, h4, h5⟩ := entry_cases h k ans
  simp only at h3 h5
  subst h3
  rcases h5 with ⟨i, v, r, l1, rfl, t, p, H⟩ | ⟨hr, i, rfl, t, p, hsz, P⟩ | ⟨hr, hst, hsim⟩
  · have hr : (room s.hasAlloc ans.isSome st).2 = true := by
      rcases hsafe with hh | hh
      · exact absurd l1.key (by rw [hh v l1.mem]; simp)
      · exact hh
    refine ⟨some (v, r), s1, l1.pick rfl, ?_, ?_, h2⟩
    · simp only [step, orInsertW, h1, Option.bind_eq_bind, Option.bind_some, hr, if_true, view_of H.val,
        show Stat.has Stat.occupied Stat.occupied = true from rfl,
        show Stat.has Stat.occupied Stat.insertError = false from rfl, Bool.not_false]
      simp only [specAny]
    · simp only [specAny]; exact Sim.room h4 t p
  · obtain ⟨s2, k1, k2, k3, k5⟩ := P.storeW (x := x) (e := ⟨⟨some i, Stat.vacant ||| Stat.noUnwrap⟩, filter c k⟩) t p hsz (filter_ne c _) h4
      rfl rfl
    refine ⟨none, s2, pick_none, ?_, ?_, k3.trans h2⟩
    · simp only [step, orInsertW, h1, Option.bind_eq_bind, Option.bind_some, has_vac_occ, has_vac_ins, Bool.false_eq_true,
        Bool.not_false, if_true, if_false, k1, view_of (show (s2.mem i).val = x by rw [k5])]
      simp only [specAny, hr]
    · simp only [specAny, hr]; exact k2
  · obtain ⟨e1, e2, _⟩ := has_err hst
    refine ⟨none, s1, pick_none, ?_, ?_, h2⟩
    · simp only [step, orInsertW, h1, Option.bind_eq_bind, Option.bind_some, e2, Bool.not_true, Bool.false_eq_true, if_false]
      simp only [specAny, hr]; rfl
    · simp only [specAny, hr]; exact hsim

theorem insertEntry_good {s : Fhm α} {st : St α} (h : Sim c s st) (k : κ) (x : α) (ans : AllocAns α) :
    Good c s st (.insertEntry k x ans) := by
  obtain ⟨s1, ⟨en, hs⟩, h1, h2, h3, h4, h5⟩ := entry_cases h k ans
  simp only at h3 h5
  subst h3
  rcases h5 with ⟨i, v, r, l1, rfl, t, p, H⟩ | ⟨hr, i, rfl, t, p, hsz, P⟩ | ⟨hr, hst, hsim⟩
  · obtain ⟨s2, k1, k2, k3, k4⟩ := H.store (x := x) t p l1.perm h4
    refine ⟨some (v, r), s2, l1.pick rfl, ?_, ?_, k3.trans h2⟩
    · simp only [step, insertEntry, h1, Option.bind_eq_bind, Option.bind_some, has_occ, if_true, k1, view_of k4]
      simp only [specAny]
    · simp only [specAny]; exact k2
  · obtain ⟨s2, m, k1, k2, _, k3, _, k5, _⟩ := P.store (x := x) t p hsz (filter_ne c _) h4
    refine ⟨none, s2, pick_none, ?_, ?_, k3.trans h2⟩
    · simp only [step, insertEntry, h1, Option.bind_eq_bind, Option.bind_some, has_vac_occ, has_vac_ins, Bool.false_eq_true,
        if_false, k1, view_of (show (s2.mem i).val = x by rw [k5])]
      simp only [specAny, hr]
    · simp only [specAny, hr]; exact k2
  · obtain ⟨e1, e2, _⟩ := has_err hst
    refine ⟨none, s1, pick_none, ?_, ?_, h2⟩
    · simp only [step, insertEntry, h1, Option.bind_eq_bind, Option.bind_some, e1, e2, Bool.false_eq_true,
        if_false, if_true]
      simp only [specAny, hr]; rfl
    · simp only [specAny, hr]; exact hsim

theorem insertEntryW_good {s : Fhm α} {st : St α} (h : Sim c s st) (k : κ) (x : α) (ans : AllocAns α)
    (hsafe : (∀ v ∈ st.l, c.eq k (c.key v) = false) ∨ (room s.hasAlloc ans.isSome st).2 = true) :
    Good c s st (.insertEntryW k x ans) := by
  obtain ⟨s1, ⟨en, hs⟩, h1, h2, h3, h4, h5⟩ := entry_cases h k ans
  simp only at h3 h5
  subst h3
  rcases h5 with ⟨i, v, r, l1, rfl, t, p, H⟩ | ⟨hr, i, rfl, t, p, hsz, P⟩ | ⟨hr, hst, hsim⟩
  · have hr : (room s.hasAlloc ans.isSome st).2 = true := by
      rcases hsafe with hh | hh
      · exact absurd l1.key (by rw [hh v l1.mem]; simp)
      · exact hh
    obtain ⟨s2, k1, k2, k3, k4⟩ := H.store (x := x) t p l1.perm h4
    refine ⟨some (v, r), s2, l1.pick rfl, ?_, ?_, k3.trans h2⟩
    · simp only [step, insertEntryW, h1, Option.bind_eq_bind, Option.bind_some, hr, if_true, k1, view_of k4,
        show Stat.has Stat.occupied Stat.occupied = true from rfl,
        show Stat.has Stat.occupied Stat.insertError = false from rfl, Bool.not_false]
      simp only [specAny]
    · simp only [specAny]; exact k2
  · obtain ⟨s2, k1, k2, k3, k5⟩ := P.storeW (x := x) (e := ⟨⟨some i, Stat.vacant ||| Stat.noUnwrap⟩, filter c k⟩) t p hsz (filter_ne c _) h4
      rfl rfl
    refine ⟨none, s2, pick_none, ?_, ?_, k3.trans h2⟩
    · simp only [step, insertEntryW, h1, Option.bind_eq_bind, Option.bind_some, has_vac_occ, has_vac_ins, Bool.false_eq_true,
        Bool.not_false, if_true, if_false, k1, view_of (show (s2.mem i).val = x by rw [k5])]
      simp only [specAny, hr]
    · simp only [specAny, hr]; exact k2
  · obtain ⟨e1, e2, _⟩ := has_err hst
    refine ⟨none, s1, pick_none, ?_, ?_, h2⟩
    · simp only [step, insertEntryW, h1, Option.bind_eq_bind, Option.bind_some, e2, Bool.not_true, Bool.false_eq_true, if_false]
      simp only [specAny, hr]; rfl
    · simp only [specAny, hr]; exact hsim

theorem removeEntry_good {s : Fhm α} {st : St α} (h : Sim c s st) (k : κ) (ans : AllocAns α)
    (hsafe : (∀ v ∈ st.l, c.eq k (c.key v) = false) ∨ (room s.hasAlloc ans.isSome st).2 = true) :
    Good c s st (.removeEntry k ans) := by
  obtain ⟨s1, ⟨en, hs⟩, h1, h2, h3, h4, h5⟩ := entry_cases h k ans
  simp only at h3 h5
  subst h3
  rcases h5 with ⟨i, v, r, l1, rfl, t, p, H⟩ | ⟨hr, i, rfl, t, p, hsz, P⟩ | ⟨hr, hst, hsim⟩
  · have hr : (room s.hasAlloc ans.isSome st).2 = true := by
      rcases hsafe with hh | hh
      · exact absurd l1.key (by rw [hh v l1.mem]; simp)
      · exact hh
    obtain ⟨s2, m, k1, k2, k3⟩ := H.erase t p l1.perm h4
    refine ⟨some (v, r), s2, l1.pick rfl, ?_, ?_, k2.trans h2⟩
    · simp only [step, removeEntry, h1, Option.bind_eq_bind, Option.bind_some, hr, if_true, ne_eq, not_true_eq_false, if_false, k1]
      simp only [specAny]
      rfl
    · simp only [specAny]; exact k3
  · refine ⟨none, s1, pick_none, ?_, ?_, h2⟩
    · simp only [step, removeEntry, h1, Option.bind_eq_bind, Option.bind_some,
        if_pos (show (Stat.vacant ||| Stat.noUnwrap) ≠ Stat.occupied by decide)]
      simp only [specAny]
      rfl
    · simp only [specAny]; exact Sim.room h4 t p
  · obtain ⟨e1, e2, e3⟩ := has_err hst
    refine ⟨none, s1, pick_none, ?_, ?_, h2⟩
    · simp only [step, removeEntry, h1, Option.bind_eq_bind, Option.bind_some, if_pos e3]
      simp only [specAny]
      rfl
    · simp only [specAny]; exact hsim

theorem andModify_good {s : Fhm α} {st : St α} (h : Sim c s st) (k : κ) (f : α → α) (ans : AllocAns α)
    (hsafe : (∀ v ∈ st.l, c.eq k (c.key v) = false) ∨ (room s.hasAlloc ans.isSome st).2 = true) :
    Good c s st (.andModify k f ans) := by
  obtain ⟨s1, ⟨en, hs⟩, h1, h2, h3, h4, h5⟩ := entry_cases h k ans
  simp only at h3 h5
  subst h3
  rcases h5 with ⟨i, v, r, l1, rfl, t, p, H⟩ | ⟨hr, i, rfl, t, p, hsz, P⟩ | ⟨hr, hst, hsim⟩
  · have hr : (room s.hasAlloc ans.isSome st).2 = true := by
      rcases hsafe with hh | hh
      · exact absurd l1.key (by rw [hh v l1.mem]; simp)
      · exact hh
    obtain ⟨s2, k1, k2, k3, k4⟩ := H.poke (f := f) t p l1.perm h4
    refine ⟨some (v, r), s2, l1.pick rfl, ?_, ?_, k3.trans h2⟩
    · simp only [step, andModify, h1, Option.bind_eq_bind, Option.bind_some, hr, if_true, at_eq H.lt, k1, unwrap,
        show Stat.has Stat.occupied Stat.occupied = true from rfl, view_of k4]
      simp only [specAny]
    · simp only [specAny]; exact k2
  · refine ⟨none, s1, pick_none, ?_, ?_, h2⟩
    · simp only [step, andModify, h1, Option.bind_eq_bind, Option.bind_some,
        if_neg (show ¬ (Stat.vacant ||| Stat.noUnwrap) = Stat.occupied by decide), unwrap, has_vac_occ, Bool.false_eq_true,
        if_false]
      simp only [specAny]; rfl
    · simp only [specAny]; exact Sim.room h4 t p
  · obtain ⟨e1, e2, e3⟩ := has_err hst
    refine ⟨none, s1, pick_none, ?_, ?_, h2⟩
    · simp only [step, andModify, h1, Option.bind_eq_bind, Option.bind_some, if_neg e3, unwrap, e1, Bool.false_eq_true,
        if_false]
      simp only [specAny]; rfl
    · simp only [specAny]; exact hsim

/-- Questions about an entry. -/
theorem ask_good {s : Fhm α} {st : St α} (h : Sim c s st) (k : κ) (ans : AllocAns α) :
    ∃ s1 e f, entry c s k ans = some (s1, e) ∧ Sim c s1 (room s.hasAlloc ans.isSome st).1 ∧ s1.hasAlloc = s.hasAlloc ∧
      (∀ op : Op α κ, keyOf c.key op = some k → pickOk c.eq c.key st.l op f) ∧
      Stat.has e.ent.stats Stat.occupied = f.isSome ∧
      Stat.has e.ent.stats Stat.insertError = !(room s.hasAlloc ans.isSome st).2 := by
  obtain ⟨s1, e, h1, h2, h3, h4, h5⟩ := entry_cases h k ans
  rcases h5 with ⟨i, v, r, l1, e1, t, p, H⟩ | ⟨hr, i, e1, t, p, hsz, P⟩ | ⟨hr, hst, hsim⟩
  · refine ⟨s1, e, some (v, r), h1, Sim.room h4 t p, h2, fun _ => l1.pick, ?_⟩
    rw [e1]
    refine ⟨has_occ, ?_⟩
    cases (room s.hasAlloc ans.isSome st).2
    · show Stat.has (Stat.occupied ||| Stat.insertError) Stat.insertError = true; decide
    · show Stat.has Stat.occupied Stat.insertError = false; decide
  · refine ⟨s1, e, none, h1, Sim.room h4 t p, h2, fun _ _ => pick_none, ?_⟩
    rw [e1, hr]; exact ⟨has_vac_occ, has_vac_ins⟩
  · refine ⟨s1, e, none, h1, hsim, h2, fun _ _ => pick_none, ?_⟩
    obtain ⟨a, b, _⟩ := has_err hst
    rw [a, b, hr]; exact ⟨rfl, rfl⟩

/-- Every call. -/
theorem step_good {s : Fhm α} {st : St α} (h : Sim c s st) (op : Op α κ)
    (hok : okAny c.eq c.key s.hasAlloc st op) : Good c s st op := by
  cases op with
  | insert x ans => exact insert_good h x ans
  | tryInsert x ans => exact tryInsert_good h x ans
  | insertOrAssign x ans => exact insertOrAssign_good h x ans
  | remove x => exact remove_good h x hok
  | orInsert k x f ans => exact orInsert_good h k x f ans
  | insertEntry k x ans => exact insertEntry_good h k x ans
  | removeEntry k ans => exact removeEntry_good h k ans hok
  | andModify k f ans => exact andModify_good h k f ans hok
  | occupied k ans =>
    obtain ⟨s1, e, f, h1, h2, h3, h0, h4, _⟩ := ask_good h k ans
    exact ⟨f, s1, h0 _ rfl, by simp only [step, h1, Option.bind_eq_bind, Option.bind_some, occupied, h4, specAny], h2, h3⟩
  | contains k ans =>
    obtain ⟨s1, e, f, h1, h2, h3, h0, h4, _⟩ := ask_good h k ans
    exact ⟨f, s1, h0 _ rfl, by simp only [step, contains, h1, Option.bind_eq_bind, Option.bind_some, h4, specAny], h2, h3⟩
  | insertError k ans =>
    obtain ⟨s1, e, f, h1, h2, h3, h0, _, h4⟩ := ask_good h k ans
    exact ⟨f, s1, h0 _ rfl, by simp only [step, h1, Option.bind_eq_bind, Option.bind_some, insertError, h4, specAny], h2, h3⟩
  | orInsertW k x ans => exact orInsertW_good h k x ans hok
  | insertEntryW k x ans => exact insertEntryW_good h k x ans hok
  | tryInsertW k x ans => exact tryInsertW_good h k x ans hok
  | insertOrAssignW k x ans => exact insertOrAssignW_good h k x ans hok
  | get k f => exact get_good h k f hok
  | size => exact ⟨none, s, pick_none, by simp only [step, h.size, specAny], h, rfl⟩
  | isEmpty =>
    refine ⟨none, s, pick_none, ?_, h, rfl⟩
    simp only [step, isEmpty, h.size, specAny]
    cases st.l <;> rfl
  | capacity => exact ⟨none, s, pick_none, by simp only [step, capacity, h.cap, specAny], h, rfl⟩
  | validate =>
    have hv : validate c s = some true := by
      rcases h.body with ⟨t, p⟩ | ⟨hz, hn, hb⟩
      · exact t.validate
      · refine validate_blank hz ?_
        rcases hb with hb | ⟨hb, hw⟩
        · intro i hi; omega
        · have hsafe : st.cap = 0 ∨ st.stale = false := hok
          have := h.cap
          have : st.cap ≠ 0 := by omega
          exact hw (by simpa [this] using hsafe)
    exact ⟨none, s, pick_none, by simp only [step, hv, Option.bind_eq_bind, Option.bind_some, specAny], h, rfl⟩
  | clear =>
    refine ⟨none, { s with sz := 0 }, pick_none, by simp [step, clear, specAny], ⟨h.cap, .inr ⟨rfl, rfl, ?_⟩⟩, rfl⟩
    rcases h.body with ⟨t, p⟩ | ⟨hz, hn, hb⟩
    · exact .inr ⟨t.cap, fun e => by simp [specAny] at e⟩
    · rcases hb with hb | ⟨hb, _⟩
      · exact .inl hb
      · exact .inr ⟨hb, fun e => by simp [specAny] at e⟩

theorem Tbl.occ_eq {s : Fhm α} (t : Tbl c s) : occ s 0 s.cap = occ s 2 (s.cap - 2) := by
  have := t.cap
  conv => lhs; rw [show s.cap = (s.cap - 2) + 1 + 1 by omega, occ_succ, if_pos t.z0, occ_succ, if_pos t.z1]

theorem Tbl.occ_vals {s : Fhm α} (t : Tbl c s) : (occ s 0 s.cap).map (fun j => (s.mem j).val) = vals s := by
  rw [t.occ_eq]
  unfold occ vals cells
  rw [List.filter_map, List.map_map]
  rfl

end CCC.Fhm.Loose
