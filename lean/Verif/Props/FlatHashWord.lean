import Verif.Model.FlatHashWord
import Verif.Props.FlatDequeWord
import Verif.Proof.Double
import Verif.Props.FlatHashMap
/-
C80, flat hash map: with `size_t` arithmetic, the 128-bit product and the load test in floating point, the calls do what the
model with whole numbers says, up to 2^50 slots.
-/
namespace CCC.Fhm
open CCC HashMap CCC.Word
variable {α κ : Type} (c : Cfg κ α)

/-- At most 2^50 slots, and the size within the capacity. -/
def Fits50 (s : Fhm α) : Prop := s.cap ≤ 2 ^ 50 ∧ s.sz ≤ s.cap

theorem toI_64 {cap : Nat} (h : cap ≤ 2 ^ 50) (x : UInt64) : toI64 c cap x = toI c cap x := by
  unfold toI64 toI
  have hx := x.toNat_lt
  have h1 : x.toNat * cap < 2 ^ 128 := by
    calc x.toNat * cap ≤ x.toNat * 2 ^ 50 := Nat.mul_le_mul_left _ h
      _ < 2 ^ 64 * 2 ^ 50 := by omega
      _ < 2 ^ 128 := by omega
  have h2 : x.toNat * cap / 2 ^ 64 < 2 ^ 64 := by omega
  rw [Nat.mod_eq_of_lt h1, Nat.mod_eq_of_lt h2]

theorem toI_bnd {cap : Nat} (h : 3 ≤ cap) (x : UInt64) : 2 ≤ toI c cap x ∧ toI c cap x < cap := by
  unfold toI
  have hx := x.toNat_lt
  have h1 : x.toNat * cap / 2 ^ 64 < cap := by
    rw [Nat.div_lt_iff_lt_mul (by decide), Nat.mul_comm cap]
    exact Nat.mul_lt_mul_of_pos_right hx (by omega)
  have h2 : x.toNat % cap < cap := Nat.mod_lt _ (by omega)
  dsimp only
  split <;> split <;> omega

theorem increment_64 {cap i : Nat} (h : cap ≤ 2 ^ 50) (hi : i < cap) : increment64 cap i = increment cap i := by
  unfold increment64 increment
  rw [Word.add_eq (by omega)]

theorem increment_ge (cap : Nat) {i : Nat} (hi : 2 ≤ i) : 2 ≤ increment cap i := by
  unfold increment; split <;> omega

theorem distance_64 {cap i j : Nat} (h : cap ≤ 2 ^ 50) (hi : i < cap) (h1 : 2 ≤ i) (hj : j < cap) :
    distance64 cap i j = distance cap i j := by
  unfold distance64 distance
  split
  · rw [Word.sub_eq (a := cap) (by omega) (by omega), Word.add_eq (by omega), Word.sub_eq (by omega) (by omega)]
  · rw [Word.sub_eq (by omega) (by omega)]

theorem distance_le {cap i j : Nat} (hi : i < cap) : distance cap i j ≤ cap := by
  unfold distance; split <;> omega

theorem at_lt {s : Fhm α} {i : Nat} {x : Cell α} (h : at_ s i = some x) : i < s.cap := by
  unfold at_ at h; split at h
  · assumption
  · cases h

theorem put_cs {s t : Fhm α} {i : Nat} {x : Cell α} (h : put s i x = some t) : t.cap = s.cap ∧ t.sz = s.sz := by
  unfold put at h; split at h
  · cases h; exact ⟨rfl, rfl⟩
  · cases h

theorem putHash_cs {s t : Fhm α} {i : Nat} {x : UInt64} (h : putHash s i x = some t) : t.cap = s.cap ∧ t.sz = s.sz := by
  unfold putHash at h
  simp only [bind, Option.bind_eq_some_iff] at h
  obtain ⟨y, _, h⟩ := h
  exact put_cs h

theorem swap_cs {s t : Fhm α} {i j k : Nat} (h : swap s i j k = some t) : t.cap = s.cap ∧ t.sz = s.sz := by
  unfold swap at h; split at h
  · cases h; exact ⟨rfl, rfl⟩
  · simp only [bind, Option.bind_eq_some_iff] at h
    obtain ⟨_, _, s1, h1, _, _, s2, h2, _, _, h3⟩ := h
    have := put_cs h1; have := put_cs h2; have := put_cs h3
    omega

theorem sizePlus_64 {s : Fhm α} (h : Fits50 s) : sizePlus64 s 1 = sizePlus s 1 := by
  unfold sizePlus64 sizePlus
  obtain ⟨h1, h2⟩ := h
  rw [Word.add_eq (by omega)]

theorem sizePlus_fits {s : Fhm α} (h : Fits50 s) : Fits50 (sizePlus s 1) := by
  refine ⟨h.1, ?_⟩
  unfold sizePlus; dsimp only; split <;> omega

theorem sizeMinus_64 {s : Fhm α} (h : Fits50 s) : sizeMinus64 s 1 = sizeMinus s 1 := by
  unfold sizeMinus64 sizeMinus
  obtain ⟨h1, h2⟩ := h
  split
  · rfl
  · rw [Word.sub_eq (by omega) (by omega)]

theorem sizeMinus_fits {s : Fhm α} (h : Fits50 s) : Fits50 (sizeMinus s 1) := by
  refine ⟨h.1, ?_⟩
  have := h.2
  unfold sizeMinus; dsimp only; split <;> omega

theorem size_64 {s : Fhm α} (h : Fits50 s) : size64 s = size s := by
  unfold size64 size
  obtain ⟨h1, h2⟩ := h
  split
  · rfl
  · split
    · have e : s.sz = 1 := by omega
      rw [e]; decide
    · rw [Word.sub_eq (by omega) (by omega)]

theorem findLoop_64 (s : Fhm α) (k : κ) (hash : UInt64) (hs : s.cap ≤ 2 ^ 50) (i dist : Nat) (r : Ent × Nat)
    (h : findLoop c s k hash i dist = some r) :
    2 ≤ i → dist ≤ s.cap + 1 → findLoop64 c s k hash i dist = some r ∧ ∀ j, r.1.e = some j → 2 ≤ j := by
  revert h
  refine findLoop.partial_correctness c s k hash
    (fun i dist r => 2 ≤ i → dist ≤ s.cap + 1 → findLoop64 c s k hash i dist = some r ∧ ∀ j, r.1.e = some j → 2 ≤ j) ?_ i dist r
  intro f ih i dist r h hi hd
  simp only [bind, Option.bind_eq_some_iff] at h
  obtain ⟨x, hx, h⟩ := h
  have hlt := at_lt hx
  have hb := toI_bnd c (cap := s.cap) (by omega) x.hash
  rw [findLoop64.eq_def, hx]
  simp only [bind, Option.bind_some, toI_64 c hs, distance_64 hs hlt hi hb.2]
  split at h
  · rename_i hc
    rw [if_pos hc]; cases h; exact ⟨rfl, fun j hj => by cases hj; exact hi⟩
  rename_i hc
  rw [if_neg hc]
  split at h
  · rename_i hc
    rw [if_pos hc]; cases h; exact ⟨rfl, fun j hj => by cases hj; exact hi⟩
  rename_i hc2
  rw [if_neg hc2, increment_64 hs hlt, Word.add_eq (by omega)]
  have hle := distance_le (cap := s.cap) (j := toI c s.cap x.hash) hlt
  exact ih _ _ _ h (increment_ge _ hi) (by
    by_cases hq : dist > distance s.cap i (toI c s.cap x.hash)
    · exact absurd (Or.inr hq) hc
    · omega)

theorem find_64 {s : Fhm α} (hs : Fits50 s) {k : κ} {hash : UInt64} {r : Ent × Nat} (h : find c s k hash = some r) :
    find64 c s k hash = some r ∧ ∀ j, r.1.e = some j → 2 ≤ j := by
  unfold find at h
  unfold find64
  split at h
  · rename_i hc; rw [if_pos hc]; cases h; exact ⟨rfl, fun j hj => by cases hj⟩
  rename_i hc; rw [if_neg hc]
  split at h
  · rename_i hc; rw [if_pos hc]; cases h; exact ⟨rfl, fun j hj => by cases hj⟩
  rename_i hc2; rw [if_neg hc2, toI_64 c hs.1]
  have h2 : 2 ≤ toI c s.cap hash := by unfold toI; dsimp only; split <;> split <;> omega
  exact findLoop_64 c s k hash hs.1 _ _ r h h2 (by omega)

theorem insertLoop_64 (s : Fhm α) (i dist n : Nat) (r : Fhm α × Nat) (h : insertLoop c s i dist n = some r) :
    Fits50 s → 2 ≤ i → dist ≤ s.cap + 1 → insertLoop64 c s i dist n = some r ∧ Fits50 r.1 ∧ r.1.cap = s.cap := by
  revert h
  refine insertLoop.partial_correctness c
    (fun s i dist n r => Fits50 s → 2 ≤ i → dist ≤ s.cap + 1 →
      insertLoop64 c s i dist n = some r ∧ Fits50 r.1 ∧ r.1.cap = s.cap) ?_ s i dist n r
  intro f ih s i dist n r h hs hi hd
  simp only [bind, Option.bind_eq_some_iff] at h
  obtain ⟨x, hx, h⟩ := h
  have hlt := at_lt hx
  have h50 := hs.1
  have hb := toI_bnd c (cap := s.cap) (by omega) x.hash
  have hle := distance_le (cap := s.cap) (j := toI c s.cap x.hash) hlt
  rw [insertLoop64.eq_def, hx]
  simp only [bind, Option.bind_some, toI_64 c hs.1, distance_64 hs.1 hlt hi hb.2]
  split at h
  · rename_i hc
    rw [if_pos hc]
    simp only [Option.bind_eq_some_iff] at h
    obtain ⟨f0, h0, s1, h1, s2, h2, s3, h3, h⟩ := h
    have c1 := put_cs h1
    have f1 : Fits50 s1 := by unfold Fits50; rw [c1.1, c1.2]; exact hs
    have c2 := putHash_cs h2
    have c3 := putHash_cs h3
    have f2 := sizePlus_fits f1
    rw [h0, Option.bind_some, h1, Option.bind_some, sizePlus_64 f1, h2, Option.bind_some, h3, Option.bind_some]
    refine ⟨h, ?_⟩
    cases h
    refine ⟨?_, ?_⟩
    · show Fits50 s3; unfold Fits50; rw [c3.1, c3.2, c2.1, c2.2]; exact f2
    · show s3.cap = s.cap; rw [c3.1, c2.1]; exact c1.1
  rename_i hc
  rw [if_neg hc]
  split at h
  · rename_i hc2
    rw [if_pos hc2]
    simp only [Option.bind_eq_some_iff] at h
    obtain ⟨s1, h1, h⟩ := h
    have c1 := swap_cs h1
    have f1 : Fits50 s1 := by unfold Fits50; rw [c1.1, c1.2]; exact hs
    rw [h1, Option.bind_some, increment_64 f1.1 (by omega), Word.add_eq (by omega)]
    have := ih _ _ _ _ _ h f1 (increment_ge _ hi) (by omega)
    rw [c1.1] at this
    rw [c1.1]
    exact this
  rename_i hc2
  rw [if_neg hc2, increment_64 hs.1 hlt, Word.add_eq (by omega)]
  exact ih _ _ _ _ _ h hs (increment_ge _ hi) (by omega)

theorem insertAt_64 {s : Fhm α} (hs : Fits50 s) {x : α} {hash : UInt64} {i : Nat} (hi : 2 ≤ i) {r : Fhm α × Nat}
    (h : insertAt c s x hash i = some r) : insertAt64 c s x hash i = some r ∧ Fits50 r.1 ∧ r.1.cap = s.cap := by
  unfold insertAt at h
  unfold insertAt64
  simp only [bind, Option.bind_eq_some_iff] at h
  obtain ⟨s1, h1, h⟩ := h
  have c1 := put_cs h1
  have f1 : Fits50 s1 := by unfold Fits50; rw [c1.1, c1.2]; exact hs
  have h50 := f1.1
  have hlt : i < s1.cap := by
    rw [insertLoop.eq_def] at h
    simp only [bind, Option.bind_eq_some_iff] at h
    obtain ⟨y, hy, _⟩ := h
    exact at_lt hy
  have hb := toI_bnd c (cap := s1.cap) (by omega) hash
  rw [h1]
  simp only [bind, Option.bind_some]
  rw [toI_64 c f1.1, distance_64 f1.1 hlt hi hb.2]
  have hle := distance_le (cap := s1.cap) (j := toI c s1.cap hash) hlt
  rw [← c1.1]
  exact insertLoop_64 c _ _ _ _ _ h f1 hi (by omega)

theorem eraseLoop_64 (s : Fhm α) (i next n : Nat) (r : Fhm α × Nat) (h : eraseLoop c s i next n = some r) :
    Fits50 s → 2 ≤ next → eraseLoop64 c s i next n = some r ∧ Fits50 r.1 ∧ r.1.cap = s.cap := by
  revert h
  refine eraseLoop.partial_correctness c
    (fun s i next n r => Fits50 s → 2 ≤ next → eraseLoop64 c s i next n = some r ∧ Fits50 r.1 ∧ r.1.cap = s.cap) ?_ s i next n r
  intro f ih s i next n r h hs hi
  simp only [bind, Option.bind_eq_some_iff] at h
  obtain ⟨x, hx, h⟩ := h
  have hlt := at_lt hx
  have hb := toI_bnd c (cap := s.cap) (by omega) x.hash
  rw [eraseLoop64.eq_def, hx]
  simp only [bind, Option.bind_some, toI_64 c hs.1, distance_64 hs.1 hlt hi hb.2]
  split at h
  · rename_i hc
    rw [if_pos hc]
    simp only [Option.bind_eq_some_iff] at h
    obtain ⟨s1, h1, h⟩ := h
    have c1 := putHash_cs h1
    have f1 : Fits50 s1 := by unfold Fits50; rw [c1.1, c1.2]; exact hs
    rw [h1, Option.bind_some, sizeMinus_64 f1]
    refine ⟨h, ?_⟩
    cases h
    exact ⟨sizeMinus_fits f1, c1.1⟩
  · rename_i hc
    rw [if_neg hc]
    simp only [Option.bind_eq_some_iff] at h
    obtain ⟨s1, h1, h⟩ := h
    have c1 := swap_cs h1
    have f1 : Fits50 s1 := by unfold Fits50; rw [c1.1, c1.2]; exact hs
    rw [h1, Option.bind_some, increment_64 f1.1 (by omega), ← c1.1]
    exact ih _ _ _ _ _ h f1 (increment_ge _ hi)

theorem erase_64 {s : Fhm α} (hs : Fits50 s) {i : Nat} (hi : 2 ≤ i) {r : Fhm α × Nat} (h : erase c s i = some r) :
    erase64 c s i = some r ∧ Fits50 r.1 ∧ r.1.cap = s.cap := by
  unfold erase at h
  unfold erase64
  simp only [bind, Option.bind_eq_some_iff] at h
  obtain ⟨s1, h1, h⟩ := h
  have c1 := putHash_cs h1
  have f1 : Fits50 s1 := by unfold Fits50; rw [c1.1, c1.2]; exact hs
  have hlt : i < s1.cap := by
    unfold putHash at h1
    simp only [bind, Option.bind_eq_some_iff] at h1
    obtain ⟨y, hy, _⟩ := h1
    rw [c1.1]; exact at_lt hy
  rw [h1]
  simp only [bind, Option.bind_some]
  rw [increment_64 f1.1 hlt, ← c1.1]
  exact eraseLoop_64 c _ _ _ _ _ h f1 (increment_ge _ hi)

theorem insertLoop_cap (s : Fhm α) (i dist n : Nat) (r : Fhm α × Nat) (h : insertLoop c s i dist n = some r) :
    r.1.cap = s.cap := by
  revert h
  refine insertLoop.partial_correctness c (fun s i dist n r => r.1.cap = s.cap) ?_ s i dist n r
  intro f ih s i dist n r h
  simp only [bind, Option.bind_eq_some_iff] at h
  obtain ⟨x, hx, h⟩ := h
  split at h
  · simp only [Option.bind_eq_some_iff] at h
    obtain ⟨f0, h0, s1, h1, s2, h2, s3, h3, h⟩ := h
    have c1 := put_cs h1
    have c2 := putHash_cs h2
    have c3 := putHash_cs h3
    cases h
    show s3.cap = s.cap; rw [c3.1, c2.1]; exact c1.1
  split at h
  · simp only [Option.bind_eq_some_iff] at h
    obtain ⟨s1, h1, h⟩ := h
    exact (ih _ _ _ _ _ h).trans (swap_cs h1).1
  · exact ih _ _ _ _ _ h

theorem insertAt_cap {s : Fhm α} {x : α} {hash : UInt64} {i : Nat} {r : Fhm α × Nat} (h : insertAt c s x hash i = some r) :
    r.1.cap = s.cap := by
  unfold insertAt at h
  simp only [bind, Option.bind_eq_some_iff] at h
  obtain ⟨s2, h5, h3⟩ := h
  exact (insertLoop_cap c _ _ _ _ _ h3).trans (put_cs h5).1

theorem eraseLoop_cap (s : Fhm α) (i next n : Nat) (r : Fhm α × Nat) (h : eraseLoop c s i next n = some r) :
    r.1.cap = s.cap := by
  revert h
  refine eraseLoop.partial_correctness c (fun s i next n r => r.1.cap = s.cap) ?_ s i next n r
  intro f ih s i next n r h
  simp only [bind, Option.bind_eq_some_iff] at h
  obtain ⟨x, hx, h⟩ := h
  split at h
  · simp only [Option.bind_eq_some_iff] at h
    obtain ⟨s1, h1, h⟩ := h
    cases h
    exact (putHash_cs h1).1
  · simp only [Option.bind_eq_some_iff] at h
    obtain ⟨s1, h1, h⟩ := h
    exact (ih _ _ _ _ _ h).trans (swap_cs h1).1

theorem erase_cap {s : Fhm α} {i : Nat} {r : Fhm α × Nat} (h : erase c s i = some r) : r.1.cap = s.cap := by
  unfold erase at h
  simp only [bind, Option.bind_eq_some_iff] at h
  obtain ⟨s1, h1, h⟩ := h
  exact (eraseLoop_cap c _ _ _ _ _ h).trans (putHash_cs h1).1

theorem rehashLoop_cap' (old s : Fhm α) (i : Nat) (r : Fhm α) (h : rehashLoop c old s i = some r) : r.cap = s.cap := by
  revert h
  refine rehashLoop.partial_correctness c old (fun s i r => r.cap = s.cap) ?_ s i r
  intro f ih s i r h
  split at h
  · cases h; rfl
  simp only [bind, Option.bind_eq_some_iff] at h
  obtain ⟨x, hx, h⟩ := h
  split at h
  · simp only [Option.bind_eq_some_iff] at h
    obtain ⟨⟨e, m⟩, h1, p, h2, ⟨s1, m1⟩, h3, h⟩ := h
    have h4 := ih _ _ _ h
    exact h4.trans (insertAt_cap c h3)
  · exact ih _ _ _ h

theorem rehashLoop_cap (old s : Fhm α) (i : Nat) (r : Fhm α) (h : rehashLoop c old s i = some r) :
    old.cap ≤ 2 ^ 50 → Fits50 s → rehashLoop64 c old s i = some r ∧ Fits50 r ∧ r.cap = s.cap := by
  revert h
  intro h ho
  revert h
  refine rehashLoop.partial_correctness c old
    (fun s i r => Fits50 s → rehashLoop64 c old s i = some r ∧ Fits50 r ∧ r.cap = s.cap) ?_ s i r
  intro f ih s i r h hs
  rw [rehashLoop64.eq_def]
  split at h
  · rename_i hc; rw [if_pos hc]; cases h; exact ⟨rfl, hs, rfl⟩
  rename_i hc; rw [if_neg hc]
  simp only [bind, Option.bind_eq_some_iff] at h
  obtain ⟨x, hx, h⟩ := h
  have hlt := at_lt hx
  rw [hx]
  simp only [bind, Option.bind_some]
  rw [Word.add_eq (by omega)]
  split at h
  · rename_i hc; rw [if_pos hc]
    simp only [Option.bind_eq_some_iff] at h
    obtain ⟨⟨e, m⟩, h1, p, h2, ⟨s1, m1⟩, h3, h⟩ := h
    obtain ⟨g1, g2⟩ := find_64 c hs h1
    obtain ⟨g3, g4, g5⟩ := insertAt_64 c hs (g2 p h2) h3
    rw [g1, Option.bind_some]
    dsimp only
    rw [h2, Option.bind_some, g3, Option.bind_some]
    dsimp only
    have := ih _ _ _ h g4
    exact ⟨this.1, this.2.1, this.2.2.trans g5⟩
  · rename_i hc; rw [if_neg hc]
    exact ih _ _ _ h hs

theorem sizeSet_fits {s : Fhm α} (h : s.cap ≤ 2 ^ 50) (n : Nat) : Fits50 (sizeSet s n) := by
  refine ⟨h, ?_⟩
  unfold sizeSet; dsimp only; split <;> omega

theorem maybeResize_64 {s : Fhm α} (hs : Fits50 s) {ans : AllocAns α} {r : Fhm α × Res} (h : maybeResize c s ans = some r)
    (hr : r.1.cap ≤ 2 ^ 50) : maybeResize64 c s ans = some r ∧ Fits50 r.1 ∧ s.cap ≤ r.1.cap := by
  unfold maybeResize at h
  unfold maybeResize64
  dsimp only at h ⊢
  have hc : (if s.cap ≠ 0 ∧ s.sz < 2 then sizeSet { s with mem := wipe s.mem } 2 else s).cap = s.cap := by split <;> rfl
  have hs1 : Fits50 (if s.cap ≠ 0 ∧ s.sz < 2 then sizeSet { s with mem := wipe s.mem } 2 else s) := by
    split
    · exact sizeSet_fits hs.1 2
    · exact hs
  generalize (if s.cap ≠ 0 ∧ s.sz < 2 then sizeSet { s with mem := wipe s.mem } 2 else s) = s1 at *
  have h50 := hs1.1
  have hle := hs1.2
  have e : (s1.cap ≠ 0 ∧ Dbl.Le (Dbl.div s1.sz s1.cap) (Dbl.div 4 5)) ↔ (s1.cap ≠ 0 ∧ 5 * s1.sz ≤ 4 * s1.cap) := by
    constructor
    · intro ⟨a, b⟩; exact ⟨a, (Dbl.div_le_08 (by omega) hle h50).1 b⟩
    · intro ⟨a, b⟩; exact ⟨a, (Dbl.div_le_08 (by omega) hle h50).2 b⟩
  rw [Word.mul_eq (by omega)]
  generalize (if s1.cap ≠ 0 then nextPrime (s1.sz * 2) else 11) = cap' at *
  split at h
  · rename_i q; rw [if_pos (e.2 q)]; cases h; exact ⟨rfl, hs1, Nat.le_of_eq hc.symm⟩
  rename_i q; rw [if_neg (fun w => q (e.1 w))]
  split at h
  · rename_i q; rw [if_pos q]; cases h; exact ⟨rfl, hs1, Nat.le_of_eq hc.symm⟩
  rename_i q1; rw [if_neg q1]
  split at h
  · rename_i q; rw [if_pos q]; cases h; exact ⟨rfl, hs1, Nat.le_of_eq hc.symm⟩
  rename_i q2; rw [if_neg q2]
  cases ans with
  | none => cases h; exact ⟨rfl, hs1, Nat.le_of_eq hc.symm⟩
  | some junk =>
    simp only [bind, Option.bind_eq_some_iff] at h
    obtain ⟨t, ht, h⟩ := h
    cases h
    -- the capacity of the result is that of the new table
    have hcap := rehashLoop_cap' c _ _ _ _ ht
    have h3 := rehashLoop_cap c _ _ _ _ ht hs1.1 (sizeSet_fits (by show cap' ≤ _; rw [← (show t.cap = cap' from hcap)]; exact hr) 2)
    refine ⟨?_, h3.2.1, ?_⟩
    · simp only [bind]; rw [h3.1]; rfl
    · show s.cap ≤ t.cap
      rw [hcap, ← hc]; exact Nat.le_of_not_le q2

theorem entry_64 {s : Fhm α} (hs : Fits50 s) {k : κ} {ans : AllocAns α} {r : Fhm α × FEnt} (h : entry c s k ans = some r)
    (hr : r.1.cap ≤ 2 ^ 50) :
    entry64 c s k ans = some r ∧ Fits50 r.1 ∧ s.cap ≤ r.1.cap ∧ ∀ j, r.2.ent.e = some j → 2 ≤ j := by
  unfold entry at h
  unfold entry64
  simp only [bind, Option.bind_eq_some_iff] at h
  obtain ⟨⟨s1, r1⟩, h1, ⟨e, m⟩, h2, h⟩ := h
  cases h
  obtain ⟨g1, g2, g3⟩ := maybeResize_64 c hs h1 hr
  obtain ⟨g4, g5⟩ := find_64 c g2 h2
  rw [g1]
  simp only [bind, Option.bind_some]
  rw [g4]
  exact ⟨rfl, g2, g3, g5⟩

theorem fits_of {s t : Fhm α} (h : Fits50 s) (e : t.cap = s.cap ∧ t.sz = s.sz) : Fits50 t := by
  unfold Fits50; rw [e.1, e.2]; exact h

/-- Writing a struct into the slot of an entry. -/
theorem write_64 {s t : Fhm α} (hs : Fits50 s) {i : Nat} {x : Cell α} (h : put s i x = some t) : Fits50 t := fits_of hs (put_cs h)

theorem swaps_cap {s : Fhm α} {e : FEnt} {x : α} {r : Fhm α × Slot} (h : swaps c s e x = some r) : r.1.cap = s.cap := by
  unfold swaps at h
  simp only [bind, Option.bind_eq_some_iff] at h
  obtain ⟨i, hi, y, hy, h⟩ := h
  split at h
  · simp only [Option.bind_eq_some_iff] at h
    obtain ⟨s1, h1, h⟩ := h
    cases h
    exact (put_cs h1).1
  · simp only [Option.bind_eq_some_iff] at h
    obtain ⟨s1, h1, ⟨s2, m⟩, h2, h⟩ := h
    cases h
    exact (insertAt_cap c h2).trans (put_cs h1).1

theorem swaps_64 {s : Fhm α} (hs : Fits50 s) {e : FEnt} (he : ∀ j, e.ent.e = some j → 2 ≤ j) {x : α} {r : Fhm α × Slot}
    (h : swaps c s e x = some r) : swaps64 c s e x = some r ∧ Fits50 r.1 := by
  unfold swaps at h
  unfold swaps64
  simp only [bind, Option.bind_eq_some_iff] at h
  obtain ⟨i, hi, y, hy, h⟩ := h
  rw [hi]
  simp only [bind, Option.bind_some]
  rw [hy, Option.bind_some]
  split at h
  · rename_i q; rw [if_pos q]
    simp only [Option.bind_eq_some_iff] at h
    obtain ⟨s1, h1, h⟩ := h
    have f1 := write_64 hs h1
    rw [h1, Option.bind_some, sizePlus_64 f1]
    refine ⟨h, ?_⟩
    cases h
    exact sizePlus_fits f1
  · rename_i q; rw [if_neg q]
    simp only [Option.bind_eq_some_iff] at h
    obtain ⟨s1, h1, ⟨s2, m⟩, h2, h⟩ := h
    have f1 := write_64 hs h1
    have c1 := put_cs h1
    obtain ⟨g1, g2, _⟩ := insertAt_64 c f1 (increment_ge _ (he i hi)) h2
    rw [h1, Option.bind_some, increment_64 f1.1 (by rw [c1.1]; exact at_lt hy), g1, Option.bind_some]
    refine ⟨h, ?_⟩
    cases h
    exact g2

theorem poke_fits {s t : Fhm α} (hs : Fits50 s) {p : Slot} {f : α → α} (h : poke s p f = some t) : Fits50 t ∧ t.cap = s.cap := by
  unfold poke at h
  cases p with
  | none => cases h; exact ⟨hs, rfl⟩
  | some i =>
    simp only [bind, Option.bind_eq_some_iff] at h
    obtain ⟨x, _, h⟩ := h
    exact ⟨write_64 hs h, (put_cs h).1⟩

theorem insertEntry_64 {s : Fhm α} (hs : Fits50 s) {e : FEnt} (he : ∀ j, e.ent.e = some j → 2 ≤ j) {x : α} {r : Fhm α × Slot}
    (h : insertEntry c s e x = some r) : insertEntry64 c s e x = some r ∧ Fits50 r.1 := by
  unfold insertEntry at h
  unfold insertEntry64
  split at h
  · rename_i q; rw [if_pos q]
    refine ⟨h, ?_⟩
    simp only [bind, Option.bind_eq_some_iff] at h
    obtain ⟨i, hi, s1, h1, h⟩ := h
    cases h; exact write_64 hs h1
  rename_i q; rw [if_neg q]
  split at h
  · rename_i q; rw [if_pos q]; cases h; exact ⟨rfl, hs⟩
  · rename_i q; rw [if_neg q]
    simp only [bind, Option.bind_eq_some_iff] at h
    obtain ⟨i, hi, ⟨s1, m⟩, h1, h⟩ := h
    obtain ⟨g1, g2, _⟩ := insertAt_64 c hs (he i hi) h1
    rw [hi]
    simp only [bind, Option.bind_some]
    rw [g1, Option.bind_some]
    refine ⟨h, ?_⟩
    cases h; exact g2

theorem orInsert_64 {s : Fhm α} (hs : Fits50 s) {e : FEnt} (he : ∀ j, e.ent.e = some j → 2 ≤ j) {x : α} {r : Fhm α × Slot}
    (h : orInsert c s e x = some r) : orInsert64 c s e x = some r ∧ Fits50 r.1 := by
  unfold orInsert at h
  unfold orInsert64
  split at h
  · rename_i q; rw [if_pos q]; cases h; exact ⟨rfl, hs⟩
  rename_i q; rw [if_neg q]
  split at h
  · rename_i q; rw [if_pos q]; cases h; exact ⟨rfl, hs⟩
  · rename_i q; rw [if_neg q]
    simp only [bind, Option.bind_eq_some_iff] at h
    obtain ⟨i, hi, ⟨s1, m⟩, h1, h⟩ := h
    obtain ⟨g1, g2, _⟩ := insertAt_64 c hs (he i hi) h1
    rw [hi]
    simp only [bind, Option.bind_some]
    rw [g1, Option.bind_some]
    refine ⟨h, ?_⟩
    cases h; exact g2

theorem orInsertW_64 {s : Fhm α} (hs : Fits50 s) {e : FEnt} (he : ∀ j, e.ent.e = some j → 2 ≤ j) {x : α} {r : Fhm α × Slot}
    (h : orInsertW c s e x = some r) : orInsertW64 c s e x = some r ∧ Fits50 r.1 := by
  unfold orInsertW at h
  unfold orInsertW64
  split at h
  · rename_i q; rw [if_pos q]
    split at h
    · rename_i q; rw [if_pos q]; cases h; exact ⟨rfl, hs⟩
    · rename_i q; rw [if_neg q]; exact swaps_64 c hs he h
  · rename_i q; rw [if_neg q]; cases h; exact ⟨rfl, hs⟩

theorem insertEntryW_64 {s : Fhm α} (hs : Fits50 s) {e : FEnt} (he : ∀ j, e.ent.e = some j → 2 ≤ j) {x : α}
    {r : Fhm α × Slot} (h : insertEntryW c s e x = some r) : insertEntryW64 c s e x = some r ∧ Fits50 r.1 := by
  unfold insertEntryW at h
  unfold insertEntryW64
  split at h
  · rename_i q; rw [if_pos q]
    split at h
    · rename_i q; rw [if_pos q]
      refine ⟨h, ?_⟩
      simp only [bind, Option.bind_eq_some_iff] at h
      obtain ⟨i, hi, s1, h1, h⟩ := h
      cases h; exact write_64 hs h1
    · rename_i q; rw [if_neg q]; exact swaps_64 c hs he h
  · rename_i q; rw [if_neg q]; cases h; exact ⟨rfl, hs⟩

theorem removeEntry_64 {s : Fhm α} (hs : Fits50 s) {e : FEnt} (he : ∀ j, e.ent.e = some j → 2 ≤ j)
    {r : Fhm α × Ent} (h : removeEntry c s e = some r) : removeEntry64 c s e = some r ∧ Fits50 r.1 := by
  unfold removeEntry at h
  unfold removeEntry64
  split at h
  · rename_i q; rw [if_pos q]; cases h; exact ⟨rfl, hs⟩
  · rename_i q; rw [if_neg q]
    simp only [bind, Option.bind_eq_some_iff] at h
    obtain ⟨i, hi, ⟨s1, m⟩, h1, h⟩ := h
    obtain ⟨g1, g2, _⟩ := erase_64 c hs (he i hi) h1
    rw [hi]
    simp only [bind, Option.bind_some]
    rw [g1, Option.bind_some]
    refine ⟨h, ?_⟩
    cases h; exact g2

theorem andModify_fits {s t : Fhm α} (hs : Fits50 s) {e : FEnt} {f : α → α} (h : andModify s e f = some t) :
    Fits50 t ∧ t.cap = s.cap := by
  unfold andModify at h
  split at h
  · simp only [bind, Option.bind_eq_some_iff] at h
    obtain ⟨i, _, x, _, h⟩ := h
    exact ⟨write_64 hs h, (put_cs h).1⟩
  · cases h; exact ⟨hs, rfl⟩

/-! The capacity after the second half of a call. -/

theorem insertEntry_cap {s : Fhm α} {e : FEnt} {x : α} {r : Fhm α × Slot} (h : insertEntry c s e x = some r) :
    r.1.cap = s.cap := by
  unfold insertEntry at h
  split at h
  · simp only [bind, Option.bind_eq_some_iff] at h
    obtain ⟨i, hi, s1, h1, h⟩ := h
    cases h; exact (put_cs h1).1
  split at h
  · cases h; rfl
  · simp only [bind, Option.bind_eq_some_iff] at h
    obtain ⟨i, hi, ⟨s1, m⟩, h1, h⟩ := h
    cases h; exact insertAt_cap c h1

theorem orInsert_cap {s : Fhm α} {e : FEnt} {x : α} {r : Fhm α × Slot} (h : orInsert c s e x = some r) :
    r.1.cap = s.cap := by
  unfold orInsert at h
  split at h
  · cases h; rfl
  split at h
  · cases h; rfl
  · simp only [bind, Option.bind_eq_some_iff] at h
    obtain ⟨i, hi, ⟨s1, m⟩, h1, h⟩ := h
    cases h; exact insertAt_cap c h1

theorem orInsertW_cap {s : Fhm α} {e : FEnt} {x : α} {r : Fhm α × Slot} (h : orInsertW c s e x = some r) :
    r.1.cap = s.cap := by
  unfold orInsertW at h
  split at h
  · split at h
    · cases h; rfl
    · exact swaps_cap c h
  · cases h; rfl

theorem insertEntryW_cap {s : Fhm α} {e : FEnt} {x : α} {r : Fhm α × Slot} (h : insertEntryW c s e x = some r) :
    r.1.cap = s.cap := by
  unfold insertEntryW at h
  split at h
  · split at h
    · simp only [bind, Option.bind_eq_some_iff] at h
      obtain ⟨i, hi, s1, h1, h⟩ := h
      cases h; exact (put_cs h1).1
    · exact swaps_cap c h
  · cases h; rfl

theorem removeEntry_cap {s : Fhm α} {e : FEnt} {r : Fhm α × Ent} (h : removeEntry c s e = some r) : r.1.cap = s.cap := by
  unfold removeEntry at h
  split at h
  · cases h; rfl
  · simp only [bind, Option.bind_eq_some_iff] at h
    obtain ⟨i, hi, ⟨s1, m⟩, h1, h⟩ := h
    cases h; exact erase_cap c h1

theorem poke_cap {s t : Fhm α} {p : Slot} {f : α → α} (h : poke s p f = some t) : t.cap = s.cap := by
  unfold poke at h
  cases p with
  | none => cases h; rfl
  | some i =>
    simp only [bind, Option.bind_eq_some_iff] at h
    obtain ⟨x, _, h⟩ := h
    exact (put_cs h).1

theorem andModify_cap {s t : Fhm α} {e : FEnt} {f : α → α} (h : andModify s e f = some t) : t.cap = s.cap := by
  unfold andModify at h
  split at h
  · simp only [bind, Option.bind_eq_some_iff] at h
    obtain ⟨i, _, x, _, h⟩ := h
    exact (put_cs h).1
  · cases h; rfl

/-! Calls that look the entry up themselves. -/

theorem insert_64 {s : Fhm α} (hs : Fits50 s) {x : α} {ans : AllocAns α} {r : Fhm α × Nat × Bool × α}
    (h : insert c s x ans = some r) (hr : r.1.cap ≤ 2 ^ 50) :
    insert64 c s x ans = some r ∧ Fits50 r.1 ∧ s.cap ≤ r.1.cap := by
  unfold insert at h
  unfold insert64
  simp only [bind, Option.bind_eq_some_iff] at h
  obtain ⟨⟨s1, e⟩, h1, h⟩ := h
  dsimp only at h
  have hcap : r.1.cap = s1.cap := by
    split at h
    · simp only [Option.bind_eq_some_iff] at h
      obtain ⟨i, hi, old, ho, s2, h2, s3, h3, s4, h4, h⟩ := h
      cases h
      exact (putHash_cs h4).1.trans ((put_cs h3).1.trans (put_cs h2).1)
    split at h
    · cases h; rfl
    · simp only [Option.bind_eq_some_iff] at h
      obtain ⟨i, hi, ⟨s2, m⟩, h2, h⟩ := h
      cases h; exact insertAt_cap c h2
  obtain ⟨g1, g2, g3, g4⟩ := entry_64 c hs h1 (by rw [← hcap]; exact hr)
  rw [hcap, g1]
  simp only [bind, Option.bind_some]
  split at h
  · rename_i q; rw [if_pos q]
    refine ⟨h, ?_, g3⟩
    simp only [Option.bind_eq_some_iff] at h
    obtain ⟨i, hi, old, ho, s2, h2, s3, h3, s4, h4, h⟩ := h
    cases h
    exact fits_of (write_64 (write_64 g2 h2) h3) (putHash_cs h4)
  rename_i q; rw [if_neg q]
  split at h
  · rename_i q; rw [if_pos q]; cases h; exact ⟨rfl, g2, g3⟩
  · rename_i q; rw [if_neg q]
    simp only [Option.bind_eq_some_iff] at h
    obtain ⟨i, hi, ⟨s2, m⟩, h2, h⟩ := h
    obtain ⟨k1, k2, _⟩ := insertAt_64 c g2 (g4 i hi) h2
    rw [hi, Option.bind_some, k1, Option.bind_some]
    refine ⟨h, ?_, g3⟩
    cases h; exact k2

theorem tryInsert_64 {s : Fhm α} (hs : Fits50 s) {x : α} {ans : AllocAns α} {r : Fhm α × Ent}
    (h : tryInsert c s x ans = some r) (hr : r.1.cap ≤ 2 ^ 50) :
    tryInsert64 c s x ans = some r ∧ Fits50 r.1 ∧ s.cap ≤ r.1.cap := by
  unfold tryInsert at h
  unfold tryInsert64
  simp only [bind, Option.bind_eq_some_iff] at h
  obtain ⟨⟨s1, e⟩, h1, h⟩ := h
  dsimp only at h
  have hcap : r.1.cap = s1.cap := by
    split at h
    · cases h; rfl
    split at h
    · cases h; rfl
    · simp only [Option.bind_eq_some_iff] at h
      obtain ⟨i, hi, ⟨s2, m⟩, h2, h⟩ := h
      cases h; exact insertAt_cap c h2
  obtain ⟨g1, g2, g3, g4⟩ := entry_64 c hs h1 (by rw [← hcap]; exact hr)
  rw [hcap, g1]
  simp only [bind, Option.bind_some]
  split at h
  · rename_i q; rw [if_pos q]; cases h; exact ⟨rfl, g2, g3⟩
  rename_i q; rw [if_neg q]
  split at h
  · rename_i q; rw [if_pos q]; cases h; exact ⟨rfl, g2, g3⟩
  · rename_i q; rw [if_neg q]
    simp only [Option.bind_eq_some_iff] at h
    obtain ⟨i, hi, ⟨s2, m⟩, h2, h⟩ := h
    obtain ⟨k1, k2, _⟩ := insertAt_64 c g2 (g4 i hi) h2
    rw [hi, Option.bind_some, k1, Option.bind_some]
    refine ⟨h, ?_, g3⟩
    cases h; exact k2

theorem insertOrAssign_64 {s : Fhm α} (hs : Fits50 s) {x : α} {ans : AllocAns α} {r : Fhm α × Ent}
    (h : insertOrAssign c s x ans = some r) (hr : r.1.cap ≤ 2 ^ 50) :
    insertOrAssign64 c s x ans = some r ∧ Fits50 r.1 ∧ s.cap ≤ r.1.cap := by
  unfold insertOrAssign at h
  unfold insertOrAssign64
  simp only [bind, Option.bind_eq_some_iff] at h
  obtain ⟨⟨s1, e⟩, h1, h⟩ := h
  dsimp only at h
  have hcap : r.1.cap = s1.cap := by
    split at h
    · simp only [Option.bind_eq_some_iff] at h
      obtain ⟨i, hi, s2, h2, h⟩ := h
      cases h; exact (put_cs h2).1
    split at h
    · cases h; rfl
    · simp only [Option.bind_eq_some_iff] at h
      obtain ⟨i, hi, ⟨s2, m⟩, h2, h⟩ := h
      cases h; exact insertAt_cap c h2
  obtain ⟨g1, g2, g3, g4⟩ := entry_64 c hs h1 (by rw [← hcap]; exact hr)
  rw [hcap, g1]
  simp only [bind, Option.bind_some]
  split at h
  · rename_i q; rw [if_pos q]
    refine ⟨h, ?_, g3⟩
    simp only [Option.bind_eq_some_iff] at h
    obtain ⟨i, hi, s2, h2, h⟩ := h
    cases h; exact write_64 g2 h2
  rename_i q; rw [if_neg q]
  split at h
  · rename_i q; rw [if_pos q]; cases h; exact ⟨rfl, g2, g3⟩
  · rename_i q; rw [if_neg q]
    simp only [Option.bind_eq_some_iff] at h
    obtain ⟨i, hi, ⟨s2, m⟩, h2, h⟩ := h
    obtain ⟨k1, k2, _⟩ := insertAt_64 c g2 (g4 i hi) h2
    rw [hi, Option.bind_some, k1, Option.bind_some]
    refine ⟨h, ?_, g3⟩
    cases h; exact k2

theorem remove_64 {s : Fhm α} (hs : Fits50 s) {x : α} {r : Fhm α × Nat × Bool × α}
    (h : remove c s x = some r) : remove64 c s x = some r ∧ Fits50 r.1 ∧ s.cap ≤ r.1.cap := by
  unfold remove at h
  unfold remove64
  simp only [bind, Option.bind_eq_some_iff] at h
  obtain ⟨⟨e, m⟩, h1, h⟩ := h
  dsimp only at h
  obtain ⟨g1, g2⟩ := find_64 c hs h1
  rw [g1]
  simp only [bind, Option.bind_some]
  split at h
  · rename_i q; rw [if_pos q]
    simp only [Option.bind_eq_some_iff] at h
    obtain ⟨i, hi, old, ho, ⟨s2, m⟩, h2, h⟩ := h
    obtain ⟨k1, k2, k3⟩ := erase_64 c hs (g2 i hi) h2
    rw [hi, Option.bind_some, ho, Option.bind_some, k1, Option.bind_some]
    refine ⟨h, ?_⟩
    cases h; exact ⟨k2, Nat.le_of_eq k3.symm⟩
  · rename_i q; rw [if_neg q]; cases h; exact ⟨rfl, hs, Nat.le_refl _⟩

theorem tryInsertW_64 {s : Fhm α} (hs : Fits50 s) {k : κ} {x : α} {ans : AllocAns α} {r : Fhm α × Ent}
    (h : tryInsertW c s k x ans = some r) (hr : r.1.cap ≤ 2 ^ 50) :
    tryInsertW64 c s k x ans = some r ∧ Fits50 r.1 ∧ s.cap ≤ r.1.cap := by
  unfold tryInsertW at h
  unfold tryInsertW64
  simp only [bind, Option.bind_eq_some_iff] at h
  obtain ⟨⟨s1, e⟩, h1, h⟩ := h
  dsimp only at h
  have hcap : r.1.cap = s1.cap := by
    split at h
    · cases h; rfl
    · simp only [Option.bind_eq_some_iff] at h
      obtain ⟨⟨s2, m⟩, h2, h⟩ := h
      cases h; exact swaps_cap c h2
  obtain ⟨g1, g2, g3, g4⟩ := entry_64 c hs h1 (by rw [← hcap]; exact hr)
  rw [hcap, g1]
  simp only [bind, Option.bind_some]
  split at h
  · rename_i q; rw [if_pos q]; cases h; exact ⟨rfl, g2, g3⟩
  · rename_i q; rw [if_neg q]
    simp only [Option.bind_eq_some_iff] at h
    obtain ⟨⟨s2, m⟩, h2, h⟩ := h
    obtain ⟨k1, k2⟩ := swaps_64 c g2 g4 h2
    rw [k1, Option.bind_some]
    refine ⟨h, ?_, g3⟩
    cases h; exact k2

theorem insertOrAssignW_64 {s : Fhm α} (hs : Fits50 s) {k : κ} {x : α} {ans : AllocAns α} {r : Fhm α × Ent}
    (h : insertOrAssignW c s k x ans = some r) (hr : r.1.cap ≤ 2 ^ 50) :
    insertOrAssignW64 c s k x ans = some r ∧ Fits50 r.1 ∧ s.cap ≤ r.1.cap := by
  unfold insertOrAssignW at h
  unfold insertOrAssignW64
  simp only [bind, Option.bind_eq_some_iff] at h
  obtain ⟨⟨s1, e⟩, h1, h⟩ := h
  dsimp only at h
  have hcap : r.1.cap = s1.cap := by
    split at h
    · simp only [Option.bind_eq_some_iff] at h
      obtain ⟨i, hi, s2, h2, h⟩ := h
      cases h; exact (put_cs h2).1
    split at h
    · cases h; rfl
    · simp only [Option.bind_eq_some_iff] at h
      obtain ⟨⟨s2, m⟩, h2, h⟩ := h
      cases h; exact swaps_cap c h2
  obtain ⟨g1, g2, g3, g4⟩ := entry_64 c hs h1 (by rw [← hcap]; exact hr)
  rw [hcap, g1]
  simp only [bind, Option.bind_some]
  split at h
  · rename_i q; rw [if_pos q]
    refine ⟨h, ?_, g3⟩
    simp only [Option.bind_eq_some_iff] at h
    obtain ⟨i, hi, s2, h2, h⟩ := h
    cases h; exact write_64 g2 h2
  rename_i q; rw [if_neg q]
  split at h
  · rename_i q; rw [if_pos q]; cases h; exact ⟨rfl, g2, g3⟩
  · rename_i q; rw [if_neg q]
    simp only [Option.bind_eq_some_iff] at h
    obtain ⟨⟨s2, m⟩, h2, h⟩ := h
    obtain ⟨k1, k2⟩ := swaps_64 c g2 g4 h2
    rw [k1, Option.bind_some]
    refine ⟨h, ?_, g3⟩
    cases h; exact k2

/-- A call that looks up an entry and goes on with it. -/
theorem viaEntry {β : Type} {s : Fhm α} (hs : Fits50 s) {k : κ} {ans : AllocAns α} {f g : Fhm α → FEnt → Option (Fhm α × β)}
    (hcap : ∀ t e r, f t e = some r → r.1.cap = t.cap)
    (hfg : ∀ t e r, Fits50 t → (∀ j, e.ent.e = some j → 2 ≤ j) → f t e = some r → g t e = some r ∧ Fits50 r.1)
    {r : Fhm α × β} (h : (entry c s k ans).bind (fun p => f p.1 p.2) = some r) (hr : r.1.cap ≤ 2 ^ 50) :
    (entry64 c s k ans).bind (fun p => g p.1 p.2) = some r ∧ Fits50 r.1 ∧ s.cap ≤ r.1.cap := by
  rw [Option.bind_eq_some_iff] at h
  obtain ⟨⟨t, e⟩, h1, h2⟩ := h
  have hc := hcap _ _ _ h2
  obtain ⟨g1, g2, g3, g4⟩ := entry_64 c hs h1 (by rw [← hc]; exact hr)
  obtain ⟨k1, k2⟩ := hfg _ _ _ g2 g4 h2
  rw [g1]
  exact ⟨k1, k2, by rw [hc]; exact g3⟩

theorem step_64 {s : Fhm α} (hs : Fits50 s) {o : Op α κ} (ho : o ≠ .validate) {r : Fhm α × Out α}
    (h : step c s o = some r) (hr : r.1.cap ≤ 2 ^ 50) : step64 c s o = some r ∧ Fits50 r.1 ∧ s.cap ≤ r.1.cap := by
  cases o with
  | insert x ans =>
    simp only [step, step64, bind, Option.bind_eq_some_iff] at h ⊢
    obtain ⟨⟨s1, st, b, hh⟩, h1, h⟩ := h
    cases h
    obtain ⟨g1, g2⟩ := insert_64 c hs h1 hr
    exact ⟨⟨_, g1, rfl⟩, g2⟩
  | tryInsert x ans =>
    simp only [step, step64, bind, Option.bind_eq_some_iff] at h ⊢
    obtain ⟨⟨s1, e⟩, h1, h⟩ := h
    cases h
    obtain ⟨g1, g2⟩ := tryInsert_64 c hs h1 hr
    exact ⟨⟨_, g1, rfl⟩, g2⟩
  | insertOrAssign x ans =>
    simp only [step, step64, bind, Option.bind_eq_some_iff] at h ⊢
    obtain ⟨⟨s1, e⟩, h1, h⟩ := h
    cases h
    obtain ⟨g1, g2⟩ := insertOrAssign_64 c hs h1 hr
    exact ⟨⟨_, g1, rfl⟩, g2⟩
  | remove x =>
    simp only [step, step64, bind, Option.bind_eq_some_iff] at h ⊢
    obtain ⟨⟨s1, st, b, hh⟩, h1, h⟩ := h
    cases h
    obtain ⟨g1, g2⟩ := remove_64 c hs h1
    exact ⟨⟨_, g1, rfl⟩, g2⟩
  | orInsert k x f ans =>
    refine viaEntry (β := Out α) c hs (k := k) (ans := ans) (f := fun s e => do
        let (s, p) ← orInsert c s e x
        let s' ← poke s p f
        some (s', .ptr (view s p))) (g := fun s e => do
        let (s, p) ← orInsert64 c s e x
        let s' ← poke s p f
        some (s', .ptr (view s p))) ?_ ?_ h hr
    · intro t e r h
      simp only [bind, Option.bind_eq_some_iff] at h
      obtain ⟨⟨s1, p⟩, h1, s2, h2, h⟩ := h
      cases h; exact (poke_cap h2).trans (orInsert_cap c h1)
    · intro t e r ht he h
      simp only [bind, Option.bind_eq_some_iff] at h ⊢
      obtain ⟨⟨s1, p⟩, h1, s2, h2, h⟩ := h
      obtain ⟨g1, g2⟩ := orInsert_64 c ht he h1
      refine ⟨⟨_, g1, _, h2, h⟩, ?_⟩
      cases h; exact (poke_fits g2 h2).1
  | insertEntry k x ans =>
    refine viaEntry (β := Out α) c hs (k := k) (ans := ans) (f := fun s e => do
        let (s, p) ← insertEntry c s e x
        some (s, .ptr (view s p))) (g := fun s e => do
        let (s, p) ← insertEntry64 c s e x
        some (s, .ptr (view s p))) ?_ ?_ h hr
    · intro t e r h
      simp only [bind, Option.bind_eq_some_iff] at h
      obtain ⟨⟨s1, p⟩, h1, h⟩ := h
      cases h; exact insertEntry_cap c h1
    · intro t e r ht he h
      simp only [bind, Option.bind_eq_some_iff] at h ⊢
      obtain ⟨⟨s1, p⟩, h1, h⟩ := h
      obtain ⟨g1, g2⟩ := insertEntry_64 c ht he h1
      refine ⟨⟨_, g1, h⟩, ?_⟩
      cases h; exact g2
  | removeEntry k ans =>
    refine viaEntry (β := Out α) c hs (k := k) (ans := ans) (f := fun s e => do
        let (s, e) ← removeEntry c s e
        some (s, .ent (shown e.stats) (view s (Ent.unwrap (some e))))) (g := fun s e => do
        let (s, e) ← removeEntry64 c s e
        some (s, .ent (shown e.stats) (view s (Ent.unwrap (some e))))) ?_ ?_ h hr
    · intro t e r h
      simp only [bind, Option.bind_eq_some_iff] at h
      obtain ⟨⟨s1, p⟩, h1, h⟩ := h
      cases h; exact removeEntry_cap c h1
    · intro t e r ht he h
      simp only [bind, Option.bind_eq_some_iff] at h ⊢
      obtain ⟨⟨s1, p⟩, h1, h⟩ := h
      obtain ⟨g1, g2⟩ := removeEntry_64 c ht he h1
      refine ⟨⟨_, g1, h⟩, ?_⟩
      cases h; exact g2
  | andModify k f ans =>
    refine viaEntry (β := Out α) c hs (k := k) (ans := ans) (f := fun s e => do
        let s ← andModify s e f
        some (s, .ptr (view s (unwrap e)))) (g := fun s e => do
        let s ← andModify s e f
        some (s, .ptr (view s (unwrap e)))) ?_ ?_ h hr
    · intro t e r h
      simp only [bind, Option.bind_eq_some_iff] at h
      obtain ⟨s1, h1, h⟩ := h
      cases h; exact andModify_cap h1
    · intro t e r ht he h
      refine ⟨h, ?_⟩
      simp only [bind, Option.bind_eq_some_iff] at h
      obtain ⟨s1, h1, h⟩ := h
      cases h; exact (andModify_fits ht h1).1
  | occupied k ans =>
    refine viaEntry (β := Out α) c hs (k := k) (ans := ans) (f := fun s e => some (s, .flag (occupied e))) (g := fun s e => some (s, .flag (occupied e)))
      ?_ ?_ h hr
    · intro t e r h; cases h; rfl
    · intro t e r ht he h; cases h; exact ⟨rfl, ht⟩
  | insertError k ans =>
    refine viaEntry (β := Out α) c hs (k := k) (ans := ans) (f := fun s e => some (s, .flag (insertError e)))
      (g := fun s e => some (s, .flag (insertError e))) ?_ ?_ h hr
    · intro t e r h; cases h; rfl
    · intro t e r ht he h; cases h; exact ⟨rfl, ht⟩
  | orInsertW k x ans =>
    refine viaEntry (β := Out α) c hs (k := k) (ans := ans) (f := fun s e => do
        let (s, p) ← orInsertW c s e x
        some (s, .ptr (view s p))) (g := fun s e => do
        let (s, p) ← orInsertW64 c s e x
        some (s, .ptr (view s p))) ?_ ?_ h hr
    · intro t e r h
      simp only [bind, Option.bind_eq_some_iff] at h
      obtain ⟨⟨s1, p⟩, h1, h⟩ := h
      cases h; exact orInsertW_cap c h1
    · intro t e r ht he h
      simp only [bind, Option.bind_eq_some_iff] at h ⊢
      obtain ⟨⟨s1, p⟩, h1, h⟩ := h
      obtain ⟨g1, g2⟩ := orInsertW_64 c ht he h1
      refine ⟨⟨_, g1, h⟩, ?_⟩
      cases h; exact g2
  | insertEntryW k x ans =>
    refine viaEntry (β := Out α) c hs (k := k) (ans := ans) (f := fun s e => do
        let (s, p) ← insertEntryW c s e x
        some (s, .ptr (view s p))) (g := fun s e => do
        let (s, p) ← insertEntryW64 c s e x
        some (s, .ptr (view s p))) ?_ ?_ h hr
    · intro t e r h
      simp only [bind, Option.bind_eq_some_iff] at h
      obtain ⟨⟨s1, p⟩, h1, h⟩ := h
      cases h; exact insertEntryW_cap c h1
    · intro t e r ht he h
      simp only [bind, Option.bind_eq_some_iff] at h ⊢
      obtain ⟨⟨s1, p⟩, h1, h⟩ := h
      obtain ⟨g1, g2⟩ := insertEntryW_64 c ht he h1
      refine ⟨⟨_, g1, h⟩, ?_⟩
      cases h; exact g2
  | tryInsertW k x ans =>
    simp only [step, step64, bind, Option.bind_eq_some_iff] at h ⊢
    obtain ⟨⟨s1, e⟩, h1, h⟩ := h
    cases h
    obtain ⟨g1, g2⟩ := tryInsertW_64 c hs h1 hr
    exact ⟨⟨_, g1, rfl⟩, g2⟩
  | insertOrAssignW k x ans =>
    simp only [step, step64, bind, Option.bind_eq_some_iff] at h ⊢
    obtain ⟨⟨s1, e⟩, h1, h⟩ := h
    cases h
    obtain ⟨g1, g2⟩ := insertOrAssignW_64 c hs h1 hr
    exact ⟨⟨_, g1, rfl⟩, g2⟩
  | contains k ans =>
    simp only [step, step64, contains, contains64, bind, Option.bind_eq_some_iff] at h ⊢
    obtain ⟨⟨s1, b⟩, ⟨⟨s2, e⟩, h1, h2⟩, h⟩ := h
    cases h2
    cases h
    obtain ⟨g1, g2, g3, _⟩ := entry_64 c hs h1 hr
    exact ⟨⟨_, ⟨_, g1, rfl⟩, rfl⟩, g2, g3⟩
  | get k f =>
    simp only [step, step64, bind, Option.bind_eq_some_iff] at h ⊢
    obtain ⟨p, h1, s2, h2, h⟩ := h
    have g1 : get64 c s k = some p := by
      unfold get at h1
      unfold get64
      split at h1
      · rename_i q; rw [if_pos q]; exact h1
      · rename_i q; rw [if_neg q]
        simp only [bind, Option.bind_eq_some_iff] at h1 ⊢
        obtain ⟨⟨e, m⟩, h3, h4⟩ := h1
        exact ⟨_, (find_64 c hs h3).1, h4⟩
    refine ⟨⟨_, g1, _, h2, h⟩, ?_⟩
    cases h
    obtain ⟨k1, k2⟩ := poke_fits hs h2
    exact ⟨k1, Nat.le_of_eq k2.symm⟩
  | size => cases h; exact ⟨by simp only [step64, size_64 hs], hs, Nat.le_refl _⟩
  | isEmpty => cases h; exact ⟨by simp only [step64, isEmpty64, isEmpty, size_64 hs], hs, Nat.le_refl _⟩
  | capacity => cases h; exact ⟨rfl, hs, Nat.le_refl _⟩
  | validate => exact absurd rfl ho
  | clear =>
    cases h
    exact ⟨rfl, ⟨hs.1, Nat.zero_le _⟩, Nat.le_refl _⟩

theorem maybeResize_cap {s : Fhm α} {ans : AllocAns α} {r : Fhm α × Res} (h : maybeResize c s ans = some r) :
    s.cap ≤ r.1.cap := by
  unfold maybeResize at h
  dsimp only at h
  have hc : (if s.cap ≠ 0 ∧ s.sz < 2 then sizeSet { s with mem := wipe s.mem } 2 else s).cap = s.cap := by split <;> rfl
  generalize (if s.cap ≠ 0 ∧ s.sz < 2 then sizeSet { s with mem := wipe s.mem } 2 else s) = s1 at *
  generalize (if s1.cap ≠ 0 then nextPrime (s1.sz * 2) else 11) = cap' at *
  split at h
  · cases h; exact Nat.le_of_eq hc.symm
  split at h
  · cases h; exact Nat.le_of_eq hc.symm
  split at h
  · cases h; exact Nat.le_of_eq hc.symm
  rename_i q2
  cases ans with
  | none => cases h; exact Nat.le_of_eq hc.symm
  | some junk =>
    simp only [bind, Option.bind_eq_some_iff] at h
    obtain ⟨t, ht, h⟩ := h
    cases h
    have hcap : t.cap = cap' := rehashLoop_cap' c _ _ _ _ ht
    show s.cap ≤ t.cap
    rw [hcap, ← hc]; exact Nat.le_of_not_le q2

theorem entry_cap {s : Fhm α} {k : κ} {ans : AllocAns α} {r : Fhm α × FEnt} (h : entry c s k ans = some r) :
    s.cap ≤ r.1.cap := by
  unfold entry at h
  simp only [bind, Option.bind_eq_some_iff] at h
  obtain ⟨⟨s1, r1⟩, h1, ⟨e, m⟩, h2, h⟩ := h
  cases h
  exact maybeResize_cap c h1

theorem insert_cap {s : Fhm α} {x : α} {ans : AllocAns α} {r : Fhm α × Nat × Bool × α} (h : insert c s x ans = some r) :
    s.cap ≤ r.1.cap := by
  unfold insert at h
  simp only [bind, Option.bind_eq_some_iff] at h
  obtain ⟨⟨s1, e⟩, h1, h⟩ := h
  dsimp only at h
  suffices q : r.1.cap = s1.cap by rw [q]; exact entry_cap c h1
  split at h
  · simp only [Option.bind_eq_some_iff] at h
    obtain ⟨i, hi, old, ho, s2, h2, s3, h3, s4, h4, h⟩ := h
    cases h
    exact (putHash_cs h4).1.trans ((put_cs h3).1.trans (put_cs h2).1)
  split at h
  · cases h; rfl
  · simp only [Option.bind_eq_some_iff] at h
    obtain ⟨i, hi, ⟨s2, m⟩, h2, h⟩ := h
    cases h; exact insertAt_cap c h2

theorem tryInsert_cap {s : Fhm α} {x : α} {ans : AllocAns α} {r : Fhm α × Ent} (h : tryInsert c s x ans = some r) :
    s.cap ≤ r.1.cap := by
  unfold tryInsert at h
  simp only [bind, Option.bind_eq_some_iff] at h
  obtain ⟨⟨s1, e⟩, h1, h⟩ := h
  dsimp only at h
  suffices q : r.1.cap = s1.cap by rw [q]; exact entry_cap c h1
  split at h
  · cases h; rfl
  split at h
  · cases h; rfl
  · simp only [Option.bind_eq_some_iff] at h
    obtain ⟨i, hi, ⟨s2, m⟩, h2, h⟩ := h
    cases h; exact insertAt_cap c h2

theorem insertOrAssign_cap {s : Fhm α} {x : α} {ans : AllocAns α} {r : Fhm α × Ent} (h : insertOrAssign c s x ans = some r) :
    s.cap ≤ r.1.cap := by
  unfold insertOrAssign at h
  simp only [bind, Option.bind_eq_some_iff] at h
  obtain ⟨⟨s1, e⟩, h1, h⟩ := h
  dsimp only at h
  suffices q : r.1.cap = s1.cap by rw [q]; exact entry_cap c h1
  split at h
  · simp only [Option.bind_eq_some_iff] at h
    obtain ⟨i, hi, s2, h2, h⟩ := h
    cases h; exact (put_cs h2).1
  split at h
  · cases h; rfl
  · simp only [Option.bind_eq_some_iff] at h
    obtain ⟨i, hi, ⟨s2, m⟩, h2, h⟩ := h
    cases h; exact insertAt_cap c h2

theorem tryInsertW_cap {s : Fhm α} {k : κ} {x : α} {ans : AllocAns α} {r : Fhm α × Ent}
    (h : tryInsertW c s k x ans = some r) :
    s.cap ≤ r.1.cap := by
  unfold tryInsertW at h
  simp only [bind, Option.bind_eq_some_iff] at h
  obtain ⟨⟨s1, e⟩, h1, h⟩ := h
  dsimp only at h
  suffices q : r.1.cap = s1.cap by rw [q]; exact entry_cap c h1
  split at h
  · cases h; rfl
  · simp only [Option.bind_eq_some_iff] at h
    obtain ⟨⟨s2, m⟩, h2, h⟩ := h
    cases h; exact swaps_cap c h2

theorem insertOrAssignW_cap {s : Fhm α} {k : κ} {x : α} {ans : AllocAns α} {r : Fhm α × Ent}
    (h : insertOrAssignW c s k x ans = some r) :
    s.cap ≤ r.1.cap := by
  unfold insertOrAssignW at h
  simp only [bind, Option.bind_eq_some_iff] at h
  obtain ⟨⟨s1, e⟩, h1, h⟩ := h
  dsimp only at h
  suffices q : r.1.cap = s1.cap by rw [q]; exact entry_cap c h1
  split at h
  · simp only [Option.bind_eq_some_iff] at h
    obtain ⟨i, hi, s2, h2, h⟩ := h
    cases h; exact (put_cs h2).1
  split at h
  · cases h; rfl
  · simp only [Option.bind_eq_some_iff] at h
    obtain ⟨⟨s2, m⟩, h2, h⟩ := h
    cases h; exact swaps_cap c h2

theorem remove_cap {s : Fhm α} {x : α} {r : Fhm α × Nat × Bool × α} (h : remove c s x = some r) : r.1.cap = s.cap := by
  unfold remove at h
  simp only [bind, Option.bind_eq_some_iff] at h
  obtain ⟨⟨e, m⟩, h1, h⟩ := h
  dsimp only at h
  split at h
  · simp only [Option.bind_eq_some_iff] at h
    obtain ⟨i, hi, old, ho, ⟨s2, m⟩, h2, h⟩ := h
    cases h; exact erase_cap c h2
  · cases h; rfl

theorem step_cap {s : Fhm α} {o : Op α κ} {r : Fhm α × Out α} (h : step c s o = some r) : s.cap ≤ r.1.cap := by
  cases o with
  | insert x ans =>
    simp only [step, bind, Option.bind_eq_some_iff] at h
    obtain ⟨⟨s1, st, b, hh⟩, h1, h⟩ := h
    cases h; exact insert_cap c h1
  | tryInsert x ans =>
    simp only [step, bind, Option.bind_eq_some_iff] at h
    obtain ⟨⟨s1, e⟩, h1, h⟩ := h
    cases h; exact tryInsert_cap c h1
  | insertOrAssign x ans =>
    simp only [step, bind, Option.bind_eq_some_iff] at h
    obtain ⟨⟨s1, e⟩, h1, h⟩ := h
    cases h; exact insertOrAssign_cap c h1
  | remove x =>
    simp only [step, bind, Option.bind_eq_some_iff] at h
    obtain ⟨⟨s1, st, b, hh⟩, h1, h⟩ := h
    cases h; exact Nat.le_of_eq (remove_cap c h1).symm
  | orInsert k x f ans =>
    simp only [step, bind, Option.bind_eq_some_iff] at h
    obtain ⟨⟨s1, e⟩, h1, ⟨s2, p⟩, h2, s3, h3, h⟩ := h
    cases h
    exact Nat.le_trans (entry_cap c h1) (Nat.le_of_eq ((poke_cap h3).trans (orInsert_cap c h2)).symm)
  | insertEntry k x ans =>
    simp only [step, bind, Option.bind_eq_some_iff] at h
    obtain ⟨⟨s1, e⟩, h1, ⟨s2, p⟩, h2, h⟩ := h
    cases h
    exact Nat.le_trans (entry_cap c h1) (Nat.le_of_eq (insertEntry_cap c h2).symm)
  | removeEntry k ans =>
    simp only [step, bind, Option.bind_eq_some_iff] at h
    obtain ⟨⟨s1, e⟩, h1, ⟨s2, p⟩, h2, h⟩ := h
    cases h
    exact Nat.le_trans (entry_cap c h1) (Nat.le_of_eq (removeEntry_cap c h2).symm)
  | andModify k f ans =>
    simp only [step, bind, Option.bind_eq_some_iff] at h
    obtain ⟨⟨s1, e⟩, h1, s2, h2, h⟩ := h
    cases h
    exact Nat.le_trans (entry_cap c h1) (Nat.le_of_eq (andModify_cap h2).symm)
  | occupied k ans =>
    simp only [step, bind, Option.bind_eq_some_iff] at h
    obtain ⟨⟨s1, e⟩, h1, h⟩ := h
    cases h; exact entry_cap c h1
  | insertError k ans =>
    simp only [step, bind, Option.bind_eq_some_iff] at h
    obtain ⟨⟨s1, e⟩, h1, h⟩ := h
    cases h; exact entry_cap c h1
  | orInsertW k x ans =>
    simp only [step, bind, Option.bind_eq_some_iff] at h
    obtain ⟨⟨s1, e⟩, h1, ⟨s2, p⟩, h2, h⟩ := h
    cases h
    exact Nat.le_trans (entry_cap c h1) (Nat.le_of_eq (orInsertW_cap c h2).symm)
  | insertEntryW k x ans =>
    simp only [step, bind, Option.bind_eq_some_iff] at h
    obtain ⟨⟨s1, e⟩, h1, ⟨s2, p⟩, h2, h⟩ := h
    cases h
    exact Nat.le_trans (entry_cap c h1) (Nat.le_of_eq (insertEntryW_cap c h2).symm)
  | tryInsertW k x ans =>
    simp only [step, bind, Option.bind_eq_some_iff] at h
    obtain ⟨⟨s1, e⟩, h1, h⟩ := h
    cases h; exact tryInsertW_cap c h1
  | insertOrAssignW k x ans =>
    simp only [step, bind, Option.bind_eq_some_iff] at h
    obtain ⟨⟨s1, e⟩, h1, h⟩ := h
    cases h; exact insertOrAssignW_cap c h1
  | contains k ans =>
    simp only [step, contains, bind, Option.bind_eq_some_iff] at h
    obtain ⟨⟨s1, b⟩, ⟨⟨s2, e⟩, h1, h2⟩, h⟩ := h
    cases h2
    cases h; exact entry_cap c h1
  | get k f =>
    simp only [step, bind, Option.bind_eq_some_iff] at h
    obtain ⟨p, h1, s2, h2, h⟩ := h
    cases h; exact Nat.le_of_eq (poke_cap h2).symm
  | size => cases h; exact Nat.le_refl _
  | isEmpty => cases h; exact Nat.le_refl _
  | capacity => cases h; exact Nat.le_refl _
  | validate =>
    simp only [step, bind, Option.bind_eq_some_iff] at h
    obtain ⟨b, _, h⟩ := h
    cases h; exact Nat.le_refl _
  | clear => cases h; exact Nat.le_refl _

/-! ### The checker -/

theorem decrement_64 {cap i : Nat} (h : cap ≤ 2 ^ 50) (h1 : 1 ≤ cap) (hi : i < cap) :
    decrement64 cap i = decrement cap i := by
  unfold decrement64 decrement
  dsimp only
  rw [Word.sub_eq (a := cap) (by omega) (by omega)]
  by_cases hz : i = 0
  · subst hz; rfl
  · rw [if_pos hz, if_pos hz, Word.sub_eq (by omega) (by omega)]

theorem decrement_ge {cap i : Nat} (h : 3 ≤ cap) : 2 ≤ decrement cap i := by
  unfold decrement; dsimp only; split <;> split <;> omega

theorem validLoop_64 (s : Fhm α) (hs : s.cap ≤ 2 ^ 50) (h3 : 3 ≤ s.cap) (e i dth : Nat) (r : Bool)
    (h : validLoop c s e i dth = some r) :
    1 ≤ i → dth < 2 ^ 64 → validLoop64 c s e i dth = some r := by
  revert h
  refine validLoop.partial_correctness c s e
    (fun i dth r => 1 ≤ i → dth < 2 ^ 64 → validLoop64 c s e i dth = some r) ?_ i dth r
  intro f ih i dth r h hi hd
  rw [validLoop64.eq_def]
  split at h
  · rename_i q; rw [if_pos q]; exact h
  rename_i q; rw [if_neg q]
  simp only [bind, Option.bind_eq_some_iff] at h
  obtain ⟨x, hx, h⟩ := h
  have hlt := at_lt hx
  have hb := toI_bnd c h3 x.hash
  have hdist : distance64 s.cap i (toI c s.cap x.hash) = distance s.cap i (toI c s.cap x.hash) := by
    unfold distance64 distance
    split
    · rw [Word.sub_eq (a := s.cap) (by omega) (by omega), Word.add_eq (by omega), Word.sub_eq (by omega) (by omega)]
    · rw [Word.sub_eq (by omega) (by omega)]
  rw [hx]
  simp only [bind, Option.bind_some, toI_64 c hs, hdist]
  split at h
  · rename_i q; rw [if_pos q]; exact h
  rename_i q; rw [if_neg q]
  split at h
  · rename_i q; rw [if_pos q]; exact h
  rename_i q; rw [if_neg q, decrement_64 hs (by omega) hlt]
  have hdth : dth -ʷ 1 = if dth = 0 then 2 ^ 64 - 1 else dth - 1 := by
    split
    · rename_i q; subst q; decide
    · rw [Word.sub_eq (by omega) (by omega)]
  rw [hdth]
  exact ih _ _ _ h (Nat.le_trans (by omega) (decrement_ge h3)) (by split <;> omega)

theorem validateLoop_64 (s : Fhm α) (hs : Fits50 s) (h3 : 3 ≤ s.cap) (h0 : (s.mem 0).hash = 0) (i em oc : Nat) (r : Bool)
    (h : validateLoop c s i em oc = some r) :
    em + oc = i → i ≤ s.cap → validateLoop64 c s i em oc = some r := by
  revert h
  refine validateLoop.partial_correctness c s
    (fun i em oc r => em + oc = i → i ≤ s.cap → validateLoop64 c s i em oc = some r) ?_ i em oc r
  intro f ih i em oc r h hi hd
  have h50 := hs.1
  rw [validateLoop64.eq_def]
  split at h
  · rename_i q; rw [if_pos q, size_64 hs, Word.sub_eq (by omega) (by omega)]; exact h
  rename_i q; rw [if_neg q]
  simp only [bind, Option.bind_eq_some_iff] at h
  obtain ⟨x, hx, h⟩ := h
  have hlt := at_lt hx
  rw [hx]
  simp only [bind, Option.bind_some]
  rw [Word.add_eq (a := i) (by omega), Word.add_eq (a := em) (by omega), Word.add_eq (a := oc) (by omega)]
  split at h
  · rename_i q; rw [if_pos q]; exact ih _ _ _ _ h (by omega) (by omega)
  rename_i q; rw [if_neg q]
  have hi1 : 1 ≤ i := by
    rcases Nat.eq_zero_or_pos i with rfl | hp
    · unfold at_ at hx; rw [if_pos hlt] at hx; cases hx; exact absurd h0 q
    · exact hp
  simp only [Option.bind_eq_some_iff] at h
  obtain ⟨b, hb, h⟩ := h
  have hb2 := toI_bnd c h3 x.hash
  have hvd : validDistance64 c s i x.hash = some b := by
    unfold validDistance64
    unfold validDistance at hb
    dsimp only at hb ⊢
    rw [toI_64 c h50, decrement_64 h50 (by omega) hb2.2]
    have hdist : distance64 s.cap i (toI c s.cap x.hash) = distance s.cap i (toI c s.cap x.hash) := by
      unfold distance64 distance
      split
      · rw [Word.sub_eq (a := s.cap) (by omega) (by omega), Word.add_eq (by omega), Word.sub_eq (by omega) (by omega)]
      · rw [Word.sub_eq (by omega) (by omega)]
    rw [hdist]
    have := distance_le (cap := s.cap) (j := toI c s.cap x.hash) hlt
    exact validLoop_64 c s h50 h3 _ _ _ _ hb hi1 (by omega)
  rw [hvd, Option.bind_some]
  split at h
  · rename_i q; rw [if_pos q]; exact h
  · rename_i q; rw [if_neg q]; exact ih _ _ _ _ h (by omega) (by omega)

/-! ### Theorems -/

/-- C80, flat hash map: a history of calls whose table has at most 2^50 slots at the end gives the same answers and the same
table with `size_t` arithmetic and floating point as with whole numbers.  Missing: the checker within a history; it is treated
in `C80_fhm_validate`. -/
theorem C80_fhm_history_partial (os : List (Op α κ)) : ∀ (s : Fhm α) (r : Fhm α × List (Out α)),
    s.sz ≤ s.cap → Op.validate ∉ os → run c s os = some r → r.1.cap ≤ 2 ^ 50 → run64 c s os = some r := by
  induction os with
  | nil => intro s r _ _ h _; exact h
  | cons o os ih =>
    intro s r hs ho h hr
    simp only [run, bind, Option.bind_eq_some_iff] at h
    obtain ⟨⟨s1, o1⟩, h1, ⟨s2, o2⟩, h2, h⟩ := h
    cases h
    have hmono : ∀ (os : List (Op α κ)) (s : Fhm α) (r : Fhm α × List (Out α)), run c s os = some r → s.cap ≤ r.1.cap := by
      intro os
      induction os with
      | nil => intro s r h; cases h; exact Nat.le_refl _
      | cons o os ih =>
        intro s r h
        simp only [run, bind, Option.bind_eq_some_iff] at h
        obtain ⟨⟨s1, o1⟩, h1, ⟨s2, o2⟩, h2, h⟩ := h
        cases h
        exact Nat.le_trans (step_cap c h1) (ih s1 (s2, o2) h2)
    have hc1 : s1.cap ≤ 2 ^ 50 := Nat.le_trans (hmono _ _ _ h2) hr
    have hf : Fits50 s := ⟨Nat.le_trans (step_cap c h1) hc1, hs⟩
    obtain ⟨g1, g2, _⟩ := step_64 c hf (fun e => ho (by rw [e]; exact List.mem_cons_self ..)) h1 hc1
    simp only [run64, bind, g1, Option.bind_some]
    rw [ih s1 _ g2.2 (fun q => ho (List.mem_cons_of_mem _ q)) h2 hr]
    rfl

/-- C80, flat hash map: the checker, on a table with 3 to 2^50 slots whose first swap slot is empty. -/
theorem C80_fhm_validate (s : Fhm α) (h1 : 3 ≤ s.cap) (h2 : s.cap ≤ 2 ^ 50) (h3 : s.sz ≤ s.cap) (h0 : (s.mem 0).hash = 0)
    (b : Bool) (h : validate c s = some b) : validate64 c s = some b :=
  validateLoop_64 c s ⟨h2, h3⟩ h1 h0 _ _ _ _ h rfl (Nat.zero_le _)

/-- **C80.**  The load test in floating point, `(double)sz / (double)cap <= 0.8`, is the comparison of `sz / cap` with
exactly 4/5: neither the rounding of the quotient nor that of the literal changes an answer. -/
theorem C80_fhm_load_test (sz cap : Nat) (h : sz ≤ cap) (h0 : 0 < cap) (hc : cap ≤ 2 ^ 50) :
    Dbl.Le (Dbl.div sz cap) (Dbl.div 4 5) ↔ sz * 5 ≤ cap * 4 := by
  rw [Dbl.div_le_08 h0 h hc, Nat.mul_comm 5, Nat.mul_comm 4]

example : 804 ≤ 1009 ∧ 0 < 1009 ∧ 1009 ≤ 2 ^ 50 := by omega

/-- The literal 0.8 is not 4/5, and the quotient 4/5 is rounded in the same way. -/
theorem lit08_above : (Dbl.div 4 5).m * 5 = 2 ^ (Dbl.div 4 5).e * 4 + 2 := by
  rw [Dbl.lit08]; decide

theorem validate_sim {s : Fhm α} {st : St α} (h : Sim c s st) (hs : s.cap ≤ 2 ^ 50) (hq : st.cap = 0 ∨ st.stale = false)
    {b : Bool} (hv : validate c s = some b) : validate64 c s = some b := by
  rcases h.body with ⟨t, _⟩ | ⟨hz, _, hc | ⟨hc, hm⟩⟩
  · exact C80_fhm_validate c s (by have := t.cap; omega) hs (Nat.le_of_lt t.room) t.z0 b hv
  · refine (?_ : validate64 c s = validate c s).trans hv
    unfold validate64 validate
    rw [validateLoop64.eq_def, validateLoop.eq_def, if_pos hc.symm, if_pos hc.symm, hc, size_64 ⟨hs, by omega⟩]
    rfl
  · have h0 : st.stale = false := by
      rcases hq with hq | hq
      · rw [h.cap] at hc; omega
      · exact hq
    exact C80_fhm_validate c s (by omega) hs (by omega) (hm h0 0 (by omega)) b hv

theorem run_sim_64 (hl : Lawful c) (ops : List (Op α κ)) : ∀ {s : Fhm α} {st : St α}, Sim c s st →
    safeRun c s.hasAlloc st ops → s.sz ≤ s.cap → (specRun c s.hasAlloc st ops).1.cap ≤ 2 ^ 50 →
    ∃ s', run64 c s ops = some (s', (specRun c s.hasAlloc st ops).2) ∧ s.cap ≤ (specRun c s.hasAlloc st ops).1.cap := by
  induction ops with
  | nil => intro s st h _ _ _; exact ⟨s, rfl, Nat.le_of_eq h.cap⟩
  | cons o os ih =>
    intro s st h hs hz hc
    obtain ⟨s1, h1, h2, h3⟩ := step_good hl h o hs.1 hs.2.1
    have hs2 : safeRun c s1.hasAlloc (specStep c s.hasAlloc st o).1 os := by rw [h3]; exact hs.2.2
    have hc2 : (specRun c s1.hasAlloc (specStep c s.hasAlloc st o).1 os).1.cap ≤ 2 ^ 50 := by rw [h3]; exact hc
    have hm := step_cap c h1
    -- the capacity does not shrink in the rest of the history
    obtain ⟨s2, k1, k2, _⟩ := run_spec hl os h2 hs2
    have hcap : s1.cap ≤ (specRun c s1.hasAlloc (specStep c s.hasAlloc st o).1 os).1.cap := by
      rw [← k2.cap]
      have hmono : ∀ (os : List (Op α κ)) (s : Fhm α) (r : Fhm α × List (Out α)), run c s os = some r → s.cap ≤ r.1.cap := by
        intro os
        induction os with
        | nil => intro s r h; cases h; exact Nat.le_refl _
        | cons o os ih =>
          intro s r h
          simp only [run, bind, Option.bind_eq_some_iff] at h
          obtain ⟨⟨s1, o1⟩, h1, ⟨s2, o2⟩, h2, h⟩ := h
          cases h
          exact Nat.le_trans (step_cap c h1) (ih s1 (s2, o2) h2)
      exact hmono _ _ _ k1
    have hc1 : s1.cap ≤ 2 ^ 50 := Nat.le_trans hcap hc2
    have hf : Fits50 s := ⟨Nat.le_trans hm hc1, hz⟩
    have hstep : step64 c s o = some (s1, (specStep c s.hasAlloc st o).2) ∧ s1.sz ≤ s1.cap := by
      by_cases hv : o = .validate
      · subst hv
        simp only [step, bind, Option.bind_eq_some_iff] at h1
        obtain ⟨b, hb, h1⟩ := h1
        have := validate_sim c h hf.1 hs.2.1 hb
        simp only [Option.some.injEq, Prod.mk.injEq] at h1
        obtain ⟨rfl, h1⟩ := h1
        refine ⟨?_, hz⟩
        simp only [step64, bind, this, Option.bind_some, h1]
      · obtain ⟨g1, g2, _⟩ := step_64 c hf hv h1 hc1
        exact ⟨g1, g2.2⟩
    obtain ⟨s3, m1, m2⟩ := ih h2 hs2 hstep.2 hc2
    rw [h3] at m1 m2
    refine ⟨s3, ?_, Nat.le_trans hm m2⟩
    simp only [run64, bind, hstep.1, Option.bind_some, m1, specRun]

/-- C80, flat hash map: with `size_t` arithmetic and the load test in floating point, every history of calls that keeps
within 2^50 slots gives the answers of the finite map.  Missing: what is missing in `C37_fhm_history_partial`. -/
theorem C80_fhm_map_partial (hl : Lawful c) (mem : Nat → Cell α) (n : Nat) (al b : Bool) (ops : List (Op α κ))
    (hn : goodCap n) (hb : b = false → ∀ i, i < n → (mem i).hash = 0) (hok : safeRun c al ⟨[], n, b⟩ ops)
    (hc : (specRun c al ⟨[], n, b⟩ ops).1.cap ≤ 2 ^ 50) :
    ∃ s, run64 c (init mem n al) ops = some (s, (specRun c al ⟨[], n, b⟩ ops).2) := by
  obtain ⟨s, h, _⟩ := run_sim_64 c hl ops (init_sim al hn hb) hok (Nat.zero_le _) hc
  exact ⟨s, h⟩

/-- A map that starts without memory, is refused memory, grows to 11 and then to 37. -/
example : ∃ s, run64 natCfg (init sampleMem 0 true) growOps =
    some (s, [.insEnt Stat.insertError none (0, 0), .ent Stat.vacant (some (0, 0)), .ent Stat.vacant (some (1, 0)),
      .ent Stat.vacant (some (2, 0)), .ent Stat.vacant (some (3, 0)), .ent Stat.vacant (some (4, 0)),
      .ent Stat.vacant (some (5, 0)), .ent Stat.vacant (some (6, 0)), .insEnt Stat.occupied (some (3, 0)) (3, 0),
      .ent Stat.vacant (some (7, 0)), .ent Stat.vacant (some (8, 0)), .num 37, .insEnt Stat.occupied (some (2, 0)) (2, 0),
      .ptr (some (8, 0)), .ptr none]) := by
  obtain ⟨s, h⟩ := C80_fhm_map_partial natCfg natCfg_lawful sampleMem 0 true true growOps (.inl rfl) (by simp) growOps_ok
    (by simp [growOps, specRun, specStep, lookup, room, wanted, primes, without, assign, natCfg])
  refine ⟨s, h.trans ?_⟩
  simp [growOps, specRun, specStep, lookup, room, wanted, primes, without, assign, natCfg]

end CCC.Fhm
