import Verif.Model.FlatDeque
import Verif.Proof.Window
/-
Helper lemmas for the flat double-ended queue: positions on the ring, block copies, resizing.
-/
namespace CCC.Fdeq
variable {α : Type}

/-- the `n` elements from position `p` on, around a ring of `cap` slots -/
def ring (f : Nat → α) (cap p n : Nat) : List α := (List.range n).map fun i => f ((p + i) % cap)

@[simp] theorem ring_length (f : Nat → α) (cap p n : Nat) : (ring f cap p n).length = n := by simp [ring]
@[simp] theorem ring_getElem (f : Nat → α) (cap p n i : Nat) (h : i < (ring f cap p n).length) :
    (ring f cap p n)[i] = f ((p + i) % cap) := by simp [ring]

theorem ring_congr {f g : Nat → α} {cap cap' p q n : Nat} (h : ∀ i, i < n → f ((p + i) % cap) = g ((q + i) % cap')) :
    ring f cap p n = ring g cap' q n := by
  apply List.ext_getElem (by simp)
  intro i h1 h2; simp at h1 ⊢; exact h i h1

theorem mod_ne {cap a b : Nat} (h1 : a < b) (h2 : b < a + cap) : a % cap ≠ b % cap := by
  intro h
  have := Nat.sub_mod_eq_zero_of_mod_eq h.symm
  have h3 := Nat.mod_eq_of_lt (show b - a < cap by omega)
  omega

theorem mod_wrap {cap x : Nat} (h : x < 2 * cap) : x % cap = if x < cap then x else x - cap := by
  split
  · rename_i h1; exact Nat.mod_eq_of_lt h1
  · rename_i h1
    rw [Nat.mod_eq_sub_mod (by omega), Nat.mod_eq_of_lt (by omega)]

/-- `f'` is `f` with the list written around the ring from position `s` on -/
structure CircWrite (f f' : Nat → α) (cap s : Nat) (xs : List α) : Prop where
  hit : ∀ i (h : i < xs.length), f' ((s + i) % cap) = xs[i]
  miss : ∀ j, j < cap → (∀ i, i < xs.length → j ≠ (s + i) % cap) → f' j = f j

/-- The state between calls. -/
structure Inv (d : Fdeq α) : Prop where
  len : d.buf.len = d.buf.cap
  sz : d.buf.sz ≤ d.buf.cap
  front : d.front < d.buf.cap ∨ (d.buf.cap = 0 ∧ d.front = 0)

/-- the sequence stored in the queue, front first -/
def seq (d : Fdeq α) : List α := ring d.buf.mem d.buf.cap d.front d.buf.sz

@[simp] theorem seq_length (d : Fdeq α) : d.seq.length = d.buf.sz := by simp [seq]

theorem unrotate_spec {d : Fdeq α} (h : d.Inv) (g : Nat → α) :
    ∃ g', d.unrotate g = some g' ∧ (∀ i, i < d.buf.sz → g' i = d.buf.mem ((d.front + i) % d.buf.cap)) ∧
      ∀ i, d.buf.sz ≤ i → g' i = g i := by
  have h1 := h.len
  have h2 := h.sz
  have h3 := h.front
  unfold unrotate
  simp only
  rw [if_neg (by simp only [readOk, Decidable.not_not]; omega)]
  by_cases hf : min d.buf.sz (d.buf.cap - d.front) < d.buf.sz
  · rw [if_pos hf, if_neg (by simp only [readOk, Decidable.not_not]; omega)]
    refine ⟨_, rfl, ?_, ?_⟩
    · intro i hi
      rw [mod_wrap (by omega)]
      simp only [blockWrite]
      by_cases hi2 : i < d.buf.cap - d.front
      · rw [if_neg (by omega), if_pos (by omega), if_pos (by omega)]; simp
      · rw [if_pos (by omega), if_neg (by omega)]; congr 1; omega
    · intro i hi
      simp only [blockWrite]
      rw [if_neg (by omega), if_neg (by omega)]
  · rw [if_neg hf]
    refine ⟨_, rfl, ?_, ?_⟩
    · intro i hi
      rw [Nat.mod_eq_of_lt (by omega)]
      simp only [blockWrite]
      rw [if_pos (by omega)]; simp
    · intro i hi
      simp only [blockWrite]
      rw [if_neg (by omega)]

/-- a resized queue: same sequence, in a bigger array starting at slot 0 -/
structure Grown (d d' : Fdeq α) (n : Nat) : Prop where
  inv : d'.Inv
  seq : d'.seq = d.seq
  sz : d'.buf.sz = d.buf.sz
  alloc : d'.buf.hasAlloc = d.buf.hasAlloc
  front : d'.front = 0
  cap : d'.buf.cap = if d.buf.cap ≠ 0 then (d.buf.cap + n) * 2 else 8

theorem maybeResize_spec {d : Fdeq α} (h : d.Inv) (n : Nat) (ans : AllocAns α) :
    (d.buf.sz + n < d.buf.cap ∧ d.maybeResize n ans = some (d, .ok)) ∨
    (¬ d.buf.sz + n < d.buf.cap ∧ d.buf.hasAlloc = false ∧ d.maybeResize n ans = some (d, .noAlloc)) ∨
    (¬ d.buf.sz + n < d.buf.cap ∧ d.buf.hasAlloc = true ∧ ans = none ∧ d.maybeResize n ans = some (d, .memErr)) ∨
    (¬ d.buf.sz + n < d.buf.cap ∧ d.buf.hasAlloc = true ∧ ∃ junk, ans = some junk ∧
      ∃ d', d.maybeResize n ans = some (d', .ok) ∧ Grown d d' n) := by
  unfold maybeResize
  by_cases h1 : d.buf.sz + n < d.buf.cap
  · left; simp [h1]
  · rw [if_neg h1]
    right
    cases ha : d.buf.hasAlloc with
    | false => left; simp [h1]
    | true =>
      right
      cases ans with
      | none => left; simp [h1]
      | some junk =>
        right
        refine ⟨h1, rfl, junk, rfl, ?_⟩
        have hsz := h.sz
        have hfr := h.front
        let newCap := if d.buf.cap ≠ 0 then (d.buf.cap + n) * 2 else 8
        have hnc : d.buf.sz ≤ newCap ∧ 0 < newCap := by simp only [newCap]; split <;> omega
        have key : ∀ g : Nat → α, (∀ i, i < d.buf.sz → g i = d.buf.mem ((d.front + i) % d.buf.cap)) →
            Grown d { buf := { d.buf with mem := g, len := newCap, cap := newCap }, front := 0 } n := by
          intro g hg
          refine ⟨⟨rfl, hnc.1, Or.inl hnc.2⟩, ?_, rfl, rfl, rfl, rfl⟩
          unfold Fdeq.seq
          apply ring_congr
          intro i hi
          simp only at hi ⊢
          rw [Nat.zero_add, Nat.mod_eq_of_lt (by omega), hg i hi]
        by_cases h0 : d.buf.sz = 0
        · refine ⟨{ buf := { d.buf with mem := junk, len := newCap, cap := newCap }, front := 0 }, ?_, key junk ?_⟩
          · simp [h0, ha, newCap]
          · intro i hi; omega
        · obtain ⟨g, e, hg, _⟩ := unrotate_spec h junk
          refine ⟨_, ?_, key g hg⟩
          simp [h0, e, ha, newCap]

theorem writeList_hit (f : Nat → α) {a i : Nat} {xs : List α} (h1 : a ≤ i) (h2 : i - a < xs.length) :
    writeList f a xs i = xs[i - a] := by simp [writeList, h1, List.getElem?_eq_getElem h2]

theorem writeList_miss (f : Nat → α) {a i : Nat} {xs : List α} (h : i < a ∨ a + xs.length ≤ i) :
    writeList f a xs i = f i := by
  unfold writeList
  split
  · rename_i h1
    rw [List.getElem?_eq_none (by omega)]; rfl
  · rfl

/-- two-chunk write from slot `s` on -/
theorem putBack_spec {b : Buf α} {cap s : Nat} {xs : List α} (hl : b.len = cap) (hs : s < cap) (hn : xs.length ≤ cap) :
    ∃ b', ((putRange b s (xs.take (min xs.length (cap - s)))).bind fun b1 =>
        if xs.length - min xs.length (cap - s) ≠ 0 then
          putRange b1 ((s + min xs.length (cap - s)) % cap) (xs.drop (min xs.length (cap - s))) else some b1) = some b' ∧
      CircWrite b.mem b'.mem cap s xs ∧ b'.len = b.len ∧ b'.sz = b.sz ∧ b'.cap = b.cap ∧ b'.hasAlloc = b.hasAlloc := by
  by_cases h : xs.length ≤ cap - s
  · rw [Nat.min_eq_left h]
    simp only [List.take_length, Nat.sub_self, ne_eq, not_true_eq_false, if_false]
    refine ⟨{ b with mem := writeList b.mem s xs }, ?_, ⟨?_, ?_⟩, rfl, rfl, rfl, rfl⟩
    · simp only [putRange]; rw [if_pos (by omega)]; rfl
    · intro i hi
      rw [Nat.mod_eq_of_lt (by omega)]
      simp only
      rw [writeList_hit _ (by omega) (by omega)]
      congr 1; omega
    · intro j hj hne
      refine writeList_miss _ ?_
      by_cases h1 : j < s
      · exact Or.inl h1
      · right
        by_cases h2 : s + xs.length ≤ j
        · exact h2
        · exfalso
          apply hne (j - s) (by omega)
          rw [Nat.mod_eq_of_lt (by omega)]; omega
  · rw [Nat.min_eq_right (by omega)]
    have hmod : (s + (cap - s)) % cap = 0 := by rw [show s + (cap - s) = cap by omega, Nat.mod_self]
    rw [hmod]
    refine ⟨{ b with mem := writeList (writeList b.mem s (xs.take (cap - s))) 0 (xs.drop (cap - s)) }, ?_,
      ⟨?_, ?_⟩, rfl, rfl, rfl, rfl⟩
    · simp only [putRange, List.length_take, List.length_drop]
      rw [if_pos (by omega)]
      simp only [Option.bind_some]
      rw [if_pos (by omega), if_pos (by omega)]
    · intro i hi
      rw [mod_wrap (by omega)]
      by_cases h1 : s + i < cap
      · rw [if_pos h1]
        simp only
        rw [writeList_miss _ (by simp; omega), writeList_hit _ (by omega) (by simp; omega)]
        simp only [List.getElem_take]; congr 1; omega
      · rw [if_neg h1]
        simp only
        rw [writeList_hit _ (by omega) (by simp; omega)]
        simp only [List.getElem_drop]; congr 1; omega
    · intro j hj hne
      simp only
      have hj1 : xs.length - (cap - s) ≤ j := by
        by_cases hc : xs.length - (cap - s) ≤ j
        · exact hc
        · exfalso
          apply hne (j + (cap - s)) (by omega)
          rw [mod_wrap (by omega), if_neg (by omega)]; omega
      have hj2 : j < s := by
        by_cases hc : j < s
        · exact hc
        · exfalso
          apply hne (j - s) (by omega)
          rw [Nat.mod_eq_of_lt (by omega)]; omega
      rw [writeList_miss _ (by simp; omega), writeList_miss _ (by left; exact hj2)]

/-- the sequence after writing `xs` behind the last element, dropping `ex` from the front -/
theorem ring_write_back {f f' : Nat → α} {cap p sz ex : Nat} {xs : List α} (hc : 0 < cap)
    (hw : CircWrite f f' cap ((p + sz) % cap) xs) (hex : sz + xs.length ≤ cap + ex) (hex' : ex ≤ sz + xs.length) :
    ring f' cap ((p + ex) % cap) (sz + xs.length - ex) = (ring f cap p sz ++ xs).drop ex := by
  apply List.ext_getElem
  · simp
  · intro i h1 h2
    simp only [ring_length] at h1
    simp only [ring_getElem, List.getElem_drop, Nat.mod_add_mod]
    by_cases hi : ex + i < sz
    · rw [List.getElem_append_left (by simpa using hi), ring_getElem]
      rw [show p + ex + i = p + (ex + i) by omega]
      apply hw.miss
      · exact Nat.mod_lt _ hc
      · intro j hj
        rw [Nat.mod_add_mod]
        exact mod_ne (by omega) (by omega)
    · rw [List.getElem_append_right (by simpa using hi)]
      have := hw.hit (ex + i - sz) (by omega)
      rw [Nat.mod_add_mod] at this
      simp only [ring_length]
      rw [← this]; congr 2; omega

/-- the sequence after writing `xs` before the first element -/
theorem ring_write_front {f f' : Nat → α} {cap p s sz m : Nat} {xs : List α} (hc : 0 < cap)
    (hw : CircWrite f f' cap s xs) (hs : (s + xs.length) % cap = p % cap) (hm : m ≤ sz) (hcap : xs.length + m ≤ cap) :
    ring f' cap s (xs.length + m) = xs ++ (ring f cap p sz).take m := by
  apply List.ext_getElem
  · simp; omega
  · intro i h1 h2
    simp only [ring_length] at h1
    by_cases hi : i < xs.length
    · rw [List.getElem_append_left hi, ring_getElem, hw.hit i hi]
    · rw [List.getElem_append_right (by omega)]
      simp only [ring_getElem, List.getElem_take]
      have : (s + i) % cap = (p + (i - xs.length)) % cap := by
        rw [Nat.add_mod p, ← hs, ← Nat.add_mod]; congr 1; omega
      rw [← this]
      apply hw.miss
      · exact Nat.mod_lt _ hc
      · intro j hj
        exact (mod_ne (by omega) (by omega)).symm

/-- two-chunk write of `push_front_range` -/
theorem putFront_spec {b : Buf α} {cap fr : Nat} {xs : List α} (hl : b.len = cap) (hf : fr < cap)
    (hn : xs.length < cap) (h0 : 0 < xs.length) :
    let space := frontFreeSlot fr cap + 1
    let i := if xs.length > space then 0 else space - xs.length
    let chunk := min xs.length space
    let rem := xs.length - chunk
    let nf := if rem ≠ 0 then cap - rem else i
    ∃ b', ((putRange b i (xs.drop (xs.length - chunk))).bind fun b1 =>
        if rem ≠ 0 then putRange b1 (cap - rem) (xs.take rem) else some b1) = some b' ∧
      CircWrite b.mem b'.mem cap nf xs ∧ nf < cap ∧ (nf + xs.length) % cap = fr ∧
      b'.len = b.len ∧ b'.sz = b.sz ∧ b'.cap = b.cap ∧ b'.hasAlloc = b.hasAlloc := by
  have hsp : frontFreeSlot fr cap + 1 = if fr = 0 then cap else fr := by
    unfold frontFreeSlot capPred
    by_cases h : fr = 0
    · subst h; simp; rw [if_neg (by omega)]; omega
    · simp [h]; omega
  simp only [hsp]
  generalize hsg : (if fr = 0 then cap else fr) = sp
  have hsp1 : 0 < sp ∧ sp ≤ cap ∧ (sp = fr ∨ (fr = 0 ∧ sp = cap)) := by
    rw [← hsg]; split <;> omega
  by_cases h : xs.length > sp
  · have hmin : min xs.length sp = sp := by omega
    have hrem : xs.length - sp ≠ 0 := by omega
    simp only [hmin, if_pos h, if_pos hrem]
    have hfr : sp = fr := by omega
    let f' := writeList (writeList b.mem 0 (xs.drop (xs.length - sp))) (cap - (xs.length - sp)) (xs.take (xs.length - sp))
    refine ⟨{ b with mem := f' }, ?_, ⟨?_, ?_⟩, by omega, ?_, rfl, rfl, rfl, rfl⟩
    · simp only [putRange, List.length_drop, List.length_take]
      rw [if_pos (by omega)]
      simp only [Option.bind_some]
      rw [if_pos (by omega)]
    · intro i hi
      rw [mod_wrap (by omega)]
      by_cases h1 : cap - (xs.length - sp) + i < cap
      · rw [if_pos h1]
        simp only [f']
        rw [writeList_hit _ (by omega) (by simp; omega)]
        simp only [List.getElem_take]; congr 1; omega
      · rw [if_neg h1]
        simp only [f']
        rw [writeList_miss _ (by simp; omega), writeList_hit _ (by omega) (by simp; omega)]
        simp only [List.getElem_drop]; congr 1; omega
    · intro j hj hne
      simp only [f']
      have hj1 : sp ≤ j := by
        by_cases hc : sp ≤ j
        · exact hc
        · exfalso
          apply hne (j + (xs.length - sp)) (by omega)
          rw [mod_wrap (by omega), if_neg (by omega)]; omega
      have hj2 : j < cap - (xs.length - sp) := by
        by_cases hc : j < cap - (xs.length - sp)
        · exact hc
        · exfalso
          apply hne (j - (cap - (xs.length - sp))) (by omega)
          rw [Nat.mod_eq_of_lt (by omega)]; omega
      rw [writeList_miss _ (by left; exact hj2), writeList_miss _ (by simp; omega)]
    · rw [mod_wrap (by omega), if_neg (by omega)]; omega
  · have hmin : min xs.length sp = xs.length := by omega
    simp only [if_neg h, hmin, Nat.sub_self, ne_eq, not_true_eq_false, if_false, List.drop_zero]
    refine ⟨{ b with mem := writeList b.mem (sp - xs.length) xs }, ?_, ⟨?_, ?_⟩, by omega, ?_, rfl, rfl, rfl, rfl⟩
    · simp only [putRange]; rw [if_pos (by omega)]; rfl
    · intro i hi
      rw [Nat.mod_eq_of_lt (by omega)]
      simp only
      rw [writeList_hit _ (by omega) (by omega)]
      congr 1; omega
    · intro j hj hne
      refine writeList_miss _ ?_
      by_cases h1 : j < sp - xs.length
      · exact Or.inl h1
      · right
        by_cases h2 : sp - xs.length + xs.length ≤ j
        · exact h2
        · exfalso
          apply hne (j - (sp - xs.length)) (by omega)
          rw [Nat.mod_eq_of_lt (by omega)]; omega
    · rcases hsp1.2.2 with h1 | ⟨h1, h2⟩
      · rw [Nat.mod_eq_of_lt (by omega)]; omega
      · rw [show sp - xs.length + xs.length = cap by omega, Nat.mod_self]; omega

end CCC.Fdeq
