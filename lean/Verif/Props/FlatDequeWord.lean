import Verif.Model.FlatDequeWord
import Verif.Props.FlatDequeMore
/-
C80 for the flat double ended queue: with `size_t` arithmetic the program does what the model of `Model/FlatDeque.lean`,
whose numbers are unbounded, does.
-/
namespace CCC.Word

theorem add_eq {a b : Nat} (h : a + b < 2 ^ 64) : a +ʷ b = a + b := Nat.mod_eq_of_lt h
theorem sub_eq {a b : Nat} (h : b ≤ a) (ha : a < 2 ^ 64) : a -ʷ b = a - b := by
  unfold sub; omega
theorem mul_eq {a b : Nat} (h : a * b < 2 ^ 64) : a *ʷ b = a * b := Nat.mod_eq_of_lt h

/-- The operations are those of the 64-bit words of the machine. -/
theorem word_ops (a b : UInt64) : a.toNat +ʷ b.toNat = (a + b).toNat ∧ a.toNat -ʷ b.toNat = (a - b).toNat ∧
    a.toNat *ʷ b.toNat = (a * b).toNat := by
  refine ⟨by simp [add, UInt64.toNat_add], ?_, by simp [mul, UInt64.toNat_mul]⟩
  simp only [sub, UInt64.toNat_sub]
  congr 1; omega

theorem bind_congr' {β γ : Type} {x : Option β} {f g : β → Option γ} (h : ∀ a, x = some a → f a = g a) :
    (x >>= f) = (x >>= g) := by
  cases x with
  | none => rfl
  | some a => exact h a rfl

end CCC.Word

namespace CCC.Fdeq
open CCC CCC.Word
variable {α : Type}

/-- a queue whose size, capacity and first slot are far from 2^64 -/
structure Low (d : Fdeq α) : Prop where
  sz : d.buf.sz ≤ d.buf.cap
  small : d.buf.sz ≤ 2 ^ 61
  cap : d.buf.cap ≤ 2 ^ 63
  front : d.front < d.buf.cap ∨ (d.buf.cap = 0 ∧ d.front = 0)

theorem Inv.low {d : Fdeq α} (h : d.Inv) (hc : d.buf.cap ≤ 2 ^ 61) : d.Low :=
  ⟨h.sz, by have := h.sz; omega, by omega, h.front⟩

theorem sub_pred (c : Nat) (h : c ≤ 2 ^ 63) : c -ʷ 1 = capPred c := by
  unfold Word.sub capPred BufWord.W; split <;> omega

theorem incrementW_eq {d : Fdeq α} (h : d.Low) {i : Nat} (hi : i < d.buf.cap ∨ (d.buf.cap = 0 ∧ i = 0)) :
    d.incrementW i = d.increment i := by
  have := h.cap
  unfold incrementW increment
  rw [sub_pred _ h.cap, add_eq (by omega)]

theorem decrementW_eq {d : Fdeq α} (h : d.Low) {i : Nat} (hi : i < d.buf.cap ∨ (d.buf.cap = 0 ∧ i = 0)) :
    d.decrementW i = d.decrement i := by
  have := h.cap
  unfold decrementW decrement
  rw [sub_pred _ h.cap]
  split
  · rw [sub_eq (by omega) (by omega)]
  · rfl

theorem frontFreeSlotW_eq {d : Fdeq α} (h : d.Low) : frontFreeSlotW d.front d.buf.cap = frontFreeSlot d.front d.buf.cap :=
  decrementW_eq h h.front

theorem backFreeSlotW_eq {d : Fdeq α} (h : d.Low) : d.backFreeSlotW = d.backFreeSlot := by
  unfold backFreeSlotW backFreeSlot
  have := h.cap; have := h.small; have := h.front
  rw [add_eq (by omega)]

theorem lastElemIndexW_eq {d : Fdeq α} (h : d.Low) (h0 : 0 < d.buf.sz) : d.lastElemIndexW = d.lastElemIndex := by
  unfold lastElemIndexW lastElemIndex
  have := h.cap; have := h.small; have := h.front
  rw [sub_eq (by omega) (by omega), add_eq (by omega)]

theorem sizePlusW_eq {d : Fdeq α} (h : d.Low) : sizePlusW d.buf 1 = d.buf.sizePlus 1 := by
  have := h.small
  unfold sizePlusW Buf.sizePlus
  rw [add_eq (by omega)]

theorem sizeMinusW_eq {d : Fdeq α} (h : d.Low) : sizeMinusW d.buf 1 = d.buf.sizeMinus 1 := by
  have := h.small
  unfold sizeMinusW Buf.sizeMinus
  split
  · rfl
  · rw [sub_eq (by omega) (by omega)]

theorem unrotateW_eq {d : Fdeq α} (h : d.Low) (g : Nat → α) : d.unrotateW g = d.unrotate g := by
  have := h.cap; have := h.small; have := h.front
  unfold unrotateW unrotate
  rw [sub_eq (by omega) (by omega)]
  have e : d.buf.sz -ʷ min d.buf.sz (d.buf.cap - d.front) = d.buf.sz - min d.buf.sz (d.buf.cap - d.front) :=
    sub_eq (by omega) (by omega)
  simp only [e]

theorem maybeResizeW_eq {d : Fdeq α} (h : d.Inv) (hc : d.buf.cap ≤ 2 ^ 61) {n : Nat} (hn : n ≤ 2 ^ 61) (ans : AllocAns α) :
    d.maybeResizeW n ans = d.maybeResize n ans := by
  have := h.sz
  unfold maybeResizeW maybeResize
  rw [add_eq (a := d.buf.sz) (by omega), add_eq (a := d.buf.cap) (by omega), mul_eq (by omega)]
  simp only [unrotateW_eq (h.low hc)]
  cases ans <;> rfl

/-- what `maybe_resize` leaves is still far from 2^64 -/
theorem resized_low {d : Fdeq α} (h : d.Inv) (hc : d.buf.cap ≤ 2 ^ 61) {n : Nat} (hn : n ≤ 2 ^ 61) {ans : AllocAns α}
    {r : Fdeq α × Res} (e : d.maybeResize n ans = some r) : r.1.Low := by
  rcases maybeResize_spec h n ans with ⟨_, e'⟩ | ⟨_, _, e'⟩ | ⟨_, _, _, e'⟩ | ⟨_, _, _, _, d', e', g⟩
  · rw [e'] at e; cases e; exact h.low hc
  · rw [e'] at e; cases e; exact h.low hc
  · rw [e'] at e; cases e; exact h.low hc
  · rw [e'] at e; cases e
    have h1 := g.inv
    have h2 := g.cap
    have h3 := g.sz
    have h4 := h.sz
    refine ⟨h1.sz, by show d'.buf.sz ≤ _; omega, ?_, h1.front⟩
    show d'.buf.cap ≤ _
    rw [h2]; split <;> omega

theorem allocFrontW_eq {d : Fdeq α} (h : d.Inv) (hc : d.buf.cap ≤ 2 ^ 61) (ans : AllocAns α) :
    d.allocFrontW ans = d.allocFront ans := by
  unfold allocFrontW allocFront
  rw [maybeResizeW_eq h hc (by omega)]
  refine bind_congr' fun r e => ?_
  have hl := resized_low h hc (by omega) e
  obtain ⟨d', r⟩ := r
  simp only [frontFreeSlotW_eq hl, sizePlusW_eq hl]

theorem allocBackW_eq {d : Fdeq α} (h : d.Inv) (hc : d.buf.cap ≤ 2 ^ 61) (ans : AllocAns α) :
    d.allocBackW ans = d.allocBack ans := by
  unfold allocBackW allocBack
  rw [maybeResizeW_eq h hc (by omega)]
  refine bind_congr' fun r e => ?_
  have hl := resized_low h hc (by omega) e
  obtain ⟨d', r⟩ := r
  simp only [backFreeSlotW_eq hl, sizePlusW_eq hl, incrementW_eq hl hl.front]

theorem pushBackW_eq {d : Fdeq α} (h : d.Inv) (hc : d.buf.cap ≤ 2 ^ 61) (x : α) (ans : AllocAns α) :
    d.pushBackW x ans = d.pushBack x ans := by
  unfold pushBackW pushBack; rw [allocBackW_eq h hc]

theorem pushFrontW_eq {d : Fdeq α} (h : d.Inv) (hc : d.buf.cap ≤ 2 ^ 61) (x : α) (ans : AllocAns α) :
    d.pushFrontW x ans = d.pushFront x ans := by
  unfold pushFrontW pushFront; rw [allocFrontW_eq h hc]

theorem modCap_lt {d : Fdeq α} {x k : Nat} (e : d.modCap x = some k) : k < d.buf.cap := by
  unfold modCap at e
  split at e
  · cases e
  · cases e; exact Nat.mod_lt _ (by omega)

theorem pushBackRangeW_eq {d : Fdeq α} (h : d.Inv) (hc : d.buf.cap ≤ 2 ^ 61) (xs : List α) (hn : xs.length ≤ 2 ^ 61)
    (ans : AllocAns α) : d.pushBackRangeW xs ans = d.pushBackRange xs ans := by
  unfold pushBackRangeW pushBackRange
  dsimp only
  rw [maybeResizeW_eq h hc hn]
  refine bind_congr' fun r e => ?_
  have hl := resized_low h hc hn e
  obtain ⟨d', r⟩ := r
  change d'.Low at hl
  have := hl.cap; have := hl.small; have := hl.front
  simp only
  split
  · rfl
  split
  · rw [sub_eq (by omega) (by omega)]
  · rw [backFreeSlotW_eq hl, add_eq (a := d'.buf.sz) (by omega)]
    refine bind_congr' fun k ek => ?_
    have hk : k < d'.buf.cap := modCap_lt ek
    have e1 : d'.buf.cap -ʷ k = d'.buf.cap - k := sub_eq (by omega) (by omega)
    rw [e1]
    have e2 : xs.length -ʷ min xs.length (d'.buf.cap - k) = xs.length - min xs.length (d'.buf.cap - k) :=
      sub_eq (by omega) (by omega)
    have e3 : k +ʷ min xs.length (d'.buf.cap - k) = k + min xs.length (d'.buf.cap - k) := add_eq (by omega)
    have e4 : (if d'.buf.sz + xs.length > d'.buf.cap then
        (d'.front +ʷ (d'.buf.sz + xs.length -ʷ d'.buf.cap)) % d'.buf.cap else d'.front) =
        if d'.buf.sz + xs.length > d'.buf.cap then
        (d'.front + (d'.buf.sz + xs.length - d'.buf.cap)) % d'.buf.cap else d'.front := by
      split
      · rw [sub_eq (by omega) (by omega), add_eq (by omega)]
      · rfl
    rw [e2, e3, e4]

theorem pushFrontRangeW_eq {d : Fdeq α} (h : d.Inv) (hc : d.buf.cap ≤ 2 ^ 61) (xs : List α) (hn : xs.length ≤ 2 ^ 61)
    (ans : AllocAns α) : d.pushFrontRangeW xs ans = d.pushFrontRange xs ans := by
  unfold pushFrontRangeW pushFrontRange
  dsimp only
  rw [maybeResizeW_eq h hc hn]
  refine bind_congr' fun r e => ?_
  have hl := resized_low h hc hn e
  obtain ⟨d', r⟩ := r
  change d'.Low at hl
  have := hl.cap; have := hl.small; have := hl.front
  simp only
  split
  · rfl
  split
  · rw [sub_eq (by omega) (by omega)]
  · have hf : frontFreeSlot d'.front d'.buf.cap < d'.buf.cap := by
      unfold frontFreeSlot capPred; split
      · omega
      · split <;> omega
    rw [frontFreeSlotW_eq hl, add_eq (a := frontFreeSlot _ _) (by omega), add_eq (a := d'.buf.sz) (by omega)]
    have hf' : frontFreeSlot d'.front d'.buf.cap + 1 ≤ d'.buf.cap := hf
    clear hf
    generalize frontFreeSlot d'.front d'.buf.cap + 1 = sp at *
    have e2 : xs.length -ʷ min xs.length sp = xs.length - min xs.length sp := sub_eq (by omega) (by omega)
    have e3 : (if xs.length > sp then 0 else sp -ʷ xs.length) = if xs.length > sp then 0 else sp - xs.length := by
      split
      · rfl
      · rw [sub_eq (by omega) (by omega)]
    have e4 : d'.buf.cap -ʷ (xs.length - min xs.length sp) = d'.buf.cap - (xs.length - min xs.length sp) :=
      sub_eq (by omega) (by omega)
    rw [e2, e3, e4]

theorem pushRangeW_eq {d : Fdeq α} (h : d.Inv) (hc : d.buf.cap ≤ 2 ^ 61) (pos : Nat) (xs : List α) (hn : xs.length ≤ 2 ^ 61)
    (ans : AllocAns α) : d.pushRangeW pos xs ans = d.pushRange pos xs ans := by
  have := h.sz
  unfold pushRangeW pushRange
  dsimp only
  rw [maybeResizeW_eq h hc hn, add_eq (a := d.buf.sz) (by omega)]
  refine bind_congr' fun r e => ?_
  have hl := resized_low h hc hn e
  obtain ⟨d', r⟩ := r
  change d'.Low at hl
  have := hl.cap; have := hl.small; have := hl.front; have := hl.sz
  simp only
  split
  · rfl
  split
  · rw [sub_eq (by omega) (by omega)]
  split
  · rfl
  refine bind_congr' fun p ep => ?_
  have hp : p < d'.buf.cap := by
    unfold indexOf at ep; split at ep
    · cases ep; assumption
    · cases ep
  rw [backFreeSlotW_eq hl, add_eq (a := d'.buf.sz) (by omega)]
  refine bind_congr' fun k ek => ?_
  have hk : k < d'.buf.cap := modCap_lt ek
  have e0 : d'.buf.cap -ʷ p = d'.buf.cap - p := sub_eq (by omega) (by omega)
  have e1 : (if k > p then k -ʷ p else d'.buf.cap - p +ʷ k) = if k > p then k - p else d'.buf.cap - p + k := by
    split
    · rw [sub_eq (by omega) (by omega)]
    · rw [add_eq (by omega)]
  have e2 : p +ʷ xs.length = p + xs.length := add_eq (by omega)
  rw [e0, e1, e2]
  have htm : (if k > p then k - p else d'.buf.cap - p + k) ≤ d'.buf.cap := by split <;> omega
  generalize (if k > p then k - p else d'.buf.cap - p + k) = tm at *
  have hmi : (p + xs.length) % d'.buf.cap < d'.buf.cap := Nat.mod_lt _ (by omega)
  generalize (p + xs.length) % d'.buf.cap = mi at *
  have e3 : (if mi +ʷ tm > d'.buf.cap then d'.buf.cap -ʷ mi else tm) = if mi + tm > d'.buf.cap then d'.buf.cap - mi else tm := by
    rw [add_eq (by omega), sub_eq (by omega) (by omega)]
  rw [e3]
  have hmc : (if mi + tm > d'.buf.cap then d'.buf.cap - mi else tm) ≤ tm := by split <;> omega
  generalize (if mi + tm > d'.buf.cap then d'.buf.cap - mi else tm) = mc at *
  have e4 : (if k < p then min (d'.buf.cap - p) mc else min (k -ʷ p) mc) =
      if k < p then min (d'.buf.cap - p) mc else min (k - p) mc := by
    split
    · rfl
    · rw [sub_eq (by omega) (by omega)]
  rw [e4]
  have hmc2 : (if k < p then min (d'.buf.cap - p) mc else min (k - p) mc) ≤ mc := by split <;> omega
  generalize (if k < p then min (d'.buf.cap - p) mc else min (k - p) mc) = mc' at *
  have e5 : tm -ʷ mc' = tm - mc' := sub_eq (by omega) (by omega)
  have e6 : mi +ʷ mc' = mi + mc' := add_eq (by omega)
  have e7 : p +ʷ mc' = p + mc' := add_eq (by omega)
  have e8 : xs.length -ʷ min xs.length (d'.buf.cap - p) = xs.length - min xs.length (d'.buf.cap - p) :=
    sub_eq (by omega) (by omega)
  have e9 : p +ʷ min xs.length (d'.buf.cap - p) = p + min xs.length (d'.buf.cap - p) := add_eq (by omega)
  rw [e5, e6, e7, e8, e9]
  have e10 : (if d'.buf.sz + xs.length > d'.buf.cap then
        if (d'.front ≤ p ∧ d'.front +ʷ (d'.buf.sz + xs.length -ʷ d'.buf.cap) ≥ p) ∨
          (d'.front +ʷ (d'.buf.sz + xs.length -ʷ d'.buf.cap) > d'.buf.cap ∧
            d'.front +ʷ (d'.buf.sz + xs.length -ʷ d'.buf.cap) -ʷ d'.buf.cap ≥ p) then p
        else (d'.front +ʷ (d'.buf.sz + xs.length -ʷ d'.buf.cap)) % d'.buf.cap
      else d'.front) =
      (if d'.buf.sz + xs.length > d'.buf.cap then
        if (d'.front ≤ p ∧ d'.front + (d'.buf.sz + xs.length - d'.buf.cap) ≥ p) ∨
          (d'.front + (d'.buf.sz + xs.length - d'.buf.cap) > d'.buf.cap ∧
            d'.front + (d'.buf.sz + xs.length - d'.buf.cap) - d'.buf.cap ≥ p) then p
        else (d'.front + (d'.buf.sz + xs.length - d'.buf.cap)) % d'.buf.cap
      else d'.front) := by
    split
    · rw [sub_eq (a := d'.buf.sz + xs.length) (by omega) (by omega),
        add_eq (a := d'.front) (by omega)]
      generalize hg : d'.front + (d'.buf.sz + xs.length - d'.buf.cap) = fe at *
      by_cases hgt : fe > d'.buf.cap
      · rw [sub_eq (by omega) (by omega)]
      · simp only [hgt, false_and, or_false]
    · rfl
  rw [e10]

theorem popFrontW_eq {d : Fdeq α} (h : d.Inv) (hc : d.buf.cap ≤ 2 ^ 61) : d.popFrontW = d.popFront := by
  unfold popFrontW popFront
  rw [sizeMinusW_eq (h.low hc), incrementW_eq (h.low hc) h.front]

theorem popBackW_eq {d : Fdeq α} (h : d.Inv) (hc : d.buf.cap ≤ 2 ^ 61) : d.popBackW = d.popBack := by
  unfold popBackW popBack
  rw [sizeMinusW_eq (h.low hc)]

theorem backElemW_eq {d : Fdeq α} (h : d.Inv) (hc : d.buf.cap ≤ 2 ^ 61) : d.backElemW = d.backElem := by
  unfold backElemW backElem
  split
  · rfl
  · rw [lastElemIndexW_eq (h.low hc) (by omega)]

theorem at_W_eq {d : Fdeq α} (h : d.Inv) (hc : d.buf.cap ≤ 2 ^ 61) (i : Nat) : d.at_W i = d.at_ i := by
  unfold at_W at_
  split
  · rfl
  · have := h.front
    rw [add_eq (by omega)]

theorem indexOf_lt {d : Fdeq α} {k p : Nat} (e : d.indexOf k = some p) : p < d.buf.cap := by
  unfold indexOf at e; split at e
  · cases e; assumption
  · cases e

theorem nextW_eq {d : Fdeq α} (h : d.Inv) (hc : d.buf.cap ≤ 2 ^ 61) (k : Nat) : d.nextW k = d.next k := by
  unfold nextW next
  refine bind_congr' fun p ep => ?_
  have hp := indexOf_lt ep
  have hi : d.increment p < d.buf.cap := by rw [increment_eq hp]; exact Nat.mod_lt _ (by omega)
  dsimp only
  rw [incrementW_eq (h.low hc) (Or.inl hp)]
  generalize d.increment p = nx at *
  have := h.front
  have e : d.distanceW nx d.front = d.distance nx d.front := by
    unfold distanceW distance
    split
    · rw [sub_eq (by omega) (by omega)]
    · rw [sub_eq (by omega) (by omega), add_eq (by omega)]
  rw [e]

theorem rnextW_eq {d : Fdeq α} (h : d.Inv) (hc : d.buf.cap ≤ 2 ^ 61) (h0 : 0 < d.buf.sz) (k : Nat) : d.rnextW k = d.rnext k := by
  unfold rnextW rnext
  refine bind_congr' fun p ep => ?_
  have hp := indexOf_lt ep
  have hi : d.decrement p < d.buf.cap := by
    unfold decrement capPred; split
    · omega
    · split <;> omega
  dsimp only
  rw [decrementW_eq (h.low hc) (Or.inl hp), lastElemIndexW_eq (h.low hc) h0]
  generalize d.decrement p = nx at *
  refine bind_congr' fun rb erb => ?_
  have hrb := modCap_lt erb
  have e : d.rdistanceW nx rb = d.rdistance nx rb := by
    unfold rdistanceW rdistance
    split
    · rw [sub_eq (by omega) (by omega), add_eq (by omega)]
    · rw [sub_eq (by omega) (by omega)]
  rw [e]

theorem copyW_eq {dst src : Fdeq α} (h : src.Inv) (hc : src.buf.cap ≤ 2 ^ 61) (fn : Option (AllocAns α)) :
    dst.copyW src fn = dst.copy src fn := by
  unfold copyW copy
  simp only [unrotateW_eq (h.low hc)]

theorem sizeSet_front_sz (b : Buf α) (n : Nat) : (b.sizeSet n).1.sz = min n b.cap ∧ (b.sizeSet n).1.cap = b.cap := by
  unfold Buf.sizeSet
  split
  · exact ⟨by simp only; omega, rfl⟩
  · exact ⟨by simp only; omega, rfl⟩

theorem putRange_cap {b b' : Buf α} {a : Nat} {xs : List α} (h : putRange b a xs = some b') : b'.cap = b.cap := by
  unfold putRange at h
  split at h
  · cases h; rfl
  · cases h

theorem put2_cap {p : Prop} [Decidable p] {b b' : Buf α} {a : Nat} {xs : List α}
    (h : (if p then putRange b a xs else some b : Option (Buf α)) = some b') : b'.cap = b.cap := by
  split at h
  · exact putRange_cap h
  · cases h; rfl

theorem pushFrontRange_front {d d2 : Fdeq α} (h : d.Inv) (hc : d.buf.cap ≤ 2 ^ 61) {xs : List α} (hn : xs.length ≤ 2 ^ 61)
    {ans : AllocAns α} {r : Res} (e : d.pushFrontRange xs ans = some (d2, r)) : d2.front ≤ 2 ^ 63 := by
  unfold pushFrontRange at e
  dsimp only at e
  obtain ⟨⟨d', r'⟩, e1, e⟩ := Option.bind_eq_some_iff.mp e
  have hl := resized_low h hc hn e1
  change d'.Low at hl
  have := hl.cap; have := hl.front
  simp only at e
  split at e
  · cases e; omega
  split at e
  · obtain ⟨b, _, e⟩ := Option.bind_eq_some_iff.mp e
    cases e; simp
  · obtain ⟨b, _, e⟩ := Option.bind_eq_some_iff.mp e
    obtain ⟨b', _, e⟩ := Option.bind_eq_some_iff.mp e
    cases e
    simp only
    have hf : frontFreeSlot d'.front d'.buf.cap < d'.buf.cap := by
      unfold frontFreeSlot capPred; split
      · omega
      · split <;> omega
    split
    · omega
    · split <;> omega

theorem pushBackRange_front {d d2 : Fdeq α} (h : d.Inv) (hc : d.buf.cap ≤ 2 ^ 61) {xs : List α} (hn : xs.length ≤ 2 ^ 61)
    {ans : AllocAns α} (e : d.pushBackRange xs ans = some (d2, .ok)) :
    d2.buf.sz ≤ 2 ^ 63 ∧ d2.front ≤ 2 ^ 63 ∧ (xs.length > d2.buf.sz → d2.front = 0) ∧
      (xs.length ≤ d2.buf.sz → d2.front + (d2.buf.sz - xs.length) < 2 ^ 64) := by
  unfold pushBackRange at e
  dsimp only at e
  obtain ⟨⟨d', r'⟩, e1, e⟩ := Option.bind_eq_some_iff.mp e
  have hl := resized_low h hc hn e1
  change d'.Low at hl
  have := hl.cap; have := hl.front; have := hl.sz; have := hl.small
  simp only at e
  split at e
  · cases e
  split at e
  · obtain ⟨b, eb, e⟩ := Option.bind_eq_some_iff.mp e
    cases e
    have hb := putRange_cap eb
    have hs := sizeSet_front_sz b d'.buf.cap
    exact ⟨by simp only; omega, Nat.zero_le _, fun _ => rfl, fun _ => by simp only; omega⟩
  · obtain ⟨k, ek, e⟩ := Option.bind_eq_some_iff.mp e
    have hk : k < d'.buf.cap := modCap_lt ek
    obtain ⟨b, eb, e⟩ := Option.bind_eq_some_iff.mp e
    obtain ⟨b', eb', e⟩ := Option.bind_eq_some_iff.mp e
    cases e
    have hb := putRange_cap eb
    have hb' := put2_cap eb'
    have hs := sizeSet_front_sz b' (min d'.buf.cap (d'.buf.sz + xs.length))
    simp only
    have hfr : (if d'.buf.sz + xs.length > d'.buf.cap then (d'.front + (d'.buf.sz + xs.length - d'.buf.cap)) % d'.buf.cap
        else d'.front) < d'.buf.cap := by
      split
      · exact Nat.mod_lt _ (by omega)
      · omega
    omega

theorem insertRangeW_eq {d : Fdeq α} (h : d.Inv) (hc : d.buf.cap ≤ 2 ^ 61) (pos : Slot) (xs : List α)
    (hn : xs.length ≤ 2 ^ 61) (ans : AllocAns α) : d.insertRangeW pos xs ans = d.insertRange pos xs ans := by
  unfold insertRangeW insertRange
  dsimp only
  split
  · rfl
  split
  · rw [pushFrontRangeW_eq h hc xs hn]
    refine bind_congr' fun r e => ?_
    obtain ⟨d2, r⟩ := r
    have hf := pushFrontRange_front h hc hn e
    simp only
    unfold atIdxW atIdx
    rw [sub_eq (by omega) (by omega), add_eq (by omega)]
  · cases pos with
    | some k => exact pushRangeW_eq h hc k xs hn ans
    | none =>
      simp only
      rw [pushBackRangeW_eq h hc xs hn]
      refine bind_congr' fun r e => ?_
      obtain ⟨d2, r⟩ := r
      simp only
      split
      · rfl
      · rename_i hr
        have hr : r = .ok := by simpa using hr
        subst hr
        obtain ⟨h1, h2, h3, h4⟩ := pushBackRange_front h hc hn e
        have e1 : d2.buf.sz -ʷ xs.length = if xs.length ≤ d2.buf.sz then d2.buf.sz - xs.length
            else BufWord.W + d2.buf.sz - xs.length := by
          unfold Word.sub BufWord.W; split <;> omega
        rw [e1]
        unfold atIdxW atIdx
        rw [add_eq (by unfold BufWord.W; split <;> omega)]

theorem destroyLoopW_le {d : Fdeq α} (h : d.Low) {b : Nat} : ∀ i, (i < d.buf.cap ∨ (d.buf.cap = 0 ∧ i = 0)) → 0 < d.buf.cap →
    ∀ l, d.destroyLoopW b i = some l → d.destroyLoop b i = some l := by
  have := @destroyLoopW.partial_correctness α d b (fun i l => (i < d.buf.cap ∨ (d.buf.cap = 0 ∧ i = 0)) → 0 < d.buf.cap →
    d.destroyLoop b i = some l)
  intro i hi h0 l e
  refine this ?_ i l e hi h0
  intro f ih i l e hi h0
  rw [destroyLoop]
  split at e
  · rename_i hib; rw [if_pos hib]; exact e
  · rename_i hib; rw [if_neg hib]
    obtain ⟨rest, er, e⟩ := Option.bind_eq_some_iff.mp e
    rw [incrementW_eq h hi] at er
    rw [ih _ _ er (Or.inl ?_) h0]
    · exact e
    · rw [increment_eq (by omega)]; exact Nat.mod_lt _ h0

theorem destroyLoop_le {d : Fdeq α} (h : d.Low) {b : Nat} : ∀ i, (i < d.buf.cap ∨ (d.buf.cap = 0 ∧ i = 0)) → 0 < d.buf.cap →
    ∀ l, d.destroyLoop b i = some l → d.destroyLoopW b i = some l := by
  have := @destroyLoop.partial_correctness α d b (fun i l => (i < d.buf.cap ∨ (d.buf.cap = 0 ∧ i = 0)) → 0 < d.buf.cap →
    d.destroyLoopW b i = some l)
  intro i hi h0 l e
  refine this ?_ i l e hi h0
  intro f ih i l e hi h0
  rw [destroyLoopW]
  split at e
  · rename_i hib; rw [if_pos hib]; exact e
  · rename_i hib; rw [if_neg hib]
    obtain ⟨rest, er, e⟩ := Option.bind_eq_some_iff.mp e
    rw [incrementW_eq h hi]
    rw [ih _ _ er (Or.inl ?_) h0]
    · exact e
    · rw [increment_eq (by omega)]; exact Nat.mod_lt _ h0

theorem clearW_eq {d : Fdeq α} (h : d.Inv) (hc : d.buf.cap ≤ 2 ^ 61) (b : Bool) : d.clearW b = d.clear b := by
  unfold clearW clear
  split
  · rfl
  · rw [backFreeSlotW_eq (h.low hc)]
    refine bind_congr' fun k ek => ?_
    have h0 : 0 < d.buf.cap := by
      have := modCap_lt ek; omega
    have e : d.destroyLoopW k d.front = d.destroyLoop k d.front := by
      cases e1 : d.destroyLoopW k d.front with
      | some l => rw [destroyLoopW_le (h.low hc) _ h.front h0 _ e1]
      | none =>
        cases e2 : d.destroyLoop k d.front with
        | none => rfl
        | some l => rw [destroyLoop_le (h.low hc) _ h.front h0 _ e2] at e1; cases e1
    rw [e]

/-- **C80.**  With `size_t` arithmetic every call on a queue of at most 2^61 slots, and ranges of at most 2^61 elements,
has the result and the effect that unbounded arithmetic gives: no sum, difference or product that matters wraps around. -/
theorem C80_fdeq_words (d : Fdeq α) (h : d.Inv) (hc : d.capacity ≤ 2 ^ 61) (xs : List α) (hn : xs.length ≤ 2 ^ 61) (x : α)
    (ans : AllocAns α) :
    d.pushBackW x ans = d.pushBack x ans ∧ d.pushFrontW x ans = d.pushFront x ans ∧
    d.pushBackRangeW xs ans = d.pushBackRange xs ans ∧ d.pushFrontRangeW xs ans = d.pushFrontRange xs ans ∧
    (∀ pos, d.insertRangeW pos xs ans = d.insertRange pos xs ans) ∧
    d.popFrontW = d.popFront ∧ d.popBackW = d.popBack ∧ d.backElemW = d.backElem ∧ (∀ i, d.at_W i = d.at_ i) ∧
    (∀ k, d.nextW k = d.next k) ∧ (0 < d.size → ∀ k, d.rnextW k = d.rnext k) ∧
    (∀ (dst : Fdeq α) fn, dst.copyW d fn = dst.copy d fn) ∧ ∀ b, d.clearW b = d.clear b :=
  ⟨pushBackW_eq h hc x ans, pushFrontW_eq h hc x ans, pushBackRangeW_eq h hc xs hn ans, pushFrontRangeW_eq h hc xs hn ans,
    fun pos => insertRangeW_eq h hc pos xs hn ans, popFrontW_eq h hc, popBackW_eq h hc, backElemW_eq h hc, at_W_eq h hc,
    nextW_eq h hc, rnextW_eq h hc, fun _ => copyW_eq h hc, clearW_eq h hc⟩

/-- One call, with `size_t` arithmetic. -/
def stepW (d : Fdeq α) : Op α → Option (Fdeq α × Out α)
  | .pushBack x a => (d.pushBackW x a).map fun r => (r.1, .ptr (r.1.deref r.2))
  | .pushFront x a => (d.pushFrontW x a).map fun r => (r.1, .ptr (r.1.deref r.2))
  | .pushBackRange xs a => (d.pushBackRangeW xs a).map fun r => (r.1, .res r.2)
  | .pushFrontRange xs a => (d.pushFrontRangeW xs a).map fun r => (r.1, .res r.2)
  | .popBack => some (d.popBackW.1, .res d.popBackW.2)
  | .popFront => some (d.popFrontW.1, .res d.popFrontW.2)
  | .clear => (d.clearW false).map fun r => (r.1, .res r.2.1)

/-- A history, with `size_t` arithmetic. -/
def runW (d : Fdeq α) : List (Op α) → Option (Fdeq α × List (Out α))
  | [] => some (d, [])
  | op :: ops => do
    let (d, o) ← d.stepW op
    let (d, os) ← runW d ops
    pure (d, o :: os)

/-- the number of elements passed in one call -/
def rangeLength : Op α → Nat
  | .pushBackRange xs _ => xs.length
  | .pushFrontRange xs _ => xs.length
  | _ => 1

theorem stepW_eq {d : Fdeq α} (h : d.Inv) (hc : d.capacity ≤ 2 ^ 61) {op : Op α} (ho : rangeLength op ≤ 2 ^ 61) :
    d.stepW op = d.step op := by
  cases op with
  | pushBack x a => simp only [stepW, step, pushBackW_eq h hc]
  | pushFront x a => simp only [stepW, step, pushFrontW_eq h hc]
  | pushBackRange xs a => simp only [stepW, step, pushBackRangeW_eq h hc xs ho]
  | pushFrontRange xs a => simp only [stepW, step, pushFrontRangeW_eq h hc xs ho]
  | popBack => simp only [stepW, step, popBackW_eq h hc]
  | popFront => simp only [stepW, step, popFrontW_eq h hc]
  | clear => simp only [stepW, step, clearW_eq h hc]

/-- **C80 (partial).**  Every history whose queue never has more than 2^61 slots runs with `size_t` arithmetic as it does
with unbounded arithmetic, so that everything proved about histories (C07 to C09) holds of the program with its 64-bit
numbers.  Missing: histories after an empty front range or, in a queue that starts without memory, a first range of more
than eight elements, where the queue is corrupt (C07, C09). -/
theorem C80_fdeq_history_partial (ops : List (Op α)) (d : Fdeq α) (h : d.Inv)
    (hops : if d.buf.hasAlloc = true then ∀ op ∈ ops, RangeOk d.capacity op
      else 0 < d.capacity ∧ ∀ op ∈ ops, NoEmptyFrontRange op)
    (hlen : ∀ op ∈ ops, rangeLength op ≤ 2 ^ 61)
    (hcap : ∀ ops1 ops2 d1 os, ops = ops1 ++ ops2 → d.run ops1 = some (d1, os) → d1.capacity ≤ 2 ^ 61) :
    d.runW ops = d.run ops := by
  have key : ∀ (ops1 ops2 : List (Op α)), ops = ops1 ++ ops2 → ∀ d1 os, d.run ops1 = some (d1, os) →
      d1.Inv := by
    intro ops1 ops2 eo d1 os er
    split at hops
    · rename_i ha
      obtain ⟨d', os', e, hi, _⟩ := C07_history_partial ops1 d h ha (fun op hop => hops op (by rw [eo]; simp [hop]))
      rw [er] at e; cases e; exact hi
    · rename_i ha
      obtain ⟨d', os', e, hi, _⟩ := C08_ring_history_partial ops1 d h (by simpa using ha) hops.1
        (fun op hop => hops.2 op (by rw [eo]; simp [hop]))
      rw [er] at e; cases e; exact hi
  clear hops h
  induction ops generalizing d with
  | nil => rfl
  | cons op ops ih =>
    have h := key [] (op :: ops) rfl d [] rfl
    have hc := hcap [] (op :: ops) d [] rfl rfl
    simp only [runW, run]
    rw [stepW_eq h hc (hlen op (by simp))]
    refine bind_congr' fun r e => ?_
    obtain ⟨d1, o⟩ := r
    simp only
    rw [ih d1 (fun op hop => hlen op (by simp [hop])) ?_ ?_]
    · intro ops1 ops2 d2 os eo er
      exact hcap (op :: ops1) ops2 d2 (o :: os) (by rw [eo]; rfl) (by simp [run, e, er])
    · intro ops1 ops2 eo d2 os er
      exact key (op :: ops1) ops2 (by rw [eo]; rfl) d2 (o :: os) (by simp [run, e, er])

theorem ring_cap (ops : List (Op α)) : ∀ (d : Fdeq α), d.Inv → d.buf.hasAlloc = false → 0 < d.capacity →
    (∀ op ∈ ops, NoEmptyFrontRange op) → ∀ d' os, d.run ops = some (d', os) → d'.capacity = d.capacity := by
  induction ops with
  | nil => intro d _ _ _ _ d' os e; cases e; rfl
  | cons op ops ih =>
    intro d h ha hc hops d' os er
    have key : ∃ d1 o, d.step op = some (d1, o) ∧ d1.Inv ∧ d1.buf.hasAlloc = false ∧ d1.capacity = d.capacity := by
      cases op with
      | pushBack x a =>
        obtain ⟨d', k, e, hi, hs, hk, hm, h1, h2⟩ := C08_push_back d h ha hc x a
        exact ⟨d', .ptr (some x), by simp [step, e, deref_some hk, hm], hi, h1, h2⟩
      | pushFront x a =>
        obtain ⟨d', k, e, hi, hs, hk, hm, h1, h2⟩ := C08_push_front d h ha hc x a
        exact ⟨d', .ptr (some x), by simp [step, e, deref_some hk, hm], hi, h1, h2⟩
      | pushBackRange xs a =>
        obtain ⟨d', e, hi, hs, h1, h2⟩ := C09_push_back_range d h ha xs a
        exact ⟨d', .res .ok, by simp [step, e], hi, h1, h2⟩
      | pushFrontRange xs a =>
        obtain ⟨d', e, hi, hs, h1, h2⟩ := C09_push_front_range_partial d h ha xs (hops (.pushFrontRange xs a) (by simp)) a
        exact ⟨d', .res .ok, by simp [step, e], hi, h1, h2⟩
      | popBack =>
        obtain ⟨hi, hs, hr, h1, h2⟩ := C07_pop_back d h
        exact ⟨_, _, rfl, hi, by rw [h1, ha], h2⟩
      | popFront =>
        obtain ⟨hi, hs, hr, h1, h2⟩ := C07_pop_front d h
        exact ⟨_, _, rfl, hi, by rw [h1, ha], h2⟩
      | clear =>
        obtain ⟨d', e, hi, hs, h1, h2⟩ := clear_spec d h
        exact ⟨d', .res .ok, by simp [step, e], hi, by rw [h1, ha], h2⟩
    obtain ⟨d1, o, e, hi, h1, h2⟩ := key
    simp only [run, e, Option.bind_eq_bind, Option.bind_some] at er
    obtain ⟨⟨d2, os2⟩, e2, er⟩ := Option.bind_eq_some_iff.mp er
    cases er
    rw [ih d1 hi h1 (by rw [h2]; exact hc) (fun op hop => hops op (by simp [hop])) _ _ e2, h2]

/-- **C80.**  A ring of at most 2^61 slots: with 64-bit numbers every history gives exactly the results and the final
sequence of the specification `ringSpec` of C08. -/
theorem C80_fdeq_ring (ops : List (Op α)) (d : Fdeq α) (h : d.Inv) (ha : d.buf.hasAlloc = false) (h0 : 0 < d.capacity)
    (hc : d.capacity ≤ 2 ^ 61) (hops : ∀ op ∈ ops, NoEmptyFrontRange op) (hlen : ∀ op ∈ ops, rangeLength op ≤ 2 ^ 61) :
    ∃ d' os, d.runW ops = some (d', os) ∧ d'.Inv ∧ (d'.seq, os) = ringSpecRun d.capacity d.seq ops := by
  rw [C80_fdeq_history_partial ops d h (by simp [ha]; exact ⟨h0, hops⟩) hlen]
  · exact C08_ring_history_partial ops d h ha h0 hops
  · intro ops1 ops2 d1 os eo er
    rw [ring_cap ops1 d h ha h0 (fun op hop => hops op (by rw [eo]; simp [hop])) d1 os er]
    exact hc

/-- The hypotheses are met: a ring of three slots. -/
example : ∃ d' os, (init (fun _ => 0) 3 false : Fdeq Nat).runW [.pushBack 1 none, .pushFrontRange [5, 6] none, .popBack] =
    some (d', os) ∧ d'.Inv ∧ (d'.seq, os) = ringSpecRun 3 [] [.pushBack 1 none, .pushFrontRange [5, 6] none, .popBack] :=
  C80_fdeq_ring _ _ (init_inv _ _ _) rfl (by simp [init, Buf.init, capacity]) (by simp [init, Buf.init, capacity])
    (by simp [NoEmptyFrontRange]) (by simp [rangeLength])

/-- **C80 (negation).**  The bound matters: the request for memory is a number of bytes, and for 16-byte elements it wraps
around although the queue and the range fit in memory together; the capacity recorded afterwards is larger than the block. -/
theorem C80_fdeq_request_wraps : ∃ cap n, 16 * cap + 16 * n < 2 ^ 64 ∧
    16 *ʷ ((cap +ʷ n) *ʷ 2) < 16 * ((cap +ʷ n) *ʷ 2) :=
  ⟨2 ^ 58, 2 ^ 58, by decide, by decide⟩

/-- **C80.**  The number of bytes requested is right whenever the queue and the range have fewer than 2^63 bytes together. -/
theorem C80_fdeq_request (elemSz cap n : Nat) (h : elemSz * (cap + n) < 2 ^ 63) (he : 0 < elemSz) :
    elemSz *ʷ ((cap +ʷ n) *ʷ 2) = elemSz * ((cap + n) * 2) := by
  have h1 : cap + n ≤ elemSz * (cap + n) := Nat.le_mul_of_pos_left _ he
  rw [add_eq (by omega), mul_eq (a := cap + n) (by omega), mul_eq (by rw [← Nat.mul_assoc]; omega)]

example : 0 < 16 ∧ 16 * (1000 + 50) < 2 ^ 63 := by omega

end CCC.Fdeq
