import Verif.Model.Words
import Verif.Props.FlatPQ
/-
A flat priority queue that is told a greater capacity than its array has, as `samples/words.c` does (bytes instead of elements):
as long as nothing is pushed it works as if it had been told the length of the array.
-/
namespace CCC.Words
open CCC

variable {α : Type}

/-- The queue with another capacity. -/
def wide (c : Nat) (q : Fpq α) : Fpq α := { q with buf := { q.buf with cap := c } }

theorem wide_load {c : Nat} {q : Fpq α} (hc : q.buf.cap ≤ c) {i : Nat} {x : α} (h : q.load i = some x) : (wide c q).load i = some x := by
  simp only [Fpq.load, Buf.at_] at *
  by_cases hi : i ≥ q.buf.cap
  · rw [if_pos hi] at h; cases h
  · rw [if_neg hi] at h
    rw [if_neg (by show ¬ i ≥ c; omega)]
    exact h

theorem wide_swap {c : Nat} {q q' : Fpq α} (hc : q.buf.cap ≤ c) {tmp : Slot} {i j : Nat} (h : q.swap tmp i j = some q') :
    (wide c q).swap tmp i j = some (wide c q') ∧ q'.buf.cap = q.buf.cap ∧ q'.cmp = q.cmp ∧ q'.order = q.order := by
  unfold Fpq.swap at *
  cases tmp with
  | none => cases h
  | some t =>
    simp only at *
    by_cases hi : i ≥ q.buf.cap ∨ j ≥ q.buf.cap ∨ j = i
    · rw [if_pos hi] at h; cases h
    · rw [if_neg hi] at h
      rw [if_neg (by show ¬ (i ≥ c ∨ j ≥ c ∨ j = i); omega)]
      simp only [Buf.load, Buf.store, wide] at *
      by_cases h1 : i < q.buf.len <;> by_cases h2 : t < q.buf.len <;> by_cases h3 : j < q.buf.len <;>
        simp [h1, h2, h3] at h ⊢
      subst h
      simp

theorem wide_pickChild {c : Nat} {q : Fpq α} (hc : q.buf.cap ≤ c) {l r : Nat} (h : q.pickChild l = some r) :
    (wide c q).pickChild l = some r := by
  unfold Fpq.pickChild at *
  have e : (wide c q).buf.sz = q.buf.sz := rfl
  rw [e]
  split
  · next hl =>
    rw [if_pos hl] at h
    simp only [Option.bind_eq_bind, Option.bind_eq_some_iff] at h
    obtain ⟨x, hx, y, hy, hr⟩ := h
    simp only [wide_load hc hx, wide_load hc hy, Option.bind_eq_bind, Option.bind_some]
    exact hr
  · next hl => rw [if_neg hl] at h; exact h

theorem wide_bubbleDown {c : Nat} {q : Fpq α} (hc : q.buf.cap ≤ c) {tmp : Slot} {i : Nat} {r : Fpq α × Nat}
    (h : q.bubbleDown tmp i = some r) :
    (wide c q).bubbleDown tmp i = some (wide c r.1, r.2) ∧ r.1.buf.cap = q.buf.cap := by
  revert hc
  refine Fpq.bubbleDown.partial_correctness (tmp := tmp) (motive := fun q i r => q.buf.cap ≤ c →
    (wide c q).bubbleDown tmp i = some (wide c r.1, r.2) ∧ r.1.buf.cap = q.buf.cap) ?_ q i r h
  clear h r i q
  intro bd ih q i r h hc
  rw [Fpq.bubbleDown]
  have e : (wide c q).buf.sz = q.buf.sz := rfl
  rw [e]
  split at h
  · next hl =>
    rw [if_pos hl]
    simp only [Option.bind_eq_bind, Option.bind_eq_some_iff] at h
    obtain ⟨n, hn, x, hx, y, hy, hr⟩ := h
    simp only [wide_pickChild hc hn, wide_load hc hx, wide_load hc hy, Option.bind_eq_bind, Option.bind_some]
    have e2 : (wide c q).wins x y = q.wins x y := rfl
    rw [e2]
    split at hr
    · next hw =>
      rw [if_pos hw]
      obtain ⟨q2, hq2, hr⟩ := Option.bind_eq_some_iff.1 hr
      obtain ⟨h1, h2, _⟩ := wide_swap hc hq2
      obtain ⟨h3, h4⟩ := ih _ _ _ hr (by omega)
      rw [h1]
      exact ⟨h3, by omega⟩
    · next hw =>
      rw [if_neg hw]
      cases hr
      exact ⟨rfl, rfl⟩
  · next hl =>
    rw [if_neg hl]
    cases h
    exact ⟨rfl, rfl⟩

theorem wide_heapifyLoop {c : Nat} {tmp : Slot} : ∀ (i : Nat) {q q' : Fpq α}, q.buf.cap ≤ c → q.heapifyLoop tmp i = some q' →
    (wide c q).heapifyLoop tmp i = some (wide c q') ∧ q'.buf.cap = q.buf.cap := by
  intro i
  induction i with
  | zero => intro q q' hc h; cases h; exact ⟨rfl, rfl⟩
  | succ i ih =>
    intro q q' hc h
    simp only [Fpq.heapifyLoop, Option.bind_eq_bind, Option.bind_eq_some_iff] at *
    obtain ⟨⟨q1, j⟩, h1, h2⟩ := h
    obtain ⟨h3, h4⟩ := wide_bubbleDown hc h1
    obtain ⟨h5, h6⟩ := ih (by simp only at h4 ⊢; omega) h2
    exact ⟨⟨_, h3, h5⟩, by simp only at h4 h6 ⊢; omega⟩

theorem wide_inPlaceHeapify {c n : Nat} {q q' : Fpq α} (hc : q.buf.cap ≤ c) (hn : n < q.buf.cap) (h : q.inPlaceHeapify n = some q') :
    (wide c q).inPlaceHeapify n = some (wide c q') ∧ q'.buf.cap = q.buf.cap := by
  unfold Fpq.inPlaceHeapify at *
  rw [if_neg (by omega)] at h
  rw [if_neg (by show ¬ c < n + 1; omega)]
  have e1 : q.buf.sizeSet n = ({ q.buf with sz := n }, .ok) := by rw [Buf.sizeSet, if_neg (by omega)]
  have e2 : (wide c q).buf.sizeSet n = ({ (wide c q).buf with sz := n }, .ok) := by
    rw [Buf.sizeSet, if_neg (by show ¬ n > c; omega)]
  have e3 : ({ q.buf with sz := n } : Buf α).at_ n = some n := by rw [Buf.at_, if_neg (by show ¬ n ≥ q.buf.cap; omega)]
  have e4 : ({ (wide c q).buf with sz := n } : Buf α).at_ n = some n := by rw [Buf.at_, if_neg (by show ¬ n ≥ c; omega)]
  simp only [e1, e3] at h
  simp only [e2, e4]
  exact wide_heapifyLoop (q := { q with buf := { q.buf with sz := n } }) _ hc h

theorem wide_pop {c : Nat} {q : Fpq α} (hc : q.buf.cap ≤ c) {r : Fpq α × Res} (hr : q.buf.sz < q.buf.cap) (h : q.pop = some r) :
    (wide c q).pop = some (wide c r.1, r.2) ∧ r.1.buf.cap = q.buf.cap := by
  unfold Fpq.pop at *
  have e : (wide c q).buf.sz = q.buf.sz := rfl
  rw [e]
  by_cases h0 : q.buf.sz = 0
  · rw [if_pos h0] at h ⊢; cases h; exact ⟨rfl, rfl⟩
  · rw [if_neg h0] at h ⊢
    by_cases h1 : q.buf.sz = 1
    · rw [if_pos h1] at h ⊢
      cases h
      simp only [Buf.popBack, Buf.popBackN, wide, h1]
      exact ⟨rfl, rfl⟩
    · rw [if_neg h1] at h ⊢
      simp only [Option.bind_eq_bind, Option.bind_eq_some_iff] at h
      obtain ⟨q1, hq1, ⟨q2, j⟩, hq2, hr2⟩ := h
      have ha : (wide c q).buf.at_ q.buf.sz = q.buf.at_ q.buf.sz := by
        simp only [Buf.at_]
        rw [if_neg (by show ¬ q.buf.sz ≥ c; omega), if_neg (by omega)]
      obtain ⟨h3, h4, _⟩ := wide_swap hc hq1
      have hp : ∀ q : Fpq α, { wide c q with buf := (wide c q).buf.popBack.1 } = wide c { q with buf := q.buf.popBack.1 } := by
        intro q
        simp only [Buf.popBack, Buf.popBackN, wide]
        by_cases h : 1 > q.buf.sz <;> simp [h]
      have hcap : ∀ q : Fpq α, ({ q with buf := q.buf.popBack.1 } : Fpq α).buf.cap = q.buf.cap := by
        intro q
        simp only [Buf.popBack, Buf.popBackN]
        split <;> rfl
      obtain ⟨h5, h6⟩ := wide_bubbleDown (c := c) (by rw [hcap]; omega) hq2
      simp only [ha, h3, Option.bind_eq_bind, Option.bind_some, hp, h5]
      cases hr2
      exact ⟨rfl, by simp only at h6 ⊢; rw [h6, hcap, h4]⟩

theorem cmpFreqs_lawful (f : Nat → List Nat) (hs : LawfulCmp cmpStr) : LawfulCmp (cmpFreqs f) := by
  have h1 := hs.noErr
  have h2 := hs.flip
  have h3 := hs.trans
  constructor
  · intro a b
    have := h1 (f a.ofs) (f b.ofs)
    unfold cmpFreqs; grind
  · intro a b
    have := h2 (f a.ofs) (f b.ofs)
    have := h2 (f b.ofs) (f a.ofs)
    have := h1 (f a.ofs) (f b.ofs)
    have := h1 (f b.ofs) (f a.ofs)
    unfold cmpFreqs; grind
  · intro a b c
    have := h3 (f c.ofs) (f b.ofs) (f a.ofs)
    have := h2 (f a.ofs) (f b.ofs)
    have := h2 (f b.ofs) (f c.ofs)
    have := h2 (f a.ofs) (f c.ofs)
    have := h2 (f c.ofs) (f a.ofs)
    have := h2 (f c.ofs) (f b.ofs)
    have := h2 (f b.ofs) (f a.ofs)
    unfold cmpFreqs; grind

/-- A queue prints its elements in its order. -/
theorem printN_spec {a : Arena} {c : Nat} : ∀ (n : Nat) (q : Fpq Freq), q.buf.sz = n → q.Inv → q.buf.sz < q.buf.cap → q.buf.cap ≤ c →
    (∀ x ∈ q.contents, ∃ s, a.str x.ofs = some s) →
    ∃ L : List Freq, L.Perm q.contents ∧ L.Pairwise (fun x y => ¬ q.beats y x) ∧
      ∀ k, printN a k (wide c q) = some ((L.take k).map (fun x => ((a.str x.ofs).getD [], x.freq))) := by
  intro n
  induction n with
  | zero =>
    intro q hn h hr hc ha
    refine ⟨[], by simp [Fpq.contents, hn, window_zero], List.Pairwise.nil, ?_⟩
    intro k
    cases k with
    | zero => rfl
    | succ k =>
      simp only [printN, Fpq.size, wide, hn, if_true]
      simp
  | succ n ih =>
    intro q hn h hr hc ha
    obtain ⟨q', s, x, hf, hl, hp, hi, hperm, hcmp, hord⟩ := Fpq.C14_pop q h (by simp only [Fpq.size]; omega)
    rcases Fpq.C13_front q h with ⟨_, hf'⟩ | ⟨s', x', hf', hlt, hl', hm, hbest⟩
    · rw [hf'] at hf; cases hf
    · rw [hf] at hf'; cases hf'
      rw [hl] at hl'; cases hl'
      obtain ⟨hw, hcap⟩ := wide_pop hc hr hp
      simp only at hcap hw
      have hlen := hperm.length_eq
      simp only [Fpq.contents, window_length, List.length_cons] at hlen
      obtain ⟨L, hL, hP, hk⟩ := ih q' (by omega) hi (by omega) (by omega)
        (fun y hy => ha y (hperm.mem_iff.2 (List.mem_cons_of_mem _ hy)))
      refine ⟨x :: L, (List.Perm.cons x hL).trans hperm.symm, ?_, ?_⟩
      · rw [List.pairwise_cons]
        refine ⟨fun y hy => hbest y (hperm.mem_iff.2 (List.mem_cons_of_mem _ (hL.mem_iff.1 hy))), ?_⟩
        refine hP.imp ?_
        intro y z hyz
        simpa only [Fpq.beats, hcmp, hord] using hyz
      · intro k
        cases k with
        | zero => rfl
        | succ k =>
          obtain ⟨t, ht⟩ := ha x hm
          have hfw : (wide c q).front = some s := by
            have hf2 := hf
            simp only [Fpq.front, Buf.at_] at hf2 ⊢
            rw [if_neg (by omega), if_neg (by omega)] at hf2
            rw [if_neg (by show ¬ q.buf.sz = 0; omega), if_neg (by show ¬ 0 ≥ c; omega)]
            exact hf2
          simp only [printN]
          rw [if_neg (by show ¬ q.buf.sz = 0; omega)]
          simp only [hfw, wide_load hc hl, ht, hw, hk, Option.bind_eq_bind, Option.bind_some, List.take_succ_cons, List.map_cons,
            Option.getD_some]

end CCC.Words
