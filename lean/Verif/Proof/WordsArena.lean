import Verif.Model.Words
import Mathlib.Data.List.Basic
/-
The arena of strings of the word count sample.
-/
namespace CCC.Words
open CCC

/-- The arena is in order. -/
structure Arena.Ok (a : Arena) : Prop where
  big : 4096 ≤ a.cap
  next : a.next ≤ a.cap

/-- The string `s` is at position `o`. -/
structure Arena.Holds (a : Arena) (o : Nat) (s : List Nat) : Prop where
  inside : o + s.length < a.next
  bytes : ∀ i (h : i < s.length), a.mem (o + i) = s[i]
  fin : a.mem (o + s.length) = 0
  pos : ∀ c ∈ s, c ≠ 0

theorem readStr_spec (mem : Nat → Nat) : ∀ (s : List Nat) (o k : Nat), (∀ i (h : i < s.length), mem (o + i) = s[i]) →
    mem (o + s.length) = 0 → (∀ c ∈ s, c ≠ 0) → s.length < k → readStr mem o k = some s := by
  intro s
  induction s with
  | nil =>
    intro o k _ h2 _ hk
    cases k with
    | zero => simp at hk
    | succ k => simp only [readStr]; rw [if_pos (by simpa using h2)]
  | cons c s ih =>
    intro o k h1 h2 h3 hk
    cases k with
    | zero => simp at hk
    | succ k =>
      have e0 : mem o = c := by have := h1 0 (by simp); simpa using this
      have hc : c ≠ 0 := h3 c (by simp)
      simp only [readStr]
      rw [if_neg (by rw [e0]; exact hc), ih (o + 1) k, e0]
      · rfl
      · intro i hi
        have := h1 (i + 1) (by simp; omega)
        rw [show o + 1 + i = o + (i + 1) by omega, this]; rfl
      · rw [show o + 1 + s.length = o + (c :: s).length by simp; omega]; exact h2
      · exact fun d hd => h3 d (List.mem_cons_of_mem _ hd)
      · simp at hk; omega

theorem Arena.Holds.str {a : Arena} {o : Nat} {s : List Nat} (h : a.Holds o s) (ok : a.Ok) : a.str o = some s := by
  have h1 := h.inside
  have h2 := ok.next
  unfold Arena.str
  rw [if_neg (by omega)]
  exact readStr_spec _ _ _ _ h.bytes h.fin h.pos (by omega)

/-- What is below the free position stays. -/
structure Arena.Frame (a a' : Arena) : Prop where
  next : a.next ≤ a'.next
  mem : ∀ i < a.next, a'.mem i = a.mem i

theorem Arena.Frame.refl (a : Arena) : a.Frame a := ⟨Nat.le_refl _, fun _ _ => rfl⟩
theorem Arena.Frame.trans {a b c : Arena} (h : a.Frame b) (h' : b.Frame c) : a.Frame c :=
  ⟨Nat.le_trans h.next h'.next, fun i hi => by rw [h'.mem i (by have := h.next; omega), h.mem i hi]⟩

theorem Arena.Holds.frame {a a' : Arena} {o : Nat} {s : List Nat} (h : a.Holds o s) (f : a.Frame a') : a'.Holds o s := by
  have h1 := h.inside
  have h2 := f.next
  exact ⟨by omega, fun i hi => by rw [f.mem _ (by omega)]; exact h.bytes i hi, by rw [f.mem _ h1]; exact h.fin, h.pos⟩

theorem Arena.resize_spec {a : Arena} (ok : a.Ok) (pos : Nat) : (a.resize pos).Ok ∧ pos < (a.resize pos).cap ∧
    a.cap ≤ (a.resize pos).cap ∧ (a.resize pos).next = a.next ∧ ∀ i < a.cap, (a.resize pos).mem i = a.mem i := by
  have h1 := ok.big
  have h2 := ok.next
  unfold Arena.resize
  split
  · refine ⟨⟨?_, ?_⟩, ?_, ?_, rfl, ?_⟩
    · simp only; omega
    · simp only; omega
    · simp only; omega
    · simp only; omega
    · intro i hi; simp only; rw [if_neg (by omega)]
  · exact ⟨ok, by omega, Nat.le_refl _, rfl, fun _ _ => rfl⟩

/-- A string under construction at the end of the arena. -/
structure Arena.Part (a : Arena) (str : Nat) (s : List Nat) : Prop where
  ok : a.Ok
  room : str < a.cap
  next : a.next = if s = [] then str else str + s.length + 1
  bytes : ∀ i (h : i < s.length), a.mem (str + i) = s[i]
  fin : s ≠ [] → a.mem (str + s.length) = 0

theorem Arena.Part.push {a : Arena} {str : Nat} {s : List Nat} (h : a.Part str s) (c : Nat) :
    ∃ a', a.pushBack str s.length c = some a' ∧ a'.Part str (s ++ [c]) ∧ ∀ i < str, a'.mem i = a.mem i := by
  obtain ⟨r1, r2, r3, r4, r5⟩ := Arena.resize_spec h.ok (str + s.length + 1)
  have hroom := h.room
  have hcap := h.ok.next
  have hnext := h.next
  have hlen : s ≠ [] → str + s.length < a.cap := by
    intro hs
    rw [if_neg hs] at hnext
    omega
  have hle : a.next ≤ str + s.length + 1 := by
    rw [hnext]; split <;> omega
  simp only [Arena.pushBack, Option.bind_eq_bind]
  rw [if_neg (by omega)]
  simp only [Arena.put]
  rw [if_pos (by omega)]
  simp only [Option.bind_some]
  rw [if_pos (by omega)]
  simp only [Option.bind_some]
  rw [if_pos (by rw [r4]; omega)]
  refine ⟨_, rfl, ⟨⟨r1.big, by simp only; omega⟩, by simp only; omega, by simp; omega, ?_, ?_⟩, ?_⟩
  · intro i hi
    simp only [List.length_append, List.length_cons, List.length_nil] at hi
    simp only [upd]
    rw [if_neg (by omega)]
    by_cases e : i = s.length
    · subst e; simp
    · rw [if_neg (by omega), r5 _ (by
        have : s ≠ [] := by rintro rfl; simp at hi; simp at e; omega
        have := hlen this; omega), h.bytes i (by omega)]
      rw [List.getElem_append_left]
  · intro _
    simp only [List.length_append, List.length_cons, List.length_nil, upd]
    rw [if_pos (by omega)]
  · intro i hi
    simp only [upd]
    rw [if_neg (by omega), if_neg (by omega), r5 _ (by omega)]

theorem Arena.Part.free {a : Arena} {str : Nat} {s : List Nat} (h : a.Part str s) : ∃ a', a.freeTo str s.length = some a' ∧
    a'.Ok ∧ a'.next = str ∧ ∀ i < str, a'.mem i = a.mem i := by
  have h1 := h.room
  have h2 := h.next
  have h3 := h.ok.next
  have h4 := h.ok.big
  unfold Arena.freeTo
  by_cases hz : a.cap = 0 ∨ a.next = 0
  · rw [if_pos hz]
    refine ⟨a, rfl, h.ok, ?_, fun _ _ => rfl⟩
    split at h2 <;> omega
  · rw [if_neg hz, if_neg]
    · exact ⟨_, rfl, ⟨h4, by simp only; omega⟩, rfl, fun i hi => by simp only; rw [if_neg (by omega)]⟩
    · rintro ⟨h5, h6⟩
      rw [if_neg (by rintro rfl; simp at h5)] at h2
      omega

theorem isAlpha_eq {c : Nat} (h : c < 128) : isAlpha c = some (decide (Letter c)) := by unfold isAlpha; rw [if_pos h]

theorem cleanLoop_spec (str : Nat) : ∀ (cs : List Nat) (a : Arena) (s : List Nat), a.Part str s → (∀ c ∈ cs, c < 128) →
    ∃ a' r, cleanLoop str a s.length cs = some (a', r) ∧ a'.Ok ∧ str ≤ a'.next ∧ (∀ i < str, a'.mem i = a.mem i) ∧
      ((∀ c ∈ cs, Letter c ∨ c = 45) → r = some (s.length + cs.length) ∧ a'.Part str (s ++ cs.map lower)) ∧
      ((¬ ∀ c ∈ cs, Letter c ∨ c = 45) → r = none) := by
  intro cs
  induction cs with
  | nil =>
    intro a s h _
    refine ⟨a, _, rfl, h.ok, ?_, fun _ _ => rfl, fun _ => ⟨by simp, by simpa using h⟩, by simp⟩
    rw [h.next]; split <;> omega
  | cons c cs ih =>
    intro a s h hb
    have hc := hb c (by simp)
    simp only [cleanLoop, isAlpha_eq hc, Option.bind_eq_bind, Option.bind_some]
    by_cases hl : Letter c ∨ c = 45
    · rw [if_neg (by rcases hl with hl | hl <;> simp [hl])]
      obtain ⟨a1, e1, p1, f1⟩ := h.push (lower c)
      obtain ⟨a2, r, e2, k1, k2, k3, k4, k5⟩ := ih a1 (s ++ [lower c]) p1 (fun d hd => hb d (List.mem_cons_of_mem _ hd))
      simp only [e1, Option.bind_some]
      have hlen : (s ++ [lower c]).length = s.length + 1 := by simp
      rw [hlen] at e2 k4
      refine ⟨a2, r, e2, k1, k2, fun i hi => (k3 i hi).trans (f1 i hi), ?_, ?_⟩
      · intro hall
        obtain ⟨q1, q2⟩ := k4 fun d hd => hall d (List.mem_cons_of_mem _ hd)
        refine ⟨by rw [q1]; simp; omega, by simpa using q2⟩
      · intro hn
        apply k5
        intro hall
        apply hn
        intro d hd
        rcases List.mem_cons.1 hd with rfl | hd
        · exact hl
        · exact hall d hd
    · rw [if_pos (by simp only [not_or] at hl; simp [hl.1, hl.2])]
      obtain ⟨a1, e1, k1, k2, k3⟩ := h.free
      refine ⟨a1, none, by rw [e1]; rfl, k1, by omega, k3, fun hall => (hl (hall c (by simp))).elim, fun _ => rfl⟩

theorem letter_lower (c : Nat) : Letter (lower c) ↔ Letter c := by
  unfold Letter lower; split <;> omega
theorem lower_lt {c : Nat} (h : c < 128) : lower c < 128 := by unfold lower; split <;> omega
theorem lower_pos {c : Nat} (h : Letter c ∨ c = 45) : lower c ≠ 0 := by
  unfold Letter at h; unfold lower; split <;> omega

/-- **The cleaning of a word**: it is put into the arena in lower case, or the arena is as before; other strings stay. -/
theorem cleanWord_spec {a : Arena} (ok : a.Ok) {w : List Nat} (hb : ∀ c ∈ w, c < 128) :
    ∃ a' r, cleanWord a w = some (a', r) ∧ a'.Ok ∧ a.Frame a' ∧ (IsWord w → ∃ o, r = some o ∧ a'.Holds o (w.map lower)) ∧
      (¬ IsWord w → r = none) := by
  obtain ⟨r1, r2, r3, r4, r5⟩ := Arena.resize_spec ok a.next
  have hok := ok.next
  have part : (a.resize a.next).Part a.next [] := ⟨r1, r2, by simp [r4], by simp, by simp⟩
  obtain ⟨a1, r, e1, k1, k2, k3, k4, k5⟩ := cleanLoop_spec a.next w _ [] part hb
  have k3' : ∀ i < a.next, a1.mem i = a.mem i := fun i hi => (k3 i hi).trans (r5 i (by omega))
  simp only [List.length_nil] at e1
  simp only [cleanWord, Option.bind_eq_bind, Nat.add_zero, r4, e1, Option.bind_some]
  by_cases hall : ∀ c ∈ w, Letter c ∨ c = 45
  · obtain ⟨q1, q2⟩ := k4 hall
    simp only [List.length_nil, Nat.zero_add, List.nil_append] at q1 q2
    subst q1
    cases hw : w.length with
    | zero =>
      have : w = [] := List.length_eq_zero_iff.1 hw
      subst this
      exact ⟨a1, none, rfl, k1, ⟨k2, k3'⟩, fun h => by obtain ⟨_, ⟨c, hc, _⟩, _⟩ := h; simp at hc, fun _ => rfl⟩
    | succ n =>
      have hne : w ≠ [] := by rintro rfl; simp at hw
      have hne' : w.map lower ≠ [] := by simpa using hne
      have m0 : a1.mem a.next = lower (w[0]'(by omega)) := by
        have := q2.bytes 0 (by simp; omega); simpa using this
      have mn : a1.mem (a.next + n) = lower (w[n]'(by omega)) := by
        have := q2.bytes n (by simp; omega); simpa using this
      have c0 := hb (w[0]'(by omega)) (List.getElem_mem _)
      have cn := hb (w[n]'(by omega)) (List.getElem_mem _)
      have hhead : w.head? = some (w[0]'(by omega)) := by
        rw [List.head?_eq_getElem?, List.getElem?_eq_getElem]
      have hlast : w.getLast? = some (w[n]'(by omega)) := by
        rw [List.getLast?_eq_getElem?, show w.length - 1 = n by omega, List.getElem?_eq_getElem]
      have hroom := q2.room
      simp only []
      rw [if_neg (by omega)]
      simp only [m0, mn, isAlpha_eq (lower_lt c0), isAlpha_eq (lower_lt cn), Option.bind_some, letter_lower]
      by_cases hl : Letter (w[0]'(by omega)) ∧ Letter (w[n]'(by omega))
      · rw [if_neg (by simp [hl.1, hl.2])]
        have hnext := q2.next
        rw [if_neg hne'] at hnext
        refine ⟨a1, _, rfl, k1, ⟨k2, k3'⟩, fun _ => ⟨_, rfl, ?_⟩, ?_⟩
        · refine ⟨by omega, q2.bytes, q2.fin hne', ?_⟩
          intro d hd
          obtain ⟨c, hc, rfl⟩ := List.mem_map.1 hd
          exact lower_pos (hall c hc)
        · intro h
          exact (h ⟨hall, ⟨_, hhead, hl.1⟩, ⟨_, hlast, hl.2⟩⟩).elim
      · rw [if_pos (by
          by_cases h0 : Letter (w[0]'(by omega))
          · have : ¬ Letter (w[n]'(by omega)) := fun h => hl ⟨h0, h⟩
            simp [this]
          · simp [h0])]
        obtain ⟨a2, f1, f2, f3, f4⟩ := q2.free
        have hlen : (w.map lower).length = n + 1 := by simp [hw]
        rw [hlen] at f1
        refine ⟨a2, none, by rw [f1]; rfl, f2, ⟨by omega, fun i hi => (f4 i hi).trans (k3' i hi)⟩, ?_, fun _ => rfl⟩
        rintro ⟨_, ⟨c, hc, hc'⟩, ⟨d, hd, hd'⟩⟩
        rw [hhead] at hc
        rw [hlast] at hd
        cases hc
        cases hd
        exact (hl ⟨hc', hd'⟩).elim
  · rw [k5 hall]
    exact ⟨a1, none, rfl, k1, ⟨k2, k3'⟩, fun h => (hall h.1).elim, fun _ => rfl⟩

end CCC.Words
