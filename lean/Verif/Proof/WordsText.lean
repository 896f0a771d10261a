import Verif.Model.Words
/-
The pieces of a text.
-/
namespace CCC.Words
open CCC

/-- The pieces that are not empty. -/
def runs (sep : Nat → Bool) (l : List Nat) : List (List Nat) := (cut sep l).filter (fun p => !p.isEmpty)

variable {sep : Nat → Bool}

theorem cut_ne (l : List Nat) : cut sep l ≠ [] := by
  cases l with
  | nil => simp [cut]
  | cons c cs =>
    simp only [cut]
    split
    · simp
    · split <;> simp

theorem cut_append {w t : List Nat} {d : Nat} (hw : ∀ c ∈ w, sep c = false) (hd : sep d = true) :
    cut sep (w ++ d :: t) = w :: cut sep t := by
  induction w with
  | nil => simp [cut, hd]
  | cons c w ih =>
    simp only [List.cons_append, cut, hw c (by simp), Bool.false_eq_true, if_false]
    rw [ih (fun x hx => hw x (List.mem_cons_of_mem _ hx))]

theorem cut_single {w : List Nat} (hw : ∀ c ∈ w, sep c = false) : cut sep w = [w] := by
  induction w with
  | nil => rfl
  | cons c w ih =>
    simp only [cut, hw c (by simp), Bool.false_eq_true, if_false]
    rw [ih (fun x hx => hw x (List.mem_cons_of_mem _ hx))]

theorem runs_nil : runs sep [] = [] := rfl
theorem runs_sep {d : Nat} {t : List Nat} (hd : sep d = true) : runs sep (d :: t) = runs sep t := by
  simp [runs, cut, hd]
theorem runs_append {w t : List Nat} {d : Nat} (hw : ∀ c ∈ w, sep c = false) (hd : sep d = true) (hne : w ≠ []) :
    runs sep (w ++ d :: t) = w :: runs sep t := by
  cases w with
  | nil => exact absurd rfl hne
  | cons c w => rw [runs, cut_append hw hd]; simp [runs]
theorem runs_single {w : List Nat} (hw : ∀ c ∈ w, sep c = false) (hne : w ≠ []) : runs sep w = [w] := by
  cases w with
  | nil => exact absurd rfl hne
  | cons c w => rw [runs, cut_single hw]; simp
theorem runs_seps {r s : List Nat} (hr : ∀ c ∈ r, sep c = true) : runs sep (r ++ s) = runs sep s := by
  induction r with
  | nil => rfl
  | cons c r ih => rw [List.cons_append, runs_sep (hr c (by simp)), ih (fun x hx => hr x (List.mem_cons_of_mem _ hx))]

variable {buf : List Nat} {d : Nat}

/-- The bytes from `i` to `len`. -/
theorem afterFind_spec (len : Nat) (hl : len ≤ buf.length) : ∀ n i, i + n = len →
    ∃ k, afterFind buf d i n = some k ∧ k ≤ n ∧ (∀ c ∈ (buf.drop i).take k, c = d) ∧ (i + k < len → buf[i + k]? ≠ some d) := by
  intro n
  induction n with
  | zero => intro i hi; exact ⟨0, rfl, by omega, by simp, by omega⟩
  | succ n ih =>
    intro i hi
    have hlt : i < buf.length := by omega
    simp only [afterFind, List.getElem?_eq_getElem hlt, Option.bind_eq_bind, Option.bind_some]
    by_cases hd : d = buf[i]
    · rw [if_pos hd]
      obtain ⟨k, hk, hkn, h1, h2⟩ := ih (i + 1) (by omega)
      rw [hk]
      refine ⟨k + 1, rfl, by omega, ?_, ?_⟩
      · rw [List.drop_eq_getElem_cons hlt, List.take_succ_cons]
        intro c hc
        rcases List.mem_cons.1 hc with rfl | hc
        · exact hd.symm
        · exact h1 c hc
      · intro h
        rw [show i + (k + 1) = i + 1 + k by omega]
        exact h2 (by omega)
    · rw [if_neg hd]
      refine ⟨0, rfl, by omega, by simp, ?_⟩
      intro _ h
      rw [Nat.add_zero, List.getElem?_eq_getElem hlt] at h
      exact hd (Option.some.inj h).symm

theorem strnchr_spec (len : Nat) (hl : len ≤ buf.length) : ∀ n i, i + n = len →
    ∃ k, strnchr buf d i n = some k ∧ k ≤ n ∧ (∀ c ∈ (buf.drop i).take k, c ≠ d) ∧ (i + k < len → buf[i + k]? = some d) := by
  intro n
  induction n with
  | zero => intro i hi; exact ⟨0, rfl, by omega, by simp, by omega⟩
  | succ n ih =>
    intro i hi
    have hlt : i < buf.length := by omega
    simp only [strnchr, List.getElem?_eq_getElem hlt, Option.bind_eq_bind, Option.bind_some]
    by_cases hd : buf[i] = d
    · rw [if_neg (not_not_intro hd)]
      refine ⟨0, rfl, by omega, by simp, ?_⟩
      intro _
      rw [Nat.add_zero, List.getElem?_eq_getElem hlt, hd]
    · rw [if_pos hd]
      obtain ⟨k, hk, hkn, h1, h2⟩ := ih (i + 1) (by omega)
      rw [hk]
      refine ⟨k + 1, rfl, by omega, ?_, ?_⟩
      · rw [List.drop_eq_getElem_cons hlt, List.take_succ_cons]
        intro c hc
        rcases List.mem_cons.1 hc with rfl | hc
        · exact hd
        · exact h1 c hc
      · intro h
        rw [show i + (k + 1) = i + 1 + k by omega]
        exact h2 (by omega)

/-- The rest of the line from `i` on. -/
def rest (buf : List Nat) (len i : Nat) : List Nat := (buf.drop i).take (len - i)

theorem rest_split {len i k : Nat} (h : i + k ≤ len) : rest buf len i = (buf.drop i).take k ++ rest buf len (i + k) := by
  unfold rest
  rw [show len - i = k + (len - (i + k)) by omega, List.take_add, List.drop_drop]

theorem rest_end {len i : Nat} (h : len ≤ i) : rest buf len i = [] := by
  unfold rest
  rw [show len - i = 0 by omega, List.take_zero]

theorem rest_cons {len i : Nat} (hl : len ≤ buf.length) (h : i < len) : rest buf len i = buf[i]'(by omega) :: rest buf len (i + 1) := by
  unfold rest
  rw [List.drop_eq_getElem_cons (by omega), show len - i = (len - (i + 1)) + 1 by omega, List.take_succ_cons]

/-- A token: the first piece of what is left from some position on. -/
structure IsTok (buf : List Nat) (d len : Nat) (t : Tok) (l : List (List Nat)) : Prop where
  fits : t.1 + t.2 ≤ len
  fin : t.2 = 0 → l = []
  cons : t.2 ≠ 0 → ∃ l', l = (buf.drop t.1).take t.2 :: l' ∧
    (t.1 + t.2 = len ∧ l' = [] ∨ t.1 + t.2 < len ∧ buf[t.1 + t.2]? = some d ∧ l' = runs (· == d) (rest buf len (t.1 + t.2 + 1)))

/-- The first token from `i` on. -/
theorem tok_at {len i k l : Nat} (hl : len ≤ buf.length) (hk : i + k ≤ len) (h1 : ∀ c ∈ (buf.drop i).take k, c = d)
    (h2 : i + k < len → buf[i + k]? ≠ some d) (hlen : i + k + l ≤ len) (h3 : ∀ c ∈ (buf.drop (i + k)).take l, c ≠ d)
    (h4 : i + k + l < len → buf[i + k + l]? = some d) : IsTok buf d len (i + k, l) (runs (· == d) (rest buf len i)) := by
  have hr : runs (· == d) (rest buf len i) = runs (· == d) (rest buf len (i + k)) := by
    rw [rest_split hk, runs_seps (by intro c hc; simp [h1 c hc])]
  rw [hr]
  refine ⟨hlen, ?_, ?_⟩
  · intro h0
    simp only at h0
    subst h0
    by_cases he : i + k < len
    · exact absurd (h4 he) (h2 he)
    · rw [rest_end (by omega), runs_nil]
  · intro hne
    simp only at hne ⊢
    have hw : ∀ c ∈ (buf.drop (i + k)).take l, (c == d) = false := by
      intro c hc; simpa using h3 c hc
    have hwne : (buf.drop (i + k)).take l ≠ [] := by
      intro hh
      have := congrArg List.length hh
      simp only [List.length_take, List.length_drop, List.length_nil] at this
      omega
    rw [rest_split hlen]
    by_cases he : i + k + l < len
    · have h5 := h4 he
      rw [List.getElem?_eq_getElem (by omega)] at h5
      have h6 := Option.some.inj h5
      rw [rest_cons hl he, h6, runs_append hw (by simp) hwne]
      exact ⟨_, rfl, Or.inr ⟨he, h4 he, rfl⟩⟩
    · rw [rest_end (by omega), List.append_nil, runs_single hw hwne]
      exact ⟨_, rfl, Or.inl ⟨by omega, rfl⟩⟩

theorem beginTok_spec {len : Nat} (hl : len ≤ buf.length) :
    ∃ t, beginTok buf d len = some t ∧ IsTok buf d len t (runs (· == d) (buf.take len)) := by
  have h0 : buf.take len = rest buf len 0 := by simp [rest]
  rw [h0]
  obtain ⟨k, hk, hkn, h1, h2⟩ := afterFind_spec (buf := buf) (d := d) len hl len 0 (by omega)
  simp only [beginTok, hk, Option.bind_eq_bind, Option.bind_some]
  by_cases he : len = k
  · rw [if_pos he]
    refine ⟨_, rfl, ?_⟩
    have := tok_at (l := 0) hl (by omega : 0 + k ≤ len) h1 h2 (by omega) (by simp) (by omega)
    rwa [Nat.zero_add] at this
  · rw [if_neg he]
    obtain ⟨l, hl', hln, h3, h4⟩ := strnchr_spec (buf := buf) (d := d) len hl (len - k) k (by omega)
    rw [hl']
    refine ⟨_, rfl, ?_⟩
    have := tok_at (l := l) hl (by omega : 0 + k ≤ len) h1 h2 (by omega) (by rw [Nat.zero_add]; exact h3) (by rw [Nat.zero_add]; exact h4)
    rwa [Nat.zero_add] at this

theorem nextTok_spec {len : Nat} (hl : len < buf.length) (hd : d ≠ 0) {t : Tok} {p : List Nat} {l : List (List Nat)}
    (h : IsTok buf d len t (p :: l)) (hne : t.2 ≠ 0) :
    p = (buf.drop t.1).take t.2 ∧ ∃ t', nextTok buf d len t = some t' ∧ IsTok buf d len t' l ∧ (t'.2 = 0 ∨ t.1 + t.2 < t'.1) := by
  obtain ⟨l', h1, h2⟩ := h.cons hne
  simp only [List.cons.injEq] at h1
  obtain ⟨rfl, rfl⟩ := h1
  have hf := h.fits
  refine ⟨rfl, ?_⟩
  have hlt : t.1 + t.2 < buf.length := by omega
  simp only [nextTok, List.getElem?_eq_getElem hlt, Option.bind_eq_bind, Option.bind_some]
  rcases h2 with ⟨he, hl'⟩ | ⟨he, hb, hl'⟩
  · subst hl'
    by_cases h0 : buf[t.1 + t.2] = 0
    · rw [if_pos h0]
      exact ⟨_, rfl, ⟨by simp only; omega, fun _ => rfl, fun hh => absurd rfl hh⟩, Or.inl rfl⟩
    · rw [if_neg h0, if_pos (by omega)]
      exact ⟨_, rfl, ⟨by simp only; omega, fun _ => rfl, fun hh => absurd rfl hh⟩, Or.inl rfl⟩
  · rw [List.getElem?_eq_getElem hlt] at hb
    have hb := Option.some.inj hb
    rw [if_neg (by rw [hb]; exact hd), if_neg (by omega)]
    obtain ⟨k, hk, hkn, h1, h2⟩ := afterFind_spec (buf := buf) (d := d) len (by omega) (len - (t.1 + t.2 + 1)) (t.1 + t.2 + 1) (by omega)
    rw [hk, Option.bind_some, hl']
    by_cases hg : t.1 + t.2 + 1 + k ≥ len
    · rw [if_pos hg]
      have := tok_at (l := 0) (by omega : len ≤ buf.length) (by omega) h1 h2 (by omega) (by simp) (by omega)
      refine ⟨_, rfl, ⟨by simp only; omega, fun _ => this.fin rfl, fun hh => absurd rfl hh⟩, Or.inl rfl⟩
    · rw [if_neg hg]
      obtain ⟨m, hm, hmn, h3, h4⟩ := strnchr_spec (buf := buf) (d := d) len (by omega) (len - (t.1 + t.2 + 1) - k) (t.1 + t.2 + 1 + k) (by omega)
      rw [hm]
      exact ⟨_, rfl, tok_at (by omega) (by omega) h1 h2 (by omega) h3 h4, Or.inr (by simp only; omega)⟩

theorem tokLoop_spec {len : Nat} (hl : len < buf.length) (hd : d ≠ 0) : ∀ (l : List (List Nat)) (t : Tok), IsTok buf d len t l →
    tokLoop buf d len t = some l := by
  intro l
  induction l with
  | nil =>
    intro t h
    rw [tokLoop, if_pos]
    by_cases h0 : t.2 = 0
    · simp [endTok, h0]
    · obtain ⟨_, h1, _⟩ := h.cons h0; cases h1
  | cons p l ih =>
    intro t h
    have hne : t.2 ≠ 0 := fun h0 => by cases h.fin h0
    obtain ⟨rfl, t', h1, h2, _⟩ := nextTok_spec hl hd h hne
    have hf := h.fits
    rw [tokLoop, if_neg (by simp only [endTok, Bool.or_eq_true, beq_iff_eq, decide_eq_true_eq]; omega)]
    simp only [h1, ih t' h2, Option.bind_eq_bind, Option.bind_some]

theorem pieces_spec : ∀ ls : List (List Nat), pieces ls = some (ls.flatMap (fun l => runs (· == 32) l.dropLast)) := by
  intro ls
  induction ls with
  | nil => rfl
  | cons l ls ih =>
    obtain ⟨t, h1, h2⟩ := beginTok_spec (buf := l ++ [0]) (d := 32) (len := l.length - 1) (by simp; omega)
    have h3 := tokLoop_spec (buf := l ++ [0]) (by simp; omega) (by decide) _ _ h2
    simp only [pieces, h1, h3, ih, Option.bind_eq_bind, Option.bind_some, List.flatMap_cons]
    congr 3
    rw [List.take_append_of_le_length (by omega), List.dropLast_eq_take]

theorem getLines_append {w t : List Nat} (hw : ∀ c ∈ w, c ≠ 10) : getLines (w ++ 10 :: t) = (w ++ [10]) :: getLines t := by
  induction w with
  | nil => simp [getLines]
  | cons c w ih =>
    simp only [List.cons_append, getLines, hw c (by simp), if_false]
    rw [ih (fun x hx => hw x (List.mem_cons_of_mem _ hx))]

/-- Cutting at two separators is cutting at one and then at the other. -/
theorem runs_lines {w t : List Nat} (hw : ∀ c ∈ w, c ≠ 10) :
    runs (fun c => c == 32 || c == 10) (w ++ 10 :: t) = runs (· == 32) w ++ runs (fun c => c == 32 || c == 10) t := by
  have key : ∀ w : List Nat, (∀ c ∈ w, c ≠ 10) →
      cut (fun c => c == 32 || c == 10) (w ++ 10 :: t) = cut (· == 32) w ++ cut (fun c => c == 32 || c == 10) t := by
    intro w
    induction w with
    | nil => intro _; simp [cut]
    | cons c w ih =>
      intro hw
      have hc := hw c (by simp)
      have ih := ih (fun x hx => hw x (List.mem_cons_of_mem _ hx))
      by_cases h : c = 32
      · simp [cut, h, ih]
      · simp only [List.cons_append, cut, ih]
        simp only [h, hc, beq_iff_eq, Bool.or_eq_true, or_self, if_false]
        cases hq : cut (· == 32) w with
        | nil => exact absurd hq (cut_ne w)
        | cons p ps => rfl
  unfold runs
  rw [key w hw, List.filter_append]

theorem first_line : ∀ l : List Nat, 10 ∈ l → ∃ w t, l = w ++ 10 :: t ∧ ∀ c ∈ w, c ≠ 10 := by
  intro l
  induction l with
  | nil => intro h; cases h
  | cons x l ihl =>
    intro h
    by_cases hx : x = 10
    · exact ⟨[], l, by simp [hx], by simp⟩
    · rcases List.mem_cons.1 h with h | h
      · exact absurd h.symm hx
      · obtain ⟨w, t, e, hw⟩ := ihl h
        refine ⟨x :: w, t, by simp [e], ?_⟩
        intro c hc
        rcases List.mem_cons.1 hc with rfl | hc
        · exact hx
        · exact hw c hc

/-- The text of some lines, each of them ended. -/
theorem pieces_text : ∀ (n : Nat) (text : List Nat), text.length ≤ n → (text = [] ∨ text.getLast? = some 10) →
    pieces (getLines text) = some (runs (fun c => c == 32 || c == 10) text) := by
  intro n
  induction n with
  | zero =>
    intro text hn _
    have : text = [] := List.length_eq_zero_iff.1 (by omega)
    subst this; rfl
  | succ n ih =>
    intro text hn h
    rcases h with rfl | h
    · rfl
    · have hm : (10 : Nat) ∈ text := List.mem_of_getLast? h
      obtain ⟨w, t, rfl, hw⟩ := first_line text hm
      simp only [List.length_append, List.length_cons] at hn
      have ht : t = [] ∨ t.getLast? = some 10 := by
        cases t with
        | nil => exact Or.inl rfl
        | cons x t => right; simpa [List.getLast?_append] using h
      have := ih t (by omega) ht
      rw [pieces_spec] at this ⊢
      rw [getLines_append hw, runs_lines hw, List.flatMap_cons, Option.some.inj this]
      simp

theorem getLines_last (c : Nat) : ∀ t : List Nat, getLines (t ++ [c]) ≠ [] ∧ ∀ l ∈ getLines (t ++ [c]), l ≠ [] := by
  intro t
  induction t with
  | nil => simp only [List.nil_append, getLines]; split <;> simp
  | cons x t ih =>
    simp only [List.cons_append, getLines]
    split
    · refine ⟨by simp, ?_⟩
      intro l hl
      rcases List.mem_cons.1 hl with rfl | hl
      · simp
      · exact ih.2 l hl
    · split
      · simp
      · next p ps hp =>
        refine ⟨by simp, ?_⟩
        intro l hl
        rcases List.mem_cons.1 hl with rfl | hl
        · simp
        · exact ih.2 l (by rw [hp]; exact List.mem_cons_of_mem _ hl)

/-- The last byte of a text is not looked at. -/
theorem getLines_drop (c : Nat) : ∀ t : List Nat, (getLines (t ++ [c])).map List.dropLast = (getLines (t ++ [10])).map List.dropLast := by
  intro t
  induction t with
  | nil => simp only [List.nil_append, getLines]; split <;> rfl
  | cons x t ih =>
    simp only [List.cons_append, getLines]
    obtain ⟨n1, m1⟩ := getLines_last c t
    obtain ⟨n2, m2⟩ := getLines_last 10 t
    by_cases hx : x = 10
    · simp only [hx, if_true, List.map_cons, ih]
    · simp only [hx, if_false]
      cases h1 : getLines (t ++ [c]) with
      | nil => exact absurd h1 n1
      | cons p ps =>
        cases h2 : getLines (t ++ [10]) with
        | nil => exact absurd h2 n2
        | cons q qs =>
          rw [h1, h2] at ih
          simp only [List.map_cons, List.cons.injEq] at ih ⊢
          rw [List.dropLast_cons_of_ne_nil (m1 p (by rw [h1]; simp)), List.dropLast_cons_of_ne_nil (m2 q (by rw [h2]; simp)), ih.1]
          exact ⟨rfl, ih.2⟩

theorem pieces_last (c : Nat) (t : List Nat) : pieces (getLines (t ++ [c])) = pieces (getLines (t ++ [10])) := by
  rw [pieces_spec, pieces_spec]
  have h := congrArg (fun l : List (List Nat) => l.flatMap (runs (· == 32))) (getLines_drop c t)
  simp only [List.flatMap_map] at h
  rw [h]

/-- Pieces are made of bytes of the text, and there are at most as many. -/
theorem cut_mem : ∀ (l : List Nat), ∀ p ∈ cut sep l, ∀ c ∈ p, c ∈ l := by
  intro l
  induction l with
  | nil => intro p hp c hc; simp only [cut, List.mem_singleton] at hp; subst hp; cases hc
  | cons x l ih =>
    intro p hp c hc
    simp only [cut] at hp
    split at hp
    · rcases List.mem_cons.1 hp with rfl | hp
      · cases hc
      · exact List.mem_cons_of_mem _ (ih p hp c hc)
    · split at hp
      · simp only [List.mem_singleton] at hp; subst hp; simp at hc; simp [hc]
      · next q qs hq =>
        rcases List.mem_cons.1 hp with rfl | hp
        · rcases List.mem_cons.1 hc with rfl | hc
          · simp
          · exact List.mem_cons_of_mem _ (ih q (by rw [hq]; simp) c hc)
        · exact List.mem_cons_of_mem _ (ih p (by rw [hq]; exact List.mem_cons_of_mem _ hp) c hc)

theorem runs_mem {l p : List Nat} (hp : p ∈ runs sep l) : ∀ c ∈ p, c ∈ l := cut_mem l p (List.mem_filter.1 hp).1

theorem runs_length : ∀ (l : List Nat), (runs sep l).length ≤ l.length := by
  have key : ∀ l : List Nat, ∀ p ps, cut sep l = p :: ps → (ps.filter (fun p => !p.isEmpty)).length + p.length ≤ l.length := by
    intro l
    induction l with
    | nil => intro p ps h; simp only [cut, List.cons.injEq] at h; obtain ⟨rfl, rfl⟩ := h; simp
    | cons x l ih =>
      intro p ps h
      simp only [cut] at h
      split at h
      · simp only [List.cons.injEq] at h
        obtain ⟨rfl, rfl⟩ := h
        cases hq : cut sep l with
        | nil => exact absurd hq (cut_ne l)
        | cons q qs =>
          have := ih q qs hq
          cases q with
          | nil => simp at this ⊢; omega
          | cons y q => simp at this ⊢; omega
      · split at h
        · next hq => exact absurd hq (cut_ne l)
        · next q qs hq =>
          simp only [List.cons.injEq] at h
          obtain ⟨rfl, rfl⟩ := h
          have := ih q qs hq
          simp only [List.length_cons]; omega
  intro l
  unfold runs
  cases hq : cut sep l with
  | nil => simp
  | cons q qs =>
    have := key l q qs hq
    cases q with
    | nil => simp at this ⊢; omega
    | cons y q => simp at this ⊢; omega

theorem wordsOf_runs (l : List Nat) : wordsOf (runs sep l) = wordsOf (cut sep l) := by
  classical
  unfold wordsOf runs
  rw [List.filter_filter]
  congr 1
  refine List.filter_congr ?_
  intro p _
  cases p with
  | nil => simp [IsWord]
  | cons x p => simp

end CCC.Words
