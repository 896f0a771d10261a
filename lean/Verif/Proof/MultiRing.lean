import Verif.Proof.MultiNext
/-
The rings of duplicates of the multimap.
-/
namespace CCC.Omm
open CCC Links Tree Splay Wavl

set_option linter.unusedSimpArgs false

/-! ### Rings alone -/

/-- Only the forward links of all but the last and the backward links of all but the first matter. -/
theorem Lnks.congr2 {br br' : Nat → Bool → Slot} {l : List Nat} (h : Lnks br l)
    (ht : ∀ a ∈ l.dropLast, br' a true = br a true) (hf : ∀ a ∈ l.tail, br' a false = br a false) : Lnks br' l := by
  induction l with
  | nil => trivial
  | cons a l ih =>
    cases l with
    | nil => trivial
    | cons b l =>
      refine ⟨?_, ?_, ih h.2.2 ?_ ?_⟩
      · rw [ht a (by simp)]; exact h.1
      · rw [hf b (by simp)]; exact h.2.1
      · intro x hx; exact ht x (by simp [List.dropLast, hx])
      · intro x hx
        simp only [List.tail_cons] at hx
        exact hf x (by simp [hx])

theorem split_last (x : Nat) (xs : List Nat) : ∃ ini p, x :: xs = ini ++ [p] ∧ p = (x :: xs).getLast (by simp) :=
  ⟨(x :: xs).dropLast, _, (List.dropLast_concat_getLast (by simp)).symm, rfl⟩

/-- The head leaves the ring. -/
theorem Ring.dropHead {br br' : Nat → Bool → Slot} {x n p : Nat} {ms : List Nat} (h : Ring br x (n :: ms))
    (nd : (x :: n :: ms).Nodup) (hp : p = (n :: ms).getLast (by simp))
    (e1 : br' p true = some n) (e2 : br' n false = some p)
    (ht : ∀ a ∈ n :: ms, a ≠ p → br' a true = br a true) (hf : ∀ a ∈ n :: ms, a ≠ n → br' a false = br a false) :
    Ring br' n ms := by
  obtain ⟨ini, p', e, ep⟩ := split_last n ms
  have epp : p' = p := by rw [ep, hp]
  subst epp
  have h1 : Lnks br ((n :: ms) ++ [x]) := h.2.2
  rw [e, List.append_assoc] at h1
  have h2 := ((Lnks_append ini p' [x]).1 h1).1
  have nd2 : (ini ++ [p']).Nodup := by rw [← e]; exact (List.nodup_cons.1 nd).2
  have pn : p' ∉ ini := fun hh => (List.nodup_append.1 nd2).2.2 p' hh p' (by simp) rfl
  have nn : n ∉ ms := by
    have := (List.nodup_cons.1 nd).2
    exact (List.nodup_cons.1 this).1
  show Lnks br' ((n :: ms) ++ [n])
  rw [e, List.append_assoc]
  refine (Lnks_append ini p' [n]).2 ⟨?_, e1, e2, trivial⟩
  refine h2.congr2 ?_ ?_
  · intro a ha
    rw [List.dropLast_concat] at ha
    refine ht a (by rw [e]; simp [ha]) ?_
    rintro rfl; exact pn ha
  · intro a ha
    rw [← e] at ha
    simp only [List.tail_cons] at ha
    refine hf a (by simp [ha]) ?_
    rintro rfl; exact nn ha

/-- Another member leaves the ring. -/
theorem Ring.snip {br br' : Nat → Bool → Slot} {x y p n : Nat} {pre post : List Nat} (h : Ring br x (pre ++ y :: post))
    (nd : (x :: (pre ++ y :: post)).Nodup) (hp : p = (x :: pre).getLast (by simp)) (hn : n = (post ++ [x]).head (by simp))
    (e1 : br' p true = some n) (e2 : br' n false = some p)
    (ht : ∀ a ∈ x :: (pre ++ post), a ≠ p → br' a true = br a true)
    (hf : ∀ a ∈ x :: (pre ++ post), a ≠ n → br' a false = br a false) :
    Ring br' x (pre ++ post) := by
  obtain ⟨ini, p', e, ep⟩ := split_last x pre
  have epp : p' = p := by rw [ep, hp]
  subst epp
  obtain ⟨fin, ef⟩ : ∃ fin, post ++ [x] = n :: fin := by
    cases post with
    | nil => exact ⟨[], by simp at hn; rw [hn]; rfl⟩
    | cons b post => exact ⟨post ++ [x], by simp at hn; rw [hn]; rfl⟩
  have h1 : Lnks br ((x :: pre) ++ y :: (post ++ [x])) := by
    have : x :: (pre ++ y :: post) ++ [x] = (x :: pre) ++ y :: (post ++ [x]) := by simp
    rw [← this]; exact h
  rw [e, ef, List.append_assoc] at h1
  have h2 := ((Lnks_append ini p' _).1 h1)
  simp only [List.cons_append, List.nodup_cons, List.mem_append, List.mem_cons, not_or, List.nodup_append,
    List.nil_append] at nd
  obtain ⟨⟨x1, x2, x3⟩, n1, ⟨n2, n3⟩, n4⟩ := nd
  have ndp : (ini ++ [p']).Nodup := by rw [← e]; exact List.nodup_cons.2 ⟨x1, n1⟩
  have ndn : (n :: fin).Nodup := by
    rw [← ef]
    refine List.nodup_append.2 ⟨n3, by simp, ?_⟩
    intro a ha b hb hab
    simp only [List.mem_singleton] at hb
    rw [hb] at hab; rw [hab] at ha; exact x3 ha
  show Lnks br' ((x :: (pre ++ post)) ++ [x])
  rw [show x :: (pre ++ post) ++ [x] = (x :: pre) ++ (post ++ [x]) by simp, e, ef, List.append_assoc]
  have mp : p' ∈ x :: pre := by rw [e]; simp
  have mn : n = x ∨ n ∈ post := by
    have : n ∈ post ++ [x] := by rw [ef]; simp
    simp only [List.mem_append, List.mem_singleton] at this
    exact this.symm
  refine (Lnks_append ini p' _).2 ⟨?_, e1, e2, ?_⟩
  · refine h2.1.congr2 ?_ ?_
    · intro a ha
      rw [List.dropLast_concat] at ha
      refine ht a ?_ ?_
      · have : a ∈ x :: pre := by rw [e]; simp [ha]
        simp only [List.mem_cons, List.mem_append] at this ⊢
        rcases this with h | h
        · exact Or.inl h
        · exact Or.inr (Or.inl h)
      · rintro rfl
        exact (List.nodup_append.1 ndp).2.2 _ ha _ (by simp) rfl
    · intro a ha
      rw [← e] at ha
      simp only [List.tail_cons] at ha
      refine hf a (by simp [ha]) ?_
      rintro rfl
      rcases mn with h | h
      · rw [h] at ha; exact x1 ha
      · exact n4 a ha a (Or.inr h) rfl
  · refine (h2.2.2.2.2.2 : Lnks br (n :: fin)).congr2 ?_ ?_
    · intro a ha
      rw [← ef, List.dropLast_concat] at ha
      refine ht a (by simp [ha]) ?_
      rintro rfl
      rcases List.mem_cons.1 mp with h | h
      · rw [h] at ha; exact x3 ha
      · exact n4 a h a (Or.inr ha) rfl
    · intro a ha
      simp only [List.tail_cons] at ha
      refine hf a ?_ ?_
      · have : a ∈ post ++ [x] := by rw [ef]; simp [ha]
        simp only [List.mem_append, List.mem_singleton] at this
        simp only [List.mem_cons, List.mem_append]
        rcases this with h | h
        · exact Or.inr (Or.inr h)
        · exact Or.inl h
      · rintro rfl
        exact (List.nodup_cons.1 ndn).1 ha

/-- A new last member. -/
theorem Ring.add {br br' : Nat → Bool → Slot} {x e t : Nat} {xs : List Nat} (h : Ring br x xs) (nd : (x :: xs).Nodup)
    (ht : t = (x :: xs).getLast (by simp)) (e1 : br' t true = some e) (e2 : br' e false = some t)
    (e3 : br' e true = some x) (e4 : br' x false = some e)
    (h1 : ∀ a ∈ x :: xs, a ≠ t → br' a true = br a true) (h2 : ∀ a ∈ x :: xs, a ≠ x → br' a false = br a false) :
    Ring br' x (xs ++ [e]) := by
  obtain ⟨ini, p', ei, ep⟩ := split_last x xs
  have epp : p' = t := by rw [ep, ht]
  subst epp
  have q : Lnks br ((x :: xs) ++ [x]) := h
  rw [ei, List.append_assoc] at q
  have q1 := ((Lnks_append ini p' [x]).1 q).1
  show Lnks br' (x :: (xs ++ [e]) ++ [x])
  rw [show x :: (xs ++ [e]) ++ [x] = (x :: xs) ++ [e, x] by simp, ei, List.append_assoc]
  refine (Lnks_append ini p' _).2 ⟨?_, e1, e2, e3, e4, trivial⟩
  have ndp : (ini ++ [p']).Nodup := by rw [← ei]; exact nd
  refine q1.congr2 ?_ ?_
  · intro a ha
    rw [List.dropLast_concat] at ha
    refine h1 a (by rw [ei]; simp [ha]) ?_
    rintro rfl
    exact (List.nodup_append.1 ndp).2.2 _ ha _ (by simp) rfl
  · intro a ha
    rw [← ei] at ha
    simp only [List.tail_cons] at ha
    refine h2 a (by simp [ha]) ?_
    rintro rfl; exact (List.nodup_cons.1 nd).1 ha

end CCC.Omm
