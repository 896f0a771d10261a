import Verif.Spec.Lists
/-
Rings of links and sequences, for both linked lists.
-/
namespace CCC.Seq
open CCC

variable {R R' : Nat → Nat → Prop}

/-- `p`, the elements of `s`, and `q` are linked in this order. -/
def Seg (R : Nat → Nat → Prop) (p : Nat) : List Nat → Nat → Prop
  | [], q => R p q
  | a :: s, q => R p a ∧ Seg R a s q

/-- The elements are linked in this order. -/
def Path (R : Nat → Nat → Prop) : List Nat → Prop
  | [] => True
  | [_] => True
  | a :: b :: s => R a b ∧ Path R (b :: s)

theorem Seg.head {p q : Nat} : ∀ {s : List Nat}, Seg R p s q → R p (s.headD q)
  | [], h => h
  | _ :: _, h => h.1

theorem getLastD_cons' (a d : Nat) (s : List Nat) : (a :: s).getLastD d = s.getLastD a := by cases s <;> rfl

theorem getLastD_mem (p : Nat) : ∀ s : List Nat, s.getLastD p ∈ p :: s
  | [] => by simp
  | a :: s => by
    rw [getLastD_cons']
    exact List.mem_cons_of_mem _ (getLastD_mem a s)

theorem mem_dropLast' {a : Nat} {s : List Nat} (h : a ∈ s.dropLast) : a ∈ s := (List.dropLast_sublist s).subset h

theorem Seg.last {q : Nat} : ∀ {s : List Nat} {p : Nat}, Seg R p s q → R (s.getLastD p) q
  | [], _, h => h
  | a :: s, p, h => by rw [getLastD_cons']; exact h.2.last

theorem Seg.mono {q : Nat} : ∀ {s : List Nat} {p : Nat}, Seg R p s q →
    (∀ a ∈ p :: s, ∀ b ∈ q :: s, R a b → R' a b) → Seg R' p s q
  | [], p, h, hf => hf p (by simp) q (by simp) h
  | a :: s, p, h, hf => ⟨hf p (by simp) a (by simp) h.1, h.2.mono fun x hx y hy => by
      refine hf x (List.mem_cons_of_mem _ hx) y ?_
      rcases List.mem_cons.1 hy with rfl | hy
      · simp
      · simp [hy]⟩

theorem Path.mono : ∀ {s : List Nat}, Path R s → (∀ a ∈ s.dropLast, ∀ b ∈ s.tail, R a b → R' a b) → Path R' s
  | [], _, _ => trivial
  | [_], _, _ => trivial
  | a :: b :: s, h, hf => ⟨hf a (by simp) b (by simp) h.1, Path.mono h.2 fun x hx y hy => by
      refine hf x ?_ y ?_
      · rw [List.dropLast_cons₂]; exact List.mem_cons_of_mem _ hx
      · exact List.mem_cons_of_mem _ hy⟩

/-- Another start. -/
theorem Seg.start {p p' q : Nat} {s : List Nat} (h : Seg R p s q) (h1 : R' p' (s.headD q))
    (hf : ∀ a ∈ s, ∀ b, R a b → R' a b) : Seg R' p' s q := by
  cases s with
  | nil => exact h1
  | cons a s => exact ⟨h1, h.2.mono fun x hx y _ => hf x hx y⟩

/-- Another end. -/
theorem Seg.relink {q q' : Nat} : ∀ {s : List Nat} {p : Nat}, Seg R p s q → (p :: s).Nodup →
    (∀ a ∈ p :: s, ∀ b, a ≠ s.getLastD p → R a b → R' a b) → R' (s.getLastD p) q' → Seg R' p s q'
  | [], _, _, _, _, h => h
  | a :: s, p, h, nd, hf, hl => by
    rw [getLastD_cons'] at hf hl
    have nd' := List.nodup_cons.1 nd
    refine ⟨hf p (by simp) a ?_ h.1, h.2.relink nd'.2 (fun x hx y => hf x (List.mem_cons_of_mem _ hx) y) hl⟩
    intro e
    exact nd'.1 (e ▸ getLastD_mem a s)

theorem seg_append {q : Nat} {C : List Nat} : ∀ {A : List Nat} {p : Nat},
    Seg R p (A ++ C) q ↔ Seg R p A (C.headD q) ∧ Seg R (A.getLastD p) C q
  | [], p => ⟨fun h => ⟨h.head, h⟩, fun h => h.2⟩
  | a :: A, p => by
    rw [getLastD_cons']
    show R p a ∧ Seg R a (A ++ C) q ↔ (R p a ∧ Seg R a A (C.headD q)) ∧ Seg R (A.getLastD a) C q
    rw [seg_append, and_assoc]

theorem seg_split {e q : Nat} {B : List Nat} : ∀ {M : List Nat} {p : Nat},
    Seg R p (M ++ e :: B) q ↔ R p (M.headD e) ∧ Path R (M ++ [e]) ∧ Seg R e B q
  | [], p => by simp [Seg, Path]
  | [a], p => by
    show R p a ∧ R a e ∧ Seg R e B q ↔ R p a ∧ (R a e ∧ True) ∧ Seg R e B q
    simp
  | a :: b :: M, p => by
    have ih := @seg_split e q B (b :: M) a
    show R p a ∧ Seg R a (b :: M ++ e :: B) q ↔ R p a ∧ (R a b ∧ Path R (b :: M ++ [e])) ∧ Seg R e B q
    rw [ih]
    simp only [List.headD_cons, and_assoc]

theorem headD_append (M C : List Nat) (e d : Nat) : (M ++ e :: C).headD d = M.headD e := by cases M <;> rfl

theorem seg_reverse {q : Nat} : ∀ {s : List Nat} {p : Nat}, Seg R p s q → Seg (fun a b => R b a) q s.reverse p
  | [], _, h => h
  | a :: s, p, h => by
    rw [List.reverse_cons]
    rw [show s.reverse ++ [a] = s.reverse ++ a :: [] from rfl, seg_append]
    have := seg_reverse h.2
    exact ⟨this, this.last, h.1⟩

theorem reverse_headD (s : List Nat) (d : Nat) : s.reverse.headD d = s.getLastD d := by
  induction s generalizing d with
  | nil => rfl
  | cons a s ih =>
    rw [getLastD_cons', ← ih]
    cases h : s.reverse with
    | nil => simp [h]
    | cons x t => simp [h]

theorem reverse_getLastD (s : List Nat) (d : Nat) : s.reverse.getLastD d = s.headD d := by
  rw [← reverse_headD, List.reverse_reverse]

theorem seg_reverse_iff {p q : Nat} {s : List Nat} : Seg (fun a b => R b a) q s.reverse p ↔ Seg R p s q :=
  ⟨fun h => by simpa using seg_reverse h, seg_reverse⟩

/-- Taking `M` and `e` out. -/
theorem Seg.cut {p e q : Nat} {A M B : List Nat} (h : Seg R p (A ++ (M ++ e :: B)) q) (nd : (p :: (A ++ (M ++ e :: B))).Nodup)
    (hf : ∀ a b, a ≠ A.getLastD p → R a b → R' a b) (hi : R' (A.getLastD p) (B.headD q)) : Seg R' p (A ++ B) q := by
  rw [seg_append] at h
  have hs := (seg_split.1 h.2).2.2
  have nd1 : (p :: A).Nodup := nd.sublist ((List.sublist_append_left A _).cons_cons p)
  refine seg_append.2 ⟨h.1.relink nd1 (fun a _ b ne => hf a b ne) hi, hs.start hi fun a ha b => hf a b ?_⟩
  intro he
  have hm := getLastD_mem p A
  rw [← he] at hm
  have hd : (p :: A ++ (M ++ e :: B)).Nodup := nd
  rw [List.nodup_append] at hd
  exact hd.2.2 a hm a (by simp [ha]) rfl

/-- Putting `M` and `e` between. -/
theorem Seg.paste {p e q : Nat} {P Q M : List Nat} (h : Seg R p (P ++ Q) q) (hp : Path R (M ++ [e]))
    (nd : (p :: (P ++ (M ++ e :: Q))).Nodup)
    (hf : ∀ a b, a ≠ P.getLastD p → a ≠ e → R a b → R' a b) (hi : R' (P.getLastD p) (M.headD e)) (he : R' e (Q.headD q)) :
    Seg R' p (P ++ (M ++ e :: Q)) q := by
  rw [seg_append] at h
  have nd1 : (p :: P).Nodup := nd.sublist ((List.sublist_append_left P _).cons_cons p)
  have hd : (p :: P ++ (M ++ e :: Q)).Nodup := nd
  rw [List.nodup_append] at hd
  have hm := getLastD_mem p P
  have hd2 := List.nodup_append.1 hd.2.1
  refine seg_append.2 ⟨h.1.relink nd1 (fun a ha b ne => hf a b ne ?_) (by rw [headD_append]; exact hi), seg_split.2 ⟨hi, hp.mono ?_, h.2.start he ?_⟩⟩
  · intro e'
    exact hd.2.2 a ha e (by simp) e'
  · intro a ha b _
    rw [List.dropLast_concat] at ha
    exact hf a b (fun e' => hd.2.2 (P.getLastD p) hm a (by simp [ha]) e'.symm) (fun e' => hd2.2.2 a ha e (by simp) e')
  · intro a ha b
    exact hf a b (fun e' => hd.2.2 (P.getLastD p) hm a (by simp [ha]) e'.symm)
      (fun e' => (List.nodup_cons.1 hd2.2.1).1 (e' ▸ ha))

/-! ### Links with a back link: the frame also depends on the target -/

/-- Another end. -/
theorem Seg.relink' {q q' : Nat} : ∀ {s : List Nat} {p : Nat}, Seg R p s q →
    (∀ a ∈ (p :: s).dropLast, ∀ b ∈ s, R a b → R' a b) → R' (s.getLastD p) q' → Seg R' p s q'
  | [], _, _, _, h => h
  | a :: s, p, h, hf, hl => by
    rw [getLastD_cons'] at hl
    refine ⟨hf p (by simp) a (by simp) h.1, h.2.relink' (fun x hx y hy => hf x ?_ y (List.mem_cons_of_mem _ hy)) hl⟩
    rw [List.dropLast_cons₂]
    exact List.mem_cons_of_mem _ hx

/-- Another start. -/
theorem Seg.start' {p p' q : Nat} {s : List Nat} (h : Seg R p s q) (h1 : R' p' (s.headD q))
    (hf : ∀ a ∈ s, ∀ b ∈ s.tail ++ [q], R a b → R' a b) : Seg R' p' s q := by
  cases s with
  | nil => exact h1
  | cons a s => exact ⟨h1, h.2.mono fun x hx y hy => hf x hx y (by
      rcases List.mem_cons.1 hy with e | e
      · simp [e]
      · simp [e])⟩

theorem getLastD_not_dropLast {p : Nat} {s : List Nat} (nd : (p :: s).Nodup) {a : Nat} (ha : a ∈ (p :: s).dropLast) :
    a ≠ s.getLastD p := by
  induction s generalizing p with
  | nil => cases ha
  | cons b s ih =>
    rw [getLastD_cons']
    rw [List.dropLast_cons₂] at ha
    have nd' := List.nodup_cons.1 nd
    rcases List.mem_cons.1 ha with e | e
    · intro e'
      exact nd'.1 (e ▸ e' ▸ getLastD_mem b s)
    · exact ih nd'.2 e

theorem headD_mem (s : List Nat) (q : Nat) : s.headD q ∈ s ++ [q] := by cases s <;> simp

theorem headD_not_tail {s : List Nat} {q : Nat} (nd : (s ++ [q]).Nodup) {b : Nat} (hs : s ≠ []) (hb : b ∈ s.tail ++ [q]) : b ≠ s.headD q := by
  cases s with
  | nil => exact absurd rfl hs
  | cons a s =>
    rintro rfl
    exact (List.nodup_cons.1 nd).1 hb

/-- Taking `M` and `e` out. -/
theorem Seg.cut' {p e q : Nat} {A M B : List Nat} (h : Seg R p (A ++ (M ++ e :: B)) q) (nd1 : (p :: (A ++ (M ++ e :: B))).Nodup)
    (nd2 : (A ++ (M ++ e :: B) ++ [q]).Nodup)
    (hf : ∀ a b, a ≠ A.getLastD p → b ≠ B.headD q → R a b → R' a b) (hi : R' (A.getLastD p) (B.headD q)) : Seg R' p (A ++ B) q := by
  rw [seg_append] at h
  have hs := (seg_split.1 h.2).2.2
  have ndA : (p :: A).Nodup := nd1.sublist ((List.sublist_append_left A _).cons_cons p)
  have ndB : (B ++ [q]).Nodup := by
    refine nd2.sublist ?_
    rw [List.append_assoc, List.append_assoc]
    exact (List.sublist_cons_self e (B ++ [q])).trans ((List.sublist_append_right M _).trans (List.sublist_append_right A _))
  have d1 : ∀ a ∈ p :: A, a ∉ B := by
    intro a ha hb
    have hd : (p :: A ++ (M ++ e :: B)).Nodup := nd1
    exact (List.nodup_append.1 hd).2.2 a ha a (by simp [hb]) rfl
  have d2 : ∀ a ∈ A, a ∉ B ++ [q] := by
    intro a ha hb
    rw [List.append_assoc] at nd2
    refine (List.nodup_append.1 nd2).2.2 a ha a ?_ rfl
    simp only [List.mem_append, List.mem_cons, List.not_mem_nil, or_false] at hb ⊢
    rcases hb with hb | hb <;> simp [hb]
  refine seg_append.2 ⟨h.1.relink' (fun a ha b hb => hf a b (getLastD_not_dropLast ndA ha) (fun e' => d2 b hb (e' ▸ headD_mem B q))) hi, ?_⟩
  by_cases hB : B = []
  · subst hB; exact hi
  · exact hs.start' hi fun a ha b hb => hf a b (fun e' => d1 (A.getLastD p) (getLastD_mem p A) (e' ▸ ha)) (headD_not_tail ndB hB hb)

/-- Putting `M` and `e` between. -/
theorem Seg.paste' {p e q : Nat} {P Q M : List Nat} (h : Seg R p (P ++ Q) q) (hp : Path R' (M ++ [e]))
    (nd1 : (p :: (P ++ (M ++ e :: Q))).Nodup) (nd2 : (P ++ (M ++ e :: Q) ++ [q]).Nodup)
    (hf : ∀ a b, a ≠ P.getLastD p → a ≠ e → b ≠ M.headD e → b ≠ Q.headD q → R a b → R' a b)
    (hi : R' (P.getLastD p) (M.headD e)) (he : R' e (Q.headD q)) : Seg R' p (P ++ (M ++ e :: Q)) q := by
  rw [seg_append] at h
  have ndP : (p :: P).Nodup := nd1.sublist ((List.sublist_append_left P _).cons_cons p)
  have hd : (p :: P ++ (M ++ e :: Q)).Nodup := nd1
  have d1 := (List.nodup_append.1 hd).2.2
  have nd2' : (P ++ ((M ++ e :: Q) ++ [q])).Nodup := by rw [← List.append_assoc]; exact nd2
  have d2 := (List.nodup_append.1 nd2').2.2
  have nd3 : (M ++ [e] ++ (Q ++ [q])).Nodup := by
    have := (List.nodup_append.1 nd2').2.1
    simpa using this
  have ndQ : (Q ++ [q]).Nodup := (List.nodup_append.1 nd3).2.1
  have d3 := (List.nodup_append.1 nd3).2.2
  have hx : M.headD e ∈ M ++ [e] := headD_mem M e
  have hxm : M.headD e ∈ M ++ e :: Q ++ [q] := by
    have := List.mem_append_left (Q ++ [q]) hx
    simpa using this
  have hqm : Q.headD q ∈ M ++ e :: Q ++ [q] := by
    have := List.mem_append_right (M ++ [e]) (headD_mem Q q)
    simpa using this
  refine seg_append.2 ⟨?_, seg_split.2 ⟨hi, hp, ?_⟩⟩
  · rw [headD_append]
    refine h.1.relink' (fun a ha b hb => hf a b (getLastD_not_dropLast ndP ha) ?_ ?_ ?_) hi
    · exact d1 a (mem_dropLast' ha) e (by simp)
    · exact d2 b hb _ hxm
    · exact d2 b hb _ hqm
  · by_cases hQ : Q = []
    · subst hQ; exact he
    · refine h.2.start' he fun a ha b hb => hf a b ?_ ?_ ?_ (headD_not_tail ndQ hQ hb)
      · exact fun e' => d1 (P.getLastD p) (getLastD_mem p P) a (by simp [ha]) e'.symm
      · exact fun e' => d3 e (by simp) a (by simp [ha]) e'.symm
      · refine fun e' => d3 _ hx b ?_ e'.symm
        rcases List.mem_append.1 hb with h | h
        · exact List.mem_append_left _ (List.mem_of_mem_tail h)
        · exact List.mem_append_right _ h

/-! ### Sequences -/

theorem upto_append {e : Nat} {A : List Nat} (B : List Nat) (h : e ∉ A) : upto e (A ++ e :: B) = A := by
  induction A with
  | nil => simp [upto]
  | cons a A ih =>
    simp only [List.mem_cons, not_or] at h
    have := ih h.2
    simp only [upto] at this ⊢
    rw [List.cons_append, List.takeWhile_cons_of_pos (by simpa using fun e' => h.1 e'.symm), this]

theorem onward_append {e : Nat} {A : List Nat} (B : List Nat) (h : e ∉ A) : onward e (A ++ e :: B) = e :: B := by
  induction A with
  | nil => simp [onward]
  | cons a A ih =>
    simp only [List.mem_cons, not_or] at h
    have := ih h.2
    simp only [onward] at this ⊢
    rw [List.cons_append, List.dropWhile_cons_of_pos (by simpa using fun e' => h.1 e'.symm), this]

theorem upto_none {e : Nat} {A : List Nat} (h : e ∉ A) : upto e A = A := by
  induction A with
  | nil => rfl
  | cons a A ih =>
    simp only [List.mem_cons, not_or] at h
    have := ih h.2
    simp only [upto] at this ⊢
    rw [List.takeWhile_cons_of_pos (by simpa using fun e' => h.1 e'.symm), this]

theorem onward_none {e : Nat} {A : List Nat} (h : e ∉ A) : onward e A = [] := by
  induction A with
  | nil => rfl
  | cons a A ih =>
    simp only [List.mem_cons, not_or] at h
    have := ih h.2
    simp only [onward] at this ⊢
    rw [List.dropWhile_cons_of_pos (by simpa using fun e' => h.1 e'.symm), this]

theorem after_append {e : Nat} {A : List Nat} (B : List Nat) (h : e ∉ A) : after e (A ++ e :: B) = B.head? := by
  rw [after, onward_append B h]; rfl

theorem without_append {A X B : List Nat} (nd : (A ++ (X ++ B)).Nodup) : without X (A ++ (X ++ B)) = A ++ B := by
  rw [List.nodup_append] at nd
  have nd2 := List.nodup_append.1 nd.2.1
  simp only [without, List.filter_append]
  rw [List.filter_eq_self.2, List.filter_eq_nil_iff.2, List.filter_eq_self.2, List.nil_append]
  · intro a ha; simpa using fun hx => nd2.2.2 a hx a ha rfl
  · intro a ha; simpa using ha
  · intro a ha; simpa using fun hx => nd.2.2 a ha a (by simp [hx]) rfl

/-- An element splits its sequence. -/
theorem split_mem {e : Nat} {s : List Nat} (h : e ∈ s) (nd : s.Nodup) : ∃ A B, s = A ++ e :: B ∧ e ∉ A ∧ e ∉ B := by
  obtain ⟨A, B, rfl⟩ := List.append_of_mem h
  refine ⟨A, B, rfl, fun ha => ?_, fun hb => ?_⟩
  · exact (List.nodup_append.1 nd).2.2 e ha e (by simp) rfl
  · exact (List.nodup_cons.1 (List.nodup_append.1 nd).2.1).1 hb

/-- A range up to and including its last element splits its sequence. -/
theorem split_range {b e : Nat} {s : List Nat} (hb : b ∈ s) (he : e ∈ onward b s) (nd : s.Nodup) :
    ∃ A M B, s = A ++ (M ++ e :: B) ∧ M.headD e = b ∧ through b e s = M ++ [e] ∧ after e s = B.head? ∧ b ∉ A := by
  obtain ⟨A, D, rfl, hA, _⟩ := split_mem hb nd
  rw [onward_append D hA] at he
  have nd1 := (List.nodup_append.1 nd).2.1
  obtain ⟨M, B, hD, hM, hB⟩ := split_mem he nd1
  refine ⟨A, M, B, by rw [hD], ?_, ?_, ?_, hA⟩
  · cases M with
    | nil => simp at hD; simp [hD.1]
    | cons x M => simp at hD; simp [hD.1]
  · rw [through, onward_append D hA, hD, upto_append B hM]
  · rw [hD, ← List.append_assoc, after_append]
    intro hm
    rcases List.mem_append.1 hm with h | h
    · exact (List.nodup_append.1 nd).2.2 e h e he rfl
    · exact hM h

/-! ### Several lists -/

/-- The lists have no element twice, none in common, and no sentinel as an element. -/
structure Shape (lists : List Nat) (seq : Nat → List Nat) : Prop where
  nd : ∀ l ∈ lists, (seq l).Nodup
  out : ∀ l ∈ lists, ∀ a ∈ seq l, a ∉ lists
  disj : ∀ l ∈ lists, ∀ m ∈ lists, ∀ a, a ∈ seq l → a ∈ seq m → l = m

variable {lists : List Nat} {seq : Nat → List Nat}

theorem Shape.ring (h : Shape lists seq) {l : Nat} (hl : l ∈ lists) : (l :: seq l).Nodup :=
  List.nodup_cons.2 ⟨fun hm => h.out l hl l hm hl, h.nd l hl⟩

/-- Elements taken out of a list. -/
theorem Shape.sub (h : Shape lists seq) {m : Nat} (hm : m ∈ lists) {s : List Nat} (hs : s.Sublist (seq m)) :
    Shape lists (upd seq m s) where
  nd l hl := by
    by_cases e : l = m
    · subst e; rw [upd_same]; exact (h.nd l hl).sublist hs
    · rw [upd_ne _ _ e]; exact h.nd l hl
  out l hl a ha := by
    by_cases e : l = m
    · subst e; rw [upd_same] at ha; exact h.out l hl a (hs.subset ha)
    · rw [upd_ne _ _ e] at ha; exact h.out l hl a ha
  disj l hl k hk a ha ha' := by
    have key : ∀ j, a ∈ upd seq m s j → a ∈ seq j := by
      intro j hj
      by_cases e : j = m
      · subst e; rw [upd_same] at hj; exact hs.subset hj
      · rwa [upd_ne _ _ e] at hj
    exact h.disj l hl k hk a (key l ha) (key k ha')

/-- Elements put into a list. -/
theorem Shape.put (h : Shape lists seq) {l : Nat} (hl : l ∈ lists) {P X Q : List Nat} (hs : seq l = P ++ Q) (nd : X.Nodup)
    (hX : ∀ a ∈ X, a ∉ lists ∧ ∀ k ∈ lists, a ∉ seq k) : Shape lists (upd seq l (P ++ (X ++ Q))) := by
  have mem : ∀ {j a}, a ∈ upd seq l (P ++ (X ++ Q)) j → a ∈ seq j ∨ (j = l ∧ a ∈ X) := by
    intro j a ha
    by_cases e : j = l
    · subst e
      rw [upd_same] at ha
      simp only [List.mem_append] at ha
      rw [hs]
      rcases ha with h | h | h
      · left; simp [h]
      · right; simp [h]
      · left; simp [h]
    · rw [upd_ne _ _ e] at ha; exact .inl ha
  refine ⟨fun j hj => ?_, fun j hj a ha => ?_, fun j hj k hk a ha ha' => ?_⟩
  · by_cases e : j = l
    · subst e
      rw [upd_same]
      have n0 := h.nd j hj
      rw [hs] at n0
      have n1 := List.nodup_append.1 n0
      refine List.nodup_append.2 ⟨n1.1, List.nodup_append.2 ⟨nd, n1.2.1, ?_⟩, ?_⟩
      · intro a ha b hb e; subst e
        exact (hX a ha).2 j hj (by rw [hs]; simp [hb])
      · intro a ha b hb e; subst e
        rcases List.mem_append.1 hb with hb | hb
        · exact (hX a hb).2 j hj (by rw [hs]; simp [ha])
        · exact n1.2.2 a ha a hb rfl
    · rw [upd_ne _ _ e]; exact h.nd j hj
  · rcases mem ha with h' | ⟨_, h'⟩
    · exact h.out j hj a h'
    · exact (hX a h').1
  · rcases mem ha with h1 | ⟨e1, h1⟩ <;> rcases mem ha' with h2 | ⟨e2, h2⟩
    · exact h.disj j hj k hk a h1 h2
    · exact absurd h1 ((hX a h2).2 j hj)
    · exact absurd h2 ((hX a h1).2 k hk)
    · rw [e1, e2]

end CCC.Seq
