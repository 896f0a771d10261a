import Verif.Model.DoublyLinkedList
import Verif.Proof.Lists
/-
The doubly linked list: links and sequences.
-/
namespace CCC.Dll
open CCC Seq DllSpec

variable {α : Type} {c : Cfg} {s : Dll α} {st : St α} {z : Nat → Bool}

/-- `a` links to `b` and `b` links back; if `b` is the excused position its back link is some other handle. -/
def Dk (s : Dll α) (o : Slot) (a b : Nat) : Prop :=
  s.nx a = some (some b) ∧ (if o = some b then ∃ y, y ≠ b ∧ s.pv b = some (some y) else s.pv b = some (some a))

/-- The position with a stale back link. -/
def exc (st : St α) (z : Nat → Bool) (l : Nat) : Slot := if z l = true then some ((st.seq l).headD l) else none

/-- The program holds the sequences of the specification; sizes are left out. -/
structure Core (c : Cfg) (s : Dll α) (st : St α) (z : Nat → Bool) : Prop where
  val : s.val = st.val
  live : ∀ a, st.val a ≠ none → s.nx a ≠ none ∧ s.pv a ≠ none
  shape : Shape c.lists st.seq
  ring : ∀ l ∈ c.lists, Seg (Dk s (exc st z l)) l (st.seq l) l
  own : ∀ l ∈ c.lists, ∀ a ∈ st.seq l, st.val a ≠ none
  nolist : ∀ l ∈ c.lists, st.val l = none

/-- … and the sizes. -/
structure Sim (c : Cfg) (s : Dll α) (st : St α) (z : Nat → Bool) : Prop extends Core c s st z where
  sz : ∀ l ∈ c.lists, s.sz l = (st.seq l).length

theorem setN_eq' {a : Nat} (h : s.nx a ≠ none) (n : Slot) : s.setN a n = some { s with nx := upd s.nx a (some n) } := by
  obtain ⟨x, hx⟩ := Option.ne_none_iff_exists'.1 h
  simp [Dll.setN, hx]

theorem setP_eq' {a : Nat} (h : s.pv a ≠ none) (n : Slot) : s.setP a n = some { s with pv := upd s.pv a (some n) } := by
  obtain ⟨x, hx⟩ := Option.ne_none_iff_exists'.1 h
  simp [Dll.setP, hx]

theorem upd_live {β : Type} {f : Nat → Option β} {i a : Nat} {x : β} (h : f a ≠ none) : upd f i (some x) a ≠ none := by
  by_cases e : a = i
  · subst e; simp
  · rw [upd_ne _ _ e]; exact h

theorem Dk.p {o : Slot} {a b : Nat} (h : Dk s o a b) (ho : o ≠ some b) : s.pv b = some (some a) := by
  have := h.2; rwa [if_neg ho] at this

theorem Dk.live {o : Slot} {a b : Nat} (h : Dk s o a b) : s.pv b ≠ none := by
  have := h.2
  split at this
  · obtain ⟨y, _, hy⟩ := this; rw [hy]; simp
  · rw [this]; simp

theorem good_exc {l pos : Nat} (h : Good st z l pos) : exc st z l ≠ some pos := by
  unfold exc
  split
  · rename_i hz
    exact fun e => h hz (Option.some.inj e).symm
  · simp

theorem Core.nxt (h : Core c s st z) {l : Nat} (hl : l ∈ c.lists) {P Q : List Nat} (hs : st.seq l = P ++ Q) :
    s.nx (P.getLastD l) = some (some (Q.headD l)) := by
  have := h.ring l hl
  rw [hs] at this
  exact (seg_append.1 this).1.last.1

theorem Core.prv (h : Core c s st z) {l : Nat} (hl : l ∈ c.lists) {P Q : List Nat} (hs : st.seq l = P ++ Q)
    (hg : Good st z l (Q.headD l)) : s.pv (Q.headD l) = some (some (P.getLastD l)) := by
  have := h.ring l hl
  rw [hs] at this
  exact (seg_append.1 this).1.last.p (good_exc hg)

theorem Core.at_ (h : Core c s st z) {l : Nat} (hl : l ∈ c.lists) {A B : List Nat} {e : Nat} (hs : st.seq l = A ++ e :: B) :
    s.nx e = some (some (B.headD l)) := by
  have := h.nxt hl (P := A ++ [e]) (Q := B) (by rw [hs]; simp)
  simpa using this

theorem Core.mem_ring (h : Core c s st z) {l k a : Nat} (hl : l ∈ c.lists) (hk : k ∈ c.lists) (ha : a ∈ l :: st.seq l)
    (ha' : a ∈ k :: st.seq k) : l = k := by
  rcases List.mem_cons.1 ha with e | ha <;> rcases List.mem_cons.1 ha' with e' | ha'
  · rw [← e, ← e']
  · subst e; exact absurd hl (h.shape.out k hk a ha')
  · subst e'; exact absurd hk (h.shape.out l hl a ha)
  · exact h.shape.disj l hl k hk a ha ha'

theorem Core.nx_live (h : Core c s st z) {l a : Nat} (hl : l ∈ c.lists) (ha : a ∈ l :: st.seq l) : s.nx a ≠ none := by
  rcases List.mem_cons.1 ha with e | ha
  · have := h.nxt hl (P := []) (Q := st.seq l) rfl
    rw [e]
    rw [show s.nx l = _ from this]; simp
  · exact (h.live a (h.own l hl a ha)).1

theorem Core.pv_live (h : Core c s st z) {l a : Nat} (hl : l ∈ c.lists) (ha : a ∈ l :: st.seq l) : s.pv a ≠ none := by
  rcases List.mem_cons.1 ha with e | ha
  · rw [e]; exact (h.ring l hl).last.live
  · exact (h.live a (h.own l hl a ha)).2

theorem nd_end {l : Nat} {t : List Nat} (nd : (l :: t).Nodup) : (t ++ [l]).Nodup := by
  have := List.nodup_cons.1 nd
  refine List.nodup_append.2 ⟨this.2, by simp, ?_⟩
  intro a ha b hb e
  simp at hb
  subst e; subst hb
  exact this.1 ha

theorem lastD_ring {l : Nat} {P Q : List Nat} : P.getLastD l ∈ l :: (P ++ Q) := by
  rcases List.mem_cons.1 (getLastD_mem l P) with e | e
  · exact List.mem_cons.2 (.inl e)
  · exact List.mem_cons_of_mem _ (List.mem_append_left _ e)

theorem headD_ring {l : Nat} {P Q : List Nat} : Q.headD l ∈ l :: (P ++ Q) := by
  rcases List.mem_append.1 (headD_mem Q l) with e | e
  · exact List.mem_cons_of_mem _ (List.mem_append_right _ e)
  · exact List.mem_cons.2 (.inl (List.mem_singleton.1 e))

/-! ### Taking out -/

/-- `i` and `j` become neighbours. -/
def cutSt (s : Dll α) (i j : Nat) : Dll α :=
  { s with nx := upd s.nx i (some (some j)), pv := upd s.pv j (some (some i)) }

theorem cut_writes {b e i j : Nat} (hn : s.nx e = some (some j)) (hp : s.pv b = some (some i)) (hj : s.pv j ≠ none)
    (hi : s.nx i ≠ none) (hbj : b ≠ j) :
    s.setP j (some i) = some { s with pv := upd s.pv j (some (some i)) } ∧
      ({ s with pv := upd s.pv j (some (some i)) } : Dll α).pv b = some (some i) ∧
      ({ s with pv := upd s.pv j (some (some i)) } : Dll α).nx e = some (some j) ∧
      ({ s with pv := upd s.pv j (some (some i)) } : Dll α).setN i (some j) = some (cutSt s i j) := by
  refine ⟨setP_eq' hj _, ?_, hn, ?_⟩
  · show upd s.pv j _ b = _
    rw [upd_ne _ _ hbj]; exact hp
  · rw [setN_eq' (s := { s with pv := upd s.pv j (some (some i)) }) hi]
    rfl

theorem exc_cut {m : Nat} {A M B : List Nat} {e : Nat} (hs : st.seq m = A ++ (M ++ e :: B)) (hg : Good st z m (M.headD e)) (l : Nat) :
    exc (st.set m (A ++ B)) z l = exc st z l := by
  unfold exc
  by_cases h : z l = true
  · rw [if_pos h, if_pos h]
    show some ((upd st.seq m (A ++ B) l).headD l) = _
    by_cases e' : l = m
    · subst e'
      rw [upd_same, hs]
      cases A with
      | nil =>
        exfalso
        exact hg h (by rw [hs]; simp [headD_append])
      | cons a A => rfl
    · rw [upd_ne _ _ e']
  · rw [if_neg h, if_neg h]

theorem Core.cut (h : Core c s st z) {m e : Nat} (hm : m ∈ c.lists) {A M B : List Nat} (hs : st.seq m = A ++ (M ++ e :: B))
    (hg : Good st z m (M.headD e)) :
    Core c (cutSt s (A.getLastD m) (B.headD m)) (st.set m (A ++ B)) z ∧ Path (Dk (cutSt s (A.getLastD m) (B.headD m)) none) (M ++ [e]) ∧
      (∀ a ∈ M ++ [e], a ≠ A.getLastD m ∧ a ≠ B.headD m) ∧
      (∀ a ∈ M ++ [e], Loose c.lists (st.set m (A ++ B)) a) ∧ (M ++ [e]).Nodup := by
  have nd := h.shape.ring hm
  rw [hs] at nd
  have nde := nd_end nd
  have hsub : (A ++ B).Sublist (st.seq m) := by
    rw [hs]
    refine (List.Sublist.refl A).append ?_
    exact (List.sublist_cons_self e B).trans (List.sublist_append_right _ _)
  have hi : A.getLastD m ∈ m :: st.seq m := by rw [hs]; exact lastD_ring
  have hj : B.headD m ∈ m :: st.seq m := by
    rw [hs, show A ++ (M ++ e :: B) = (A ++ (M ++ [e])) ++ B by simp]; exact headD_ring
  have hr := h.ring m hm
  rw [hs] at hr
  have hmem : ∀ a ∈ M ++ [e], a ∈ M ++ e :: B := by
    intro a ha
    rcases List.mem_append.1 ha with h | h
    · simp [h]
    · simp at h; simp [h]
  have nd3 : (M ++ [e] ++ (B ++ [m])).Nodup := by
    rw [List.append_assoc] at nde
    simpa using (List.nodup_append.1 nde).2.1
  have hne : ∀ a ∈ M ++ [e], a ≠ A.getLastD m ∧ a ≠ B.headD m := by
    intro a ha
    refine ⟨fun e' => ?_, fun e' => ?_⟩
    · have hm' := getLastD_mem m A
      rw [← e'] at hm'
      have hd : (m :: A ++ (M ++ e :: B)).Nodup := nd
      exact (List.nodup_append.1 hd).2.2 a hm' a (hmem a ha) rfl
    · exact (List.nodup_append.1 nd3).2.2 a ha _ (headD_mem B m) e'
  have hfr : ∀ (o : Slot) a b, a ≠ A.getLastD m → b ≠ B.headD m → Dk s o a b → Dk (cutSt s (A.getLastD m) (B.headD m)) o a b := by
    intro o a b h1 h2 hl
    refine ⟨?_, ?_⟩
    · show upd s.nx _ _ a = _
      rw [upd_ne _ _ h1]; exact hl.1
    · have : (cutSt s (A.getLastD m) (B.headD m)).pv b = s.pv b := upd_ne _ _ h2
      rw [this]; exact hl.2
  have hexc := exc_cut (z := z) hs hg
  -- the position after the range is not excused
  have hexm : exc st z m ≠ some (B.headD m) := by
    unfold exc
    split
    · rename_i hz
      intro e'
      have e' := Option.some.inj e'
      rw [hs] at e'
      cases A with
      | nil => exact hg hz (by rw [hs]; simp [headD_append])
      | cons a A =>
        simp only [List.cons_append, List.headD_cons] at e'
        refine (List.nodup_cons.1 nde).1 ?_
        rw [e']
        have := headD_mem B m
        simp only [List.mem_append, List.mem_cons] at this ⊢
        rcases this with h | h <;> simp_all
    · simp
  refine ⟨⟨h.val, fun a ha => ⟨upd_live (h.live a ha).1, upd_live (h.live a ha).2⟩, h.shape.sub hm hsub, fun l hl => ?_, fun l hl a ha => ?_,
    h.nolist⟩, ?_, hne, ?_, (List.nodup_append.1 nd3).1⟩
  · rw [hexc l]
    show Seg _ l (upd st.seq m (A ++ B) l) l
    by_cases e' : l = m
    · subst e'
      rw [upd_same]
      refine hr.cut' nd nde (hfr _) ⟨upd_same _ _ _, ?_⟩
      rw [if_neg hexm]
      exact upd_same _ _ _
    · rw [upd_ne _ _ e']
      refine (h.ring l hl).mono fun a ha b hb => hfr _ a b (fun e'' => ?_) (fun e'' => ?_)
      · exact e' (h.mem_ring hl hm ha (e'' ▸ hi))
      · exact e' (h.mem_ring hl hm hb (e'' ▸ hj))
  · have : a ∈ st.seq l := by
      change a ∈ upd st.seq m (A ++ B) l at ha
      by_cases e' : l = m
      · subst e'; rw [upd_same] at ha; exact hsub.subset ha
      · rwa [upd_ne _ _ e'] at ha
    exact h.own l hl a this
  · have hp := (seg_split.1 (seg_append.1 hr).2).2.1
    refine hp.mono fun a ha b hb hab => hfr none a b (hne a (mem_dropLast' ha)).1 (hne b (List.mem_of_mem_tail hb)).2 ⟨hab.1, ?_⟩
    rw [if_neg (by simp)]
    refine hab.p ?_
    unfold exc
    split
    · rename_i hz
      intro e'
      have e' := Option.some.inj e'
      rw [hs] at e'
      have hbM : b ∈ M ++ e :: B := hmem b (List.mem_of_mem_tail hb)
      cases A with
      | nil => exact hg hz (by rw [hs]; simp [headD_append])
      | cons x A =>
        simp only [List.cons_append, List.headD_cons] at e'
        subst e'
        exact (List.nodup_cons.1 nde).1 (List.mem_append_left _ (List.mem_append_right _ hbM))
    · simp
  · intro a ha
    have ham : a ∈ st.seq m := by rw [hs]; exact List.mem_append_right _ (hmem a ha)
    refine ⟨h.shape.out m hm a ham, fun l hl hal => ?_⟩
    change a ∈ upd st.seq m (A ++ B) l at hal
    by_cases e' : l = m
    · subst e'
      rw [upd_same] at hal
      have hd := List.nodup_append.1 (List.nodup_cons.1 nd).2
      rcases List.mem_append.1 hal with h | h
      · exact hd.2.2 a h a (hmem a ha) rfl
      · exact (List.nodup_append.1 nd3).2.2 a ha a (by simp [h]) rfl
    · rw [upd_ne _ _ e'] at hal
      exact e' (h.shape.disj l hl m hm a hal ham)

/-! ### Putting in -/

/-- The chain from `x` to `e` is put between `i` and `pos`. -/
def pasteSt (s : Dll α) (i x e pos : Nat) : Dll α :=
  { s with nx := upd (upd s.nx e (some (some pos))) i (some (some x)), pv := upd (upd s.pv x (some (some i))) pos (some (some e)) }

/-- The writes in the order of `insert` and `push_back`. -/
theorem paste_writes {i e pos : Nat} (hp : s.pv pos = some (some i)) (he : s.nx e ≠ none) (he' : s.pv e ≠ none) (hi : s.nx i ≠ none)
    (hne : pos ≠ e) :
    ∃ s1 s2 s3, s.setN e (some pos) = some s1 ∧ s1.pv pos = some (some i) ∧ s1.setP e (some i) = some s2 ∧ s2.pv pos = some (some i) ∧
      s2.setN i (some e) = some s3 ∧ s3.setP pos (some e) = some (pasteSt s i e e pos) := by
  refine ⟨_, _, _, setN_eq' he _, hp, setP_eq' (s := { s with nx := upd s.nx e (some (some pos)) }) he' _, ?_,
    setN_eq' (s := { s with nx := upd s.nx e (some (some pos)), pv := upd s.pv e (some (some i)) }) (upd_live hi) _, ?_⟩
  · show upd s.pv e _ pos = _
    rw [upd_ne _ _ hne]; exact hp
  · refine setP_eq' (s := { s with nx := upd (upd s.nx e (some (some pos))) i (some (some e)), pv := upd s.pv e (some (some i)) }) (upd_live ?_) _
    rw [hp]; simp

/-- The writes in the order of `splice`. -/
theorem paste_writes' {i x e pos : Nat} (hp : s.pv pos = some (some i)) (he : s.nx e ≠ none) (hx : s.pv x ≠ none) (hi : s.nx i ≠ none)
    (hne : pos ≠ x) :
    ∃ s1 s2 s3, s.setP x (some i) = some s1 ∧ s1.setN e (some pos) = some s2 ∧ s2.pv pos = some (some i) ∧
      s2.setN i (some x) = some s3 ∧ s3.setP pos (some e) = some (pasteSt s i x e pos) := by
  refine ⟨_, _, _, setP_eq' hx _, setN_eq' (s := { s with pv := upd s.pv x (some (some i)) }) he _, ?_,
    setN_eq' (s := { s with nx := upd s.nx e (some (some pos)), pv := upd s.pv x (some (some i)) }) (upd_live hi) _, ?_⟩
  · show upd s.pv x _ pos = _
    rw [upd_ne _ _ hne]; exact hp
  · refine setP_eq' (s := { s with nx := upd (upd s.nx e (some (some pos))) i (some (some x)), pv := upd s.pv x (some (some i)) }) (upd_live ?_) _
    rw [hp]; simp

theorem Core.paste (h : Core c s st z) {l e : Nat} (hl : l ∈ c.lists) {P M Q : List Nat} (hs : st.seq l = P ++ Q)
    (hp : Path (Dk s none) (M ++ [e])) (nd : (M ++ [e]).Nodup) (hX : ∀ a ∈ M ++ [e], Loose c.lists st a ∧ st.val a ≠ none)
    {z' : Nat → Bool} (hz : ∀ k, k ≠ l → z' k = z k) (h1 : P = [] → z' l = false) (h2 : P ≠ [] → z' l = z l) :
    Core c (pasteSt s (P.getLastD l) (M.headD e) e (Q.headD l)) (st.set l (P ++ (M ++ e :: Q))) z' := by
  have hsh := h.shape.put hl hs nd (fun a ha => (hX a ha).1)
  rw [show P ++ (M ++ [e] ++ Q) = P ++ (M ++ e :: Q) by simp] at hsh
  have hi : P.getLastD l ∈ l :: st.seq l := by rw [hs]; exact lastD_ring
  have hj : Q.headD l ∈ l :: st.seq l := by rw [hs]; exact headD_ring
  have hnr : ∀ a ∈ M ++ [e], ∀ k ∈ c.lists, a ∉ k :: st.seq k := by
    intro a ha k hk hm
    rcases List.mem_cons.1 hm with h3 | h3
    · exact (hX a ha).1.1 (h3 ▸ hk)
    · exact (hX a ha).1.2 k hk h3
  have heX : e ∈ M ++ [e] := by simp
  have hxX : M.headD e ∈ M ++ [e] := headD_mem M e
  have hei : e ≠ P.getLastD l := fun e' => hnr e heX l hl (e' ▸ hi)
  have hxj : M.headD e ≠ Q.headD l := fun e' => hnr _ hxX l hl (e' ▸ hj)
  have hfr : ∀ (o o' : Slot) a b, a ≠ P.getLastD l → a ≠ e → b ≠ M.headD e → b ≠ Q.headD l → (o = some b ↔ o' = some b) → Dk s o a b →
      Dk (pasteSt s (P.getLastD l) (M.headD e) e (Q.headD l)) o' a b := by
    intro o o' a b g1 g2 g3 g4 ho hl
    refine ⟨?_, ?_⟩
    · show upd (upd s.nx _ _) _ _ a = _
      rw [upd_ne _ _ g1, upd_ne _ _ g2]; exact hl.1
    · have : (pasteSt s (P.getLastD l) (M.headD e) e (Q.headD l)).pv b = s.pv b := by
        show upd (upd s.pv _ _) _ _ b = _
        rw [upd_ne _ _ g4, upd_ne _ _ g3]
      rw [this]
      have := hl.2
      by_cases g5 : o = some b
      · rw [if_pos g5] at this; rw [if_pos (ho.1 g5)]; exact this
      · rw [if_neg g5] at this; rw [if_neg (fun g => g5 (ho.2 g))]; exact this
  have hr := h.ring l hl
  rw [hs] at hr
  have mem : ∀ {k a}, a ∈ upd st.seq l (P ++ (M ++ e :: Q)) k → a ∈ st.seq k ∨ (k = l ∧ a ∈ M ++ [e]) := by
    intro k a ha
    by_cases e' : k = l
    · subst e'
      rw [upd_same] at ha
      rw [hs]
      simp only [List.mem_append, List.mem_cons] at ha ⊢
      rcases ha with h | h | h | h <;> simp [h]
    · rw [upd_ne _ _ e'] at ha; exact .inl ha
  refine ⟨h.val, fun a ha => ⟨upd_live (upd_live (h.live a ha).1), upd_live (upd_live (h.live a ha).2)⟩, hsh, fun k hk => ?_, fun k hk a ha => ?_, h.nolist⟩
  · show Seg _ k (upd st.seq l _ k) k
    by_cases e' : k = l
    · subst e'
      have ndr := hsh.ring hk
      rw [upd_same] at ndr ⊢
      have nde := nd_end ndr
      -- the excused position
      have hex : exc (st.set k (P ++ (M ++ e :: Q))) z' k = if P = [] then none else exc st z k := by
        by_cases hP : P = []
        · rw [if_pos hP]; unfold exc; rw [if_neg (by rw [h1 hP]; simp)]
        · rw [if_neg hP]
          unfold exc
          rw [h2 hP]
          obtain ⟨x, P', rfl⟩ := List.exists_cons_of_ne_nil hP
          show (if z k = true then some ((upd st.seq k _ k).headD k) else none) = _
          rw [upd_same, hs]; rfl
      have hexP : ∀ b, (∀ x P', P = x :: P' → x ≠ b) → exc (st.set k (P ++ (M ++ e :: Q))) z' k ≠ some b := by
        intro b hb
        rw [hex]
        split
        · simp
        · rename_i hP
          obtain ⟨x, P', rfl⟩ := List.exists_cons_of_ne_nil hP
          unfold exc
          split
          · rw [hs]
            exact fun e' => hb x P' rfl (Option.some.inj e')
          · simp
      have nPX : ∀ x P', P = x :: P' → x ∉ M ++ [e] ∧ x ≠ Q.headD k := by
        rintro x P' rfl
        have := (List.nodup_cons.1 nde).1
        have hq := headD_mem Q k
        refine ⟨fun hx => this ?_, fun hx => this ?_⟩
        · simp only [List.mem_append, List.mem_cons, List.not_mem_nil, or_false] at hx ⊢
          rcases hx with h | h <;> simp [h]
        · rw [← hx] at hq
          simp only [List.mem_append, List.mem_cons, List.not_mem_nil, or_false] at hq ⊢
          rcases hq with h | h <;> simp [h]
      refine hr.paste' (hp.mono ?_) ndr nde ?_ ⟨upd_same _ _ _, ?_⟩ ⟨?_, ?_⟩
      · -- inside the chain
        intro a ha b hb hab
        have hbX := List.mem_of_mem_tail hb
        refine hfr none _ a b ?_ ?_ ?_ ?_ ?_ hab
        · exact fun e' => hnr a (mem_dropLast' ha) k hk (e' ▸ hi)
        · rw [List.dropLast_concat] at ha
          exact fun e' => (List.nodup_append.1 nd).2.2 a ha e (by simp) e'
        · intro e'
          cases M with
          | nil => simp at hb
          | cons x M =>
            simp only [List.headD_cons] at e'
            subst e'
            exact (List.nodup_cons.1 nd).1 hb
        · exact fun e' => hnr b hbX k hk (e' ▸ hj)
        · refine ⟨fun e' => (by cases e'), fun e' => absurd e' (hexP b fun x P' hP e'' => (nPX x P' hP).1 (e'' ▸ hbX))⟩
      · intro a b g1 g2 g3 g4
        refine hfr _ _ a b g1 g2 g3 g4 ?_
        rw [hex]
        by_cases hP : P = []
        · rw [if_pos hP]
          refine ⟨fun e' => ?_, fun e' => (by cases e')⟩
          exfalso
          unfold exc at e'
          split at e'
          · rw [hs, hP] at e'
            exact g4 (Option.some.inj e').symm
          · cases e'
        · rw [if_neg hP]
      · rw [if_neg (hexP _ fun x P' hP e'' => (nPX x P' hP).1 (e'' ▸ hxX))]
        show upd (upd s.pv _ _) _ _ (M.headD e) = _
        rw [upd_ne _ _ hxj, upd_same]
      · show upd (upd s.nx _ _) _ _ e = _
        rw [upd_ne _ _ hei, upd_same]
      · rw [if_neg (hexP _ fun x P' hP e'' => (nPX x P' hP).2 e'')]
        exact upd_same _ _ _
    · rw [upd_ne _ _ e']
      have hex : exc (st.set l (P ++ (M ++ e :: Q))) z' k = exc st z k := by
        unfold exc
        rw [hz k e']
        show (if z k = true then some ((upd st.seq l _ k).headD k) else none) = _
        rw [upd_ne _ _ e']
      rw [hex]
      refine (h.ring k hk).mono fun a ha b hb => hfr _ _ a b (fun e'' => ?_) (fun e'' => ?_) (fun e'' => ?_) (fun e'' => ?_) Iff.rfl
      · exact e' (h.mem_ring hk hl ha (e'' ▸ hi))
      · exact hnr e heX k hk (e'' ▸ ha)
      · exact hnr _ hxX k hk (e'' ▸ hb)
      · exact e' (h.mem_ring hk hl hb (e'' ▸ hj))
  · rcases mem ha with h1 | ⟨_, h1⟩
    · exact h.own k hk a h1
    · exact (hX a h1).2

/-! ### Structs outside the lists -/

/-- The links of structs in no list do not matter. -/
theorem Core.frame (h : Core c s st z) {s' : Dll α} (hv : s'.val = s.val)
    (hl : ∀ a, st.val a ≠ none → s'.nx a ≠ none ∧ s'.pv a ≠ none)
    (hn : ∀ a, ¬ Loose c.lists st a → s'.nx a = s.nx a ∧ s'.pv a = s.pv a) : Core c s' st z := by
  refine ⟨hv.trans h.val, hl, h.shape, fun k hk => ?_, h.own, h.nolist⟩
  have key : ∀ a ∈ k :: st.seq k, ¬ Loose c.lists st a := by
    intro a ha hlo
    rcases List.mem_cons.1 ha with h1 | h1
    · exact hlo.1 (h1 ▸ hk)
    · exact hlo.2 k hk h1
  refine (h.ring k hk).mono fun a ha b hb hab => ?_
  refine ⟨by rw [(hn a (key a ha)).1]; exact hab.1, ?_⟩
  rw [(hn b (key b hb)).2]; exact hab.2

theorem Core.looseN (h : Core c s st z) {e : Nat} (he : Loose c.lists st e) (n : Slot) : Core c { s with nx := upd s.nx e (some n) } st z :=
  h.frame rfl (fun a ha => ⟨upd_live (h.live a ha).1, (h.live a ha).2⟩)
    fun a ha => ⟨upd_ne _ _ fun e' => ha (e' ▸ he), rfl⟩

theorem Core.looseP (h : Core c s st z) {e : Nat} (he : Loose c.lists st e) (n : Slot) : Core c { s with pv := upd s.pv e (some n) } st z :=
  h.frame rfl (fun a ha => ⟨(h.live a ha).1, upd_live (h.live a ha).2⟩)
    fun a ha => ⟨rfl, upd_ne _ _ fun e' => ha (e' ▸ he)⟩

/-- Several structs given away. -/
def dropAll (s : Dll α) (X : List Nat) : Dll α :=
  { s with nx := fun a => if X.contains a then none else s.nx a, pv := fun a => if X.contains a then none else s.pv a,
           val := fun a => if X.contains a then none else s.val a }

theorem dropAll_cons (s : Dll α) (a : Nat) (X : List Nat) : dropAll (free s a) X = dropAll s (a :: X) := by
  have key : ∀ {β : Type} (f : Nat → Option β), (fun j => if X.contains j then none else upd f a none j) =
      fun j => if (a :: X).contains j then none else f j := by
    intro β f
    funext j
    by_cases h : j = a
    · subst h; simp
    · simp [upd_ne _ _ h, h]
  simp only [dropAll, free, key]

theorem dropAll_one (s : Dll α) (a : Nat) : dropAll s [a] = free s a := by
  have key : ∀ {β : Type} (f : Nat → Option β), (fun j => if [a].contains j then none else f j) = upd f a none := by
    intro β f
    funext j; simp [upd]
  simp only [dropAll, free, key]

theorem Core.dropAll (h : Core c s st z) {X : List Nat} (hX : ∀ a ∈ X, Loose c.lists st a) :
    Core c (Dll.dropAll s X) (st.drop X) z := by
  have hnin : ∀ a, ¬ Loose c.lists st a → X.contains a = false := by
    intro a ha
    simpa using fun hx => ha (hX a hx)
  refine ⟨?_, fun a ha => ?_, h.shape, fun k hk => ?_, fun k hk a ha => ?_, fun k hk => ?_⟩
  · simp only [Dll.dropAll, St.drop, h.val]
  · simp only [St.drop] at ha
    simp only [Dll.dropAll]
    by_cases hc : X.contains a
    · rw [if_pos hc] at ha; exact absurd rfl ha
    · rw [if_neg hc] at ha
      simp only [hc]
      exact h.live a ha
  · have key : ∀ a ∈ k :: st.seq k, ¬ Loose c.lists st a := by
      intro a ha hlo
      rcases List.mem_cons.1 ha with h1 | h1
      · exact hlo.1 (h1 ▸ hk)
      · exact hlo.2 k hk h1
    refine (h.ring k hk).mono fun a ha b hb hab => ?_
    refine ⟨?_, ?_⟩
    · simp only [Dll.dropAll, hnin a (key a ha)]
      exact hab.1
    · have : (Dll.dropAll s X).pv b = s.pv b := by simp only [Dll.dropAll, hnin b (key b hb)]; rfl
      rw [this]; exact hab.2
  · simp only [St.drop]
    rw [hnin a (fun hlo => hlo.2 k hk ha)]
    exact h.own k hk a ha
  · simp only [St.drop]
    rw [h.nolist k hk]; simp

/-! ### Chains -/

/-- `a` links to `b`. -/
def Nk (s : Dll α) (a b : Nat) : Prop := s.nx a = some (some b)

theorem path_nk {o : Slot} {X : List Nat} (h : Path (Dk s o) X) : Path (Nk s) X := h.mono fun _ _ _ _ h => h.1

theorem len_spec {l e : Nat} : ∀ {M : List Nat} {k : Nat}, Path (Nk s) (M ++ [e]) → e ∉ M → k + M.length ≤ s.sz l + 1 →
    lenLoop s l (M.headD e) e k = some (k + M.length)
  | [], k, _, _, _ => by rw [lenLoop]; simp
  | [a], k, h, he, hk => by
    rw [lenLoop]
    have h1 : s.nx a = some (some e) := h.1
    simp only [List.mem_singleton] at he
    simp only [List.length_singleton] at hk
    have h2 : ¬ [a].headD e = e := fun h => he h.symm
    have h3 : k ≤ s.sz l := by omega
    rw [if_neg h2, if_pos h3]
    simp only [List.headD_cons, h1, Option.bind_eq_bind, Option.bind_some]
    have := @len_spec l e [] (k + 1) trivial (by simp) (by simp; omega)
    simpa using this
  | a :: b :: M, k, h, he, hk => by
    rw [lenLoop]
    have h1 : s.nx a = some (some b) := h.1
    have he' := he
    simp only [List.mem_cons, not_or] at he
    simp only [List.length_cons] at hk
    have h2 : ¬ (a :: b :: M).headD e = e := fun h => he.1 h.symm
    have h3 : k ≤ s.sz l := by omega
    rw [if_neg h2, if_pos h3]
    simp only [List.headD_cons, h1, Option.bind_eq_bind, Option.bind_some]
    have := @len_spec l e (b :: M) (k + 1) h.2 (fun h => he' (List.mem_cons_of_mem _ h)) (by simp; omega)
    rw [List.headD_cons] at this
    rw [this]
    simp only [List.length_cons, Option.some.injEq]
    omega

theorem free_path {a : Nat} {X : List Nat} (h : Path (Nk s) X) (ha : a ∉ X) : Path (Nk (free s a)) X := by
  refine h.mono fun x hx y _ hxy => ?_
  have : x ≠ a := fun e => ha (e ▸ mem_dropLast' hx)
  show upd s.nx a none x = _
  rw [upd_ne _ _ this]; exact hxy

theorem freeLoop_spec {l e : Nat} : ∀ {M : List Nat} {s : Dll α} {k : Nat}, Path (Nk s) (M ++ [e]) → (M ++ [e]).Nodup → s.nx e ≠ none →
    k + M.length ≤ s.sz l + 1 → freeLoop s l (M.headD e) e k = some (dropAll s (M ++ [e]), k + M.length)
  | [], s, k, _, _, hl, _ => by
    rw [freeLoop]
    obtain ⟨x, hx⟩ := Option.ne_none_iff_exists'.1 hl
    simp [hx, dropAll_one]
  | [a], s, k, h, nd, hl, hk => by
    rw [freeLoop]
    have h1 : s.nx a = some (some e) := h.1
    have he : a ≠ e := by simpa using nd
    simp only [List.length_singleton] at hk
    have h3 : k ≤ s.sz l := by omega
    rw [if_neg (by simpa using he), if_pos h3]
    simp only [List.headD_cons, h1, Option.bind_eq_bind, Option.bind_some]
    have := @freeLoop_spec l e [] (free s a) (k + 1) trivial (by simp) (by simp [free, upd_ne _ _ (Ne.symm he), hl]) (by simp [free]; omega)
    simp only [List.headD_nil, List.nil_append, List.length_nil, dropAll_cons] at this
    rw [this]; rfl
  | a :: b :: M, s, k, h, nd, hl, hk => by
    rw [freeLoop]
    have h1 : s.nx a = some (some b) := h.1
    have nd' := List.nodup_cons.1 nd
    have he : a ≠ e := fun e' => nd'.1 (by simp [e'])
    simp only [List.length_cons] at hk
    have h3 : k ≤ s.sz l := by omega
    rw [if_neg (by simpa using he), if_pos h3]
    simp only [List.headD_cons, h1, Option.bind_eq_bind, Option.bind_some]
    have := @freeLoop_spec l e (b :: M) (free s a) (k + 1) (free_path h.2 nd'.1) nd'.2
      (by simp [free, upd_ne _ _ (Ne.symm he), hl]) (by simp [free]; omega)
    rw [List.headD_cons] at this
    rw [this, dropAll_cons]
    simp only [List.cons_append, List.length_cons, Option.some.injEq, Prod.mk.injEq, true_and]
    omega

theorem upd_self {β : Type} (f : Nat → β) (i : Nat) : upd f i (f i) = f := by
  funext j; by_cases h : j = i <;> simp [upd, h]

theorem upd_upd {β : Type} (f : Nat → β) (i : Nat) (x y : β) : upd (upd f i x) i y = upd f i y := by
  funext j; by_cases h : j = i <;> simp [upd, h]

end CCC.Dll
