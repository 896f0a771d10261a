import Verif.Proof.Words
import Verif.Proof.WordsQueue
/-
The printing of words.
-/
namespace CCC.Words
open CCC MapSpec FlatMap

variable {a : Arena} {m : Fom.Fom Wd} {st : St Wd} {ws : List (List Nat)}

/-- A loop over the map sees the list `l`. -/
def Walks (m : Fom.Fom Wd) (fwd : Bool) (l : List (Nat × Wd)) : Prop :=
  ∀ pre e post, l = pre ++ e :: post →
    Fom.next m e.1 fwd = some ((post.map Prod.fst).head?.or (Fom.end_ m)) ∧ Fom.end_ m ≠ some e.1 ∧ m.val e.1 = e.2

theorem CInv.walks (h : CInv a m st ws) :
    (Walks m true st.l ∧ Fom.begin_ m false = some ((st.l.map Prod.fst).head?.or (Fom.end_ m))) ∧
    (Walks m false st.l.reverse ∧ Fom.begin_ m true = some ((st.l.reverse.map Prod.fst).head?.or (Fom.end_ m))) := by
  have hc := cmpStr_lawful
  have hs := h.reach.sim hc
  obtain ⟨_, h1, h2, h3, h4⟩ := hs.next_walk
  have h5 := hs.end_ne
  have h6 := (Fom.C28_fom_compact hc h.reach).2.2.2
  refine ⟨⟨?_, h3⟩, ?_, by rw [List.map_reverse]; exact h4⟩
  · intro pre e post hl
    have he : e ∈ st.l := by rw [hl]; simp
    exact ⟨h1 (pre.map Prod.fst) e.1 (post.map Prod.fst) (by rw [hl]; simp), h5 _ (List.mem_map.2 ⟨e, he, rfl⟩), (h6 e he).2⟩
  · intro pre e post hl
    have he : e ∈ st.l := by rw [← List.mem_reverse, hl]; simp
    exact ⟨h2 (pre.map Prod.fst) e.1 (post.map Prod.fst) (by rw [← List.map_reverse, hl]; simp),
      h5 _ (List.mem_map.2 ⟨e, he, rfl⟩), (h6 e he).2⟩

/-- The line for a word. -/
def line (e : Nat × Wd) : Line := (e.2.str, e.2.cnt)

theorem walk_spec {fwd : Bool} {l : List (Nat × Wd)} (hw : Walks m fwd l) (hs : ∀ e ∈ l, a.str e.2.ofs = some e.2.str) (n : Int) :
    ∀ (suf pre : List (Nat × Wd)), l = pre ++ suf → ∀ i,
      walk a m fwd n i ((suf.map Prod.fst).head?.or (Fom.end_ m)) = some ((suf.take (n - i).toNat).map line) := by
  intro suf
  induction suf with
  | nil =>
    intro pre hl i
    rw [walk, if_neg (by simp)]
    simp
  | cons e suf ih =>
    intro pre hl i
    obtain ⟨h1, h2, h3⟩ := hw pre e suf hl
    rw [walk]
    simp only [List.map_cons, List.head?_cons, Option.some_or]
    by_cases hi : i < n
    · rw [if_pos ⟨fun hh => h2 hh.symm, hi⟩]
      simp only [Option.bind_eq_bind, Option.bind_some, h1, h3, hs e (by rw [hl]; simp), ih (pre ++ [e]) (by rw [hl]; simp) (i + 1)]
      obtain ⟨k, hk⟩ : ∃ k, (n - i).toNat = k + 1 := ⟨(n - i).toNat - 1, by omega⟩
      rw [hk, show (n - (i + 1)).toNat = k by omega]
      rfl
    · rw [if_neg (by rintro ⟨_, h⟩; exact hi h), show (n - i).toNat = 0 by omega]
      rfl

theorem CInv.str (h : CInv a m st ws) : ∀ e ∈ st.l, a.str e.2.ofs = some e.2.str := fun e he => (h.holds e he).str h.ok

theorem CInv.size (h : CInv a m st ws) : Fom.size m = st.l.length := (Fom.C28_fom_compact cmpStr_lawful h.reach).2.2.1

theorem CInv.empty (h : CInv a m st ws) : Fom.isEmpty m = true ↔ ws = [] := by
  rw [Fom.isEmpty, h.size, beq_iff_eq, List.length_eq_zero_iff]
  constructor
  · intro hl
    apply List.eq_nil_iff_forall_not_mem.2
    intro w hw
    obtain ⟨e, he, _⟩ := h.has w hw
    rw [hl] at he
    cases he
  · intro hl
    apply List.eq_nil_iff_forall_not_mem.2
    intro e he
    have := h.sub e he
    rw [hl] at this
    cases this

theorem CInv.mem (h : CInv a m st ws) (w : List Nat) (c : Int) : (w, c) ∈ st.l.map line ↔ w ∈ ws ∧ c = (ws.count w : Int) := by
  constructor
  · intro hm
    obtain ⟨e, he, hl⟩ := List.mem_map.1 hm
    simp only [line, Prod.mk.injEq] at hl
    obtain ⟨rfl, rfl⟩ := hl
    exact ⟨h.sub e he, h.cnt e he⟩
  · rintro ⟨hw, rfl⟩
    obtain ⟨e, he, rfl⟩ := h.has w hw
    exact List.mem_map.2 ⟨e, he, by rw [line, h.cnt e he]⟩

theorem CInv.alpha (h : CInv a m st ws) : Report Alphabetic ws (st.l.map line) := by
  refine ⟨?_, h.mem⟩
  rw [List.pairwise_map]
  exact Fom.C28_fom_sorted cmpStr_lawful h.reach

theorem CInv.ralpha (h : CInv a m st ws) : Report (fun x y => Alphabetic y x) ws (st.l.reverse.map line) := by
  refine ⟨?_, fun w c => ?_⟩
  · rw [List.map_reverse, List.pairwise_reverse]
    exact h.alpha.order
  · rw [List.map_reverse, List.mem_reverse]; exact h.mem w c

/-- The number of lines. -/
theorem part_eq (n : Int) {L : List Line} {k : Nat} (hk : k = L.length) :
    L.take (if n = 0 then (k : Int) else n).toNat = part n L := by
  unfold part
  split
  · rw [Int.toNat_natCast, hk, List.take_length]
  · rfl

theorem copyLoop_spec {l : List (Nat × Wd)} (hw : Walks m true l) (cap len : Nat) (h1 : l.length < len) (h2 : len ≤ cap) :
    ∀ (suf pre : List (Nat × Wd)) (arr : Nat → Freq), l = pre ++ suf →
      window arr 0 pre.length = pre.map (fun e => ⟨e.2.ofs, e.2.cnt⟩) →
      ∃ arr', copyLoop m cap len arr pre.length ((suf.map Prod.fst).head?.or (Fom.end_ m)) = some arr' ∧
        window arr' 0 l.length = l.map (fun e => ⟨e.2.ofs, e.2.cnt⟩) := by
  intro suf
  induction suf with
  | nil =>
    intro pre arr hl hp
    rw [copyLoop, if_neg (by simp)]
    rw [List.append_nil] at hl
    subst hl
    exact ⟨arr, rfl, hp⟩
  | cons e suf ih =>
    intro pre arr hl hp
    obtain ⟨h3, h4, h5⟩ := hw pre e suf hl
    have hlen : pre.length < l.length := by rw [hl]; simp
    rw [copyLoop]
    simp only [List.map_cons, List.head?_cons, Option.some_or]
    rw [if_pos ⟨fun hh => h4 hh.symm, by omega⟩]
    simp only [Option.bind_eq_bind, Option.bind_some, h3, h5]
    rw [if_neg (by omega)]
    obtain ⟨arr', h6, h7⟩ := ih (pre ++ [e]) (upd arr pre.length ⟨e.2.ofs, e.2.cnt⟩) (by rw [hl]; simp) (by
      rw [List.length_append, List.length_singleton, window_succ, List.map_append, ← hp]
      congr 1
      · refine window_congr ?_
        intro i hi
        rw [upd_ne _ _ (by omega)]
      · rw [Nat.zero_add, upd_same]; rfl)
    rw [List.length_append, List.length_singleton] at h6
    exact ⟨arr', h6, h7⟩

theorem byCount_of {f : Nat → List Nat} {x y : Freq} (hne : f x.ofs ≠ f y.ofs) :
    (¬ cmpFreqs f y x = .grt → ByCount (f x.ofs, x.freq) (f y.ofs, y.freq)) ∧
    (¬ cmpFreqs f y x = .les → ByCount (f y.ofs, y.freq) (f x.ofs, x.freq)) := by
  have f2 := cmpStr_lawful.flip (f x.ofs) (f y.ofs)
  have f4 := cmpStr_lawful.noErr (f y.ofs) (f x.ofs)
  have f5 : cmpStr (f y.ofs) (f x.ofs) ≠ .eql := fun hh => hne (cmpStr_eql.1 hh).symm
  unfold cmpFreqs ByCount
  simp only
  rcases Int.lt_trichotomy x.freq y.freq with h | h | h
  · rw [if_pos (by omega)]
    exact ⟨fun hh => absurd rfl hh, fun _ => Or.inl h⟩
  · rw [if_neg (by omega), if_neg (by omega)]
    cases hcs : cmpStr (f y.ofs) (f x.ofs) with
    | les => exact ⟨fun hh => absurd rfl hh, fun _ => Or.inr ⟨h.symm, rfl⟩⟩
    | eql => exact absurd hcs f5
    | grt => exact ⟨fun _ => Or.inr ⟨h, f2.2 hcs⟩, fun hh => absurd rfl hh⟩
    | err => exact absurd hcs f4
  · rw [if_neg (by omega), if_pos (by omega)]
    exact ⟨fun _ => Or.inl h, fun hh => absurd rfl hh⟩

/-- The queue prints the words in its order. -/
theorem CInv.queue (h : CInv a m st ws) (arr : Nat → Freq) (order : Cmp) (ho : IsOrder order) (hw : window arr 0 st.l.length = st.l.map (fun e => ⟨e.2.ofs, e.2.cnt⟩)) :
    ∃ q full, (Fpq.inPlaceHeapify ⟨⟨arr, st.l.length + 1, 0, 16 * (st.l.length + 1), true⟩,
        cmpFreqs (fun i => (a.str i).getD []), order⟩ st.l.length) = some q ∧ q.size = st.l.length ∧
      Report (fun x y => if order = .grt then ByCount x y else ByCount y x) ws full ∧ full.length = st.l.length ∧
      ∀ k, printN a k q = some (full.take k) := by
  have hl := cmpFreqs_lawful (fun i => (a.str i).getD []) cmpStr_lawful
  obtain ⟨q, hq, hi, hp, hcmp, hord⟩ := Fpq.C13_heapify_init_partial arr (st.l.length + 1) st.l.length true
    (cmpFreqs (fun i => (a.str i).getD [])) order hl ho (by omega)
  obtain ⟨hw1, hcap⟩ := wide_inPlaceHeapify (c := 16 * (st.l.length + 1)) (by show st.l.length + 1 ≤ _; omega)
    (by show st.l.length < st.l.length + 1; omega) hq
  have hcap' : q.buf.cap = st.l.length + 1 := hcap
  rw [hw] at hp
  have hsz : q.buf.sz = st.l.length := by
    have := hp.length_eq
    simpa only [Fpq.contents, window_length, List.length_map] using this
  have hcon : ∀ x ∈ q.contents, ∃ e ∈ st.l, x.ofs = e.2.ofs ∧ x.freq = e.2.cnt := by
    intro x hx
    obtain ⟨e, he, rfl⟩ := List.mem_map.1 (hp.mem_iff.1 hx)
    exact ⟨e, he, rfl, rfl⟩
  obtain ⟨L, hL, hP, hk⟩ := printN_spec (a := a) (c := 16 * (st.l.length + 1)) st.l.length q hsz hi (by omega) (by omega) (by
    intro x hx
    obtain ⟨e, he, h1, _⟩ := hcon x hx
    exact ⟨e.2.str, by rw [h1]; exact h.str e he⟩)
  have hfull : (L.map (fun x => (((a.str x.ofs).getD [], x.freq) : Line))).Perm (st.l.map line) := by
    refine ((hL.trans hp).map _).trans ?_
    rw [List.map_map]
    refine List.Perm.of_eq (List.map_congr_left ?_)
    intro e he
    simp only [Function.comp, h.str e he, Option.getD_some, line]
  have hnd : (L.map (fun x => (a.str x.ofs).getD [])).Nodup := by
    have h1 := hfull.map Prod.fst
    rw [List.map_map, List.map_map] at h1
    exact (h1.nodup_iff).2 h.nodup
  refine ⟨_, L.map (fun x => ((a.str x.ofs).getD [], x.freq)), hw1, hsz, ⟨?_, ?_⟩, ?_, ?_⟩
  · rw [List.pairwise_map]
    rw [List.Nodup, List.pairwise_map] at hnd
    refine (hP.and hnd).imp ?_
    rintro x y ⟨hb, hne⟩
    simp only [Fpq.beats, Beats, hcmp, hord] at hb
    obtain ⟨b1, b2⟩ := byCount_of (f := fun i => (a.str i).getD []) (x := x) (y := y) hne
    rcases ho with rfl | rfl
    · simp only [reduceCtorEq, if_false]; exact b2 hb
    · simp only [if_true]; exact b1 hb
  · intro w c
    rw [hfull.mem_iff]
    exact h.mem w c
  · rw [hfull.length_eq, List.length_map]
  · intro k
    rw [hk k, List.map_take]

end CCC.Words
