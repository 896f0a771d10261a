import Verif.Proof.WordsPrint
import Verif.Proof.WordsText
/-
C84: the word count sample reports every word once, with the number of its occurrences, in the order asked for.

Missing, hence `_partial`: texts whose last line is not ended (`C84_words_last_byte`), texts with bytes of 128 or more
(`C84_words_violated`), texts of more than `INT_MAX` bytes, and failed requests for memory.
-/
namespace CCC.Words
open CCC MapSpec FlatMap

/-- `-a`, `-alph=n` (`fwd`) and `-ra`, `-ralph=n`: the words in the order of a dictionary, or in the opposite order; all of them, or
the first `n`. -/
theorem printAlpha_spec (fresh : Nat → Frm.Junk Wd) (ps : List (List Nat)) (hb : ∀ p ∈ ps, ∀ c ∈ p, c < 128)
    (hlen : (ps.length : Int) ≤ intMax) (fwd : Bool) (n : Int) :
    ∃ full, Report (fun x y => if fwd then Alphabetic x y else Alphabetic y x) (wordsOf ps) full ∧
      printAlpha fresh ps fwd n = some (if wordsOf ps = [] then .refused else .printed (part n full)) := by
  obtain ⟨a, m, st, hcr, h⟩ := create_spec fresh hb hlen
  obtain ⟨⟨w1, b1⟩, w2, b2⟩ := h.walks
  have hsz : (Fom.size m : Int) = (st.l.map line).length := by rw [h.size, List.length_map]
  by_cases hw : wordsOf ps = []
  · refine ⟨if fwd then st.l.map line else st.l.reverse.map line, ?_, ?_⟩
    · cases fwd
      · exact h.ralpha
      · exact h.alpha
    · simp only [printAlpha, hcr, Option.bind_eq_bind, Option.bind_some, h.empty.2 hw, if_true, hw]
  · have he : Fom.isEmpty m = false := by
      cases he : Fom.isEmpty m
      · rfl
      · exact absurd (h.empty.1 he) hw
    cases fwd
    · refine ⟨st.l.reverse.map line, by simpa using h.ralpha, ?_⟩
      have := walk_spec (a := a) w2 (fun e he => h.str e (List.mem_reverse.1 he)) (if n = 0 then (Fom.size m : Int) else n) st.l.reverse []
        rfl 0
      simp only [printAlpha, hcr, Option.bind_eq_bind, Option.bind_some, he, Bool.false_eq_true, if_false, hw, Bool.not_false, b2, this,
        Int.sub_zero, List.map_take]
      rw [part_eq n (by rw [h.size]; simp)]
    · refine ⟨st.l.map line, by simpa using h.alpha, ?_⟩
      have := walk_spec (a := a) w1 h.str (if n = 0 then (Fom.size m : Int) else n) st.l [] rfl 0
      simp only [printAlpha, hcr, Option.bind_eq_bind, Option.bind_some, he, Bool.false_eq_true, if_false, hw, Bool.not_true, b1, this,
        Int.sub_zero, List.map_take]
      rw [part_eq n (by rw [h.size]; simp)]

/-- `-c`, `-top=n` (`.grt`) and `-rc`, `-last=n` (`.les`): the words by count, greatest first or least first, equal counts in the order
of a dictionary or in the opposite order; all of them, or the first `n`. -/
theorem printTop_spec (fresh : Nat → Frm.Junk Wd) (arr : Nat → Freq) (ps : List (List Nat))
    (hb : ∀ p ∈ ps, ∀ c ∈ p, c < 128) (hlen : (ps.length : Int) ≤ intMax) (order : Cmp) (ho : IsOrder order) (n : Int) :
    ∃ full, Report (fun x y => if order = .grt then ByCount x y else ByCount y x) (wordsOf ps) full ∧
      printTop fresh arr ps order n = some (if wordsOf ps = [] then .refused else .printed (part n full)) := by
  obtain ⟨a, m, st, hcr, h⟩ := create_spec fresh hb hlen
  obtain ⟨⟨w1, b1⟩, _⟩ := h.walks
  obtain ⟨arr', hcopy, hwin⟩ := copyLoop_spec w1 (16 * (Fom.size m + 1)) (Fom.size m + 1) (by rw [h.size]; omega) (by omega) st.l [] arr rfl rfl
  obtain ⟨q, full, hq, hqs, hrep, hfl, hpr⟩ := h.queue arr' order ho hwin
  refine ⟨full, hrep, ?_⟩
  by_cases hw : wordsOf ps = []
  · simp only [printTop, hcr, Option.bind_eq_bind, Option.bind_some, h.empty.2 hw, if_true, hw]
  · have he : Fom.isEmpty m = false := by
      cases he : Fom.isEmpty m
      · rfl
      · exact absurd (h.empty.1 he) hw
    simp only [List.length_nil] at hcopy
    rw [← h.size] at hq hqs
    simp only [printTop, hcr, Option.bind_eq_bind, Option.bind_some, he, Bool.false_eq_true, if_false, hw, b1, hcopy, hq, hqs, ne_eq,
      not_true_eq_false, hpr]
    rw [part_eq n (by rw [h.size, hfl])]

open Classical in
/-- `-find=w`: the word in lower case and the number of its occurrences, or nothing if it does not occur or is no word. -/
theorem printFound_spec (fresh : Nat → Frm.Junk Wd) (ps : List (List Nat)) (hb : ∀ p ∈ ps, ∀ c ∈ p, c < 128)
    (hlen : (ps.length : Int) ≤ intMax) (w : List Nat) (hw : ∀ c ∈ w, c < 128) :
    printFound fresh ps w = some (if wordsOf ps = [] then .refused
      else .printed (if IsWord w ∧ w.map lower ∈ wordsOf ps then [(w.map lower, ((wordsOf ps).count (w.map lower) : Int))] else [])) := by
  obtain ⟨a, m, st, hcr, h⟩ := create_spec fresh hb hlen
  by_cases hws : wordsOf ps = []
  · simp only [printFound, hcr, Option.bind_eq_bind, Option.bind_some, h.empty.2 hws, if_true, hws]
  · have he : Fom.isEmpty m = false := by
      cases he : Fom.isEmpty m
      · rfl
      · exact absurd (h.empty.1 he) hws
    obtain ⟨a1, r, e1, ok1, fr, hyes, hno⟩ := cleanWord_spec h.ok hw
    simp only [printFound, hcr, Option.bind_eq_bind, Option.bind_some, he, Bool.false_eq_true, if_false, hws, e1]
    by_cases hp : IsWord w
    · obtain ⟨o, rfl, ho⟩ := hyes hp
      simp only [hp, true_and]
      generalize w.map lower = s at ho ⊢
      simp only [ho.str ok1, Option.bind_some, Fom.get]
      obtain ⟨T, okm⟩ := h.reach.sim cmpStr_lawful
      rcases okm.find cmpStr_lawful s with ⟨t, x, k, A, B, hst, hf, hS, hr, ha, _, _, hlk⟩ | ⟨t, T', hf, o1, hlk⟩
      · obtain ⟨_, _, _, _, _, hm⟩ := Fom.found hS
        have hsx : s = (m.val x).str := cmpStr_eql.1 ha
        have h1 := ((h.holds _ hm).frame fr).str ok1
        have h2 := h.cnt _ hm
        have h3 := h.sub _ hm
        simp only at h1 h2 h3
        simp only [hf, Option.bind_some, h1, h2, ← hsx]
        rw [hsx, if_pos h3]
      · simp only [hf, Option.bind_some]
        rw [if_neg]
        intro hs
        obtain ⟨e, he2, h1⟩ := h.has s hs
        have := List.find?_eq_none.1 hlk e he2
        simp only [ekey, beq_iff_eq] at this
        exact this (cmpStr_eql.2 h1.symm)
    · simp only [hno hp, hp, false_and, if_false]


/-- What `-a`, `-c`, `-find=` and so on print for a list of words. -/
def Answers (words : List (List Nat)) : Request → Outcome → Prop
  | .alpha fwd n, out => ∃ full, Report (fun x y => if fwd then Alphabetic x y else Alphabetic y x) words full ∧
      out = if words = [] then .refused else .printed (part n full)
  | .count order n, out => ∃ full, Report (fun x y => if order = .grt then ByCount x y else ByCount y x) words full ∧
      out = if words = [] then .refused else .printed (part n full)
  | .find w, out => open Classical in out = if words = [] then .refused
      else .printed (if IsWord w ∧ w.map lower ∈ words then [(w.map lower, (words.count (w.map lower) : Int))] else [])

/-- What a user may ask for. -/
def Request.Valid : Request → Prop
  | .alpha _ _ => True
  | .count order _ => IsOrder order
  | .find w => ∀ c ∈ w, c < 128

/-- For every text of ASCII whose lines are ended, the program answers every request by the words of the text: cut at spaces and
ends of lines, without the pieces that are no words, in lower case.  `-a`, `-ra`, `-alph=n`, `-ralph=n` print them in the order of a
dictionary or backwards, `-c`, `-rc`, `-top=n`, `-last=n` by count, all of them or `n`; `-find=w` prints the count of one. -/
theorem C84_words_partial (fresh : Nat → Frm.Junk Wd) (arr : Nat → Freq) (text : List Nat) (hb : ∀ c ∈ text, c < 128)
    (hlen : (text.length : Int) ≤ intMax) (hend : text = [] ∨ text.getLast? = some 10) (r : Request) (hr : r.Valid) :
    ∃ out, main fresh arr text r = some out ∧ Answers (wordsIn text) r out := by
  have hp := pieces_text text.length text (Nat.le_refl _) hend
  have hb' : ∀ p ∈ runs (fun c => c == 32 || c == 10) text, ∀ c ∈ p, c < 128 := fun p hp c hc => hb c (runs_mem hp c hc)
  have hl' : ((runs (fun c => c == 32 || c == 10) text).length : Int) ≤ intMax := by
    have := runs_length (sep := fun c => c == 32 || c == 10) text
    omega
  have hw : wordsOf (runs (fun c => c == 32 || c == 10) text) = wordsIn text := wordsOf_runs text
  unfold main
  rw [hp]
  simp only [Option.bind_eq_bind, Option.bind_some]
  cases r with
  | alpha fwd n =>
    obtain ⟨full, h1, h2⟩ := printAlpha_spec fresh _ hb' hl' fwd n
    rw [hw] at h1 h2
    exact ⟨_, h2, full, h1, rfl⟩
  | count order n =>
    obtain ⟨full, h1, h2⟩ := printTop_spec fresh arr _ hb' hl' order hr n
    rw [hw] at h1 h2
    exact ⟨_, h2, full, h1, rfl⟩
  | find w =>
    have h2 := printFound_spec fresh _ hb' hl' w hr
    rw [hw] at h2
    exact ⟨_, h2, rfl⟩

/-- If the last line is not ended, its last byte is lost: the program does the same as if the end of the line were there instead. -/
theorem C84_words_last_byte (fresh : Nat → Frm.Junk Wd) (arr : Nat → Freq) (text : List Nat) (c : Nat) (r : Request) :
    main fresh arr (text ++ [c]) r = main fresh arr (text ++ [10]) r := by
  unfold main
  rw [pieces_last]

/-- A report is unique. -/
theorem Report.unique {before : Line → Line → Prop} (irr : ∀ x, ¬ before x x) (asym : ∀ x y, before x y → ¬ before y x)
    {words : List (List Nat)} {l l' : List Line} (h : Report before words l) (h' : Report before words l') : l = l' := by
  have nd : ∀ {l : List Line}, l.Pairwise before → l.Nodup := by
    intro l hl
    refine hl.imp ?_
    rintro x y hxy rfl
    exact irr x hxy
  have hp : l.Perm l' := by
    refine (List.perm_ext_iff_of_nodup (nd h.order) (nd h'.order)).2 ?_
    rintro ⟨w, c⟩
    rw [h.lines, h'.lines]
  exact hp.eq_of_pairwise (fun x y _ _ h1 h2 => absurd h2 (asym x y h1)) h.order h'.order

theorem alphabetic_asym (x y : Line) (h : Alphabetic x y) : ¬ Alphabetic y x := by
  unfold Alphabetic at *
  rw [cmpStr_lawful.flip] at h
  rw [h]; decide

theorem byCount_asym (x y : Line) (h : ByCount x y) : ¬ ByCount y x := by
  have h1 := cmpStr_lawful.flip x.1 y.1
  unfold ByCount at *
  rintro (h2 | ⟨h2, h3⟩)
  · rcases h with h | ⟨h, _⟩ <;> omega
  · rcases h with h | ⟨_, h4⟩
    · omega
    · rw [h3] at h1
      exact absurd (h1.1 h4) (by decide)

/-- The reports are determined by the text: the theorems above leave no choice. -/
theorem C84_report_unique {words : List (List Nat)} {l l' : List Line} :
    (Report Alphabetic words l → Report Alphabetic words l' → l = l') ∧ (Report ByCount words l → Report ByCount words l' → l = l') :=
  ⟨fun h h' => h.unique (fun x hx => alphabetic_asym x x hx hx) alphabetic_asym h',
   fun h h' => h.unique (fun x hx => byCount_asym x x hx hx) byCount_asym h'⟩

/-- "The cat, the", "dog the cat-". -/
def sampleText : List Nat :=
  [84, 104, 101, 32, 99, 97, 116, 44, 32, 116, 104, 101, 10, 100, 111, 103, 32, 32, 116, 104, 101, 32, 99, 97, 116, 45, 10]

theorem sampleText_words : wordsIn sampleText = [[116, 104, 101], [116, 104, 101], [100, 111, 103], [116, 104, 101]] := by
  classical
  simp [wordsIn, cut, wordsOf, sampleText, IsWord, Letter, lower]

theorem sampleText_report {full : List Line} (hr : Report ByCount [[116, 104, 101], [116, 104, 101], [100, 111, 103], [116, 104, 101]] full) :
    full = [([116, 104, 101], 3), ([100, 111, 103], 1)] := by
  refine C84_report_unique.2 hr ⟨by simp [ByCount], ?_⟩
  intro w c
  constructor
  · intro h
    simp only [List.mem_cons, Prod.mk.injEq, List.not_mem_nil, or_false] at h
    rcases h with ⟨rfl, rfl⟩ | ⟨rfl, rfl⟩ <;> simp
  · rintro ⟨h, rfl⟩
    simp only [List.mem_cons, List.not_mem_nil, or_false] at h
    rcases h with rfl | rfl | rfl | rfl <;> simp

/-- A text meets the hypotheses: "the" three times, "dog" once; "cat," and "cat-" are no words. -/
example (fresh : Nat → Frm.Junk Wd) (arr : Nat → Freq) :
    main fresh arr sampleText (.count .grt 0) = some (.printed [([116, 104, 101], 3), ([100, 111, 103], 1)]) := by
  obtain ⟨out, ho, full, hr, hp⟩ := C84_words_partial fresh arr sampleText (by decide) (by decide) (by decide) (.count .grt 0) (Or.inr rfl)
  rw [sampleText_words] at hr hp
  have hf := sampleText_report (full := full) (by simpa using hr)
  rw [ho, hp, hf]
  simp [part]

/-- What is missing: a text with a letter outside of ASCII, "é", is not counted, for `isalpha` is called with a negative number, and
the text "cat" has the word "ca". -/
theorem C84_words_violated (fresh : Nat → Frm.Junk Wd) (arr : Nat → Freq) :
    main fresh arr [195, 169, 10] (.alpha true 0) = none ∧
    main fresh arr [99, 97, 116] (.find [99, 97, 116]) = some (.printed []) ∧ wordsIn [99, 97, 116] = [[99, 97, 116]] := by
  classical
  refine ⟨?_, ?_, by simp [wordsIn, cut, wordsOf, IsWord, Letter, lower]⟩
  · have h := pieces_text 3 [195, 169, 10] (by decide) (by decide)
    have h2 : runs (fun c => c == 32 || c == 10) [195, 169, 10] = [[195, 169]] := by decide
    unfold main
    rw [h, h2]
    simp [printAlpha, create, countAll, countPiece, cleanWord, cleanLoop, isAlpha]
  · obtain ⟨out, ho, h⟩ := C84_words_partial fresh arr [99, 97, 10] (by decide) (by decide) (by decide) (.find [99, 97, 116])
      (by intro c hc; revert c; decide)
    have hl := C84_words_last_byte fresh arr [99, 97] 116 (.find [99, 97, 116])
    simp only [List.cons_append, List.nil_append] at hl
    rw [hl, ho, h]
    have : wordsIn [99, 97, 10] = [[99, 97]] := by simp [wordsIn, cut, wordsOf, IsWord, Letter, lower]
    rw [this]
    simp [lower]

end CCC.Words
