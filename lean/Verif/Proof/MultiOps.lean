import Verif.Proof.MultiCore
/-
Inserting into the multimap and taking elements out of it.
-/
namespace CCC.Omm
open CCC Links Tree Wavl Splay

set_option linter.unusedSimpArgs false

variable {α κ : Type} {cmp : κ → κ → Cmp} {key : α → κ}
variable {H : Omm α} {A : List Nat} {N : Nat → Prop} {D : Nat → List Nat} {h : Links} {T : Tree}

theorem Rel.setSz (w : Rel D N H h) (n : Nat) : Rel D N { H with sz := n } h :=
  ⟨w.live, w.root, w.zero, w.br, w.brl, w.parl, w.plain, w.head, w.d0, w.dnl, w.dnd, w.ddj, w.nocyc, w.null⟩

/-- What an insertion answers. -/
def insertStat (f : Option Nat) : Nat := if f.isSome then Stat.occupied else Stat.vacant

/-- The tree after an insertion with `n` comparisons. -/
def Inserted (T T' : Tree) (n : Nat) : Prop :=
  (n = 0 ∧ T = nil ∧ ∃ e, T' = node e 0 nil nil) ∨
  ∃ f P i k m, Split f T P i k m ∧ n = m + 1 ∧ (T' = node i k (P true) (P false) ∨
    ∃ d e Y C, node i k (P true) (P false) = nd d i k Y C ∧ T' = nd d e 0 Y (nd d i k nil C))

/-- `multimap_insert`, with its cost. -/
theorem Core.insertN (c : Core cmp key H A N D h T) (hc : LawfulCmp cmp) (hsz : H.sz = A.length) {e : Nat} (e0 : e ≠ 0)
    (el : H.live e = true) (he : e ∉ A) :
    ∃ H' D' h' T', insertNode cmp key H e =
        some (H', ⟨some e, insertStat (first cmp key H.val (key (H.val e)) A)⟩) ∧
      Core cmp key H' (A ++ [e]) (fun a => N a ∧ a ≠ e) D' h' T' ∧ OnlyS (H.sz + 1) H H' ∧
      ∃ n, Costs (insertNodeN cmp key H e) n (H', ⟨some e, insertStat (first cmp key H.val (key (H.val e)) A)⟩) ∧
        Inserted T T' n := by
  suffices hh : ∃ H' D' h' T' n, Costs (insertNodeN cmp key H e) n
        (H', ⟨some e, insertStat (first cmp key H.val (key (H.val e)) A)⟩) ∧
      Core cmp key H' (A ++ [e]) (fun a => N a ∧ a ≠ e) D' h' T' ∧ OnlyS (H.sz + 1) H H' ∧ Inserted T T' n by
    obtain ⟨H', D', h', T', n, hn, c', o, i⟩ := hh
    exact ⟨H', D', h', T', (insertNodeN_er _ _ _ _).eq hn, c', o, n, hn, i⟩
  obtain ⟨nl, nd⟩ := c.outside e0 he
  obtain ⟨H1, run1, o1, R1⟩ := c.rel.init e0 el nl nd
  have heT : e ∉ T.ids := fun hh => he (c.memT hh)
  have w1 := Omm.Whole.ext c.whole e0 heT
  have hde := c.rel.dempty nl
  obtain ⟨v1, l1, _, s1, _, _⟩ := o1.val
  have extl : ∀ a, (ext h e).live a = true → a = 0 ∨ a = e ∨ a ∈ T.ids := by
    intro a ha
    by_cases hae : a = e
    · exact Or.inr (Or.inl hae)
    · have : h.live a = true := by simpa [Omm.ext, upd_ne _ _ hae] using ha
      rcases c.live a this with h1 | h1
      · exact Or.inl h1
      · exact Or.inr (Or.inr h1)
  have exte : (ext h e).live e = true := by simp [Omm.ext]
  simp only [Costs, insertNodeN, Count.bind_run, Count.lift_run, run1, Option.map_some, Option.bind_some]
  by_cases hne : T = nil
  · subst hne
    have hA := c.nil_iff.1 rfl
    subst hA
    have hE : isEmpty H1 = true := by simp [isEmpty, s1, hsz]
    simp only [if_pos hE]
    refine ⟨{ H1 with root := e, sz := 1 }, D, (ext h e).setRoot e, node e 0 nil nil, 0, fun _ => rfl,
      ⟨(R1.setRoot e).setSz 1, ?_, ?_, ?_, ?_, ?_⟩, ?_, Or.inl ⟨rfl, rfl, e, rfl⟩⟩
    · exact ⟨rfl, ⟨e0, exte, by simp [Links.setRoot, Omm.ext, rootId], by simp [Links.setRoot, Omm.ext, rootId],
        by simp [Links.setRoot, Omm.ext], trivial, trivial⟩, by simp [ids], w1.live0⟩
    · intro a ha
      rcases extl a ha with h1 | h1 | h1
      · exact Or.inl h1
      · exact Or.inr (by simp [ids, h1])
      · simp [ids] at h1
    · simp [ids]
    · intro n hn
      simp only [ids, List.nil_append, List.mem_singleton] at hn
      subst hn
      simp [hde, hc.refl]
    · intro a ha
      simp only [List.nil_append, List.mem_singleton] at ha
      subst ha
      exact ⟨a, by simp [ids], hc.refl _⟩
    · obtain ⟨b, p, r, rfl⟩ := o1
      have : H.sz = 0 := by simpa using hsz
      exact ⟨b, p, e, by simp [this]⟩
  · have hE : isEmpty H1 = false := by
      have : A.length ≠ 0 := by
        intro hh
        exact hne (c.nil_iff.2 (List.length_eq_zero_iff.1 hh))
      simp [isEmpty, s1, hsz, this]
    simp only [hE, Bool.false_eq_true, if_false]
    have R2 := R1.setSz (H1.sz + 1)
    have o2 : OnlyS (H.sz + 1) H { H1 with sz := H1.sz + 1 } := by
      obtain ⟨b, p, r, rfl⟩ := o1; exact ⟨b, p, r, rfl⟩
    generalize hG : ({ H1 with sz := H1.sz + 1 } : Omm α) = G at R2 o2
    obtain ⟨v2, l2, _, s2, _, _⟩ := o2.val
    have rG : G.root = T.rootId := R2.root.trans w1.ctx
    have hcm : ∀ a ∈ T.ids, Omm.cmpAt cmp key G (key (G.val e)) a = some (cmp (key (H.val e)) (key (H.val a))) := by
      intro a ha
      rw [← v2]
      exact if_pos ⟨c.ne_zero (c.memT ha), by rw [l2]; exact c.alive (c.memT ha)⟩
    obtain ⟨H3, h3, i, m, L, B, _, R3, o3, w3, hi, hL, hB, hs, P, nn, hsp, pL, pB, run3⟩ :=
      splay_simN R2 w1.tree c.nodup w1.live0 hne hcm (c.mono hc _)
    rw [← rG] at run3
    obtain ⟨v3, l3, _, s3, _, _⟩ := o3.val
    have hr3 : H3.root = i := R3.root.trans w3.ctx
    have iA : i ∈ A := c.memT (by rw [← hi]; simp [ids])
    have hq : Omm.cmpAt cmp key H3 (key (G.val e)) i = some (cmp (key (H.val e)) (key (H.val i))) := by
      rw [v2, ← v2, ← v3]
      refine if_pos ⟨c.ne_zero iA, ?_⟩
      rw [l3, l2]; exact c.alive iA
    have run : Costs (splayToN cmp key G (key (G.val e))) (nn + 1) (H3, cmp (key (H.val e)) (key (H.val i))) := by
      intro q
      simp only [splayToN, Count.bind_run, run3 q, Option.bind_some, root_self hr3, Count.cnt_run]
      rw [hq]; rfl
    simp only [v1]
    simp only [v2] at run
    have hIns : ∀ T5, (T5 = node i m L B ∨ ∃ d e Y C, node i m L B = Tree.nd d i m Y C ∧
        T5 = Tree.nd d e 0 Y (Tree.nd d i m nil C)) →
        Inserted T T5 (nn + 1) := fun T5 h5 => Or.inr ⟨_, P, i, m, nn, hsp, rfl, by rw [← pL, ← pB]; exact h5⟩
    simp only [Count.bind_run, run _, Option.bind_some]
    have he3 : e ∉ (node i m L B).ids := by rw [hi]; exact heT
    have live3 : ∀ a, h3.live a = true → a = 0 ∨ a = e ∨ a ∈ (node i m L B).ids := by
      rw [hs.live, hi]; exact extl
    have el3 : h3.live e = true := by rw [hs.live]; exact exte
    have oS3 : OnlyS (H.sz + 1) H H3 := by
      obtain ⟨b, p, r, rfl⟩ := o2
      obtain ⟨b, p, r, rfl⟩ := o3
      exact ⟨b, p, r, rfl⟩
    have c3 : Core cmp key H A N D h T := c
    have sor : (node i m L B).ids.Pairwise (fun a b => cmp (key (H.val a)) (key (H.val b)) = .les) := by
      rw [hi]; exact c.sorted
    have grp : ∀ n ∈ (node i m L B).ids, n :: D n = A.filter (fun a => cmp (key (H.val n)) (key (H.val a)) == .eql) := by
      rw [hi]; exact c.group
    have cov : ∀ a ∈ A, ∃ n ∈ (node i m L B).ids, cmp (key (H.val n)) (key (H.val a)) = .eql := by
      rw [hi]; exact c.cover
    have v3' : H3.val = H.val := by rw [v3, v2]
    have side : ∀ n ∈ (node i m L B).ids, n ≠ i → cmp (key (H.val n)) (key (H.val e)) ≠ .eql := by
      intro n hn hni hh
      have := hc.symm hh
      simp only [ids, List.mem_append, List.mem_cons] at hn
      rcases hn with hn | hn | hn
      · rw [hL n hn] at this; cases this
      · exact hni hn
      · rw [hB n hn] at this; cases this
    have hf : first cmp key H.val (key (H.val e)) A =
        if cmp (key (H.val e)) (key (H.val i)) = .eql then some i else none := by
      unfold first
      by_cases hq : cmp (key (H.val e)) (key (H.val i)) = .eql
      · rw [if_pos hq, ← List.head?_filter]
        have : A.filter (fun a => cmp (key (H.val e)) (key (H.val a)) == .eql) = i :: D i := by
          rw [grp i (by simp [ids])]
          exact List.filter_congr (fun a _ => by rw [hc.eql_congr_left hq])
        rw [this]; rfl
      · rw [if_neg hq, List.find?_eq_none]
        intro a ha hh
        have hh : cmp (key (H.val e)) (key (H.val a)) = .eql := by simpa using hh
        obtain ⟨n, hn, hq'⟩ := cov a ha
        have h1 : cmp (key (H.val e)) (key (H.val n)) = .eql := by rw [hc.eql_congr hq']; exact hh
        by_cases hni : n = i
        · subst hni; exact hq h1
        · exact side n hn hni (hc.symm h1)
    by_cases heq : cmp (key (H.val e)) (key (H.val i)) = .eql
    · simp only [if_pos heq]
      obtain ⟨R4, w4⟩ := R3.cut_whole w3 e0 hde he3 live3
      have hil : (Omm.cut h3 e).live i = true := w4.tree.live i (by simp [ids])
      have hip : (Omm.cut h3 e).par i = 0 := by
        obtain ⟨_, _, _, _, ip, _, _⟩ := w4.tree
        simpa using ip
      obtain ⟨H5, run5, o5, R5⟩ := R4.addDup (r := i) (e := e) hil (c.ne_zero iA) hip (by rw [l3, l2]; exact el)
        (by simp [Omm.cut]) nd (fun hh => hh.2 rfl)
      refine ⟨H5, _, _, node i m L B, nn + 1, ?_, ⟨R5, w4, ?_, ?_, ?_, ?_⟩, ?_, hIns _ (Or.inl rfl)⟩
      · intro q
        simp only [hr3, Count.bind_run, Count.lift_run, run5, hf, if_pos heq, Option.map_some, Option.bind_some]; rfl
      · intro a ha
        have hae : a ≠ e := by rintro rfl; simp [Omm.cut] at ha
        have : h3.live a = true := by simpa [Omm.cut, upd_ne _ _ hae] using ha
        rcases live3 a this with h1 | h1 | h1
        · exact Or.inl h1
        · exact absurd h1 hae
        · exact Or.inr h1
      · rw [o5.val.1, v3']; exact sor
      · rw [o5.val.1, v3']
        intro n hn
        rw [List.filter_append]
        by_cases hni : n = i
        · subst hni
          rw [upd_same, ← grp n hn]
          simp [hc.symm heq]
        · rw [upd_ne _ _ hni, ← grp n hn]
          simp [side n hn hni]
      · rw [o5.val.1, v3']
        intro a ha
        rcases List.mem_append.1 ha with ha | ha
        · exact cov a ha
        · simp only [List.mem_singleton] at ha
          subst ha
          exact ⟨i, by simp [ids], hc.symm heq⟩
      · obtain ⟨b, p, r, rfl⟩ := oS3
        obtain ⟨b, p, r, rfl⟩ := o5
        exact ⟨b, p, r, rfl⟩
    · simp only [if_neg heq]
      have he_new : A.filter (fun a => cmp (key (H.val e)) (key (H.val a)) == .eql) = [] := by
        rw [List.filter_eq_nil_iff]
        have := hf
        rw [if_neg heq, first, List.find?_eq_none] at this
        exact this
      have fin : ∀ (H5 : Omm α) (h5 : Links) (T5 : Tree) (pre post : List Nat), Rel D (fun a => N a ∧ a ≠ e) H5 h5 → Only H3 H5 →
          Whole h5 [] T5 → h5.live = h3.live → (node i m L B).ids = pre ++ post → T5.ids = pre ++ e :: post →
          (∀ a ∈ pre, cmp (key (H.val e)) (key (H.val a)) = .grt) →
          (∀ a ∈ post, cmp (key (H.val e)) (key (H.val a)) = .les) →
          Core cmp key H5 (A ++ [e]) (fun a => N a ∧ a ≠ e) D h5 T5 ∧ OnlyS (H.sz + 1) H H5 := by
        intro H5 h5 T5 pre post R5 o5 w5 hl5 e1 e2 hpre hpost
        have mem5 : ∀ n, n ∈ T5.ids ↔ n = e ∨ n ∈ (node i m L B).ids := by
          intro n; rw [e1, e2]; simp only [List.mem_append, List.mem_cons]; grind
        have nside : ∀ n ∈ (node i m L B).ids, cmp (key (H.val n)) (key (H.val e)) ≠ .eql := by
          intro n hn
          by_cases hni : n = i
          · subst hni; exact fun hh => heq (hc.symm hh)
          · exact side n hn hni
        refine ⟨⟨R5, w5, ?_, ?_, ?_, ?_⟩, ?_⟩
        · intro a ha
          rw [hl5] at ha
          rw [mem5]
          rcases live3 a ha with h1 | h1 | h1
          · exact Or.inl h1
          · exact Or.inr (Or.inl h1)
          · exact Or.inr (Or.inr h1)
        · rw [o5.val.1, v3', e2]
          rw [e1, List.pairwise_append] at sor
          rw [List.pairwise_append, List.pairwise_cons]
          refine ⟨sor.1, ⟨hpost, sor.2.1⟩, ?_⟩
          intro a ha b hb
          rcases List.mem_cons.1 hb with rfl | hb
          · exact hc.grt_iff.1 (hpre a ha)
          · exact sor.2.2 a ha b hb
        · rw [o5.val.1, v3']
          intro n hn
          rw [List.filter_append]
          rcases (mem5 n).1 hn with rfl | hn
          · rw [he_new, hde]; simp [hc.refl]
          · rw [← grp n hn]; simp [nside n hn]
        · rw [o5.val.1, v3']
          intro a ha
          rcases List.mem_append.1 ha with ha | ha
          · obtain ⟨n, hn, hh⟩ := cov a ha
            exact ⟨n, (mem5 n).2 (Or.inr hn), hh⟩
          · simp only [List.mem_singleton] at ha
            subst ha
            exact ⟨a, (mem5 a).2 (Or.inl rfl), hc.refl _⟩
        · obtain ⟨b, p, r, rfl⟩ := oS3
          obtain ⟨b, p, r, rfl⟩ := o5
          exact ⟨b, p, r, rfl⟩
      have hfn : insertStat (first cmp key H.val (key (H.val e)) A) = Stat.vacant := by
        rw [hf, if_neg heq]; rfl
      rw [hfn]
      cases hres : cmp (key (H.val e)) (key (H.val i)) with
      | eql => exact absurd hres heq
      | err => exact absurd hres (hc.noErr _ _)
      | les =>
        obtain ⟨H5, h5, run5, R5, o5, w5, l5⟩ := connect_sim (i := i) (k := m) (e := e) (Y := L) (C := B) (res := .les) R3 (by exact w3) e0 el3 he3
        obtain ⟨cc, oo⟩ := fin H5 h5 _ L.ids (i :: B.ids) R5 o5 w5 l5 rfl (by simp [ids, nd]) hL (by
          intro a ha
          rcases List.mem_cons.1 ha with rfl | ha
          · exact hres
          · exact hB a ha)
        exact ⟨H5, _, _, _, nn + 1, by intro q; simp only [Count.bind_run, Count.lift_run, run5]; rfl, cc, oo,
          hIns _ (Or.inr ⟨false, e, L, B, rfl, rfl⟩)⟩
      | grt =>
        obtain ⟨H5, h5, run5, R5, o5, w5, l5⟩ := connect_sim (i := i) (k := m) (e := e) (Y := B) (C := L) (res := .grt) R3 (by exact w3) e0 el3 he3
        obtain ⟨cc, oo⟩ := fin H5 h5 _ (L.ids ++ [i]) B.ids R5 o5 w5 l5 (by simp [ids]) (by simp [ids, nd]) (by
          intro a ha
          rcases List.mem_append.1 ha with ha | ha
          · exact hL a ha
          · rw [List.mem_singleton.1 ha]; exact hres) hB
        exact ⟨H5, _, _, _, nn + 1, by intro q; simp only [Count.bind_run, Count.lift_run, run5]; rfl, cc, oo,
          hIns _ (Or.inr ⟨true, e, B, L, rfl, rfl⟩)⟩

/-- `multimap_insert`. -/
theorem Core.insert (c : Core cmp key H A N D h T) (hc : LawfulCmp cmp) (hsz : H.sz = A.length) {e : Nat} (e0 : e ≠ 0)
    (el : H.live e = true) (he : e ∉ A) :
    ∃ H' D' h' T', insertNode cmp key H e =
        some (H', ⟨some e, insertStat (first cmp key H.val (key (H.val e)) A)⟩) ∧
      Core cmp key H' (A ++ [e]) (fun a => N a ∧ a ≠ e) D' h' T' ∧ OnlyS (H.sz + 1) H H' := by
  obtain ⟨H', D', h', T', e, c', o, _⟩ := c.insertN hc hsz e0 el he
  exact ⟨H', D', h', T', e, c', o⟩

end CCC.Omm
