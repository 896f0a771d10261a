import Verif.Proof.MultiTake
/-
Taking a given element out of the multimap, and putting it back with other data.
-/
namespace CCC.Omm
open CCC Links Tree Wavl Splay

set_option linter.unusedSimpArgs false

variable {α κ : Type} {cmp : κ → κ → Cmp} {key : α → κ}
variable {H : Omm α} {A : List Nat} {N : Nat → Prop} {D : Nat → List Nat} {h : Links} {T : Tree}

theorem Core.weaken (c : Core cmp key H A N D h T) {M : Nat → Prop} (hm : ∀ a, M a → N a) : Core cmp key H A M D h T :=
  ⟨c.rel.weaken hm, c.whole, c.live, c.sorted, c.group, c.cover⟩

/-- The stored structs with the key of the one at an address. -/
def likes (cmp : κ → κ → Cmp) (key : α → κ) (val : Nat → α) (a : Nat) (A : List Nat) : List Nat :=
  A.filter (fun b => cmp (key (val a)) (key (val b)) == .eql)

theorem Core.likes (c : Core cmp key H A N D h T) (hc : LawfulCmp cmp) {n a : Nat} (hn : n ∈ T.ids) (ha : a = n ∨ a ∈ D n) :
    Omm.likes cmp key H.val a A = n :: D n := by
  rw [c.group n hn]
  refine List.filter_congr (fun b _ => ?_)
  rcases ha with rfl | ha
  · rfl
  · rw [hc.eql_congr_left (c.memD ha).2]

/-- After splaying for the key of a group the group is at the root. -/
theorem Core.splay_group (c : Core cmp key H A N D h T) (hc : LawfulCmp cmp) {n a : Nat} (hn : n ∈ T.ids)
    (ha : a = n ∨ a ∈ D n) :
    ∃ H' h' m L B, Core cmp key H' A N D h' (node n m L B) ∧ Only H H' ∧
      Omm.cmpAt cmp key H' (key (H.val a)) n = some .eql ∧
      ∃ f P q, Split f T P n m q ∧ L = P true ∧ B = P false ∧
        Costs (splayN H (Omm.cmpAt cmp key H (key (H.val a))) H.root) q (H', n) := by
  have hne : T ≠ nil := by rintro rfl; simp [ids] at hn
  have e : cmp (key (H.val n)) (key (H.val a)) = .eql := by
    rcases ha with rfl | ha
    · exact hc.refl _
    · exact (c.memD ha).2
  have e' := hc.symm e
  obtain ⟨H', h', i, m, L, B, _, c', o, hr, hi, hA, hB, P, q, hsp, pL, pB, run⟩ :=
    c.splayCN hne (fun b hb => c.cmpAt (key (H.val a)) (c.memT hb)) (c.mono hc _)
  have hq := c'.cmpAt (key (H.val a)) (c'.memT (n := i) (by simp [ids]))
  rw [o.val.1] at hq
  have hn' := hn
  rw [← hi] at hn'
  simp only [ids, List.mem_append, List.mem_cons] at hn'
  have : n = i := by
    rcases hn' with h1 | h1 | h1
    · have := hA n h1; rw [e'] at this; cases this
    · exact h1
    · have := hB n h1; rw [e'] at this; cases this
  subst this
  rw [e'] at hq
  exact ⟨H', h', m, L, B, c', o, hq, _, P, q, hsp, pL, pB, run⟩

theorem Core.isEmpty (c : Core cmp key H A N D h T) (hsz : H.sz = A.length) {a : Nat} (ha : a ∈ A) :
    Omm.isEmpty H = false := by
  cases A with
  | nil => simp at ha
  | cons b l => simp [Omm.isEmpty, hsz]

/-- The tree after an extraction with `n` comparisons. -/
def Extracted (T T' : Tree) (n : Nat) : Prop :=
  (n = 0 ∧ T' = T) ∨ ∃ f P i k m q, Split f T P i k m ∧ n = m + 1 + q ∧ Took k (P true) (P false) T' q

/-- What is known about the cost of the extraction of a given element. -/
def Priced (a : Nat) (T T' : Tree) (two : List Nat) (n : Nat) : Prop :=
  (a ∉ two → n = 0) ∧ (a ∈ T.ids → ∃ f P k m q, Split f T P a k m ∧ n = m + 1 + q ∧ Took k (P true) (P false) T' q)

/-- `multimap_erase_node` of a stored element, with its cost. -/
theorem Core.extractN (c : Core cmp key H A N D h T) (hc : LawfulCmp cmp) (hsz : H.sz = A.length) {a : Nat} (ha : a ∈ A) :
    (∃ l r, H.br a false = some l ∧ H.br a true = some r) ∧
    ∃ H' D' h' T', OnlyS (H.sz - 1) H H' ∧
      Core cmp key H' (drop a A) (fun b => N b ∨ (b = a ∧ a ∈ (Omm.likes cmp key H.val a A).take 2)) D' h' T' ∧
      ∃ q, Costs (eraseNodeN cmp key H a) q (H', some a) ∧ Extracted T T' q ∧
        Priced a T T' ((Omm.likes cmp key H.val a A).take 2) q := by
  obtain ⟨n, hn, hh⟩ := c.find_node ha
  have hE := c.isEmpty hsz ha
  have al := c.alive ha
  have nl := c.whole.tree.live n hn
  have n0 : n ≠ 0 := c.ne_zero (c.memT hn)
  rw [c.likes hc hn hh]
  -- the cases in which the group is splayed
  have splayed : ∀ (p l r : Nat), H.br a false = some l → H.br a true = some r → H.par a = some p →
      (a ∈ (n :: D n).take 2) →
      (∀ (G : Omm α) (g : Links) (m : Nat) (L B : Tree), Core cmp key G A N D g (node n m L B) →
        ∃ H' D' h' T' q, Costs ((if !(D n).isEmpty then popDupNodeN cmp key G a n else removeFromTreeN cmp key G n) >>=
            fun x => (liftM (clearNode x.1 x.2) : Count _) >>= fun s => pure (s, some x.2)) q (H', some a) ∧
          Core cmp key H' (drop a A) (fun b => N b ∨ b = a) D' h' T' ∧ Only G H' ∧ Took m L B T' q) →
      (∃ l r, H.br a false = some l ∧ H.br a true = some r) ∧
      ∃ H' D' h' T', OnlyS (H.sz - 1) H H' ∧
        Core cmp key H' (drop a A) (fun b => N b ∨ (b = a ∧ a ∈ (n :: D n).take 2)) D' h' T' ∧
        ∃ q, Costs (eraseNodeN cmp key H a) q (H', some a) ∧ Extracted T T' q ∧ Priced a T T' ((n :: D n).take 2) q := by
    intro p l r hl hr hp htake hpop
    refine ⟨⟨l, r, hl, hr⟩, ?_⟩
    obtain ⟨H1, h1, m, L, B, c1, o1, hq, f, P, n1, hsp, pL, pB, run⟩ := (c.setSz (H.sz - 1)).splay_group hc hn hh
    obtain ⟨H2, D2, h2, T2, n2, run2, c2, o2, tk⟩ := hpop H1 h1 m L B c1
    refine ⟨H2, D2, h2, T2, (o1.trans o2).withSz, ?_, n1 + 1 + n2, ?_, Or.inr ⟨f, P, n, m, n1, n2, hsp, rfl, ?_⟩,
      fun hh => absurd htake hh, fun haT => ⟨f, P, m, n1, n2, ?_, rfl, ?_⟩⟩
    · refine c2.weaken ?_
      intro b hb
      rcases hb with hb | hb
      · exact Or.inl hb
      · exact Or.inr hb.1
    · intro q
      simp only [eraseNodeN, Count.bind_run, Count.lift_run, Omm.getBr, Omm.getPar, al, if_true, Option.map_some,
        Option.bind_some, hl, hr, hE, hp, reduceCtorEq, or_self, if_false, Bool.false_eq_true]
      simp only at run
      rw [run]
      simp only [Option.bind_some, Count.cnt_run]
      simp only at hq
      rw [hq]
      simp only [Option.map_some, Option.bind_some, ne_eq, not_true, if_false, Count.bind_run, Count.lift_run]
      rw [c1.rel.hasDups (c1.whole.tree.live n (by simp [ids]))]
      simp only [Option.map_some, Option.bind_some]
      have := run2 (q + n1 + 1)
      simp only [Count.bind_run, Count.lift_run] at this
      rw [this]
      congr 2
      omega
    · rw [← pL, ← pB]; exact tk
    · have : a = n := hh.resolve_right (c.nD haT n)
      rw [this]; exact hsp
    · rw [← pL, ← pB]; exact tk
  rcases hh with rfl | hD
  · -- a tree node
    have hp : ∃ p, H.par a = some p := by
      cases hd : D a with
      | nil => exact ⟨_, c.rel.plain a nl hd⟩
      | cons x xs => exact ⟨_, (c.rel.head a x xs nl hd).1⟩
    obtain ⟨p, hp⟩ := hp
    refine splayed p _ _ (c.rel.br a false nl) (c.rel.br a true nl) hp (by cases D a <;> simp) ?_
    intro G g m L B cG
    obtain ⟨H', D', h', T', q, run, c', o', tk⟩ := cG.takeN hc
    refine ⟨H', D', h', T', q, ?_, c', o', tk⟩
    intro p
    have := run p
    simp only [takeRootN, Count.bind_run, Count.lift_run, cG.rel.hasDups (cG.whole.tree.live a (by simp [ids])),
      Option.map_some, Option.bind_some] at this
    simp only [popDupNodeN, if_true, Count.bind_run, Count.lift_run]
    exact this
  · cases hd : D n with
    | nil => rw [hd] at hD; simp at hD
    | cons x xs =>
      obtain ⟨q1, q2, q3, q4⟩ := c.rel.head n x xs nl hd
      have hnd := c.rel.dnd n
      rw [hd] at hnd
      rw [hd] at hD
      rcases List.mem_cons.1 hD with rfl | hD
      · -- the first duplicate
        have hlast := q4.last
        have hfirst := q4.first
        rw [hd] at splayed
        refine splayed _ _ _ hlast.2 hfirst q2 (by simp) ?_
        intro G g m L B cG
        have nT : n ∈ (node n m L B).ids := by simp [ids]
        obtain ⟨_, _, _, _, np, _, _⟩ := cG.whole.tree
        obtain ⟨H1, run1, o1, R1⟩ := cG.rel.popHead cmp key (cG.whole.tree.live n nT) n0 (by simpa using np) hd
        have aD : a ∈ D n := by rw [hd]; simp
        have hxs : xs = drop a (D n) := by
          rw [hd, drop_cons, drop_self (List.nodup_cons.1 hnd).1]
        have c1 := cG.dropDup aD hxs o1 R1
        obtain ⟨g1, g2⟩ := c1.outside (a := a) (c.ne_zero ha) (fun hh => (mem_drop.1 hh).2 rfl)
        obtain ⟨H2, run2, o2, R2⟩ := R1.clear (e := a) (by rw [o1.val.2.1]; exact cG.alive ha) g1 g2
        refine ⟨H2, _, g, _, 0, ?_, c1.reshapeN o2 R2, o1.trans o2, Or.inl ⟨rfl, n, rfl⟩⟩
        have run1' := popDupNodeN_root (show G.root = n from cG.root) run1
        intro p
        simp only [List.isEmpty_cons, Bool.not_false, if_true, Count.bind_run, Count.lift_run, run1' p, Option.bind_some,
          run2, Option.map_some]
        rfl
      · -- a later duplicate
        obtain ⟨pre, post, e⟩ := List.append_of_mem hD
        subst e
        obtain ⟨p, m, H1, _, e2, e3, e4, e5, e6, e7, e8, ⟨G, e9, e10⟩, o1, R1, _⟩ := (c.rel.setSz (H.sz - 1)).snip nl n0 hd
        have aD : a ∈ D n := by rw [hd]; simp
        have hnd2 := (List.nodup_cons.1 hnd).2
        have hax : a ≠ x := by
          rintro rfl
          exact (List.nodup_cons.1 hnd).1 (by simp)
        rw [List.nodup_append, List.nodup_cons] at hnd2
        have hLs : x :: (pre ++ post) = drop a (D n) := by
          rw [hd]
          have h1 : drop a (x :: (pre ++ a :: post)) = x :: (drop a pre ++ drop a (a :: post)) := by
            simp [drop, List.filter_cons, hax.symm]
          rw [h1, drop_cons, drop_self (fun hh => hnd2.2.2 a hh a (by simp) rfl), drop_self hnd2.2.1.1]
        have c1 := (c.setSz (H.sz - 1)).dropDup aD hLs o1 R1
        refine ⟨⟨p, m, e3, e4⟩, H1, _, h, T, o1.withSz, c1.weaken ?_, 0, ?_, Or.inl ⟨rfl, rfl⟩, fun _ => rfl, fun haT => absurd aD (c.nD haT n)⟩
        rotate_left
        · simp only at e2 e3 e4 e5 e6 e7 e8 e9
          intro q
          simp only [eraseNodeN, Count.bind_run, Count.lift_run, Omm.getBr, Omm.getPar, Omm.branch, al, e5, e6, if_true,
            Option.map_some, Option.bind_some, Option.bind_eq_bind, e2, e3, e4, hE,
            reduceCtorEq, or_self, if_false, Bool.false_eq_true, e7, e8, and_self]
          rw [e9]
          simp only [Option.map_some, Option.bind_some, e10]
          rfl
        · intro b hb
          rcases hb with hb | ⟨rfl, hb⟩
          · exact hb
          · exfalso
            simp only [List.take_succ_cons, List.take_zero, List.mem_cons, List.not_mem_nil, or_false] at hb
            rcases hb with hb | hb
            · rw [← hb] at hn; exact c.nD hn n (by rw [← hb]; simpa [← hb] using aD)
            · exact hax hb

/-- `multimap_erase_node` of a stored element. -/
theorem Core.extract (c : Core cmp key H A N D h T) (hc : LawfulCmp cmp) (hsz : H.sz = A.length) {a : Nat} (ha : a ∈ A) :
    (∃ l r, H.br a false = some l ∧ H.br a true = some r) ∧
    ∃ H' D' h' T', eraseNode cmp key H a = some (H', some a) ∧ OnlyS (H.sz - 1) H H' ∧
      Core cmp key H' (drop a A) (fun b => N b ∨ (b = a ∧ a ∈ (Omm.likes cmp key H.val a A).take 2)) D' h' T' := by
  obtain ⟨hb, H', D', h', T', o, c', q, run, _⟩ := c.extractN hc hsz ha
  exact ⟨hb, H', D', h', T', (eraseNodeN_er _ _ _ _).eq run, o, c'⟩

/-- Extracting a later duplicate leaves its own links as they are: the assertion of a second extraction fails. -/
theorem Core.extractTwice (c : Core cmp key H A N D h T) (hsz : H.sz = A.length) {n x a : Nat} {pre post : List Nat}
    (hn : n ∈ T.ids) (hd : D n = x :: (pre ++ a :: post)) :
    ∃ H', eraseNode cmp key H a = some (H', some a) ∧ eraseNode cmp key H' a = none := by
  have nl := c.whole.tree.live n hn
  have n0 : n ≠ 0 := c.ne_zero (c.memT hn)
  have aD : a ∈ D n := by rw [hd]; simp
  have hnd := c.rel.dnd n
  have hf := c.group n hn
  have ha : a ∈ A := by
    have : a ∈ n :: D n := by simp [aD]
    rw [hf] at this; exact (List.mem_filter.1 this).1
  have hE := c.isEmpty hsz ha
  have al := c.alive ha
  have hlen : 2 ≤ A.length := by
    have h1 : (n :: D n).length ≤ A.length := by rw [hf]; exact List.length_filter_le ..
    rw [hd] at h1; simp at h1; omega
  obtain ⟨p, m, H1, _, e2, e3, e4, e5, e6, e7, e8, ⟨G, e9, e10⟩, _, _, hpa, hma⟩ := (c.rel.setSz (H.sz - 1)).snip nl n0 hd
  refine ⟨H1, ?_, ?_⟩
  · simp only at e2 e3 e4 e5 e6 e7 e8 e9
    unfold eraseNode
    simp only [Omm.getBr, Omm.getPar, Omm.branch, al, e5, e6, if_true, Option.bind_eq_bind, Option.bind_some, e2, e3, e4, hE,
      reduceCtorEq, or_self, if_false, Bool.false_eq_true, e7, e8, and_self]
    rw [e9]
    simp only [Option.bind_some, e10]
  · simp only at e2 e3 e4 e5 e6 e7 e8
    simp only [Omm.setBr, e6, if_true, Option.some.injEq] at e9
    subst e9
    simp only [Omm.setBr, e5, if_true, Option.some.injEq] at e10
    subst e10
    have hz : (H.sz - 1 == 0) = false := by rw [hsz]; simp; omega
    unfold eraseNode
    simp [Omm.getBr, Omm.getPar, Omm.branch, al, e5, e6, e2, e3, e4, hpa.symm, hma.symm, hpa]
    exact hz

end CCC.Omm
