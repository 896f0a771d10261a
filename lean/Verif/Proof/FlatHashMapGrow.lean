import Verif.Proof.FlatHashMapCost
/-
What it costs to make room in the flat hash map.
-/
namespace CCC.Fhm
open CCC HashMap

variable {α κ : Type} {c : Cfg κ α}

theorem Bd.paid {β γ : Type} {m m' : Nat} {a : β} {f : β → Count γ} {y : Option γ} (h : Bd (f a) y m') :
    Bd (CCC.work m (some a) >>= f) y (m + m') := by
  intro r hr
  obtain ⟨k, h1, h2⟩ := h r hr
  exact ⟨m + k, by omega, Costs.bind (r := a) (fun n => rfl) h2⟩

theorem rehash_cost (hl : Lawful c) {old : Fhm α} (hu : (cells old.mem old.cap).Pairwise
      (fun x y => c.eq (c.key x.val) (c.key y.val) = false))
    (hg : ∀ x ∈ cells old.mem old.cap, x.hash = filter c (c.key x.val)) {cap' : Nat} (B : α → Nat)
    (hB : ∀ t : Fhm α, Tbl c t → t.cap = cap' → (∀ x ∈ cells t.mem t.cap, x ∈ cells old.mem old.cap) →
      ∀ x ∈ cells old.mem old.cap, Near t (toI c cap' x.hash) (B x.val)) :
    ∀ n i (t : Fhm α), i + n = old.cap → Tbl c t → t.cap = cap' → (cells old.mem old.cap).length + 2 < t.cap →
    (cells t.mem t.cap ++ todo old.mem i n).Perm (cells old.mem old.cap) →
    Bd (rehashLoopN c old t i) (rehashLoop c old t i) (n + ((todo old.mem i n).map (fun x => 2 * (B x.val + 1))).sum) := by
  intro n
  induction n with
  | zero =>
    intro i t hi ht _ _ hp
    rw [rehashLoop, rehashLoopN, if_pos (by omega), if_pos (by omega)]
    exact (Bd.pure _).mono (by omega)
  | succ n ih =>
    intro i t hi ht htc hroom hp
    have hlt : i < old.cap := by omega
    have htodo : todo old.mem i (n + 1) = opt (old.mem i) ++ todo old.mem (i + 1) n := by
      unfold todo
      rw [List.range'_succ, List.flatMap_cons]
    rw [htodo] at hp ⊢
    rw [rehashLoop, rehashLoopN, if_neg (by omega), if_neg (by omega)]
    have hacc : Bd (acc (at_ old i)) (at_ old i) 1 := by
      intro r hr
      refine ⟨1, by omega, fun k => ?_⟩
      rw [hr]; rfl
    by_cases h0 : (old.mem i).hash = 0
    · rw [opt_empty h0] at hp ⊢
      refine hacc.seq (m' := n + ((todo old.mem (i + 1) n).map (fun x => 2 * (B x.val + 1))).sum) (fun x hx => ?_)
        (by rw [List.nil_append]; omega)
      rw [at_eq hlt] at hx
      cases hx
      rw [if_neg (by simpa using h0), if_neg (by simpa using h0)]
      exact ih (i + 1) t (by omega) ht htc hroom hp
    · rw [opt_full h0] at hp ⊢
      have hpu := (hp.pairwise_iff (fun h => eq_false_symm hl h)).2 hu
      rw [List.pairwise_append] at hpu
      have hmem : old.mem i ∈ cells old.mem old.cap := hp.subset (by simp)
      have hh := hg _ hmem
      have hlen := hp.length_eq
      simp only [List.length_append, List.length_cons, List.length_nil] at hlen
      have hcap := ht.cap
      have hnear := hB t ht htc (fun x hx => hp.subset (by simp [hx])) _ hmem
      have hreach : Close c t (c.key (old.mem i).val) (B (old.mem i).val) := .inr ⟨by omega, by rw [← hh, htc]; exact hnear⟩
      obtain ⟨e, m, hf, _, ⟨p, hp1, hp2, hp3, hp4⟩⟩ := ht.find hl (c.key (old.mem i).val)
      obtain ⟨hm, hP⟩ := find_post hreach hf
      rcases hp4 with ⟨_, ho, hk⟩ | ⟨_, hno, hR, hd⟩
      · exfalso
        have := hpu.2.2 (t.mem p) (mem_cells.2 ⟨p, hp1, hp2, ho, rfl⟩) (old.mem i) (by simp)
        rw [hl.symm _ _ hk] at this
        simp at this
      · have hsz := ht.sz
        obtain ⟨t1, m1, k1, _, k3, k4, k5, k6, _, _⟩ := ht.insertAt hl (x := (old.mem i).val) hno (hl.refl _) (by omega)
          hp1 hp2 hR hd
        have hi1 := ih (i + 1) t1 (by omega) k3 (by omega) (by rw [k4]; exact hroom) (by
          rw [k4]
          refine List.Perm.trans (List.Perm.append_right _ k6) ?_
          refine List.Perm.trans ?_ hp
          rw [← hh]
          exact List.perm_middle.symm)
        rw [← hh] at hf k1
        refine hacc.seq (m' := (B (old.mem i).val + 1) + ((B (old.mem i).val + 1) + (n + ((todo old.mem (i + 1) n).map (fun x => 2 * (B x.val + 1))).sum)))
          (fun x hx => ?_) (by simp only [List.map_append, List.map_cons, List.map_nil, List.sum_append, List.sum_cons, List.sum_nil]; omega)
        rw [at_eq hlt] at hx
        cases hx
        rw [if_pos (by simpa using h0), if_pos (by simpa using h0)]
        refine Bd.tally (fun e' m' hq => ?_)
        rw [hf] at hq
        cases hq
        refine ⟨hm, Bd.after (fun p' hp' => ?_)⟩
        rw [hp3] at hp'
        cases hp'
        obtain ⟨q1, q2, q3, q4, _⟩ := hP p hp3
        refine Bd.tally (fun t' n' hq => ?_)
        have hc := insertAt_cost q1 q2 q3 q4 hq
        rw [k1] at hq
        cases hq
        exact ⟨hc, hi1⟩

/-- The cost of making room. -/
theorem maybeResize_bd (hl : Lawful c) {s : Fhm α} {st : St α} (h : Sim c s st) (ans : AllocAns α) (B : α → Nat)
    (hB : ∀ t : Fhm α, Tbl c t → t.cap = (room s.hasAlloc ans.isSome st).1.cap → (∀ x ∈ vals t, x ∈ st.l) →
      ∀ x ∈ st.l, Near t (toI c t.cap (filter c (c.key x))) (B x)) :
    Bd (maybeResizeN c s ans) (maybeResize c s ans) ((if s.sz < 2 then s.cap else 0) +
      (if (room s.hasAlloc ans.isSome st).1.cap ≠ st.cap then
        (room s.hasAlloc ans.isSome st).1.cap + st.cap + (st.l.map (fun x => 2 * (B x + 1))).sum else 0)) := by
  have hcs := h.cap
  unfold maybeResizeN maybeResize
  by_cases hz : s.cap ≠ 0 ∧ s.sz < 2
  · -- first use of the memory
    rw [if_pos hz, if_pos hz, if_pos hz.2]
    have hs : 6 ≤ s.cap := by
      rcases h.body with ⟨t, p⟩ | ⟨_, _, hb⟩
      · exact t.cap
      · omega
    have hload : (sizeSet { s with mem := wipe s.mem } 2).cap ≠ 0 ∧
        5 * (sizeSet { s with mem := wipe s.mem } 2).sz ≤ 4 * (sizeSet { s with mem := wipe s.mem } 2).cap := by
      simp only [sizeSet]; rw [if_neg (by omega)]; omega
    simp only
    rw [if_pos hload]
    intro r hr
    cases hr
    refine ⟨s.cap, by omega, ?_⟩
    refine Costs.bind (m := s.cap) (m' := 0) (r := sizeSet { s with mem := wipe s.mem } 2) (fun n => rfl) ?_
    rw [if_pos hload]
    exact .pure _
  · rw [if_neg hz, if_neg hz]
    rw [pure_bind]
    refine Bd.mono (m := (if (room s.hasAlloc ans.isSome st).1.cap ≠ st.cap then
        (room s.hasAlloc ans.isSome st).1.cap + st.cap + (st.l.map (fun x => 2 * (B x + 1))).sum else 0)) ?_ (by omega)
    simp only
    refine Bd.ite (fun _ => (Bd.pure _).mono (by omega)) (fun hload => ?_)
    refine Bd.ite (fun _ => (Bd.pure _).mono (by omega)) (fun hal => ?_)
    refine Bd.ite (fun _ => (Bd.pure _).mono (by omega)) (fun hw => ?_)
    cases ans with
    | none => exact (Bd.pure _).mono (by omega)
    | some junk =>
      simp only
      have hw1 : (if s.cap ≠ 0 then nextPrime (s.sz * 2) else 11) = wanted st.l.length st.cap := by
        rcases h.body with ⟨t, p⟩ | ⟨hz0, hn, hb⟩
        · have h1 := t.length
          have h2 := p.length_eq
          have h3 := t.cap
          rw [if_pos (by omega), wanted, if_neg (by omega), show s.sz * 2 = 2 * (st.l.length + 2) by omega]
          rfl
        · have : s.cap = 0 := by omega
          rw [if_neg (by omega), wanted, if_pos (by omega)]
      rw [hw1] at hw ⊢
      have hload' : ¬ (st.cap ≠ 0 ∧ 5 * (st.l.length + 2) ≤ 4 * st.cap) := by
        rcases h.body with ⟨t, p⟩ | ⟨hz0, hn, hb⟩
        · have h1 := t.length
          have h2 := p.length_eq
          omega
        · have : s.cap = 0 := by omega
          omega
      have hal' : s.hasAlloc = true := by simpa using hal
      have hr : (room s.hasAlloc (some junk).isSome st).1.cap = wanted st.l.length st.cap := by
        rw [room, if_neg hload', if_pos]
        simp only [hal', Option.isSome_some, Bool.and_eq_true, decide_eq_true_eq, true_and]
        omega
      rw [hr] at hB ⊢
      rw [if_pos (by omega)]
      have hout : ∀ {x : Count (Fhm α)} {y : Option (Fhm α)} {m : Nat}, Bd x y m →
          Bd (x >>= fun t => pure (t, Res.ok)) (y >>= fun t => some (t, Res.ok)) m :=
        fun hx => hx.seq (m' := 0) (fun _ _ => Bd.pure _) (by omega)
      rcases h.body with ⟨t, p⟩ | ⟨hz0, hn, hb⟩
      · have h1 := t.length
        have h2 := p.length_eq
        have h3 := t.cap
        have hnp : nextPrime (s.sz * 2) = wanted st.l.length st.cap := by rw [← hw1, if_pos (by omega)]
        have hns := nextPrime_spec (n := s.sz * 2) (by rw [hnp]; omega)
        rw [hnp] at hns
        obtain ⟨t0, hc0⟩ := empty_tbl (c := c)
          (s := sizeSet { mem := wipe (fun i => ⟨0, junk i⟩), sz := 0, cap := wanted st.l.length st.cap, hasAlloc := s.hasAlloc } 2) hns.2
          (fun i _ => rfl) (by simp only [sizeSet]; rw [if_neg (by omega)])
        have hsz := t.sz
        have hsum : (todo s.mem 0 s.cap) = cells s.mem s.cap := todo_all (by omega) t.z0 t.z1
        have hb := rehash_cost hl t.uniq t.good (cap' := wanted st.l.length st.cap) B (by
            intro t' ht' hc' hsub x hx
            have := hB t' ht' hc' (fun y hy => by
              unfold vals at hy
              rw [List.mem_map] at hy
              obtain ⟨z, hz1, rfl⟩ := hy
              exact p.subset (List.mem_map.2 ⟨z, hsub z hz1, rfl⟩)) x.val (p.subset (List.mem_map.2 ⟨x, hx, rfl⟩))
            rw [t.good x hx, ← hc']; exact this)
          s.cap 0 _ (by omega) t0 rfl (by show _ < wanted st.l.length st.cap; omega) (by rw [hc0, hsum, List.nil_append])
        rw [hsum] at hb
        have hs2 : ((cells s.mem s.cap).map (fun x => 2 * (B x.val + 1))).sum = (st.l.map (fun x => 2 * (B x + 1))).sum := by
          have := (p.map (fun x => 2 * (B x + 1))).sum_nat
          rw [← this]
          unfold vals
          rw [List.map_map]; rfl
        rw [hs2] at hb
        exact Bd.mono (m := wanted st.l.length st.cap + (s.cap + (st.l.map (fun x => 2 * (B x + 1))).sum))
          (Bd.paid (hout hb)) (by omega)
      · have hc0 : s.cap = 0 := by omega
        refine Bd.mono (m := wanted st.l.length st.cap + 0) (Bd.paid ?_) (by omega)
        refine hout ?_
        rw [rehashLoop, rehashLoopN, if_pos hc0.symm, if_pos hc0.symm]
        exact Bd.pure _

end CCC.Fhm
