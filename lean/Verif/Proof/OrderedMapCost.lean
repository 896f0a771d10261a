import Verif.Proof.OrderedMapErase
import Verif.Proof.OrderedMapStep
import Verif.Proof.SplayPhi
/-
Every call of the ordered map is paid for by the potential of its tree.
-/
namespace CCC.Om
open CCC Links Tree Wavl Splay MapSpec PtrMap
open _root_.CCC.Rom (put view toSlot elems mem_elems elems_congr elems_upd elems_append put_comm_val lookup_congr occ_occ)

variable {α κ β : Type} {cmp : κ → κ → Cmp} {key : α → κ} {s : Om α} {l : List (Nat × α)} {T : Tree} {K L : ℝ}

/-- Paid by the potential of the tree and `b`. -/
abbrev Pays (K : ℝ) (x : Count (Om α × β)) (t : Links) (b : ℝ) : Prop := Paid K (fun s : Om α => s.t) x t b

theorem Ok.phi (o : Ok cmp key s l T) (K : ℝ) : phi K s.t = 2 * Pot T + K * ((W T : ℝ) - 1) := phi_eq o.whole K

/-- Splaying, with its cost. -/
theorem Ok.splayN (o : Ok cmp key s l T) (hc : LawfulCmp cmp) (hne : T ≠ nil) (K : ℝ) (k : κ) :
    ∃ t i m A B n, Costs (splayN s.t (Om.cmpAt cmp key s k) s.t.root) n (t, i) ∧
      Ok cmp key { s with t := t } l (node i m A B) ∧
      t.root = i ∧ (node i m A B).ids = T.ids ∧ t.live = s.t.live ∧
      (∀ a ∈ A.ids, cmp k (key (s.val a)) = .grt) ∧ (∀ a ∈ B.ids, cmp k (key (s.val a)) = .les) ∧
      Costs (splayToN cmp key s k) (n + 1) ({ s with t := t }, cmp k (key (s.val i))) ∧
      (n : ℝ) + Splay.phi K t ≤ Splay.phi K s.t + 6 * lg (W T) + 2 ∧ W (node i m A B) = W T := by
  obtain ⟨t, i, m, A, B, _, w, hi, hA, hB, hs, P, n, hsp, rfl, rfl, hn⟩ :=
    splay_specN o.whole.tree o.nodup o.whole.live0 hne (o.cmpAt k) (o.mono hc k)
  have o' := o.reshape w hi
  have hr : t.root = i := o'.root
  rw [← o.root] at hn
  have hW : W (node i m (P true) (P false)) = W T := by rw [W, hsp.W_eq]
  refine ⟨t, i, m, _, _, n, hn, o', hr, hi, hs.live, hA, hB, ?_, ?_, hW⟩
  · have hq := o'.cmpAt k i (by simp [ids])
    intro q
    simp only [splayToN, Count.bind_run, hn q, Option.bind_some, setRoot_self hr, hr, Count.cnt_run, hq, Option.map_some,
      Count.pure_run]
    rfl
  · rw [phi_eq w, o.phi, hW]
    have := hsp.splay
    linarith

variable (hc : LawfulCmp cmp)
include hc

theorem splayToN_pays (o : Ok cmp key s l T) (hL : lg (W T + 1) ≤ L) (hne : T ≠ nil) (k : κ) :
    Pays K (splayToN cmp key s k) s.t (6 * L + 3) := by
  obtain ⟨t, i, m, A, B, n, _, _, _, _, _, _, _, h1, h2, _⟩ := o.splayN hc hne K k
  refine ⟨_, _, h1, ?_⟩
  have := lg_mono (a := W T) (b := W T + 1) (W_pos T) (by omega)
  push_cast
  linarith

omit hc in
theorem L_nonneg (hL : lg (W T + 1) ≤ L) : 1 ≤ L := le_trans (lg_ge_one (by have := W_pos T; omega)) hL

omit hc in
theorem Ok.root_ne (o : Ok cmp key s l T) (hne : T ≠ nil) : s.t.root ≠ 0 := by
  intro hh
  have := o.not_empty hne
  simp [empty, hh] at this

theorem findN_pays (o : Ok cmp key s l T) (hL : lg (W T + 1) ≤ L) (k : κ) :
    Pays K (findN cmp key s k) s.t (6 * L + 3) := by
  have h1 := L_nonneg hL
  by_cases hne : T = nil
  · subst hne
    rw [findN, if_pos (show s.t.root = 0 from o.root)]
    exact .pure rfl (by linarith)
  · rw [findN, if_neg (o.root_ne hne)]
    obtain ⟨r, m, h, hp⟩ := splayToN_pays hc (K := K) o hL hne k
    exact .via h (.pure (b := 0) rfl (le_refl _)) (by simpa using hp)

/-- Connecting the new root. -/
theorem connect_pays {s1 : Om α} {i m e : Nat} {A B : Tree} {rc : Cmp} (o : Ok cmp key s1 l (node i m A B)) (e0 : e ≠ 0)
    (he : e ∉ (node i m A B).ids) (hlv : s1.t.live e = true) (hL : lg (W (node i m A B) + 1) ≤ L) :
    ∃ t, connectNewRoot s1.t e rc = some t ∧ Splay.phi K t ≤ Splay.phi K s1.t + 2 * L + K := by
  have key : ∀ {Y C : Tree}, nd (decide (rc = .grt)) i m Y C = node i m A B →
      ∃ t, connectNewRoot s1.t e rc = some t ∧ Splay.phi K t ≤ Splay.phi K s1.t + 2 * L + K := by
    intro Y C hnd
    rw [← hnd] at o he hL
    obtain ⟨t, run, w, _⟩ := connect_spec o.whole e0 hlv he
    refine ⟨t, run, ?_⟩
    obtain ⟨p1, p2⟩ := connect_pot (d := decide (rc = .grt)) (i := i) (k := m) (e := e) (m := 0) (Y := Y) (C := C)
    rw [phi_eq w, o.phi, p2]
    push_cast
    linarith
  by_cases h : rc = .grt
  · exact key (Y := B) (C := A) (by simp [h])
  · exact key (Y := A) (C := B) (by simp [h])

omit hc in
theorem first_pays {s1 : Om α} {t : Links} {e : Nat} (o : Ok cmp key s1 l nil) (e0 : e ≠ 0) (h0 : t.live 0 = true)
    (hlv : t.live e = true) (hb : ∀ d, t.br e d = 0) (hp : t.par e = 0) (h1 : 1 ≤ L) :
    Splay.phi K (t.setRoot e) ≤ Splay.phi K s1.t + 2 * L + K := by
  have := (o.first e0 h0 hlv hb hp).phi K
  simp only at this
  rw [this, o.phi]
  simp only [Pot, W]
  rw [show lg (1 + 1) = 1 from lg_two]
  norm_num
  linarith

omit hc in
theorem init_phi {t : Links} {e : Nat} (w : Whole t [] T) {t' : Links} (w' : Whole t' [] T) :
    Splay.phi K t' = Splay.phi K t := by rw [phi_eq w, phi_eq w']

theorem insertNodeN_pays (o : Ok cmp key s l T) (hL : lg (W T + 1) ≤ L) {e : Nat} (e0 : e ≠ 0) (he : e ∉ T.ids) (hK : 0 ≤ K) :
    Pays K (insertNodeN cmp key s e) s.t (8 * L + 3 + K) := by
  have h1 := L_nonneg hL
  obtain ⟨t, run, w, hlv, hb, hp, hr⟩ := init_whole o.whole e0 he
  have o1 := o.reshape w rfl
  have hphi : Splay.phi K t = Splay.phi K s.t := init_phi (e := e) o.whole w
  refine .lift run ?_
  by_cases hne : T = nil
  · subst hne
    simp only
    rw [if_pos (o1.empty_iff.2 rfl)]
    refine ⟨_, 0, .pure _, ?_⟩
    have := first_pays (K := K) (L := L) o1 e0 w.live0 (by rw [hlv]; simp) hb hp h1
    simp only at this ⊢
    rw [Nat.cast_zero]
    linarith
  · simp only
    rw [if_neg (by rw [o1.not_empty hne]; simp)]
    obtain ⟨t2, i, m, A, B, n, _, o2, hr2, hi, hlv2, hA, hB, hn, hp2, hW⟩ := o1.splayN hc hne K (key (s.val e))
    simp only at hp2 hn hlv2
    have h2 := lg_mono (a := W T) (b := W T + 1) (W_pos T) (by omega)
    by_cases hq : cmp (key (s.val e)) (key (s.val i)) = .eql
    · refine .via (t' := t2) (b' := 0) hn ?_ ?_
      · simp only
        rw [if_pos hq]
        exact .pure rfl (le_refl _)
      · push_cast
        linarith
    · obtain ⟨t3, run3, hp3⟩ := connect_pays hc (K := K) (L := L) (rc := cmp (key (s.val e)) (key (s.val i))) o2 e0
        (by rw [hi]; exact he) (by show t2.live e = true; rw [hlv2, hlv]; simp) (by rw [hW]; exact hL)
      refine .via (t' := t3) (b' := 0) hn ?_ ?_
      · simp only
        rw [if_neg hq]
        exact .lift run3 (.pure rfl (le_refl _))
      · push_cast
        simp only at hp3 ⊢
        linarith

theorem allocInsertN_pays (o : Ok cmp key s l T) (hL : lg (W T + 1) ≤ L) (hK : 0 ≤ K) {h : Nat} (h0 : h ≠ 0) (hh : h ∉ T.ids)
    {ans : Option Nat} (ha : goodAns l ans h) :
    Pays K (allocInsertN cmp key s h ans) s.t (8 * L + 3 + K) := by
  have h1 := L_nonneg hL
  have hfr : ∀ n, (if s.alloc then ans else some h) = some n → n ≠ 0 ∧ n ∉ T.ids := by
    intro n hn
    cases hal : s.alloc with
    | true =>
      rw [hal, if_pos rfl] at hn
      exact o.fresh.1 (ha n hn).1
    | false =>
      rw [hal] at hn
      simp only [Bool.false_eq_true, if_false, Option.some.injEq] at hn
      exact hn ▸ ⟨h0, hh⟩
  by_cases hne : T = nil
  · subst hne
    have hem := o.empty_iff.2 rfl
    simp only [allocInsertN, hem, Bool.not_true, Bool.false_eq_true, if_false]
    have close : ∀ {f : Om α × Cmp → Count (Om α × Slot)}, Pays K (f (s, .err)) s.t (8 * L + 3 + K) →
        Pays K ((pure (s, .err) : Count (Om α × Cmp)) >>= f) s.t (8 * L + 3 + K) := by
      rintro f h
      exact .via (.pure _) h (by simp)
    refine close ?_
    simp only
    rw [if_neg (by simp)]
    cases hn : (if s.alloc then ans else some h) with
    | none => exact .pure rfl (by linarith)
    | some n =>
      obtain ⟨n0, hnT⟩ := hfr n hn
      obtain ⟨t, run, w, hlv, hb, hp, hr⟩ := init_whole o.whole n0 hnT
      refine .lift run ?_
      rw [if_pos hem]
      refine ⟨_, 0, .pure _, ?_⟩
      have := first_pays (K := K) (L := L) o n0 w.live0 (by rw [hlv]; simp) hb hp h1
      simp only at this ⊢
      rw [Nat.cast_zero]
      linarith
  · have hem := o.not_empty hne
    obtain ⟨t2, i, m, A, B, n, _, o2, hr2, hi, hlv2, hA, hB, hn, hp2, hW⟩ := o.splayN hc hne K (key (s.val h))
    have h2 := lg_mono (a := W T) (b := W T + 1) (W_pos T) (by omega)
    have hem2 : empty ({ s with t := t2 } : Om α) = false := o2.not_empty (by simp)
    simp only [allocInsertN, hem, Bool.not_false, if_true]
    have close : ∀ {f : Om α × Cmp → Count (Om α × Slot)},
        Pays K (f ({ s with t := t2 }, cmp (key (s.val h)) (key (s.val i)))) t2 (2 * L + K) →
        Pays K (splayToN cmp key s (key (s.val h)) >>= f) s.t (8 * L + 3 + K) := by
      rintro f ⟨r, m', hr, hp⟩
      refine ⟨r, _, hn.bind hr, ?_⟩
      push_cast
      linarith
    refine close ?_
    simp only
    by_cases hq : cmp (key (s.val h)) (key (s.val i)) = .eql
    · rw [if_pos hq]
      exact .pure rfl (by linarith)
    · rw [if_neg hq]
      cases hn : (if s.alloc then ans else some h) with
      | none => exact .pure rfl (by linarith)
      | some n =>
        obtain ⟨n0, hnT⟩ := hfr n hn
        rw [← hi] at hnT
        obtain ⟨t3, run, w, hlv, hb, hp, hr⟩ := init_whole o2.whole n0 hnT
        have o3 := o2.reshape w rfl
        refine .lift run ?_
        rw [if_neg (by rw [hem2]; simp)]
        refine .lift (show req _ = some () by simp [req, hc.noErr]) ?_
        obtain ⟨t4, run4, hp4⟩ := connect_pays hc (K := K) (L := L) (rc := cmp (key (s.val h)) (key (s.val i))) o3 n0
          hnT (by show t3.live n = true; rw [hlv]; simp) (by rw [hW]; exact hL)
        refine .lift run4 ⟨_, 0, .pure _, ?_⟩
        have hphi : Splay.phi K t3 = Splay.phi K t2 := init_phi (e := n) o2.whole w
        rw [Nat.cast_zero]
        simp only at hp4 ⊢
        linarith

theorem eraseN_pays (o : Ok cmp key s l T) (hL : lg (W T + 1) ≤ L) (k : κ) :
    ∃ r m, Costs (eraseN cmp key s k) m r ∧
      (m : ℝ) + Splay.phi K r.1.t + (if r.2.isSome then K else 0) ≤ Splay.phi K s.t + (12 * L + 5) := by
  have h1 := L_nonneg hL
  by_cases hne : T = nil
  · refine ⟨_, 0, by rw [eraseN, if_pos (o.empty_iff.2 hne)]; exact .pure _, ?_⟩
    simp
    linarith
  · have hem := o.not_empty hne
    obtain ⟨t, i, m, A, B, n, hn, o', hr, hi, hlv, hA, hB, _, hp, hW⟩ := o.splayN hc hne K k
    have h2 := lg_mono (a := W T) (b := W T + 1) (W_pos T) (by omega)
    have hq := o'.cmpAt k i (by simp [ids])
    rw [eraseN, if_neg (by rw [hem]; simp)]
    by_cases he : cmp k (key (s.val i)) = .eql
    · have hi0 : i ≠ 0 := o'.ne_zero (by simp [ids])
      have hsub : A.ids.Sublist (node i m A B).ids := by simp only [ids]; exact List.sublist_append_left _ _
      obtain ⟨t2, T', n2, run2, w2, hi2, hlv2, hsh⟩ :=
        remove_specN (c := Om.cmpAt cmp key { s with t := t } (key (s.val i)))
        (c' := fun a => cmp (key (s.val i)) (key (s.val a))) o'.whole
        (fun a ha => o'.cmpAt (key (s.val i)) a (hsub.subset ha))
        ((o'.mono hc (key (s.val i))).sub hsub)
        (fun a ha => by rw [hc.eql_congr_left (hc.symm he)]; exact hA a ha)
      obtain ⟨p1, p2⟩ := remove_pot (i := i) (k := m) hsh
      have hnd := o'.nodup
      simp only [ids] at hnd
      rw [List.nodup_append, List.nodup_cons] at hnd
      have hiT : i ∉ T'.ids := by
        rw [hi2]
        simp only [List.mem_append, not_or]
        exact ⟨fun h => hnd.2.2 i h i (by simp) rfl, hnd.2.1.1⟩
      have w3 : Whole { t2 with live := upd t2.live i false } [] T' := by
        refine ⟨w2.ctx, ?_, w2.nodup, ?_⟩
        · exact w2.tree.congr (fun a ha => upd_ne _ _ (fun h => hiT (h ▸ ha))) (fun _ _ => rfl) (fun _ _ => rfl)
        · show upd t2.live i false 0 = true
          rw [upd_ne _ _ (Ne.symm hi0)]; exact w2.live0
      refine ⟨({ s with t := { t2 with live := upd t2.live i false }, sz := s.sz - 1 }, some i),
        n + (1 + (n2 + 0)), hn.bind ((Costs.cnt hq).bind ?_), ?_⟩
      · simp only
        rw [if_neg (by simp [he])]
        exact run2.bind (.pure _)
      · have e1 := phi_eq w3 K
        have e2 := o'.phi K
        have e3 : (W T' : ℝ) + 1 = W (node i m A B) := by exact_mod_cast p2
        simp only at e1 e2 ⊢
        rw [e1]
        rw [e2, ← e3, ] at hp
        rw [hW] at p1
        simp only [Option.isSome_some, if_true]
        push_cast
        linarith
    · refine ⟨({ s with t := t }, none), n + (1 + 0), hn.bind ((Costs.cnt hq).bind ?_), ?_⟩
      · simp only
        rw [if_pos he]
        exact .pure _
      · simp only [Option.isSome_none, Bool.false_eq_true, if_false]
        push_cast
        linarith

theorem eraseN_pays' (o : Ok cmp key s l T) (hL : lg (W T + 1) ≤ L) (hK : 0 ≤ K) (k : κ) :
    Pays K (eraseN cmp key s k) s.t (12 * L + 5) := by
  obtain ⟨r, m, h, hp⟩ := eraseN_pays hc (K := K) o hL k
  refine ⟨r, m, h, ?_⟩
  split at hp <;> linarith

theorem equalRangeN_pays (o : Ok cmp key s l T) (hL : lg (W T + 1) ≤ L) (b e : κ) (trav : Bool) :
    Pays K (equalRangeN cmp key s b e trav) s.t (12 * L + 6) := by
  have h1 := L_nonneg hL
  rw [equalRangeN]
  by_cases hT : s.sz = 0
  · rw [if_pos hT]
    exact .pure rfl (by linarith)
  · rw [if_neg hT]
    have hne : T ≠ nil := by
      rintro rfl
      exact hT (by rw [o.size, o.list]; rfl)
    have h2 := lg_mono (a := W T) (b := W T + 1) (W_pos T) (by omega)
    obtain ⟨t, T', m, n, run, w, hi, _, P, i, k, Q, j, p, hP, hQ, rfl⟩ :=
      Splay.equalRange_specN o.whole hne (o.cmpAt b) (o.cmpAt e) (o.mono hc b) (o.mono hc e) trav
    refine ⟨_, _, run.bind (.pure _), ?_⟩
    have p1 := hP.splay
    have p2 := hQ.splay
    have w1 : W (node i k (P true) (P false)) = W T := by rw [W, hP.W_eq]
    have w2 : W (node j p (Q true) (Q false)) = W T := by rw [W, hQ.W_eq, w1]
    simp only
    rw [phi_eq w, o.phi, w2]
    rw [w1] at p2
    push_cast
    linarith

theorem clearLoopN_pays (hK : 12 * L + 5 ≤ K) (n : Nat) : ∀ {s : Om α} {l : List (Nat × α)} {T : Tree}
    (acc : List (Nat × α)), Ok cmp key s l T → lg (W T + 1) ≤ L → l.length = n →
    Pays K (clearLoopN cmp key s acc) s.t 0 := by
  induction n with
  | zero =>
    intro s l T acc o hL hl
    have hl' : l = [] := List.eq_nil_of_length_eq_zero hl
    have hT := o.nil_iff.1 hl'
    subst hl'; subst hT
    rw [clearLoopN, if_pos (show isEmpty s = true from o.empty_iff.2 rfl)]
    exact .pure rfl (le_refl _)
  | succ n ih =>
    intro s l T acc o hL hl
    have hne : T ≠ nil := by intro h; rw [o.nil_iff.2 h] at hl; simp at hl
    have hr : s.t.root ∈ T.ids := by
      rw [o.root]; cases T with
      | nil => exact absurd rfl hne
      | node i m a b => simp [ids]
    rw [clearLoopN, if_neg (show ¬ isEmpty s = true by rw [isEmpty, o.not_empty hne]; simp)]
    obtain ⟨r, m, h, hp⟩ := eraseN_pays hc (K := K) o hL (key (s.val s.t.root))
    have her := (eraseN_er cmp key s (key (s.val s.t.root))).eq h
    rcases erase_spec o hc (key (s.val s.t.root)) with ⟨pre, x, post, s1, T1, e, hx, h1, h2, hf, o1, i1, v1, a1, hlk⟩ |
      ⟨t, T1, hf, o1, hlk⟩
    · rw [hf] at her
      cases her
      have hl1 : (elems s.val (pre ++ post)).length = n := by
        have := hl
        rw [o.list, e] at this
        simp [elems] at this ⊢
        omega
      have hL1 : lg (W T1 + 1) ≤ L := by
        refine le_trans (lg_mono (by omega) ?_) hL
        rw [W_ids, W_ids, i1, e]
        simp
      obtain ⟨r2, m2, h', hp'⟩ := ih (acc ++ [(x, s1.val x)]) o1 hL1 hl1
      refine ⟨r2, m + (0 + m2), h.bind ((Costs.lift rfl).bind h'), ?_⟩
      simp only [Option.isSome_some, if_true] at hp hp'
      push_cast
      linarith
    · have : lookup cmp (ekey key) (key (s.val s.t.root)) l ≠ none := by
        intro hh
        have hm : (s.t.root, s.val s.t.root) ∈ l := by rw [o.list, mem_elems]; exact ⟨hr, rfl⟩
        unfold lookup at hh
        have := List.find?_eq_none.1 hh _ hm
        simp [ekey, hc.refl] at this
      exact absurd hlk this

theorem entryN_pays (o : Ok cmp key s l T) (hL : lg (W T + 1) ≤ L) (k : κ) :
    Pays K (entryN cmp key s k) s.t (6 * L + 3) := by
  obtain ⟨r, m, h, hp⟩ := findN_pays hc (K := K) o hL k
  refine .via h (t' := r.1.t) (b' := 0) ?_ (by simpa using hp)
  simp only
  split <;> exact .pure rfl (le_refl _)

/-- The last steps of a call compare nothing and leave the tree alone. -/
theorem Pays.out {γ δ : Type} {x : Count (Om α × γ)} {f : Om α × γ → Om α × δ} {t : Links} {b : ℝ} (h : Pays K x t b)
    (hf : ∀ r, (f r).1.t = r.1.t) : Pays K (x >>= fun r => pure (f r)) t b := by
  obtain ⟨r, m, h, hp⟩ := h
  exact .via h (t' := r.1.t) (b' := 0) (.pure (hf r) (le_refl _)) (by simpa using hp)

/-- The vacant case of the calls that take the user's struct. -/
theorem allocInsert_vacant (o : Ok cmp key s l T) (hL : lg (W T + 1) ≤ L) (hK : 0 ≤ K) {h : Nat} (fh : fresh l h)
    {ans : Option Nat} (ha : goodAns l ans h) : Pays K (allocInsertN cmp key s h ans) s.t (8 * L + 3 + K) :=
  allocInsertN_pays hc o hL hK (o.fresh.1 fh).1 (o.fresh.1 fh).2 ha

theorem newMem_fresh (o : Ok cmp key s l T) {ans : Option Nat} (ga : goodAns l ans 0) {n : Nat} (hn : newMem s ans = some n) :
    n ≠ 0 ∧ n ∉ T.ids := by
  refine o.fresh.1 ?_
  rw [newMem] at hn
  cases hal : s.alloc with
  | true => rw [hal] at hn; exact (ga n hn).1
  | false => rw [hal] at hn; simp at hn

theorem insertKeyValN_pays (o : Ok cmp key s l T) (hL : lg (W T + 1) ≤ L) (hK : 0 ≤ K) {x : α} {ans : Option Nat}
    (ga : goodAns l ans 0) : Pays K (insertKeyValN cmp key s (newMem s ans) x) s.t (8 * L + 3 + K) := by
  have h1 := L_nonneg hL
  cases hn : newMem s ans with
  | none => exact .pure rfl (by linarith)
  | some n =>
    obtain ⟨n0, hnT⟩ := newMem_fresh hc o ga hn
    exact insertNodeN_pays hc (o.put (x := x) hnT) hL n0 hnT hK

theorem insertAndCopyKeyN_pays (o : Ok cmp key s l T) (hL : lg (W T + 1) ≤ L) (hK : 0 ≤ K) {x : α} {ans : Option Nat}
    (ga : goodAns l ans 0) : Pays K (insertAndCopyKeyN cmp key s x ans) s.t (8 * L + 3 + K) := by
  have h1 := L_nonneg hL
  unfold insertAndCopyKeyN
  cases hn : newMem s ans with
  | none => exact .pure rfl (by linarith)
  | some n =>
    obtain ⟨n0, hnT⟩ := newMem_fresh hc o ga hn
    exact Pays.out hc (insertNodeN_pays hc (o.put (x := x) hnT) hL n0 hnT hK) (fun _ => rfl)

theorem vac_sz {t : Links} {T' : Tree} (h : T'.ids = T.ids) (hL : lg (W T + 1) ≤ L) : lg (W T' + 1) ≤ L := by
  rw [W_ids, h, ← W_ids]; exact hL

/-- Every call is paid for. -/
theorem stepN_pays (o : Ok cmp key s l T) (hL : lg (W T + 1) ≤ L) (hK : K = 12 * L + 5) (op : Op α κ)
    (ok : okOp cmp key s.alloc l op) (sf : safeOp l op) : Pays K (stepN cmp key s op) s.t (26 * L + 11) := by
  have h1 := L_nonneg hL
  have hK0 : 0 ≤ K := by rw [hK]; linarith
  have hb : (6 * L + 3) + (8 * L + 3 + K) = 26 * L + 11 := by rw [hK]; ring
  have entry : ∀ {s : Om α} {k : κ} {f : Om α × Ent → Count (Om α × Out α)}, Ok cmp key s l T →
      (∀ {t x m A B}, Ok cmp key { s with t := t } l (node x m A B) → lookup cmp (ekey key) k l = some (x, s.val x) →
        W (node x m A B) = W T →
        Pays K (f ({ s with t := t }, ⟨some x, Stat.occupied⟩)) t (8 * L + 3 + K)) →
      (∀ {t T'}, Ok cmp key { s with t := t } l T' → lg (W T' + 1) ≤ L →
        Pays K (f ({ s with t := t }, ⟨none, Stat.vacant⟩)) t (8 * L + 3 + K)) →
      Pays K (entryN cmp key s k >>= f) s.t (26 * L + 11) := by
    intro s k f o h2 h3
    rw [← hb]
    rcases o.entry hc k with ⟨t, a, m, A, B, hf, o2, hr, hlv, ha, g1, g2, hlk⟩ | ⟨t, T', hf, o2, hi, hlv, hlk⟩
    · refine (entryN_pays hc o hL k).bind (entryN_er _ _ _ _) hf (h2 o2 hlk ?_)
      rw [W_ids, W_ids, ← List.length_map (f := fun a => (a, s.val a)), ← List.length_map (as := T.ids)
        (f := fun a => (a, s.val a))]
      have e1 := o2.list
      have e2 := o.list
      unfold elems at e1 e2
      rw [← e2, ← e1]
    · exact (entryN_pays hc o hL k).bind (entryN_er _ _ _ _) hf (h3 o2 (vac_sz hc (t := t) hi hL))
  have find : ∀ {s : Om α} {k : κ} {f : Om α × Slot → Count (Om α × Ent)}, Ok cmp key s l T →
      (∀ {t x m A B}, Ok cmp key { s with t := t } l (node x m A B) → t.root ≠ 0 →
        Pays K (f ({ s with t := t }, some x)) t (8 * L + 3 + K)) →
      (∀ {t T'}, Ok cmp key { s with t := t } l T' → lg (W T' + 1) ≤ L →
        Pays K (f ({ s with t := t }, none)) t (8 * L + 3 + K)) →
      Pays K (findN cmp key s k >>= f) s.t (26 * L + 11) := by
    intro s k f o h2 h3
    rw [← hb]
    rcases o.find hc k with ⟨t, a, m, A, B, hf, o2, hr, _⟩ | ⟨t, T', hf, o2, hi, hlv, hlk⟩
    · exact (findN_pays hc o hL k).bind (findN_er _ _ _ _) hf (h2 o2 (o2.root_ne (by simp)))
    · exact (findN_pays hc o hL k).bind (findN_er _ _ _ _) hf (h3 o2 (vac_sz hc (t := t) hi hL))
  have hpos : 0 ≤ 8 * L + 3 + K := by linarith
  have hpos' : 0 ≤ 26 * L + 11 := by linarith
  cases op with
  | insert h x tmp y ans =>
    obtain ⟨fh, ft, hne, ga, hant⟩ := ok
    have o1 : Ok cmp key (put (put s tmp y) h x) l T := (o.put (o.fresh.1 ft).2).put (o.fresh.1 fh).2
    refine Pays.out hc (find (s := put (put s tmp y) h x) o1 ?_ ?_) (fun _ => rfl)
    · intro t x m A B o2 hr
      exact .lift (bne_root hr) (.pure rfl hpos)
    · intro t T' o2 hL'
      obtain ⟨r, m, h, hp⟩ := allocInsert_vacant hc o2 hL' hK0 fh ga
      refine .via h (t' := r.1.t) (b' := 0) ?_ (by simpa using hp)
      simp only
      split <;> exact .pure rfl (le_refl _)
  | tryInsert h x ans =>
    obtain ⟨fh, ga⟩ := ok
    have o1 : Ok cmp key (put s h x) l T := o.put (o.fresh.1 fh).2
    refine Pays.out hc (find (s := put s h x) o1 ?_ ?_) (fun _ => rfl)
    · intro t x m A B o2 hr
      exact .lift (bne_root hr) (.pure rfl hpos)
    · intro t T' o2 hL'
      obtain ⟨r, m, h, hp⟩ := allocInsert_vacant hc o2 hL' hK0 fh ga
      refine .via h (t' := r.1.t) (b' := 0) ?_ (by simpa using hp)
      simp only
      split <;> exact .pure rfl (le_refl _)
  | insertOrAssign h x ans =>
    obtain ⟨fh, ga⟩ := ok
    have o1 : Ok cmp key (put s h x) l T := o.put (o.fresh.1 fh).2
    refine Pays.out hc (find (s := put s h x) o1 ?_ ?_) (fun _ => rfl)
    · intro t x m A B o2 hr
      exact .lift (bne_root hr) (.pure rfl hpos)
    · intro t T' o2 hL'
      obtain ⟨r, m, h, hp⟩ := allocInsert_vacant hc o2 hL' hK0 fh ga
      refine .via h (t' := r.1.t) (b' := 0) ?_ (by simpa using hp)
      simp only
      split <;> exact .pure rfl (le_refl _)
  | remove h x =>
    have o1 : Ok cmp key (put s h x) l T := by
      rcases ok with fh | ⟨_, hm⟩
      · exact o.put (o.fresh.1 fh).2
      · rw [o.list, mem_elems] at hm
        have hp : put s h x = s := by
          simp only [put]
          have : upd s.val h x = s.val := by
            funext b; by_cases hb : b = h
            · rw [hb, upd_same]; exact hm.2
            · exact upd_ne _ _ hb
          rw [this]
        rw [hp]; exact o
    refine Pays.out hc (.mono ?_ (show 12 * L + 5 ≤ 26 * L + 11 by linarith)) (fun _ => rfl)
    obtain ⟨r, m, h, hp⟩ := eraseN_pays' hc o1 hL hK0 (key ((put s h x).val h))
    refine .via h (t' := r.1.t) (b' := 0) ?_ (by simp only [add_zero]; exact hp)
    obtain ⟨r, _ | n⟩ := r
    · exact .pure rfl (le_refl _)
    · simp only
      split <;> exact .pure rfl (le_refl _)
  | orInsert k h x ans =>
    obtain ⟨fh, ga, hk⟩ := ok
    have o1 : Ok cmp key (put s h x) l T := o.put (o.fresh.1 fh).2
    refine entry (s := put s h x) o1 ?_ ?_
    · intro t x m A B o2 _ _
      refine Pays.out hc ?_ (fun _ => rfl)
      rw [orInsertN, if_pos occ_occ]
      exact .pure rfl hpos
    · intro t T' o2 hL'
      exact Pays.out hc (allocInsert_vacant hc o2 hL' hK0 fh ga) (fun _ => rfl)
  | insertEntry k h x ans =>
    obtain ⟨fh, ga, hk⟩ := ok
    have o1 : Ok cmp key (put s h x) l T := o.put (o.fresh.1 fh).2
    refine entry (s := put s h x) o1 ?_ ?_
    · intro t x m A B o2 _ _
      exact Pays.out hc (.lift rfl (.pure rfl hpos)) (fun _ => rfl)
    · intro t T' o2 hL'
      exact Pays.out hc (allocInsert_vacant hc o2 hL' hK0 fh ga) (fun _ => rfl)
  | removeEntry k =>
    refine entry (s := s) o ?_ ?_
    · intro t x m A B o2 hlk hW
      refine Pays.out hc (.lift rfl ?_) (fun _ => rfl)
      have hL2 : lg (W (node x m A B) + 1) ≤ L := by rw [hW]; exact hL
      obtain ⟨r, n, h, hp⟩ := eraseN_pays' hc (K := K) o2 hL2 hK0 (key (s.val x))
      have her := (eraseN_er cmp key _ (key (s.val x))).eq h
      refine .via h (t' := r.1.t) (b' := 0) ?_ (by simp only at hp ⊢; linarith)
      rcases erase_spec o2 hc (key (s.val x)) with ⟨pre, b, post, s', T', e, hb, g1, g2, hg, o', i', v', a', hlk'⟩ |
        ⟨t', T', hg, o', hlk'⟩
      · rw [hg] at her
        cases her
        refine .lift rfl ?_
        simp only
        split <;> exact .pure rfl (le_refl _)
      · exfalso
        have hm : (x, s.val x) ∈ l := List.mem_of_find?_eq_some hlk
        have := List.find?_eq_none.1 hlk' _ hm
        simp [ekey, hc.refl] at this
    · intro t T' o2 hL'
      exact Pays.out hc (.pure rfl hpos) (fun _ => rfl)
  | andModify k f =>
    refine entry (s := s) o ?_ ?_
    · intro t x m A B o2 _ _
      refine .lift (a := { s with t := t, val := upd s.val x (f (s.val x)) }) ?_ (.pure rfl hpos)
      rw [Om.andModify, if_pos occ_occ]
      rfl
    · intro t T' o2 hL'
      refine .lift (a := { s with t := t }) ?_ (.pure rfl hpos)
      rw [Om.andModify, if_neg (by rw [isVac_not_occ]; simp)]
  | occupied k =>
    exact entry (s := s) o (fun _ _ _ => .pure rfl hpos) (fun _ _ => .pure rfl hpos)
  | orInsertW k x ans =>
    obtain ⟨ga, hk⟩ := ok
    refine entry (s := s) o ?_ ?_
    · intro t x m A B o2 _ _
      exact Pays.out hc (.pure rfl hpos) (fun _ => rfl)
    · intro t T' o2 hL'
      exact Pays.out hc (insertKeyValN_pays hc o2 hL' hK0 ga) (fun _ => rfl)
  | insertEntryW k x ans =>
    obtain ⟨ga, hk⟩ := ok
    refine entry (s := s) o ?_ ?_
    · intro t x m A B o2 _ _
      refine Pays.out hc ?_ (fun _ => rfl)
      rw [insertEntryWN, if_neg (by rw [occ_occ]; simp), if_pos rfl]
      exact .lift rfl (.pure rfl hpos)
    · intro t T' o2 hL'
      exact Pays.out hc (insertKeyValN_pays hc o2 hL' hK0 ga) (fun _ => rfl)
  | tryInsertW k x ans =>
    obtain ⟨ga, hk⟩ := ok
    refine Pays.out hc (?_ : Pays K (tryInsertWN cmp key s k x ans) s.t (26 * L + 11)) (fun _ => rfl)
    rw [← hb]
    rcases o.entry hc k with ⟨t, a, m, A, B, hf, o2, _⟩ | ⟨t, T', hf, o2, hi, hlv, hlk⟩
    · refine (entryN_pays hc o hL k).bind (entryN_er _ _ _ _) hf ?_
      simp only
      rw [if_neg (by rw [occ_occ]; simp), if_pos trivial]
      exact .pure rfl hpos
    · exact (entryN_pays hc o hL k).bind (entryN_er _ _ _ _) hf
        (insertAndCopyKeyN_pays hc o2 (vac_sz hc (t := t) hi hL) hK0 ga)
  | insertOrAssignW k x ans =>
    obtain ⟨ga, hk⟩ := ok
    refine Pays.out hc (?_ : Pays K (insertOrAssignWN cmp key s k x ans) s.t (26 * L + 11)) (fun _ => rfl)
    rw [← hb]
    rcases o.entry hc k with ⟨t, a, m, A, B, hf, o2, _⟩ | ⟨t, T', hf, o2, hi, hlv, hlk⟩
    · refine (entryN_pays hc o hL k).bind (entryN_er _ _ _ _) hf ?_
      simp only
      rw [if_neg (by rw [occ_occ]; simp), if_pos trivial]
      exact .lift rfl (.pure rfl hpos)
    · exact (entryN_pays hc o hL k).bind (entryN_er _ _ _ _) hf
        (insertAndCopyKeyN_pays hc o2 (vac_sz hc (t := t) hi hL) hK0 ga)
  | contains k =>
    have hne : T ≠ nil := fun h => sf (o.nil_iff.2 h)
    exact Pays.out hc (Pays.out hc (.mono (splayToN_pays hc o hL hne k) (by linarith)) (fun _ => rfl)) (fun _ => rfl)
  | get k => exact Pays.out hc (.mono (findN_pays hc o hL k) (by linarith)) (fun _ => rfl)
  | begin => exact .lift (begin_eq o) (.pure rfl hpos')
  | rbegin => exact .lift (rbegin_eq o) (.pure rfl hpos')
  | next a =>
    obtain ⟨s', e, _⟩ := step_next o ok
    simp only [step] at e
    cases hn : next s a with
    | none => rw [hn] at e; cases e
    | some p => exact .lift hn (.pure rfl hpos')
  | rnext a =>
    obtain ⟨s', e, _⟩ := step_rnext o ok
    simp only [step] at e
    cases hn : rnext s a with
    | none => rw [hn] at e; cases e
    | some p => exact .lift hn (.pure rfl hpos')
  | equalRange b e => exact Pays.out hc (.mono (equalRangeN_pays hc o hL b e true) (by linarith)) (fun _ => rfl)
  | equalRrange b e => exact Pays.out hc (.mono (equalRangeN_pays hc o hL b e false) (by linarith)) (fun _ => rfl)
  | size => exact .pure rfl hpos'
  | isEmpty => exact .pure rfl hpos'
  | validate => exact .lift (validate_spec hc o) (.pure rfl hpos')
  | clear =>
    exact Pays.out hc (Pays.out hc (.mono (clearLoopN_pays hc (le_of_eq hK.symm) l.length [] o hL rfl) hpos') (fun _ => rfl))
      (fun _ => rfl)

/-- A history is paid for. -/
theorem runN_pays (hL1 : 1 ≤ L) (ops : List (Op α κ)) : ∀ {s : Om α} {l : List (Nat × α)},
    Sim cmp key s l → safeRun cmp key s.alloc l ops →
    (∀ pre, pre <+: ops → lg ((specRun cmp key s.alloc l pre).1.length + 2) ≤ L) →
    Pays (12 * L + 5) (runN cmp key s ops) s.t (ops.length * (26 * L + 11)) := by
  induction ops with
  | nil => intro s l _ _ _; exact .pure rfl (by simp)
  | cons op ops ih =>
    intro s l ⟨T, o⟩ ⟨ok, sf, hr⟩ hL
    have hLT : lg (W T + 1) ≤ L := by
      have := hL [] (by simp)
      simp only [specRun] at this
      rw [W_ids]
      rw [o.list] at this
      simpa [elems] using this
    obtain ⟨s', e, sim, ha, _⟩ := step_spec hc o op ok sf
    have hp := stepN_pays hc o hLT rfl op ok sf
    have hq := ih sim (by rw [ha]; exact hr) (by
      intro pre hpre
      have := hL (op :: pre) (by simpa using hpre)
      simp only [specRun] at this
      rw [ha]; exact this)
    have := hp.bind (stepN_er _ _ _ _) e (f := fun p => runN cmp key p.1 ops >>= fun q => pure (q.1, p.2 :: q.2))
      (Pays.out hc (f := fun q => (q.1, (specStep cmp key s.alloc l op).2 :: q.2)) hq (fun _ => rfl))
    refine .mono this ?_
    push_cast
    simp only [List.length_cons]
    push_cast
    linarith

end CCC.Om
