import Verif.Proof.MultiStep
import Verif.Proof.SplayPhi
/-
Every call of the ordered multimap is paid for by the potential of its tree.
-/
namespace CCC.Omm
open CCC Links Tree Wavl Splay MapSpec PtrMap MultiSpec

variable {α κ β γ : Type} {cmp : κ → κ → Cmp} {key : α → κ} {H : Omm α} {A : List Nat} {N : Nat → Prop}
  {D : Nat → List Nat} {h : Links} {T : Tree} {K L : ℝ} {al : Bool} {off : Nat} {st : St α}

/-- The links of the multimap below a node. -/
def Shape (H : Omm α) : Tree → Prop
  | nil => True
  | node i _ l r => i ≠ 0 ∧ H.br i false = some l.rootId ∧ H.br i true = some r.rootId ∧ Shape H l ∧ Shape H r

theorem Shape.pot : ∀ {T T' : Tree}, Shape H T → Shape H T' → T.rootId = T'.rootId → Pot T = Pot T'∧ W T = W T'
  | nil, nil, _, _, _ => ⟨rfl, rfl⟩
  | nil, node _ _ _ _, _, h', e => absurd e.symm h'.1
  | node _ _ _ _, nil, h, _, e => absurd e h.1
  | node i _ l r, node j _ l' r', h1, h2, e => by
    obtain rfl : i = j := e
    obtain ⟨_, a1, b1, c1, d1⟩ := h1
    obtain ⟨_, a2, b2, c2, d2⟩ := h2
    obtain ⟨x1, x2⟩ := Shape.pot c1 c2 (Option.some.inj (a1.symm.trans a2))
    obtain ⟨y1, y2⟩ := Shape.pot d1 d2 (Option.some.inj (b1.symm.trans b2))
    simp only [Pot, W, x1, x2, y1, y2, and_self]

theorem Shape.congr {H' : Omm α} : ∀ {T : Tree}, Shape H T → (∀ a ∈ T.ids, H'.br a = H.br a) → Shape H' T
  | nil, _, _ => trivial
  | node i m l r, s, e => by
    obtain ⟨s0, s1, s2, s3, s4⟩ := s
    refine ⟨s0, ?_, ?_, s3.congr (fun a ha => e a (by simp [ids, ha])), s4.congr (fun a ha => e a (by simp [ids, ha]))⟩
    · rw [e i (by simp [ids])]; exact s1
    · rw [e i (by simp [ids])]; exact s2

theorem Core.shape (c : Core cmp key H A N D h T) : Shape H T := by
  have : ∀ {t : Tree} {p : Nat}, Rep h p t → Shape H t := by
    intro t
    induction t with
    | nil => intro p _; trivial
    | node i m l r ihl ihr =>
      intro p ⟨a0, a1, a2, a3, _, a4, a5⟩
      exact ⟨a0, by rw [c.rel.br i false a1, a2], by rw [c.rel.br i true a1, a3], ihl a4, ihr a5⟩
  exact this c.whole.tree

open Classical in
/-- The potential: twice the potential of the tree, and `K` for every element. -/
noncomputable def phi (K : ℝ) (H : Omm α) : ℝ :=
  if w : ∃ T, Shape H T ∧ H.root = T.rootId then 2 * Pot w.choose + K * H.sz else 0

theorem phi_shape (s : Shape H T) (hr : H.root = T.rootId) (K : ℝ) : phi K H = 2 * Pot T + K * H.sz := by
  have w : ∃ T, Shape H T ∧ H.root = T.rootId := ⟨T, s, hr⟩
  obtain ⟨s', hr'⟩ := w.choose_spec
  rw [phi, dif_pos w, (s'.pot s (hr'.symm.trans hr)).1]

theorem Core.phi (c : Core cmp key H A N D h T) (K : ℝ) : phi K H = 2 * Pot T + K * H.sz := phi_shape c.shape c.root K

/-- A struct that is not stored does not matter. -/
theorem Core.phi_at (c : Core cmp key H A N D h T) {n : Nat} {H' : Omm α} (o : At n H H') (hn : n ∉ A) (K : ℝ) :
    Omm.phi K H' = Omm.phi K H := by
  rw [c.phi, phi_shape (c.shape.congr (fun a ha => (o.rest a (fun e => hn (e ▸ c.memT ha))).1)) (o.root.trans c.root), o.sz]

theorem Core.phi_congr (c : Core cmp key H A N D h T) {H' : Omm α} (K : ℝ) (e1 : ∀ b ∈ T.ids, H'.br b = H.br b)
    (e2 : H'.root = H.root := by rfl) (e3 : H'.sz = H.sz := by rfl) : Omm.phi K H' = Omm.phi K H := by
  rw [c.phi, phi_shape (c.shape.congr e1) (e2.trans c.root), e3]

/-- Neither does the user's data. -/
theorem phi_val (c : Core cmp key H A N D h T) {H' : Omm α} (K : ℝ) (e1 : H'.br = H.br := by rfl) (e2 : H'.root = H.root := by rfl)
    (e3 : H'.sz = H.sz := by rfl) : phi K H' = phi K H := by
  rw [c.phi, phi_shape (c.shape.congr (fun a _ => by rw [e1])) (e2.trans c.root), e3]

/-- The program returns, and its comparisons and the new potential are paid by the old potential and `b`. -/
def Pays (K : ℝ) (x : Count (Omm α × β)) (H : Omm α) (b : ℝ) : Prop :=
  ∃ r m, Costs x m r ∧ (m : ℝ) + phi K r.1 ≤ phi K H + b

theorem Pays.pure {r : Omm α × β} {b : ℝ} (h : phi K r.1 = phi K H) (hb : 0 ≤ b) : Pays K (Pure.pure r) H b :=
  ⟨r, 0, .pure _, by rw [h, Nat.cast_zero]; linarith⟩

theorem Pays.mono {x : Count (Omm α × β)} {b b' : ℝ} (h : Pays K x H b) (hb : b ≤ b') : Pays K x H b' := by
  obtain ⟨r, m, hc, h⟩ := h
  exact ⟨r, m, hc, by linarith⟩

theorem Pays.bind {x : Count (Omm α × β)} {y : Option (Omm α × β)} {f : Omm α × β → Count (Omm α × γ)} {r : Omm α × β} {b b' : ℝ}
    (h : Pays K x H b) (he : Er x y) (hy : y = some r) (hf : Pays K (f r) r.1 b') : Pays K (x >>= f) H (b + b') := by
  obtain ⟨r1, m, hc, h⟩ := h
  have := he.eq hc
  rw [hy] at this
  cases this
  obtain ⟨r2, m', hc', h'⟩ := hf
  exact ⟨r2, m + m', hc.bind hc', by rw [Nat.cast_add]; linarith⟩

theorem Pays.lift {δ : Type} {y : Option δ} {f : δ → Count (Omm α × γ)} {a : δ} {b : ℝ} (hy : y = some a)
    (hf : Pays K (f a) H b) : Pays K ((liftM y : Count δ) >>= f) H b := by
  obtain ⟨r, m, hc, h⟩ := hf
  refine ⟨r, m, ?_, h⟩
  have := (Costs.lift hy).bind hc
  rwa [Nat.zero_add] at this

theorem Pays.via {δ : Type} {x : Count δ} {f : δ → Count (Omm α × γ)} {a : δ} {m : Nat} {H' : Omm α} {b b' : ℝ}
    (hx : Costs x m a) (hf : Pays K (f a) H' b') (h : (m : ℝ) + phi K H' + b' ≤ phi K H + b) :
    Pays K (x >>= f) H b := by
  obtain ⟨r, m', hc, h'⟩ := hf
  exact ⟨r, m + m', hx.bind hc, by rw [Nat.cast_add]; linarith⟩

/-- The last steps of a call that leave the multimap alone. -/
theorem Pays.out {x : Count (Omm α × β)} {f : Omm α × β → Omm α × γ} {b : ℝ} (h : Pays K x H b)
    (hf : ∀ r, (f r).1 = r.1) : Pays K (x >>= fun r => Pure.pure (f r)) H b := by
  obtain ⟨r, m, h, hp⟩ := h
  exact .via h (H' := r.1) (b' := 0) (.pure (by rw [hf r]) (le_refl _)) (by simpa using hp)

theorem Pays.swap {x : Count (Omm α × β)} {H' : Omm α} {b : ℝ} (h : Pays K x H b) (e : phi K H' = phi K H) : Pays K x H' b := by
  obtain ⟨r, m, hc, h⟩ := h
  exact ⟨r, m, hc, by rw [e]; exact h⟩

/-! ### The potential of the trees -/

theorem Inserted.pot {T' : Tree} {n : Nat} (i : Inserted T T' n) (hL : lg (W T + 1) ≤ L) :
    (n : ℝ) + 2 * Pot T' ≤ 2 * Pot T + 8 * L + 3 := by
  have h1 : 1 ≤ L := le_trans (lg_ge_one (by have := W_pos T; omega)) hL
  rcases i with ⟨rfl, rfl, e, rfl⟩ | ⟨f, P, i, k, m, hs, rfl, rfl | ⟨d, e, Y, C, e1, rfl⟩⟩
  · simp only [Pot, W, Nat.cast_zero]
    rw [show lg (1 + 1) = 1 from lg_two]
    linarith
  · have := hs.splay
    have := lg_mono (a := W T) (b := W T + 1) (W_pos T) (by omega)
    push_cast
    linarith
  · have h2 := hs.splay
    have h3 := lg_mono (a := W T) (b := W T + 1) (W_pos T) (by omega)
    have hW : W (node i k (P true) (P false)) = W T := by rw [W, hs.W_eq]
    rw [e1] at h2 hW
    have := (connect_pot (d := d) (i := i) (k := k) (e := e) (m := 0) (Y := Y) (C := C)).1
    rw [hW] at this
    push_cast
    linarith

theorem Took.pot {i k n : Nat} {X B T' : Tree} (t : Took k X B T' n) :
    (n : ℝ) + 2 * Pot T' ≤ 2 * Pot (node i k X B) + 6 * lg (W (node i k X B)) + 2 := by
  have hX := W_pos X
  have h0 := lg_nonneg (a := W X + W B) (by omega)
  rcases t with ⟨rfl, x, rfl⟩ | ⟨f, t⟩
  · simp only [Pot, W, Nat.cast_zero]
    linarith
  · exact (remove_pot (i := i) (k := k) t).1

theorem Extracted.pot {T' : Tree} {n : Nat} (e : Extracted T T' n) (hL : lg (W T + 1) ≤ L) :
    (n : ℝ) + 2 * Pot T' ≤ 2 * Pot T + 12 * L + 5 := by
  have h1 : 1 ≤ L := le_trans (lg_ge_one (by have := W_pos T; omega)) hL
  rcases e with ⟨rfl, rfl⟩ | ⟨f, P, i, k, m, q, hs, rfl, t⟩
  · rw [Nat.cast_zero]; linarith
  · have h2 := hs.splay
    have h3 := lg_mono (a := W T) (b := W T + 1) (W_pos T) (by omega)
    have hW : W (node i k (P true) (P false)) = W T := by rw [W, hs.W_eq]
    have h4 := t.pot (i := i)
    rw [hW] at h4
    push_cast
    linarith

/-- The tree is no larger than the multimap. -/
theorem Core.small (c : Core cmp key H A N D h T) (hL : lg (A.length + 2) ≤ L) : lg (W T + 1) ≤ L := by
  refine le_trans (lg_mono (by omega) ?_) hL
  rw [W_ids]
  have : T.ids.length ≤ A.length := (List.subperm_of_subset c.nodup (fun a ha => c.memT ha)).length_le
  omega

theorem small_one {n : Nat} (hL : lg (n + 2) ≤ L) : 1 ≤ L := le_trans (lg_ge_one (by omega)) hL

/-! ### The functions -/

/-- Splaying. -/
theorem Core.splayCN_pays (c : Core cmp key H A N D h T) (hL : lg (A.length + 2) ≤ L) (hne : T ≠ nil) {f : Nat → Option Cmp}
    {f' : Nat → Cmp} (hf : ∀ a ∈ T.ids, f a = some (f' a)) (hm : Mono f' T.ids) : Pays K (splayN H f H.root) H (6 * L + 2) := by
  obtain ⟨H', h', i, m, X, B, _, c', o, _, _, _, _, P, n, hs, rfl, rfl, hn⟩ := c.splayCN hne hf hm
  refine ⟨_, _, hn, ?_⟩
  have h2 := hs.splay
  have h3 := lg_mono (a := W T) (b := W T + 1) (W_pos T) (by omega)
  have h4 := c.small hL
  rw [c.phi, c'.phi, o.val.2.2.2.1]
  linarith

theorem Core.splayN_pays (c : Core cmp key H A N D h T) (hc : LawfulCmp cmp) (hL : lg (A.length + 2) ≤ L) (hne : T ≠ nil) (k : κ) :
    Pays K (splayN H (Omm.cmpAt cmp key H k) H.root) H (6 * L + 2) :=
  c.splayCN_pays hL hne (fun a ha => c.cmpAt k (c.memT ha)) (c.mono hc k)

theorem Core.splayToN_pays (c : Core cmp key H A N D h T) (hc : LawfulCmp cmp) (hL : lg (A.length + 2) ≤ L) (hne : T ≠ nil) (k : κ) :
    Pays K (splayToN cmp key H k) H (6 * L + 3) := by
  obtain ⟨H', h', i, m, X, B, e, c', o, hr, _, _, _, _, hq⟩ := c.splay hc hne k
  refine .mono ((c.splayN_pays hc hL hne k).bind (splayN_er _ _ _) e (b' := 1) ?_) (by linarith)
  simp only [root_self hr]
  refine .via (Costs.cnt hq) (.pure (b := 0) rfl (le_refl _)) ?_
  simp only [Nat.cast_one]
  linarith

theorem Core.root_ne (c : Core cmp key H A N D h T) (hne : T ≠ nil) : H.root ≠ 0 := by
  rw [c.root]
  cases T with
  | nil => exact absurd rfl hne
  | node i m l r => exact c.ne_zero (c.memT (by simp [ids]))

theorem Core.findN_pays (c : Core cmp key H A N D h T) (hc : LawfulCmp cmp) (hL : lg (A.length + 2) ≤ L) (k : κ) :
    Pays K (findN cmp key H k) H (6 * L + 3) := by
  have h1 := small_one hL
  by_cases hne : T = nil
  · subst hne
    rw [findN, if_pos (show H.root = 0 from c.root)]
    exact .pure rfl (by linarith)
  · rw [findN, if_neg (c.root_ne hne)]
    exact (c.splayToN_pays hc hL hne k).out (fun _ => rfl)

theorem Core.entryN_pays (c : Core cmp key H A N D h T) (hc : LawfulCmp cmp) (hL : lg (A.length + 2) ≤ L) (k : κ) :
    Pays K (entryN cmp key H k) H (6 * L + 3) := by
  obtain ⟨r, m, h, hp⟩ := c.findN_pays hc hL (K := K) k
  refine .via h (H' := r.1) (b' := 0) ?_ (by simpa using hp)
  simp only
  split <;> exact .pure rfl (le_refl _)

theorem Core.insertNodeN_pays (c : Core cmp key H A N D h T) (hc : LawfulCmp cmp) (hL : lg (A.length + 2) ≤ L) (hsz : H.sz = A.length)
    {e : Nat} (e0 : e ≠ 0) (el : H.live e = true) (he : e ∉ A) : Pays K (insertNodeN cmp key H e) H (8 * L + 3 + K) := by
  obtain ⟨H', D', h', T', _, c', o, n, hn, i⟩ := c.insertN hc hsz e0 el he
  refine ⟨_, n, hn, ?_⟩
  have := i.pot (c.small hL)
  simp only
  rw [c'.phi, c.phi, o.val.2.2.2.1]
  push_cast
  linarith

/-- Pays, and `K` is left if something was taken out. -/
def Refund (K : ℝ) (x : Count (Omm α × Slot)) (H : Omm α) (b : ℝ) : Prop :=
  ∃ r m, Costs x m r ∧ (m : ℝ) + phi K r.1 + (if r.2.isSome then K else 0) ≤ phi K H + b

theorem Refund.pays {x : Count (Omm α × Slot)} {b : ℝ} (r : Refund K x H b) (hK : 0 ≤ K) : Pays K x H b := by
  obtain ⟨r, m, h, hp⟩ := r
  refine ⟨r, m, h, ?_⟩
  split at hp <;> linarith

theorem Refund.bind {x : Count (Omm α × Slot)} {y : Option (Omm α × Slot)} {f : Omm α × Slot → Count (Omm α × γ)} {H' : Omm α} {a : Nat}
    {b b' : ℝ} (h : Refund K x H b) (he : Er x y) (hy : y = some (H', some a)) (hf : Pays K (f (H', some a)) H' b') :
    Pays K (x >>= f) H (b + b' - K) := by
  obtain ⟨r1, m, hc, h⟩ := h
  have := he.eq hc
  rw [hy] at this
  cases this
  obtain ⟨r2, m', hc', h'⟩ := hf
  simp only [Option.isSome_some, if_true] at h
  exact ⟨r2, m + m', hc.bind hc', by rw [Nat.cast_add]; linarith⟩

theorem Core.sz_pos (c : Core cmp key H A N D h T) (hsz : H.sz = A.length) (hne : T ≠ nil) : 1 ≤ H.sz := by
  rw [hsz]
  rcases Nat.eq_zero_or_pos A.length with h0 | h0
  · exact absurd (c.nil_iff.2 (List.length_eq_zero_iff.1 h0)) hne
  · exact h0

theorem Core.notEmpty (c : Core cmp key H A N D h T) (hsz : H.sz = A.length) (hne : T ≠ nil) : Omm.isEmpty H = false := by
  have := c.sz_pos hsz hne
  simp [Omm.isEmpty]; omega

theorem Core.takeRootN_pays {r m : Nat} {X B : Tree} (c : Core cmp key H A N D h (node r m X B)) (hc : LawfulCmp cmp)
    (hL : lg (A.length + 2) ≤ L) (n : Nat) :
    ∃ H' q, Costs (takeRootN cmp key { H with sz := n } r) q (H', some r) ∧
      (q : ℝ) + Omm.phi K H' ≤ Omm.phi K H - K * H.sz + K * n + (6 * L + 2) := by
  obtain ⟨H', D', h', T', q, hn, c', o, t⟩ := (c.setSz n).takeN hc
  refine ⟨H', q, hn, ?_⟩
  have h1 := t.pot (i := r)
  have h2 := lg_mono (a := W (node r m X B)) (b := W (node r m X B) + 1) (W_pos _) (by omega)
  have h3 := c.small hL
  rw [c'.phi, c.phi, o.val.2.2.2.1]
  simp only
  linarith

theorem Core.eraseN_pays (c : Core cmp key H A N D h T) (hc : LawfulCmp cmp) (hL : lg (A.length + 2) ≤ L) (hsz : H.sz = A.length)
    (k : κ) : Refund K (eraseN cmp key H k) H (12 * L + 5) := by
  have h1 := small_one hL
  by_cases hne : T = nil
  · have : Omm.isEmpty H = true := by simp [Omm.isEmpty, (c.sz_zero hsz).2 hne]
    refine ⟨_, 0, by rw [eraseN, if_pos this]; exact .pure _, ?_⟩
    simp
    linarith
  · have hem := c.notEmpty hsz hne
    have hpos := c.sz_pos hsz hne
    obtain ⟨r, n, hn, hp⟩ := c.splayN_pays hc hL (K := K) hne k
    obtain ⟨H', h', i, m, X, B, e, c', o, hr, _, _, _, _, hq⟩ := c.splay hc hne k
    have := (splayN_er _ _ _).eq hn
    rw [e] at this
    cases this
    have e4 := o.val.2.2.2.1
    rw [eraseN, if_neg (by rw [hem]; simp)]
    have hq' : Omm.cmpAt cmp key H' k i = some (cmp k (key (H.val i))) := hq
    by_cases he : cmp k (key (H.val i)) = .eql
    · obtain ⟨H2, q, hn2, hp2⟩ := c'.takeRootN_pays hc hL (K := K) (H'.sz - 1)
      refine ⟨(H2, some i), n + (1 + q), hn.bind ((Costs.cnt hq').bind ?_), ?_⟩
      · rw [if_neg (by simp [he])]
        exact hn2
      · have : ((H'.sz - 1 : ℕ) : ℝ) = (H'.sz : ℝ) - 1 := by rw [Nat.cast_sub (by omega)]; simp
        rw [this] at hp2
        simp only [Option.isSome_some, if_true]
        push_cast
        linarith
    · refine ⟨(H', none), n + (1 + 0), hn.bind ((Costs.cnt hq').bind ?_), ?_⟩
      · rw [if_pos he]
        exact .pure _
      · simp only [Option.isSome_none, Bool.false_eq_true, if_false]
        push_cast
        linarith

theorem Core.eraseEndN_pays (c : Core cmp key H A N D h T) (hc : LawfulCmp cmp) (hL : lg (A.length + 2) ≤ L) (hsz : H.sz = A.length)
    (d : Bool) : Refund K (eraseMaxOrMinN cmp key H (if d then .grt else .les)) H (12 * L + 5) := by
  have h1 := small_one hL
  by_cases hne : T = nil
  · have : Omm.isEmpty H = true := by simp [Omm.isEmpty, (c.sz_zero hsz).2 hne]
    refine ⟨_, 0, by rw [eraseMaxOrMinN, if_pos this]; exact .pure _, ?_⟩
    simp
    linarith
  · have hem := c.notEmpty hsz hne
    have hpos := c.sz_pos hsz hne
    have c0 := c.setSz (H.sz - 1)
    obtain ⟨r, n, hn, hp⟩ := c0.splayCN_pays hL (K := K) hne (f := force (if d then .grt else .les))
      (f' := fun _ => if d then .grt else .les) (fun _ _ => rfl) (const_mono _ (by cases d <;> simp) _)
    obtain ⟨H', h', i, m, X, B, e, c', o, hr, _⟩ := c0.splayEnd hne d
    have := (splayN_er _ _ _).eq hn
    rw [e] at this
    cases this
    have e4 := o.val.2.2.2.1
    simp only at e4
    obtain ⟨H2, q, hn2, hp2⟩ := c'.takeRootN_pays hc hL (K := K) H'.sz
    rw [eraseMaxOrMinN, if_neg (by rw [hem]; simp)]
    refine ⟨(H2, some i), n + q, hn.bind hn2, ?_⟩
    have : ((H.sz - 1 : ℕ) : ℝ) = (H.sz : ℝ) - 1 := by rw [Nat.cast_sub (by omega)]; simp
    rw [c0.phi, this] at hp
    rw [c.phi]
    simp only [Option.isSome_some, if_true]
    push_cast
    linarith

theorem Core.extractN_pays (c : Core cmp key H A N D h T) (hc : LawfulCmp cmp) (hL : lg (A.length + 2) ≤ L) (hsz : H.sz = A.length)
    {a : Nat} (ha : a ∈ A) : Refund K (eraseNodeN cmp key H a) H (12 * L + 5) := by
  obtain ⟨_, H', D', h', T', o, c', q, hn, e, _⟩ := c.extractN hc hsz ha
  refine ⟨_, q, hn, ?_⟩
  have h1 := e.pot (c.small hL)
  have hpos : 1 ≤ H.sz := by
    rw [hsz]
    exact List.length_pos_of_mem ha
  have : ((H.sz - 1 : ℕ) : ℝ) = (H.sz : ℝ) - 1 := by rw [Nat.cast_sub (by omega)]; simp
  simp only [Option.isSome_some, if_true]
  rw [c'.phi, c.phi, o.val.2.2.2.1, this]
  linarith

theorem Core.maxMinN_pays (c : Core cmp key H A N D h T) (hL : lg (A.length + 2) ≤ L) (hne : T ≠ nil) (d : Bool) :
    Pays K (maxMinN H (if d then .grt else .les)) H (6 * L + 2) :=
  (c.splayCN_pays hL (K := K) hne (f := force (if d then .grt else .les))
      (f' := fun _ => if d then .grt else .les) (fun _ _ => rfl) (const_mono _ (by cases d <;> simp) _)).out (fun _ => rfl)

theorem either {δ : Type} (p : Prop) [Decidable p] {x y : Option δ} (hx : ∃ z, x = some z) (hy : ∃ z, y = some z) :
    ∃ z, (if p then x else y) = some z := by
  split
  · exact hx
  · exact hy

theorem Core.equalRangeN_pays (c : Core cmp key H A N D h T) (hc : LawfulCmp cmp) (hL : lg (A.length + 2) ≤ L) (hsz : H.sz = A.length)
    (b e : κ) (d : Bool) : Pays K (equalRangeN cmp key H b e d) H (12 * L + 6) := by
  have h1 := small_one hL
  rw [equalRangeN]
  by_cases hne : T = nil
  · rw [if_pos ((c.sz_zero hsz).2 hne)]
    exact .pure rfl (by linarith)
  rw [if_neg (fun hh => hne ((c.sz_zero hsz).1 hh))]
  obtain ⟨H1, h1', i, m, X, B, e1, c1, o1, r1, i1, a1, b1, _, q1⟩ := c.splay hc hne b
  obtain ⟨H2, h2, j, k, P, Q, e2, c2, o2, r2, i2, a2, b2, _, q2⟩ := c1.splay hc (by simp) e
  have n1 := nextTree_whole c1.rel c1.whole (pre := X.ids) (post := B.ids) (n := i) rfl d
  have n2 := nextTree_whole c2.rel c2.whole (pre := P.ids) (post := Q.ids) (n := j) rfl d
  refine .mono ((c.splayN_pays hc hL hne b).bind (splayN_er _ _ _) e1 (b' := 6 * L + 4) ?_) (by linarith)
  simp only
  obtain ⟨z1, hz1⟩ : ∃ z, (if cmp b (key (H.val i)) = (if d then Cmp.grt else Cmp.les) then nextTree H1 i d else some i) = some z := either _ ⟨_, n1⟩ ⟨_, rfl⟩
  refine .via (H' := H1) (b' := 6 * L + 3) (Costs.cnt q1) ?_ (by push_cast; linarith)
  refine .lift hz1 ?_
  refine .mono ((c1.splayN_pays hc hL (by simp) e).bind (splayN_er _ _ _) e2 (b' := 1) ?_) (by linarith)
  simp only
  obtain ⟨z2, hz2⟩ : ∃ z, (if cmp e (key (H1.val j)) ≠ (if d then Cmp.les else Cmp.grt) then nextTree H2 j d else some j) = some z := either _ ⟨_, n2⟩ ⟨_, rfl⟩
  refine .via (H' := H2) (b' := 0) (Costs.cnt q2) ?_ (by push_cast; linarith)
  exact .lift hz2 (.pure rfl (le_refl _))

theorem free_phi (c : Core cmp key H A N D h T) {H' : Omm α} {r : Nat} (e : free H r = some H') : phi K H' = phi K H := by
  unfold free at e
  split at e
  · cases e; exact phi_val c K
  · cases e

theorem Core.clearLoopN_pays (hc : LawfulCmp cmp) (hK : 12 * L + 5 ≤ K) : ∀ (n : Nat) {H : Omm α} {A : List Nat} {N : Nat → Prop}
    {D : Nat → List Nat} {h : Links} {T : Tree} (acc : List (Nat × α)), Core cmp key H A N D h T → lg (A.length + 2) ≤ L →
    H.sz = A.length → A.length = n → (H.alloc = true → ∀ a ∈ A, H.own a = true) → Pays K (clearLoopN cmp key H acc) H 0 := by
  intro n
  induction n with
  | zero =>
    intro H A N D h T acc c hL hsz hn _
    rw [clearLoopN, if_pos (by simp [Omm.isEmpty, hsz, hn])]
    exact .pure rfl (le_refl _)
  | succ n ih =>
    intro H A N D h T acc c hL hsz hn hown
    rcases c.eraseEnd hc hsz false with ⟨hA, _⟩ | ⟨hA, H1, D1, h1, T1, run, hmem, c1, o1⟩
    · rw [hA] at hn; simp at hn
    simp only [Bool.false_eq_true, if_false] at run
    have hE : Omm.isEmpty H = false := by simp [Omm.isEmpty, hsz, hn]
    have hrA := c.memT hmem
    revert run hmem c1 hrA
    generalize endOf false T.ids = r
    intro hmem c1 run hrA
    obtain ⟨v1, v2, v3, v4, v5, v6⟩ := o1.val
    have hlen : (drop r A).length = n := by rw [drop_length (c.nodupA hc) hrA]; omega
    have hL1 : lg ((drop r A).length + 2) ≤ L := le_trans (lg_mono (by omega) (by omega)) hL
    have hrn : r ∉ drop r A := fun hh => (mem_drop.1 hh).2 rfl
    rw [clearLoopN, if_neg (by rw [hE]; simp)]
    refine .mono ((c.eraseEndN_pays hc hL (K := K) hsz false).bind (eraseMaxOrMinN_er _ _ _ _) run (b' := 0) ?_) (by linarith)
    refine .lift rfl ?_
    cases hal : H.alloc with
    | false =>
      refine .lift (a := H1) (by simp [v5, hal]) ?_
      exact ih _ c1 hL1 (by rw [v4, hlen]; omega) hlen (by rw [v5, hal]; intro hh; cases hh)
    | true =>
      obtain ⟨fr, c1'⟩ := c1.free hc (M := N) (fun a ha => Or.inl ha) hrn (c.ne_zero hrA) (c.notN hrA)
        (by rw [v2]; exact c.alive hrA) (by rw [v3]; exact hown hal r hrA)
      refine .lift (a := { H1 with live := upd H1.live r false, own := upd H1.own r false }) (by rw [if_pos (v5.trans hal), fr]) ?_
      refine Pays.swap (ih _ c1' hL1 (by show H1.sz = _; rw [v4, hlen]; omega) hlen ?_) (free_phi c1 fr).symm
      intro _ a ha
      have ha' := mem_drop.1 ha
      show upd H1.own r false a = true
      rw [upd_ne _ _ ha'.2, v3]; exact hown hal a ha'.1

theorem SimA.addN_pays (s : SimA cmp key al off H st A D h T) (hc : LawfulCmp cmp) (hL : lg (A.length + 2) ≤ L) {n : Nat}
    (n0 : n ≠ 0) (hl : H.live n = true) (hn : n ∉ A) : Pays K (insertNodeN cmp key H n) H (8 * L + 3 + K) :=
  s.core.insertNodeN_pays hc hL s.sz n0 hl hn

theorem SimA.keyValN_pays (s : SimA cmp key al off H st A D h T) (hc : LawfulCmp cmp) (hL : lg (A.length + 2) ≤ L) (hK : 0 ≤ K) {x : α}
    {ans : Slot} (hans : MultiSpec.goodAns st ans 0) : Pays K (insertKeyValN cmp key H x ans) H (8 * L + 3 + K) := by
  have h1 := small_one hL
  have hpos : 0 ≤ 8 * L + 3 + K := by linarith
  unfold insertKeyValN
  cases hal : al with
  | false =>
    have : newMem H x ans = (H, none) := by simp [newMem, s.alloc, hal]
    rw [this]
    exact .pure rfl hpos
  | true =>
    have ha := s.alloc.trans hal
    cases ans with
    | none =>
      have : newMem H x none = (H, none) := by simp [newMem]
      rw [this]
      exact .pure rfl hpos
    | some n =>
      obtain ⟨hf, hno, _⟩ := hans n rfl
      rw [s.fresh] at hf
      have hat : At n H (fill H n x) :=
        ⟨rfl, rfl, rfl, rfl, fun a ha => ⟨by funext e; simp [fill, ha], upd_ne _ _ ha, upd_ne _ _ ha, upd_ne _ _ ha,
          upd_ne _ _ ha⟩⟩
      have s1 := s.memory hc (n := n) (H' := fill H n x) hat hf.1 hf.2 hno
      rw [newMem_some ha]
      exact (Pays.out (f := fun r => (r.1, r.2.e)) (s1.addN_pays hc hL hf.1 (upd_same ..) hf.2) (fun _ => rfl)).swap (s.core.phi_at hat hf.2 K).symm

theorem SimA.freeOut (s : SimA cmp key al off H st A D h T) {H1 : Omm α} {r : Nat} (e : free H r = some H1) {f : Omm α → Omm α × γ}
    (hf : ∀ H, (f H).1 = H) {b : ℝ} (hb : 0 ≤ b) :
    Pays K ((liftM (free H r) : Count (Omm α)) >>= fun H => Pure.pure (f H)) H b :=
  .lift e (.pure (by rw [hf]; exact free_phi s.core e) hb)

theorem SimA.extractOutN (s : SimA cmp key al off H st A D h T) {a : Nat} (ha : a ∈ st.out)
    (hs : a ∉ st.later ∨ st.elems = []) {b : ℝ} (hb : 0 ≤ b) : Pays K (eraseNodeN cmp key H a) H b := by
  have hl := (s.out a ha).1
  unfold eraseNodeN
  refine .lift (getBr_live hl) (.lift (getBr_live hl) ?_)
  rcases hs with hs | hs
  · have := (s.core.rel.null a ⟨ha, hs⟩).2.1
    rw [if_pos (Or.inl (this true))]
    exact .pure rfl hb
  · have hA : A = [] := by
      have := s.elems
      rw [hs] at this
      simpa using this.symm
    have : Omm.isEmpty H = true := by simp [Omm.isEmpty, s.sz, hA]
    rw [if_pos this]
    split <;> exact .pure rfl hb

/-- Every call is paid for. -/
theorem stepN_pays (hc : LawfulCmp cmp) (s : SimA cmp key al off H st A D h T) (hL : lg (A.length + 2) ≤ L) (hK : K = 12 * L + 5)
    (op : MultiSpec.Op α κ) (ok : okOp cmp key al st op) (safe : safeOp cmp key al off st op) :
    Pays K (stepN cmp key H op) H (26 * L + 11) := by
  have h1 := small_one hL
  have hK0 : 0 ≤ K := by rw [hK]; linarith
  have hpos : 0 ≤ 8 * L + 3 + K := by linarith
  have hpos' : 0 ≤ 26 * L + 11 := by linarith
  have hb : (6 * L + 3) + (8 * L + 3 + K) = 26 * L + 11 := by rw [hK]; ring
  have hput : ∀ (e : Nat) (x : α), phi K H = phi K (Omm.put H e x) := fun e x => (phi_val s.core K).symm
  -- what follows `find` and `entry`
  have find : ∀ {δ : Type} {H : Omm α} {D : Nat → List Nat} {h : Links} {T : Tree} {k : κ} {f : Omm α × Slot → Count (Omm α × δ)},
      SimA cmp key al off H st A D h T →
      (∀ {H' h' T' a}, SimA cmp key al off H' st A D h' T' → Only H H' → a ∈ A → H'.root = a →
        Pays K (f (H', some a)) H' (8 * L + 3 + K)) →
      (∀ {H' h' T'}, SimA cmp key al off H' st A D h' T' → Only H H' → MultiSpec.oldest cmp key k st.elems = none →
        Pays K (f (H', none)) H' (8 * L + 3 + K)) →
      Pays K (findN cmp key H k >>= f) H (26 * L + 11) := by
    intro δ H D h T k f s g1 g2
    rw [← hb]
    obtain ⟨H1, h1, T1, s1, o1, hr⟩ := s.findC hc k
    rcases hr with ⟨e1, run⟩ | ⟨a, ha, e1, hq, run, hroot⟩
    · exact (s.core.findN_pays hc hL k).bind (findN_er _ _ _ _) run (g2 s1 o1 e1)
    · exact (s.core.findN_pays hc hL k).bind (findN_er _ _ _ _) run (g1 s1 o1 ha hroot)
  have entry : ∀ {δ : Type} {H : Omm α} {D : Nat → List Nat} {h : Links} {T : Tree} {k : κ} {f : Omm α × Ent → Count (Omm α × δ)},
      SimA cmp key al off H st A D h T →
      (∀ {H' h' T' a}, SimA cmp key al off H' st A D h' T' → Only H H' → a ∈ A → cmp k (key (H.val a)) = .eql →
        Pays K (f (H', ⟨some a, Stat.occupied⟩)) H' (8 * L + 3 + K)) →
      (∀ {H' h' T'}, SimA cmp key al off H' st A D h' T' → Only H H' → MultiSpec.oldest cmp key k st.elems = none →
        Pays K (f (H', ⟨none, Stat.vacant⟩)) H' (8 * L + 3 + K)) →
      Pays K (entryN cmp key H k >>= f) H (26 * L + 11) := by
    intro δ H D h T k f s g1 g2
    rw [← hb]
    obtain ⟨H1, h1, T1, s1, o1, hr⟩ := s.entryC hc k
    rcases hr with ⟨e1, run⟩ | ⟨a, ha, e1, hq, run⟩
    · exact (s.core.entryN_pays hc hL k).bind (entryN_er _ _ _ _) run (g2 s1 o1 e1)
    · exact (s.core.entryN_pays hc hL k).bind (entryN_er _ _ _ _) run (g1 s1 o1 ha hq)
  cases op with
  | insert e x ans =>
    obtain ⟨hf, hans⟩ := ok
    rw [s.fresh] at hf
    have sp := s.put hc (x := x) hf.1 hf.2
    refine Pays.out (Pays.swap ?_ (hput e x)) (fun _ => rfl)
    refine .mono ?_ (show 8 * L + 3 + K ≤ 26 * L + 11 by linarith)
    unfold insertN
    rw [sp.alloc]
    cases hal : al with
    | false =>
      simp only [Bool.false_eq_true, if_false]
      exact sp.addN_pays hc hL hf.1 (upd_same ..) hf.2
    | true =>
      simp only [if_true]
      cases ans with
      | none => exact .pure rfl hpos
      | some n =>
        obtain ⟨hfn, hno, hne⟩ := hans n rfl
        rw [s.fresh] at hfn
        have hat : At n (put H e x) (allocCopy (put H e x) n e) :=
          ⟨rfl, rfl, rfl, rfl, fun a ha => ⟨by funext d; simp [allocCopy, ha], upd_ne _ _ ha, upd_ne _ _ ha, upd_ne _ _ ha,
            upd_ne _ _ ha⟩⟩
        have s1 := sp.memory hc hat hfn.1 hfn.2 hno
        exact (s1.addN_pays hc hL hfn.1 (upd_same ..) hfn.2).swap (sp.core.phi_at hat hfn.2 K).symm
  | tryInsert e x ans =>
    obtain ⟨hf, hans⟩ := ok
    rw [s.fresh] at hf
    have sp := s.put hc (x := x) hf.1 hf.2
    refine Pays.out (Pays.swap (find sp ?_ ?_) (hput e x)) (fun _ => rfl)
    · intro H' h' T' a _ _ _ _
      exact .pure rfl hpos
    · intro H' h' T' s1 o1 _
      exact s1.addN_pays hc hL hf.1 (by rw [o1.val.2.1]; exact upd_same ..) hf.2
  | insertOrAssign e x ans =>
    obtain ⟨hf, hans⟩ := ok
    rw [s.fresh] at hf
    have sp := s.put hc (x := x) hf.1 hf.2
    refine Pays.out (Pays.swap (find sp ?_ ?_) (hput e x)) (fun _ => rfl)
    · intro H' h' T' a s1 o1 ha hroot
      have hae : a ≠ e := by rintro rfl; exact hf.2 ha
      simp only
      rw [if_neg (by rw [hroot]; exact s.core.ne_zero ha)]
      refine .pure ?_ hpos
      refine s1.core.phi_congr K (fun b hb => ?_)
      have hbe : b ≠ e := fun hh => hf.2 (hh ▸ s1.core.memT hb)
      funext d
      by_cases hba : b = a
      · subst hba; simp [hae]
      · simp [hba, hbe]
    · intro H' h' T' s1 o1 _
      exact s1.addN_pays hc hL hf.1 (by rw [o1.val.2.1]; exact upd_same ..) hf.2
  | remove e x =>
    have hsp : SimA cmp key al off (put H e x) st A D h T ∧ (al = true → e ≠ 0 ∧ e ∉ A) := by
      rcases ok with hf | ⟨hal, hm⟩
      · rw [s.fresh] at hf
        exact ⟨s.put hc hf.1 hf.2, fun _ => hf⟩
      · rw [s.elems] at hm
        obtain ⟨b, hb, e1⟩ := List.mem_map.1 hm
        cases e1
        rw [put_self rfl (s.core.alive hb)]
        exact ⟨s, fun hh => by rw [hal] at hh; cases hh⟩
    obtain ⟨sp, hfr⟩ := hsp
    refine Pays.out (Pays.swap ?_ (hput e x)) (fun _ => rfl)
    rcases sp.eraseC hc (key ((put H e x).val e)) with ⟨e1, H1, run, s1⟩ | ⟨r, H1, D1, h1, T1, hr, e1, run, s1, v, o⟩
    · refine .mono (((sp.core.eraseN_pays hc hL sp.sz _).pays hK0).bind (eraseN_er _ _ _ _) run (b' := 0) ?_) (by linarith)
      exact .pure rfl (le_refl _)
    · refine .mono (((sp.core.eraseN_pays hc hL sp.sz _).pays hK0).bind (eraseN_er _ _ _ _) run (b' := 0) ?_) (by linarith)
      simp only
      cases hal : al with
      | false =>
        rw [if_neg (by rw [s1.alloc, hal]; simp)]
        exact .pure rfl (le_refl _)
      | true =>
        rw [if_pos (s1.alloc.trans hal)]
        obtain ⟨he0, heA⟩ := hfr hal
        have her : e ∉ drop r A := fun hh => heA (mem_drop.1 hh).1
        have hl : H1.live r = true := (s1.out r (by simp [St.take])).1
        have ho : H1.own r = true := by rw [o]; exact sp.own hal r hr
        refine .lift (a := { H1 with val := upd H1.val e (H1.val r), br := fun b d => if b = e then H1.br r d else H1.br b d, par := upd H1.par e (H1.par r), live := upd H1.live r false, own := upd H1.own r false }) (by simp only [Omm.free, hl, ho, and_self, if_true]) (.pure ?_ (le_refl _))
        refine s1.core.phi_congr K (fun b hb => ?_)
        have hbe : b ≠ e := fun hh => her (hh ▸ s1.core.memT hb)
        funext d
        simp [hbe]
  | orInsert k e x ans =>
    obtain ⟨hf, hans, hk⟩ := ok
    rw [s.fresh] at hf
    have sp := s.put hc (x := x) hf.1 hf.2
    refine Pays.swap (entry sp ?_ ?_) (hput e x)
    · intro H' h' T' a _ _ _ _
      refine Pays.out ?_ (fun _ => rfl)
      simp only [orInsertN, occ_has, if_true]
      exact .pure rfl hpos
    · intro H' h' T' s1 o1 _
      refine Pays.out ?_ (fun _ => rfl)
      simp only [orInsertN, vac_has, Bool.false_eq_true, if_false]
      exact Pays.out (s1.addN_pays hc hL hf.1 (by rw [o1.val.2.1]; exact upd_same ..) hf.2) (fun _ => rfl)
  | insertEntry k e x ans =>
    obtain ⟨hf, hans, hk⟩ := ok
    rw [s.fresh] at hf
    have sp := s.put hc (x := x) hf.1 hf.2
    refine Pays.swap (entry sp ?_ ?_) (hput e x)
    · intro H' h' T' a s1 o1 _ _
      exact Pays.out (Pays.out (s1.addN_pays hc hL hf.1 (by rw [o1.val.2.1]; exact upd_same ..) hf.2) (fun _ => rfl)) (fun _ => rfl)
    · intro H' h' T' s1 o1 _
      exact Pays.out (Pays.out (s1.addN_pays hc hL hf.1 (by rw [o1.val.2.1]; exact upd_same ..) hf.2) (fun _ => rfl)) (fun _ => rfl)
  | removeEntry k =>
    refine entry s ?_ ?_
    · intro H1 h1 T1 a s1 o1 ha hq
      refine Pays.out ?_ (fun _ => rfl)
      simp only [removeEntryN, if_true]
      refine .lift rfl ?_
      rcases s1.eraseC hc (key (H1.val a)) with ⟨e2, _⟩ | ⟨r, H2, D2, h2, T2, hr, e2, run2, s2, v, o⟩
      · exfalso
        rw [s1.oldest] at e2
        simp only [Option.map_eq_none_iff, Omm.first, List.find?_eq_none] at e2
        have := e2 a ha
        simp [hc.refl] at this
      · refine .mono (((s1.core.eraseN_pays hc hL s1.sz _).pays hK0).bind (eraseN_er _ _ _ _) run2 (b' := 0) ?_)
          (by linarith)
        refine .lift rfl ?_
        simp only
        cases hal : al with
        | false =>
          rw [if_neg (by rw [s2.alloc, hal]; simp)]
          exact .pure rfl (le_refl _)
        | true =>
          rw [if_pos (s2.alloc.trans hal)]
          obtain ⟨H3, fr, s3, v3⟩ := s1.freed hc hal hr s2 o
          exact s2.freeOut fr (fun _ => rfl) (le_refl _)
    · intro H1 h1 T1 s1 o1 _
      refine Pays.out ?_ (fun _ => rfl)
      simp only [removeEntryN, vac_ne, if_false]
      exact .pure rfl hpos
  | andModify k f =>
    refine entry s ?_ ?_
    · intro H1 h1 T1 a s1 o1 ha hq
      refine .lift (a := { H1 with val := upd H1.val a (f (H1.val a)) }) ?_ (.pure (phi_val s1.core K) hpos)
      simp [Omm.andModify, occ_has]
    · intro H1 h1 T1 s1 o1 _
      refine .lift (a := H1) ?_ (.pure rfl hpos)
      simp [Omm.andModify, vac_has]
  | occupied k => exact entry s (fun _ _ _ _ => .pure rfl hpos) (fun _ _ _ => .pure rfl hpos)
  | orInsertW k x ans =>
    refine entry s ?_ ?_
    · intro H1 h1 T1 a s1 o1 ha hq
      refine Pays.out ?_ (fun _ => rfl)
      simp only [orInsertWN, if_true]
      exact .pure rfl hpos
    · intro H1 h1 T1 s1 o1 _
      refine Pays.out ?_ (fun _ => rfl)
      simp only [orInsertWN, vac_ne, if_false]
      exact s1.keyValN_pays hc hL hK0 ok.1
  | insertEntryW k x ans =>
    refine entry s ?_ ?_
    · intro H1 h1 T1 a s1 o1 ha hq
      exact Pays.out (s1.keyValN_pays hc hL hK0 ok.1) (fun _ => rfl)
    · intro H1 h1 T1 s1 o1 _
      exact Pays.out (s1.keyValN_pays hc hL hK0 ok.1) (fun _ => rfl)
  | tryInsertW k x ans =>
    refine Pays.out (entry s ?_ ?_) (fun _ => rfl)
    · intro H1 h1 T1 a s1 o1 ha hq
      simp only [occ_has, Bool.not_true, Bool.false_eq_true, if_false, if_true]
      exact .pure rfl hpos
    · intro H1 h1 T1 s1 o1 _
      simp only [vac_has, Bool.not_false, if_true]
      exact Pays.out (s1.keyValN_pays hc hL hK0 ok.1) (fun _ => rfl)
  | insertOrAssignW k x ans =>
    refine Pays.out (entry s ?_ ?_) (fun _ => rfl)
    · intro H1 h1 T1 a s1 o1 ha hq
      simp only [occ_has, Bool.not_true, Bool.false_eq_true, if_false, if_true]
      exact .lift rfl (.pure (phi_val s1.core K) hpos)
    · intro H1 h1 T1 s1 o1 _
      simp only [vac_has, Bool.not_false, if_true]
      exact Pays.out (s1.keyValN_pays hc hL hK0 ok.1) (fun _ => rfl)
  | contains k =>
    exact Pays.out (Pays.out (.mono (s.core.splayToN_pays hc hL (s.ne_nil safe) k) (by linarith)) (fun _ => rfl)) (fun _ => rfl)
  | get k => exact Pays.out (.mono (s.core.findN_pays hc hL k) (by linarith)) (fun _ => rfl)
  | max => exact Pays.out (.mono (s.core.maxMinN_pays hL (s.ne_nil safe) true) (by linarith)) (fun _ => rfl)
  | min => exact Pays.out (.mono (s.core.maxMinN_pays hL (s.ne_nil safe) false) (by linarith)) (fun _ => rfl)
  | popMax =>
    refine Pays.out ?_ (fun _ => rfl)
    have hp := (s.core.eraseEndN_pays hc hL (K := K) s.sz true).pays hK0
    rcases s.eraseEnd hc true with ⟨e, run⟩ | ⟨r, H1, D1, h1, T1, hd, hr, run, s1, v, o⟩
    · exact .mono (hp.bind (eraseMaxOrMinN_er _ _ _ _) run (b' := 0) (.pure rfl (le_refl _))) (by linarith)
    · refine .mono (hp.bind (eraseMaxOrMinN_er _ _ _ _) run (b' := 0) ?_) (by linarith)
      simp only
      cases hal : al with
      | false =>
        rw [if_neg (by rw [s1.alloc, hal]; simp)]
        exact .pure rfl (le_refl _)
      | true =>
        rw [if_pos (s1.alloc.trans hal)]
        obtain ⟨H3, fr, s3, v3⟩ := s.freed hc hal hr s1 o
        exact s1.freeOut fr (fun _ => rfl) (le_refl _)
  | popMin =>
    refine Pays.out ?_ (fun _ => rfl)
    have hp := (s.core.eraseEndN_pays hc hL (K := K) s.sz false).pays hK0
    rcases s.eraseEnd hc false with ⟨e, run⟩ | ⟨r, H1, D1, h1, T1, hd, hr, run, s1, v, o⟩
    · exact .mono (hp.bind (eraseMaxOrMinN_er _ _ _ _) run (b' := 0) (.pure rfl (le_refl _))) (by linarith)
    · refine .mono (hp.bind (eraseMaxOrMinN_er _ _ _ _) run (b' := 0) ?_) (by linarith)
      simp only
      cases hal : al with
      | false =>
        rw [if_neg (by rw [s1.alloc, hal]; simp)]
        exact .pure rfl (le_refl _)
      | true =>
        have hoff : H1.off = 0 := by
          rw [s1.off]
          rcases safe hal with h1 | h1
          · exact h1
          · rw [s.elems] at h1
            have : A = [] := by simpa using h1
            rw [this] at hr; simp at hr
        rw [if_pos (s1.alloc.trans hal), if_pos hoff]
        obtain ⟨H3, fr, s3, v3⟩ := s.freed hc hal hr s1 o
        exact s1.freeOut fr (fun _ => rfl) (le_refl _)
  | extract a =>
    refine Pays.out ?_ (fun _ => rfl)
    by_cases ha : a ∈ A
    · exact .mono ((s.core.extractN_pays hc hL s.sz ha).pays hK0) (by linarith)
    · have ho : a ∈ st.out := ok.resolve_left (fun hh => ha (s.mem.1 hh))
      exact s.extractOutN ho safe hpos'
  | update a f =>
    refine Pays.out ?_ (fun _ => rfl)
    by_cases ha : a ∈ A
    · obtain ⟨⟨l, r, e1, e2⟩, H1, D1, h1, T1, run1, s1, v1, v2, v3⟩ := s.extract hc ha
      have a0 := s.core.ne_zero ha
      have hl := s.core.alive ha
      have hna : a ∉ drop a A := fun hh => (mem_drop.1 hh).2 rfl
      have s2 : SimA cmp key al off { H1 with val := upd H1.val a (f (H1.val a)) }
          (st.take false (MultiSpec.isLater cmp key a st.elems) a) (drop a A) D1 h1 T1 := by
        refine s1.aside hc (n := a) ⟨rfl, rfl, rfl, rfl, ?_⟩ a0 hna rfl (fun _ h => h) (fun _ _ h => h) ?_
        · intro b hb; exact ⟨rfl, rfl, rfl, rfl, upd_ne _ _ hb⟩
        · intro _
          exact ⟨rfl, rfl, by show H1.live a = true; rw [v2]; exact hl⟩
      have hL1 : lg ((drop a A).length + 2) ≤ L := by
        refine le_trans (lg_mono (by omega) ?_) hL
        rw [drop_length (s.core.nodupA hc) ha]; omega
      refine .lift (getBr_live hl) (.lift (getBr_live hl) ?_)
      rw [e1, e2]
      simp only [reduceCtorEq, or_self, if_false]
      refine .mono ((s.core.extractN_pays hc hL (K := K) s.sz ha).bind (eraseNodeN_er _ _ _ _) run1 (b' := 8 * L + 3 + K) ?_)
        (by linarith)
      exact Pays.out (Pays.swap (s2.addN_pays hc hL1 a0 (by show H1.live a = true; rw [v2]; exact hl) hna)
        (phi_val s1.core K).symm) (fun _ => rfl)
    · have ho : a ∈ st.out := ok.resolve_left (fun hh => ha (s.mem.1 hh))
      have hl := (s.out a ho).1
      refine .lift (getBr_live hl) (.lift (getBr_live hl) ?_)
      split
      · exact .pure rfl hpos'
      · refine .mono ((s.extractOutN (K := K) ho safe (le_refl 0)).bind (eraseNodeN_er _ _ _ _) (s.extractOut ho safe) (b' := 0)
          (.pure rfl (le_refl _))) (by linarith)
  | begin => exact .lift (s.core.begin_ s.sz) (.pure rfl hpos')
  | rbegin => exact .lift (s.core.rbegin s.sz) (.pure rfl hpos')
  | next a =>
    obtain ⟨p, h1, h2⟩ := s.nextC hc (s.mem.1 ok) false
    exact .lift h1 (.pure rfl hpos')
  | rnext a =>
    obtain ⟨p, h1, h2⟩ := s.nextC hc (s.mem.1 ok) true
    exact .lift h1 (.pure rfl hpos')
  | equalRange b e => exact Pays.out (.mono (s.core.equalRangeN_pays hc hL s.sz b e false) (by linarith)) (fun _ => rfl)
  | equalRrange b e => exact Pays.out (.mono (s.core.equalRangeN_pays hc hL s.sz b e true) (by linarith)) (fun _ => rfl)
  | size => exact .pure rfl hpos'
  | isEmpty => exact .pure rfl hpos'
  | validate => exact .lift (s.core.validate hc s.sz) (.pure rfl hpos')
  | clear =>
    exact Pays.out (Pays.out (.mono (Core.clearLoopN_pays hc (le_of_eq hK.symm) A.length [] s.core hL s.sz rfl
      (fun hh => s.own (s.alloc.symm.trans hh))) hpos') (fun _ => rfl)) (fun _ => rfl)
  | drop a => exact .pure (phi_val s.core K) hpos'

/-- A history is paid for. -/
theorem runN_pays (hc : LawfulCmp cmp) (ops : List (MultiSpec.Op α κ)) : ∀ {H : Omm α} {st : St α},
    Sim cmp key al off H st → okRun cmp key al off st ops →
    (∀ pre, pre <+: ops → lg ((specRun cmp key al st pre).1.elems.length + 2) ≤ L) →
    Pays (12 * L + 5) (runN cmp key H ops) H (ops.length * (26 * L + 11)) := by
  induction ops with
  | nil => intro H st _ _ _; exact .pure rfl (by simp)
  | cons op ops ih =>
    intro H st ⟨A, D, h, T, s⟩ ⟨ok, sf, hr⟩ hL
    have hLA : lg (A.length + 2) ≤ L := by
      have := hL [] (by simp)
      simp only [MultiSpec.specRun, s.elems, List.length_map] at this
      exact this
    obtain ⟨H', e, sim⟩ := step_sim hc s.sim op ok sf
    have hp := stepN_pays hc s hLA rfl op ok sf
    have hq := ih sim hr (by
      intro pre hpre
      have := hL (op :: pre) (by simpa using hpre)
      simpa only [MultiSpec.specRun] using this)
    have := hp.bind (stepN_er _ _ _ _) e (f := fun p => runN cmp key p.1 ops >>= fun q => pure (q.1, p.2 :: q.2))
      (Pays.out (f := fun q => (q.1, (specStep cmp key al st op).2 :: q.2)) hq (fun _ => rfl))
    refine .mono this ?_
    simp only [List.length_cons]
    push_cast
    linarith

end CCC.Omm
