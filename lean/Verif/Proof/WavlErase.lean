import Verif.Proof.WavlRemove
/-
`remove_fixup`: unlinking a node, transplanting its successor, rebalancing.
-/
namespace CCC.Wavl
open CCC Links Tree

theorem is2child_congr {t t' : Links} {p x : Nat} (h1 : t'.live = t.live) (h2 : t'.parity = t.parity) :
    is2child t' p x = is2child t p x := by
  simp [is2child, getParity, h1, h2]

/-- Splitting a tree at one of its nodes. -/
theorem mem_split {t : Tree} {p : Nat} (h : p ∈ t.ids) : ∃ c k l r, t = plug c (node p k l r) := by
  induction t with
  | nil => simp [ids] at h
  | node i k l r il ir =>
    simp only [ids, List.mem_append, List.mem_cons] at h
    rcases h with h | rfl | h
    · obtain ⟨c, k', l', r', e⟩ := il h
      refine ⟨c ++ [⟨false, i, k, r⟩], k', l', r', ?_⟩
      rw [plug_append, ← e]; rfl
    · exact ⟨[], k, l, r, rfl⟩
    · obtain ⟨c, k', l', r', e⟩ := ir h
      refine ⟨c ++ [⟨true, i, k, l⟩], k', l', r', ?_⟩
      rw [plug_append, ← e]; rfl

/-- Replacing node `y` below path `c` by its only child: the writes of `remove_fixup`. -/
def cut (h : Links) (p y x : Nat) : Links :=
  { (if p = 0 then ({ h with par := upd h.par x p } : Links).setRoot x else { h with par := upd h.par x p }) with
    br := fun b e => if b = p ∧ e = (h.br p true == y) then x else h.br b e }

theorem cut_live (h : Links) (p y x : Nat) : (cut h p y x).live = h.live := by
  unfold cut; split <;> rfl
theorem cut_parity (h : Links) (p y x : Nat) : (cut h p y x).parity = h.parity := by
  unfold cut; split <;> rfl
theorem cut_par (h : Links) (p y x : Nat) : (cut h p y x).par = upd h.par x p := by
  unfold cut; split <;> rfl
theorem cut_br (h : Links) (p y x : Nat) :
    (cut h p y x).br = fun b e => if b = p ∧ e = (h.br p true == y) then x else h.br b e := by
  unfold cut; split <;> rfl

theorem cut_spec {h : Links} {c : Ctx} {d : Bool} {y k : Nat} {X : Tree}
    (w : Wv h c (nd d y k nil X)) : Wv (cut h (pid c) y X.rootId) c X := by
  have wd := fun {a : Nat} => w.whole.disj (a := a)
  have wn := w.whole.ids_nodup
  rw [nd_nodup] at wn
  obtain ⟨_, yX, _, nX, _⟩ := wn
  obtain ⟨y0, yl, _, yb, yp, _, rX⟩ := Rep_nd.1 w.whole.tree
  have Xc : ∀ a ∈ X.ids, a ∉ cids c := fun a ha => wd (by simp [ha])
  have Xp : ∀ a ∈ X.ids, a ≠ pid c := by
    intro a ha hh
    rcases pid_mem_or c with h1 | h1
    · subst h1; exact rX.ne_zero (by rw [hh] at ha; exact ha)
    · exact Xc a ha (hh ▸ h1)
  have hXrep : Rep (cut h (pid c) y X.rootId) (pid c) X := by
    refine rX.move nX (fun a _ => by rw [cut_live]) ?_ ?_ ?_
    · intro a ha
      rw [cut_br]; funext e; simp [Xp a ha]
    · intro a ha hne
      rw [cut_par]; simp [upd, hne]
    · intro _; rw [cut_par]; simp
  have hnd : (X.ids ++ cids c).Nodup := by
    rw [List.nodup_append]
    refine ⟨nX, w.whole.cids_nodup, fun a ha b hb hab => Xc a ha (hab ▸ hb)⟩
  have hctx : RepC (cut h (pid c) y X.rootId) c X.rootId := by
    have wc := w.whole.ctx
    rw [nd_rootId] at wc
    cases c with
    | nil => simp [RepC, cut, setRoot]
    | cons f c =>
      have h1c : RepC { h with par := upd h.par X.rootId f.id } (f :: c) y := by
        refine wc.congr rfl (fun _ _ => rfl) (fun _ _ => rfl) ?_
        intro a ha
        apply upd_ne
        intro hh
        rcases rootId_mem_or X with h1 | h1
        · exact wc.ne_zero (by rw [← h1, ← hh]; exact ha)
        · exact Xc _ h1 (hh ▸ ha)
      obtain ⟨h2, e2, c2, l2, p2, q2, b2⟩ := relink_spec (x := X.rootId) h1c y0 (wd (by simp)) w.whole.cids_nodup
      have fl : h.live f.id = true := wc.2.1
      have f0 : f.id ≠ 0 := wc.1
      have : h2 = cut h f.id y X.rootId := by
        simp only [relink, pid_cons, f0, if_false, Option.bind_eq_bind] at e2
        rw [getBr_live (by exact fl)] at e2
        simp only [Option.bind_some] at e2
        rw [setBr_live (by exact fl)] at e2
        have := (Option.some.inj e2).symm
        rw [this]; simp [cut, f0]
      rw [pid_cons, ← this]; exact c2
  refine ⟨⟨hctx, hXrep, hnd, by rw [cut_live]; exact w.whole.live0⟩, ?_, ?_, ?_⟩
  · exact (RP_nd.1 w.rp).2.2.congr (fun a _ => by rw [cut_parity])
  · exact w.rpc.congr (fun a _ => by rw [cut_parity])
  · rw [cut_parity]; exact w.par0

/-- `transplant` puts a node from outside the tree in the place of `rm`. -/
theorem transplant_spec {h : Links} {c : Ctx} {rm y k : Nat} {L R : Tree}
    (w : Wv h c (node rm k L R)) (y0 : y ≠ 0) (yl : h.live y = true)
    (yt : y ∉ (node rm k L R).ids) (yc : y ∉ cids c) :
    ∃ h', transplant h rm y = some h' ∧ Wv h' c (node y k L R) ∧ h'.live = h.live := by
  have wd := fun a => w.whole.disj (a := a)
  have wn := w.whole.ids_nodup
  change (nd false rm k L R).ids.Nodup at wn
  rw [nd_nodup] at wn
  obtain ⟨rL, rR, nL, nR, LR⟩ := wn
  obtain ⟨r0, rl, rb0, rb1, rp, repL, repR⟩ := w.whole.tree
  change y ∉ (nd false rm k L R).ids at yt
  simp only [mem_nd, not_or] at yt
  obtain ⟨yrm, yL, yR⟩ := yt
  have yrm : y ≠ rm := yrm
  have rmc : rm ∉ cids c := wd rm (by simp [ids])
  have Lc : ∀ a ∈ L.ids, a ∉ cids c := fun a ha => wd a (by simp [ids, ha])
  have Rc : ∀ a ∈ R.ids, a ∉ cids c := fun a ha => wd a (by simp [ids, ha])
  have wc : RepC h c rm := w.whole.ctx
  have h1c : RepC { h with par := upd h.par y (pid c) } c rm :=
    wc.congr rfl (fun _ _ => rfl) (fun _ _ => rfl) (fun a ha => upd_ne _ _ (fun hh => yc (hh ▸ ha)))
  obtain ⟨h2, e2, c2, l2, p2, q2, b2⟩ := relink_spec (x := y) h1c r0 rmc w.whole.cids_nodup
  have bb : ∀ a, a ∉ cids c → h2.br a = h.br a := fun a ha => b2 a ha
  have pp : h2.par = upd h.par y (pid c) := p2
  have Ll : h.live L.rootId = true := repL.root_live w.whole.live0
  have Rl : h.live R.rootId = true := repR.root_live w.whole.live0
  have Ly : L.rootId ≠ y := rootId_ne_of_not_mem y0 yL
  have Ry : R.rootId ≠ y := rootId_ne_of_not_mem y0 yR
  have rmp : (upd h.par y (pid c)) rm = pid c := by rw [upd_ne _ _ (Ne.symm yrm)]; exact rp
  refine ⟨{ h2 with
      par := upd (upd h2.par R.rootId y) L.rootId y
      br := fun b e => if b = y ∧ e = false then L.rootId else if b = y ∧ e = true then R.rootId else h2.br b e
      parity := upd h2.parity y (ev k) }, ?_, ?_, l2⟩
  · have l2r : h2.live rm = true := by rw [l2]; exact rl
    have l2y : h2.live y = true := by rw [l2]; exact yl
    have l2L : h2.live L.rootId = true := by rw [l2]; exact Ll
    have l2R : h2.live R.rootId = true := by rw [l2]; exact Rl
    have br1 : h2.br rm true = R.rootId := by rw [bb rm rmc]; exact rb1
    have br0 : h2.br rm false = L.rootId := by rw [bb rm rmc]; exact rb0
    have hpr : h2.parity rm = ev k := by rw [q2]; exact w.rp.1
    simp only [transplant, req, bne_zero r0, bne_zero y0, if_true, Option.bind_eq_bind, Option.bind_some,
      getPar_live rl, rp, setPar_live yl]
    rw [getPar_live (by exact rl)]
    simp only [Option.bind_some, rmp, e2, getBr_live l2r, br1]
    rw [setPar_live (by exact l2R)]
    simp only [Option.bind_some]
    rw [getBr_live (by exact l2r)]
    simp only [Option.bind_some, br0]
    rw [setPar_live (by exact l2L)]
    simp only [Option.bind_some]
    rw [getBr_live (by exact l2r)]
    simp only [Option.bind_some, br1]
    rw [setBr_live (by exact l2y)]
    simp only [Option.bind_some]
    rw [getBr_live (by exact l2r)]
    simp only [Option.bind_some, Ne.symm yrm, false_and, if_false, br0]
    rw [setBr_live (by exact l2y)]
    simp only [Option.bind_some]
    rw [getParity_live (by exact l2r)]
    simp only [Option.bind_some, hpr]
    rw [setParity_live (by exact l2y)]
  · have hL : ∀ a ∈ L.ids, a ≠ y ∧ a ∉ cids c ∧ a ≠ R.rootId := fun a ha =>
      ⟨fun hh => yL (hh ▸ ha), Lc a ha, fun hh => by
        rcases rootId_mem_or R with h3 | h3
        · exact repL.ne_zero (by rw [← h3, ← hh]; exact ha)
        · exact LR a ha (hh ▸ h3)⟩
    have hR : ∀ a ∈ R.ids, a ≠ y ∧ a ∉ cids c ∧ a ≠ L.rootId := fun a ha =>
      ⟨fun hh => yR (hh ▸ ha), Rc a ha, fun hh => by
        rcases rootId_mem_or L with h3 | h3
        · exact repR.ne_zero (by rw [← h3, ← hh]; exact ha)
        · exact LR a (hh ▸ h3) ha⟩
    refine ⟨⟨?_, ⟨y0, by show h2.live y = true; rw [l2]; exact yl, by simp, by simp, ?_, ?_, ?_⟩, ?_, ?_⟩, ?_, ?_, ?_⟩
    · refine c2.congr rfl (fun _ _ => rfl) ?_ ?_
      · intro a ha
        have h1 : a ≠ y := fun hh => yc (hh ▸ ha)
        funext e; simp [h1]
      · intro a ha
        have hr : ∀ T : Tree, (∀ j ∈ T.ids, j ∉ cids c) → a ≠ T.rootId := by
          intro T hT hh
          rcases rootId_mem_or T with h3 | h3
          · exact c2.ne_zero (by rw [← h3, ← hh]; exact ha)
          · exact hT _ h3 (hh ▸ ha)
        simp [upd, hr L Lc, hr R Rc]
    · simp [upd, Ne.symm Ly, Ne.symm Ry, pp]
    · refine repL.move nL (fun a _ => by show h2.live a = _; rw [l2]) ?_ ?_ ?_
      · intro a ha
        obtain ⟨h1, h3, h4⟩ := hL a ha
        funext e; simp [h1, bb a h3]
      · intro a ha hne
        obtain ⟨h1, h3, h4⟩ := hL a ha
        simp [upd, h1, h4, hne, pp]
      · intro _; simp
    · refine repR.move nR (fun a _ => by show h2.live a = _; rw [l2]) ?_ ?_ ?_
      · intro a ha
        obtain ⟨h1, h3, h4⟩ := hR a ha
        funext e; simp [h1, bb a h3]
      · intro a ha hne
        obtain ⟨h1, h3, h4⟩ := hR a ha
        simp [upd, h1, h4, hne, pp]
      · intro hm
        obtain ⟨h1, h3, h4⟩ := hR _ hm
        simp [upd, h4]
    · have := w.whole.nodup
      simp only [ids, List.append_assoc, List.cons_append] at this ⊢
      rw [List.nodup_append] at this ⊢
      obtain ⟨n1, n2, n3⟩ := this
      rw [List.nodup_cons] at n2 ⊢
      refine ⟨n1, ⟨?_, n2.2⟩, ?_⟩
      · simp only [List.mem_append, not_or]; exact ⟨yR, yc⟩
      · intro a ha b hb hab
        rw [List.mem_cons] at hb
        rcases hb with hb | hb
        · exact yL (hb ▸ hab ▸ ha)
        · exact n3 a ha b (List.mem_cons_of_mem _ hb) hab
    · show h2.live 0 = true
      rw [l2]; exact w.whole.live0
    · obtain ⟨p1, p2, p3⟩ := w.rp
      have cg : ∀ T : Tree, y ∉ T.ids → RP h T → RP { h2 with
          par := upd (upd h2.par R.rootId y) L.rootId y
          br := fun b e => if b = y ∧ e = false then L.rootId else if b = y ∧ e = true then R.rootId else h2.br b e
          parity := upd h2.parity y (ev k) } T := by
        intro T hT r
        refine r.congr (fun a ha => ?_)
        have : a ≠ y := fun hh => hT (hh ▸ ha)
        simp [upd, this, q2]
      exact ⟨by simp, cg L yL p2, cg R yR p3⟩
    · refine w.rpc.congr (fun a ha => ?_)
      have : a ≠ y := fun hh => yc (hh ▸ ha)
      simp [upd, this, q2]
    · simp [upd, Ne.symm y0, q2, w.par0]

/-- Every step of the path goes in direction `d`. -/
def AllDir (d : Bool) (c : Ctx) : Prop := ∀ f ∈ c, f.dir = d

theorem AllDir.before {c : Ctx} (h : AllDir false c) : before c = [] := by
  induction c with
  | nil => rfl
  | cons f c ih =>
    have h1 : f.dir = false := h f (by simp)
    simp [CCC.before, h1, ih (fun g hg => h g (by simp [hg]))]

theorem AllDir.after {c : Ctx} (h : AllDir true c) : after c = [] := by
  induction c with
  | nil => rfl
  | cons f c ih =>
    have h1 : f.dir = true := h f (by simp)
    simp [CCC.after, h1, ih (fun g hg => h g (by simp [hg]))]

/-- `min_max_from` finds the extreme node. -/
theorem minMaxLoop_spec {h : Links} (d : Bool) {t : Tree} : ∀ {p : Nat}, Rep h p t → t ≠ nil →
    ∃ c y k X, t = plug c (nd d y k nil X) ∧ AllDir d c ∧ minMaxLoop h t.rootId d = some y := by
  induction t with
  | nil => intro p _ hne; exact absurd rfl hne
  | node i k l r il ir =>
    intro p hr _
    have e : node i k l r = nd d i k (if d then r else l) (if d then l else r) := by cases d <;> rfl
    have hr' := hr
    rw [e] at hr'
    obtain ⟨i0, il', b1, b2, _, ra, rb⟩ := Rep_nd.1 hr'
    have key : ∀ a : Tree, a = (if d then r else l) → Rep h i a →
        (a ≠ nil → ∃ c y k X, a = plug c (nd d y k nil X) ∧ AllDir d c ∧ minMaxLoop h a.rootId d = some y) →
        ∃ c y k' X, node i k l r = plug c (nd d y k' nil X) ∧ AllDir d c ∧ minMaxLoop h i d = some y := by
      intro a ha hra hih
      rw [← ha] at b1
      by_cases hn : a = nil
      · refine ⟨[], i, k, (if d then l else r), ?_, by simp [AllDir], ?_⟩
        · rw [e, ← ha, hn]; rfl
        · rw [minMaxLoop]; simp [getBr_live il', b1, hn]
      · obtain ⟨c, y, k', X, e1, e2, e3⟩ := hih hn
        refine ⟨c ++ [⟨d, i, k, (if d then l else r)⟩], y, k', X, ?_, ?_, ?_⟩
        · rw [plug_append, ← e1, e, ← ha]; rfl
        · intro f hf
          rw [List.mem_append, List.mem_singleton] at hf
          rcases hf with hf | rfl
          · exact e2 f hf
          · rfl
        · have ha0 : a.rootId ≠ 0 := by
            cases a with
            | nil => exact absurd rfl hn
            | node => exact hra.1
          rw [minMaxLoop]
          simp only [getBr_live il', b1, Option.bind_eq_bind, Option.bind_some, ha0, if_false]
          exact e3
    cases d with
    | false => exact key l rfl (by simpa using ra) (fun hne => il (by simpa using ra) hne)
    | true => exact key r rfl (by simpa using ra) (fun hne => ir (by simpa using ra) hne)

theorem ValidC_reid {c2 : Ctx} {f f' : Frame} {c : Ctx} (h1 : f'.rk = f.rk) (h2 : f'.sib = f.sib) :
    ∀ {k : Nat}, ValidC (c2 ++ f :: c) k → ValidC (c2 ++ f' :: c) k := by
  induction c2 with
  | nil => intro k h; simpa [ValidC, h1, h2] using h
  | cons g c2 ih =>
    intro k h
    obtain ⟨a, b, c', d, e⟩ := h
    exact ⟨a, b, c', d, ih e⟩

/-- A node of a valid tree that is a leaf stores parity 0: the closing assertion of `remove_fixup`. -/
theorem leaf_assert {h : Links} {T : Tree} {p : Nat} (w : Wv h [] T) (v : Valid T) (hp : p ∈ T.ids) :
    ∃ b, isLeaf h p = some b ∧ h.getParity p = some (h.parity p) ∧ req (!b || !h.parity p) = some () := by
  obtain ⟨c, k, l, r, rfl⟩ := mem_split hp
  have w' := Wv.plug.2 w
  have v' := ((Valid_plug c _).1 v).2
  have e := isLeaf_spec (d := false) w' v'.2.2.2.1 v'.2.2.2.2
  have pl : h.live p = true := by simpa using w'.root_live
  have pp : h.parity p = ev k := by simpa using w'.root_parity
  refine ⟨_, e, getParity_live pl, ?_⟩
  by_cases hl : l.rk = 0 ∧ r.rk = 0
  · have hk : k = 1 := v'.2.2.1 hl.1 hl.2
    subst hk
    simp [req, pp, ev]
  · simp [req, hl]

/-- Rank of the innermost node of the path is `k`. -/
def hdTwo : Ctx → Nat → Bool
  | [], _ => false
  | f :: _, k => decide (f.rk = k)

theorem cids_append (c2 : Ctx) (f : Frame) (c : Ctx) :
    cids (c2 ++ f :: c) = cids c2 ++ (f.id :: (f.sib.ids ++ cids c)) := by
  induction c2 with
  | nil => rfl
  | cons g c2 ih => simp [ih]

theorem removeRebalance_spec {h : Links} {C : Ctx} {X : Tree} (w : Wv h C X) (vX : Valid X)
    (vC : ValidC C (X.rk + 1)) {two : Bool}
    (htwo : two = hdTwo C (X.rk + 3)) :
    Fixed (removeRebalance h (pid C) X.rootId two) h.live (plug C X).ids := by
  cases C with
  | nil =>
    refine ⟨h, X, ?_, w, vX, rfl, rfl⟩
    simp [removeRebalance]
  | cons f c =>
    simp only [hdTwo] at htwo
    have f0 : f.id ≠ 0 := w.whole.ctx.1
    have fl : h.live f.id = true := w.whole.ctx.2.1
    obtain ⟨v1, v2, _, vs, vc⟩ := vC
    have fin : ∀ op : Option Links, Fixed op h.live (plug (f :: c) X).ids →
        Fixed (do let t ← op
                  let leaf ← isLeaf t f.id
                  let b ← t.getParity f.id
                  req (!leaf || !b)
                  some t) h.live (plug (f :: c) X).ids := by
      rintro op ⟨h', T', e1, w', v', i', l'⟩
      refine ⟨h', T', ?_, w', v', i', l'⟩
      have hm : f.id ∈ T'.ids := by
        rw [i', (plug_ids_perm (f :: c) X).mem_iff]; simp
      obtain ⟨b, q1, q2, q3⟩ := leaf_assert w' v' hm
      simp only [e1, Option.bind_eq_bind, Option.bind_some, q1, q2, q3]
    rw [removeRebalance, pid_cons, if_pos f0]
    apply fin
    by_cases h3 : f.rk = X.rk + 3
    · have : two = true := by rw [htwo]; simpa using h3
      rw [this, if_pos rfl]
      exact rebalance3child_spec w vX vs h3 v2 vc
    · have : two = false := by rw [htwo]; simpa using h3
      rw [this, if_neg (by simp)]
      have hk : f.rk = X.rk + 2 := by omega
      have rs : Rep h f.id f.sib := w.whole.ctx.2.2.2.2.2.1
      have bx : h.br f.id f.dir = X.rootId := w.whole.ctx.2.2.1
      have bs : h.br f.id (!f.dir) = f.sib.rootId := w.whole.ctx.2.2.2.1
      have lr : h.br f.id false = h.br f.id true ↔ X.rootId = f.sib.rootId := by
        rw [← bx, ← bs]; cases f.dir
        · rfl
        · exact eq_comm
      have x0 := vX.rootId w.whole.tree
      have s0 := vs.rootId rs
      simp only [getBr_live fl, Option.bind_eq_bind, Option.bind_some]
      by_cases hz : X.rk = 0 ∧ f.sib.rk = 0
      · have hz' : X.rootId = 0 ∧ h.br f.id false = h.br f.id true := by
          rw [lr]; exact ⟨x0.2 hz.1, by rw [x0.2 hz.1, s0.2 hz.2]⟩
        rw [if_pos hz']
        have wf : Wv h c (nd f.dir f.id f.rk X f.sib) := Wv.up.1 w
        have fp : h.par f.id = pid c := w.whole.ctx.2.2.2.2.1
        obtain ⟨h4, e4, w4, l4⟩ := promote_spec 1 wf (by apply ev_not; omega)
        have fp4 : h4.par f.id = pid c := by simpa using w4.whole.tree.root_par (by simp)
        have fl4 : h4.live f.id = true := by rw [l4]; exact fl
        have v4 : Valid (nd f.dir f.id 1 X f.sib) :=
          Valid_nd.2 ⟨by omega, by omega, by omega, vX, vs⟩
        have e2 := is2child_pid wf
        simp only [nd_rootId, nd_rk] at e2
        have hid : (plug c (nd f.dir f.id 1 X f.sib)).ids = (plug (f :: c) X).ids := by
          rw [plug_cons]; apply plug_ids_eq; cases hd : f.dir <;> simp [Frame.fill, hd, ids]
        simp only [getPar_live fl, fp, Option.bind_some, e2, e4]
        cases c with
        | nil =>
          simp only [Bool.false_eq_true, if_false]
          exact ⟨h4, _, rfl, w4, v4, hid, l4⟩
        | cons g c =>
          obtain ⟨g1, g2, g3, gs, gc⟩ := vc
          by_cases hg : g.rk = f.rk + 2
          · have t : (ev g.rk == ev f.rk) = true := by rw [ev_eq_iff]; simp; omega
            simp only [t, if_true, getPar_live fl4, fp4, Option.bind_some, pid_cons]
            have := rebalance3child_spec w4 v4 gs (by simp; omega) g2 gc
            rw [nd_rootId] at this
            exact this.cast l4 hid
          · have t : (ev g.rk == ev f.rk) = false := by rw [ev_eq_iff]; simp; omega
            simp only [t, Bool.false_eq_true, if_false]
            refine ⟨h4, _, rfl, Wv.plug.1 w4, ?_, hid, l4⟩
            rw [Valid_plug]
            exact ⟨⟨by simp; omega, g2, by simp, gs, gc⟩, v4⟩
      · have hz' : ¬ (X.rootId = 0 ∧ h.br f.id false = h.br f.id true) := by
          rw [lr]; rintro ⟨q1, q2⟩
          exact hz ⟨x0.1 q1, s0.1 (by rw [← q2, q1])⟩
        rw [if_neg hz']
        refine ⟨h, _, rfl, Wv.plug.1 w, ?_, rfl, rfl⟩
        rw [Valid_plug]
        exact ⟨⟨by omega, v2, by omega, vs, vc⟩, vX⟩

theorem two_spec {h : Links} {c : Ctx} {d : Bool} {y k : Nat} {X : Tree} (w : Wv h c (nd d y k nil X))
    (vc : ValidC c k) :
    is2child h (pid c) y = some (hdTwo c (k + 2)) := by
  have e := is2child_pid w
  rw [nd_rootId, nd_rk] at e
  rw [e]
  cases c with
  | nil => rfl
  | cons f c =>
    simp only [hdTwo]
    have := vc.1
    congr 1
    rw [ev_eq_iff]; apply decide_eq_decide.2; omega

/-- Unlinking leaves a tree `X` below a path `C` on which one rank difference may be too large. -/
theorem removeUnlink_spec {h : Links} {c : Ctx} {rm k : Nat} {L R : Tree} (w : Wv h c (node rm k L R))
    (v : Valid (plug c (node rm k L R))) :
    ∃ h' C X, removeUnlink h rm = some (h', pid C, X.rootId, hdTwo C (X.rk + 3)) ∧ Wv h' C X ∧ Valid X ∧
      ValidC C (X.rk + 1) ∧ h'.live = h.live ∧ (plug C X).ids = before c ++ (L.ids ++ R.ids) ++ after c ∧
      ∃ c' T', plug c (node rm k L R) = plug c' T' ∧ C.length = c'.length := by
  obtain ⟨vc, vn⟩ := (Valid_plug c _).1 v
  rw [node_rk] at vc
  obtain ⟨k1, k2, k3, vL, vR⟩ := vn
  obtain ⟨rm0, rml, b0, b1, rp, repL, repR⟩ := w.whole.tree
  have L0 := vL.rootId repL
  have R0 := vR.rootId repR
  by_cases hone : L.rk = 0 ∨ R.rk = 0
  · -- at most one child
    have hcond : h.br rm false = 0 ∨ h.br rm true = 0 := by
      rw [b0, b1, L0, R0]; exact hone
    -- the remaining child
    obtain ⟨d, X, hX, hXb, vX, hXk, hXids⟩ : ∃ d X, node rm k L R = nd d rm k nil X ∧
        h.br rm (h.br rm false == 0) = X.rootId ∧ Valid X ∧ k = X.rk + 1 ∧ X.ids = L.ids ++ R.ids := by
      by_cases hl : L.rk = 0
      · refine ⟨false, R, ?_, ?_, vR, by omega, ?_⟩
        · rw [vL.eq_nil hl]; rfl
        · rw [b0, L0.2 hl]; exact b1
        · rw [vL.eq_nil hl]; rfl
      · have hr : R.rk = 0 := by omega
        refine ⟨true, L, ?_, ?_, vL, by omega, ?_⟩
        · rw [vR.eq_nil hr]; rfl
        · have : (h.br rm false == 0) = false := by rw [b0]; simp [L0, hl]
          rw [this]; exact b0
        · rw [vR.eq_nil hr]; simp [ids]
    rw [hX] at w
    have two := two_spec w vc
    have wX := cut_spec w
    have pl := w.pid_live
    have Xl : h.live X.rootId = true := (Wv.down'.1 w).root_live
    have run : removeUnlink h rm = some (cut h (pid c) rm X.rootId, pid c, X.rootId, hdTwo c (k + 2)) := by
      simp only [removeUnlink, getBr_live rml, Option.bind_eq_bind, Option.bind_some, hcond, if_true,
        getPar_live rml, rp, hXb, setPar_live Xl]
      have e1 : is2child (if pid c = 0 then ({ h with par := upd h.par X.rootId (pid c) } : Links).setRoot X.rootId
          else { h with par := upd h.par X.rootId (pid c) }) (pid c) rm = is2child h (pid c) rm := by
        apply is2child_congr <;> (split <;> rfl)
      simp only [e1, two, Option.bind_some]
      have lv : (if pid c = 0 then ({ h with par := upd h.par X.rootId (pid c) } : Links).setRoot X.rootId
          else { h with par := upd h.par X.rootId (pid c) }).live (pid c) = true := by
        split <;> exact pl
      have brq : (if pid c = 0 then ({ h with par := upd h.par X.rootId (pid c) } : Links).setRoot X.rootId
          else { h with par := upd h.par X.rootId (pid c) }).br = h.br := by
        split <;> rfl
      rw [getBr_live lv]
      simp only [Option.bind_some]
      rw [setBr_live lv]
      simp only [Option.bind_some, brq]
      congr 2
    exact ⟨_, c, X, by rw [run, hXk], wX, vX, by rw [← hXk]; exact vc, cut_live _ _ _ _, by rw [plug_ids, hXids],
      c, _, rfl, rfl⟩
  · -- two children: the successor takes the place of the removed node
    have Lk : L.rk ≠ 0 := fun h => hone (Or.inl h)
    have Rk : R.rk ≠ 0 := fun h => hone (Or.inr h)
    have hcond : ¬ (h.br rm false = 0 ∨ h.br rm true = 0) := by
      rw [b0, b1, L0, R0]; exact hone
    have Rnil : R ≠ nil := by rintro rfl; simp at Rk
    obtain ⟨c2, y, ky, X, eR, hd2, emin⟩ := minMaxLoop_spec false repR Rnil
    have hR0 : R.rootId ≠ 0 := by rw [Ne, R0]; exact Rk
    have emin' : minMaxFrom h R.rootId false = some y := by simp [minMaxFrom, hR0, emin]
    subst eR
    have wy : Wv h (c2 ++ ⟨true, rm, k, L⟩ :: c) (nd false y ky nil X) := by
      rw [Wv.plug, plug_append, plug_cons, ← Wv.plug]
      exact w
    have vy : ValidC (c2 ++ ⟨true, rm, k, L⟩ :: c) ky ∧ Valid (nd false y ky nil X) := by
      have := Valid_plug (c2 ++ ⟨true, rm, k, L⟩ :: c) (nd false y ky nil X)
      rw [nd_rk] at this
      rw [← this, plug_append, plug_cons]
      exact v
    obtain ⟨vcy, vny⟩ := vy
    rw [Valid_nd] at vny
    obtain ⟨j1, j2, j3, _, vX⟩ := vny
    simp only [nil_rk] at j1 j3
    have j3 := j3 trivial
    have hky : ky = X.rk + 1 := by omega
    have two := two_spec wy vcy
    have wX := cut_spec wy
    -- refold at the removed node
    have wrm : Wv (cut h (pid (c2 ++ ⟨true, rm, k, L⟩ :: c)) y X.rootId) c (node rm k L (plug c2 X)) := by
      rw [Wv.plug, plug_append, plug_cons, ← Wv.plug] at wX
      exact wX
    have hyd := wy.whole.disj (a := y) (by simp [ids])
    have hyn := wy.whole.ids_nodup
    rw [nd_nodup] at hyn
    have y0 : y ≠ 0 := (Rep_nd.1 wy.whole.tree).1
    have yl : h.live y = true := by simpa using wy.root_live
    rw [cids_append] at hyd
    simp only [List.mem_append, List.mem_cons, not_or] at hyd
    have ynew : y ∉ (node rm k L (plug c2 X)).ids := by
      simp only [ids, List.mem_append, List.mem_cons, not_or, (plug_ids_perm c2 X).mem_iff]
      exact ⟨hyd.2.2.1, hyd.2.1, hyn.2.1, hyd.1⟩
    obtain ⟨h3, e3, w3, l3⟩ := transplant_spec wrm y0 (by rw [cut_live]; exact yl) ynew hyd.2.2.2
    have w4 : Wv h3 (c2 ++ ⟨true, y, k, L⟩ :: c) X := by
      rw [Wv.plug, plug_append, plug_cons, ← Wv.plug]
      exact w3
    have v4 : ValidC (c2 ++ ⟨true, y, k, L⟩ :: c) (X.rk + 1) := by
      rw [← hky]; exact ValidC_reid (f := ⟨true, rm, k, L⟩) (f' := ⟨true, y, k, L⟩) rfl rfl vcy
    have htwo : hdTwo (c2 ++ ⟨true, rm, k, L⟩ :: c) (ky + 2) = hdTwo (c2 ++ ⟨true, y, k, L⟩ :: c) (X.rk + 3) := by
      cases c2 <;> simp [hky, hdTwo]
    have hpp : (if rm = pid (c2 ++ ⟨true, rm, k, L⟩ :: c) then y else pid (c2 ++ ⟨true, rm, k, L⟩ :: c)) =
        pid (c2 ++ ⟨true, y, k, L⟩ :: c) := by
      cases c2 with
      | nil => simp
      | cons g c2 =>
        simp only [List.cons_append, pid_cons]
        have : rm ≠ g.id := by
          intro hh
          have hn := w.whole.ids_nodup
          simp only [ids, List.nodup_append, List.nodup_cons, (plug_ids_perm (g :: c2) _).mem_iff] at hn
          apply hn.2.1.1
          rw [hh]; simp
        simp [this]
    have p0 : pid (c2 ++ ⟨true, rm, k, L⟩ :: c) ≠ 0 := by
      rw [Ne, wy.whole.ctx.pid_eq_zero]; simp
    have pl := wy.pid_live
    have Xl : h.live X.rootId = true := (Wv.down'.1 wy).root_live
    obtain ⟨_, _, yb0, yb1, yp, _, _⟩ := Rep_nd.1 wy.whole.tree
    simp only [Bool.not_false, nil_rootId] at yb0 yb1
    have run : removeUnlink h rm = some (h3, pid (c2 ++ ⟨true, y, k, L⟩ :: c), X.rootId,
        hdTwo (c2 ++ ⟨true, rm, k, L⟩ :: c) (ky + 2)) := by
      simp only [removeUnlink, getBr_live rml, Option.bind_eq_bind, Option.bind_some]
      rw [if_neg hcond]
      simp only [b1, emin', Option.bind_some,
        getPar_live yl, yp, getBr_live yl, yb0, beq_self_eq_true, yb1, setPar_live Xl, req, bne_zero p0, if_true]
      have e1 : is2child ({ h with par := upd h.par X.rootId (pid (c2 ++ ⟨true, rm, k, L⟩ :: c)) } : Links)
          (pid (c2 ++ ⟨true, rm, k, L⟩ :: c)) y = is2child h (pid (c2 ++ ⟨true, rm, k, L⟩ :: c)) y :=
        is2child_congr rfl rfl
      simp only [e1, two, Option.bind_some]
      rw [getBr_live (by exact pl)]
      simp only [Option.bind_some]
      rw [setBr_live (by exact pl)]
      have ec : cut h (pid (c2 ++ ⟨true, rm, k, L⟩ :: c)) y X.rootId =
          { h with
            par := upd h.par X.rootId (pid (c2 ++ ⟨true, rm, k, L⟩ :: c))
            br := fun b e => if b = pid (c2 ++ ⟨true, rm, k, L⟩ :: c) ∧
              e = (h.br (pid (c2 ++ ⟨true, rm, k, L⟩ :: c)) true == y) then X.rootId else h.br b e } := by
        unfold cut; rw [if_neg p0]
      rw [ec] at e3
      simp only [Option.bind_some, e3, hpp]
    have hfinal : (plug (c2 ++ ⟨true, y, k, L⟩ :: c) X).ids =
        before c ++ (L.ids ++ (plug c2 (nd false y ky nil X)).ids) ++ after c := by
      rw [plug_append, plug_cons, plug_ids]
      simp only [Frame.fill, nd_true, ids, plug_ids, hd2.before, nd_false, List.nil_append,
        List.append_assoc, List.cons_append]
    refine ⟨h3, c2 ++ ⟨true, y, k, L⟩ :: c, X, by rw [run, htwo], w4, vX, v4, by rw [l3, cut_live], hfinal,
      c2 ++ ⟨true, rm, k, L⟩ :: c, nd false y ky nil X, ?_, by simp⟩
    rw [plug_append, plug_cons]
    rfl

theorem removeLinks_spec {h : Links} {c : Ctx} {rm k : Nat} {L R : Tree} (w : Wv h c (node rm k L R))
    (v : Valid (plug c (node rm k L R))) :
    Fixed (removeLinks h rm) h.live (before c ++ (L.ids ++ R.ids) ++ after c) := by
  obtain ⟨h', C, X, run, w', vX, vC, hl, hi, _⟩ := removeUnlink_spec w v
  have := removeRebalance_spec w' vX vC rfl
  simp only [removeLinks, run, Option.bind_eq_bind, Option.bind_some]
  exact this.cast hl hi

end CCC.Wavl
