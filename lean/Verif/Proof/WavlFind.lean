import Verif.Proof.WavlErase
import Verif.Proof.Mono
/-
Lookup, iteration and insertion below a found parent.
-/
namespace CCC.Wavl
open CCC Links Tree

/-- First (`false`) or last (`true`) member of a list, `0` if there is none. -/
def endOf (d : Bool) (l : List Nat) : Nat := if d then l.getLastD 0 else l.headD 0

theorem split_unique {pre post pre' post' : List Nat} {n : Nat} (hnd : (pre ++ n :: post).Nodup)
    (e : pre ++ n :: post = pre' ++ n :: post') : pre = pre' ∧ post = post' := by
  induction pre generalizing pre' with
  | nil =>
    cases pre' with
    | nil => simpa using e
    | cons a pre' =>
      simp only [List.nil_append, List.cons_append, List.cons.injEq] at e
      obtain ⟨rfl, e⟩ := e
      simp [e] at hnd
  | cons a pre ih =>
    cases pre' with
    | nil =>
      simp only [List.nil_append, List.cons_append, List.cons.injEq] at e
      obtain ⟨rfl, e⟩ := e
      simp at hnd
    | cons b pre' =>
      simp only [List.cons_append, List.cons.injEq] at e
      obtain ⟨rfl, e⟩ := e
      have := ih (by simp only [List.cons_append, List.nodup_cons] at hnd; exact hnd.2) e
      simp [this]

theorem minMaxLoop_ids {h : Links} {d : Bool} {t : Tree} {p : Nat} (hr : Rep h p t) (hne : t ≠ nil) :
    minMaxLoop h t.rootId d = some (endOf d t.ids) := by
  obtain ⟨c, y, k, X, e, had, hm⟩ := minMaxLoop_spec d hr hne
  rw [hm, e, plug_ids]
  cases d
  · simp [endOf, ids, had.before]
  · simp [endOf, ids, had.after]

theorem minMaxFrom_whole {h : Links} {T : Tree} (w : Whole h [] T) (d : Bool) :
    minMaxFrom h h.root d = some (endOf d T.ids) := by
  have hroot : h.root = T.rootId := w.ctx
  cases T with
  | nil => simp [minMaxFrom, hroot, endOf, ids]
  | node i k l r =>
    have hr := w.tree
    have i0 : i ≠ 0 := hr.1
    rw [← minMaxLoop_ids hr (by simp), hroot]
    simp [minMaxFrom, i0]

theorem minMaxFrom_spec {h : Links} {T : Tree} (w : Wv h [] T) (d : Bool) :
    minMaxFrom h h.root d = some (endOf d T.ids) := minMaxFrom_whole w.whole d

theorem Whole.plug {h : Links} {c : Ctx} {t : Tree} : Whole h c t ↔ Whole h [] (plug c t) := by
  induction c generalizing t with
  | nil => rfl
  | cons f c ih => rw [Whole.up, ih, plug_cons]

/-- Climbing out of a subtree reaches the neighbour in order. -/
theorem climb_spec {h : Links} {c : Ctx} (trav : Bool) : ∀ {t : Tree}, Whole h c t → t ≠ nil →
    climb h t.rootId trav = some (if trav then (after c).headD 0 else (before c).getLastD 0) := by
  induction c with
  | nil =>
    intro t w hne
    have hl : h.live t.rootId = true := w.tree.root_live w.live0
    have hp : h.par t.rootId = 0 := by
      cases t with
      | nil => exact absurd rfl hne
      | node => exact w.tree.2.2.2.2.1
    rw [climb]
    simp only [getPar_live hl, hp, Option.bind_eq_bind, Option.bind_some]
    cases trav <;> simp [before, after]
  | cons f c ih =>
    intro t w hne
    have hl : h.live t.rootId = true := w.tree.root_live w.live0
    have hp : h.par t.rootId = f.id := by
      cases t with
      | nil => exact absurd rfl hne
      | node => exact w.tree.2.2.2.2.1
    obtain ⟨f0, fl, b1, b2, _, rs, _⟩ := w.ctx
    have hns : t.rootId ≠ f.sib.rootId := by
      intro hh
      have t0 : t.rootId ≠ 0 := by
        cases t with
        | nil => exact absurd rfl hne
        | node => exact w.tree.1
      have m1 := (rootId_mem_or t).resolve_left t0
      have m2 := (rootId_mem_or f.sib).resolve_left (hh ▸ t0)
      have := w.disj m1
      rw [hh] at this
      simp [m2] at this
    have hb : (h.br f.id (!trav) == t.rootId) = (f.dir == !trav) := by
      cases trav with
      | true => rw [show (!true) = false from rfl, w.dir_false hns]; cases f.dir <;> rfl
      | false => rw [show (!false) = true from rfl, w.dir_true hns]; cases f.dir <;> rfl
    have hb' : (h.br f.id (!trav) = t.rootId) ↔ f.dir = !trav := by
      rw [← beq_iff_eq, hb, beq_iff_eq]
    rw [climb]
    simp only [getPar_live hl, hp, Option.bind_eq_bind, Option.bind_some, f0, if_false, getBr_live fl]
    have := ih (Whole.up.1 w) (by cases hf : f.dir <;> simp [Frame.fill, hf])
    rw [fill_rootId] at this
    by_cases hd : f.dir = !trav
    · rw [if_pos (hb'.2 hd)]
      cases trav <;> simp_all [before, after]
    · rw [if_neg (fun hh => hd (hb'.1 hh)), this]
      cases trav <;> cases hf : f.dir <;> simp_all [before, after]

theorem headD_append (a b : List Nat) : (a ++ b).headD 0 = if a = [] then b.headD 0 else a.headD 0 := by
  cases a <;> simp
theorem getLastD_append' (a b : List Nat) :
    (a ++ b).getLastD 0 = if b = [] then a.getLastD 0 else b.getLastD 0 := by
  cases b with
  | nil => simp
  | cons x b => simp [List.getLast?_append, List.getLast?_cons]

theorem next_whole {h : Links} {T : Tree} (w : Whole h [] T) {pre post : List Nat} {n : Nat}
    (e : T.ids = pre ++ n :: post) (trav : Bool) :
    next h n trav = some (if trav then post.headD 0 else pre.getLastD 0) := by
  have hn : n ∈ T.ids := by rw [e]; simp
  obtain ⟨c, k, l, r, rfl⟩ := mem_split hn
  have wc := Whole.plug.2 w
  have hnd : (plug c (node n k l r)).ids.Nodup := by simpa using w.nodup
  rw [e] at hnd
  have e2 := plug_ids c (node n k l r)
  rw [e, show (node n k l r).ids = l.ids ++ n :: r.ids from rfl,
    show before c ++ (l.ids ++ n :: r.ids) ++ after c = (before c ++ l.ids) ++ n :: (r.ids ++ after c) by simp] at e2
  obtain ⟨rfl, rfl⟩ := split_unique hnd e2
  obtain ⟨n0, nl, b0, b1, _, rl, rr⟩ := wc.tree
  have hrp : h.getPar h.root = some 0 := by
    have hr := w.tree
    have hroot : h.root = (plug c (node n k l r)).rootId := w.ctx
    rw [hroot, getPar_live (w.tree.root_live w.live0)]
    congr 1
    apply hr.root_par
    rcases rootId_mem_or (plug c (node n k l r)) with h0 | h0
    · exfalso
      cases hp : plug c (node n k l r) with
      | nil => rw [hp] at hn; simp [ids] at hn
      | node i k l r => rw [hp] at hr h0; exact hr.1 h0
    · exact h0
  have cl := climb_spec trav wc (by simp)
  simp only [node_rootId] at cl
  have key : ∀ (b : Tree), Rep h n b → h.br n trav = b.rootId →
      next h n trav = some (if b.ids = [] then (if trav then (after c).headD 0 else (before c).getLastD 0)
        else endOf (!trav) b.ids) := by
    intro b hb hbr
    simp only [next, n0, if_false, hrp, Option.bind_eq_bind, Option.bind_some, req, beq_self_eq_true, if_true,
      getBr_live nl, hbr]
    cases b with
    | nil => simp [cl, ids]
    | node i k' l' r' =>
      have i0 : i ≠ 0 := hb.1
      have := minMaxLoop_ids (d := !trav) hb (by simp)
      simp only [node_rootId] at this
      simp [i0, this, ids]
  cases trav with
  | true =>
    rw [key r rr b1, headD_append]
    rfl
  | false =>
    rw [key l rl b0, getLastD_append']
    rfl

theorem next_spec {h : Links} {T : Tree} (w : Wv h [] T) {pre post : List Nat} {n : Nat}
    (e : T.ids = pre ++ n :: post) (trav : Bool) :
    next h n trav = some (if trav then post.headD 0 else pre.getLastD 0) := next_whole w.whole e trav

/-- The comparison result that led into the hole of a path. -/
def lastOf : Ctx → Cmp
  | [] => .err
  | f :: _ => if f.dir then .grt else .les

/-- The path was taken by following comparisons. -/
def PathOk (c : Nat → Cmp) (cx : Ctx) : Prop := ∀ f ∈ cx, c f.id = if f.dir then .grt else .les

theorem findLoop_spec {h : Links} {c : Nat → Cmp} : ∀ {t : Tree} {cx : Ctx}, Rep h (pid cx) t → PathOk c cx →
    (∀ a ∈ t.ids, c a ≠ .err) →
    (∃ cx' x k l r, plug cx t = plug cx' (node x k l r) ∧ c x = .eql ∧
      findLoop h c (pid cx) t.rootId (lastOf cx) = some (.eql, x)) ∨
    (∃ cx', plug cx t = plug cx' nil ∧ PathOk c cx' ∧
      findLoop h c (pid cx) t.rootId (lastOf cx) = some (lastOf cx', pid cx')) := by
  intro t
  induction t with
  | nil =>
    intro cx _ hp _
    right
    refine ⟨cx, rfl, hp, ?_⟩
    rw [findLoop]; simp
  | node i k l r il ir =>
    intro cx hr hp he
    obtain ⟨i0, hl, b0, b1, _, rl, rr⟩ := hr
    rw [findLoop]
    simp only [node_rootId, i0, if_false, hl, Bool.not_true, Bool.false_eq_true]
    have hcs : c i = .eql ∨ c i = .les ∨ c i = .grt := by
      have := he i (by simp [ids])
      revert this
      cases c i <;> simp
    rcases hcs with hc | hc | hc
    · left; exact ⟨cx, i, k, l, r, rfl, hc, by simp [hc]⟩
    · have := il (cx := ⟨false, i, k, r⟩ :: cx) rl (by
        intro f hf
        rcases List.mem_cons.1 hf with rfl | hf
        · simpa using hc
        · exact hp f hf) (fun a ha => he a (by simp [ids, ha]))
      simpa [getBr_live hl, b0, hc, Frame.fill, lastOf] using this
    · have := ir (cx := ⟨true, i, k, l⟩ :: cx) rr (by
        intro f hf
        rcases List.mem_cons.1 hf with rfl | hf
        · simpa using hc
        · exact hp f hf) (fun a ha => he a (by simp [ids, ha]))
      simpa [getBr_live hl, b1, hc, Frame.fill, lastOf] using this

theorem PathOk.sides {c : Nat → Cmp} {cx : Ctx} : ∀ {m : List Nat}, PathOk c cx →
    Mono c (before cx ++ m ++ after cx) → (∀ a ∈ before cx, c a = .grt) ∧ (∀ a ∈ after cx, c a = .les) := by
  induction cx with
  | nil => intro m _ _; simp [before, after]
  | cons f cx ih =>
    intro m hp hm
    have hf := hp f (by simp)
    have hp' : PathOk c cx := fun g hg => hp g (by simp [hg])
    cases hd : f.dir with
    | true =>
      simp only [hd, if_true] at hf
      simp only [before, after, hd, if_true] at hm ⊢
      obtain ⟨i1, i2⟩ := ih (m := f.sib.ids ++ f.id :: m) hp' (by simpa using hm)
      refine ⟨?_, i2⟩
      intro a ha
      simp only [List.mem_append, List.mem_singleton] at ha
      rcases ha with (ha | ha) | rfl
      · exact i1 a ha
      · have := hm.ord
        simp only [List.append_assoc, List.cons_append, List.nil_append, List.pairwise_append] at this
        exact (this.2.1.2.2 a ha f.id (by simp)).1 (by rw [hf]; simp)
      · exact hf
    | false =>
      simp only [hd, Bool.false_eq_true, if_false] at hf
      simp only [before, after, hd, Bool.false_eq_true, if_false] at hm ⊢
      obtain ⟨i1, i2⟩ := ih (m := m ++ f.id :: f.sib.ids) hp' (by simpa using hm)
      refine ⟨i1, ?_⟩
      intro a ha
      simp only [List.cons_append, List.mem_cons, List.mem_append] at ha
      rcases ha with rfl | ha | ha
      · exact hf
      · have := hm.ord
        rw [List.pairwise_append] at this
        have := this.2.1
        rw [List.cons_append, List.pairwise_cons] at this
        exact (this.1 a (by simp [ha])).2 (by rw [hf]; simp)
      · exact i2 a ha

/-- What `find` returns on a sorted tree. -/
theorem find_cases {h : Links} {T : Tree} (hr : Rep h 0 T) (hroot : h.root = T.rootId) {c : Nat → Cmp}
    (hm : Mono c T.ids) :
    (∃ pre x post, T.ids = pre ++ x :: post ∧ c x = .eql ∧ (∀ a ∈ pre, c a = .grt) ∧ (∀ a ∈ post, c a = .les) ∧
      find h c = some (.eql, x)) ∨
    (T = nil ∧ find h c = some (.err, 0)) ∨
    (∃ f cx, T = plug (f :: cx) nil ∧ (∀ a ∈ before (f :: cx), c a = .grt) ∧
      (∀ a ∈ after (f :: cx), c a = .les) ∧ find h c = some (if f.dir then .grt else .les, f.id)) := by
  rcases findLoop_spec (c := c) (cx := []) (by simpa using hr) (by simp [PathOk]) hm.noErr with
    ⟨cx, x, k, l, r, e, hx, hf⟩ | ⟨cx, e, hp, hf⟩
  · left
    have e2 : T.ids = (before cx ++ l.ids) ++ x :: (r.ids ++ after cx) := by
      have := congrArg Tree.ids e
      rw [plug_nil, plug_ids] at this
      simp [this, ids]
    refine ⟨_, x, _, e2, hx, ?_⟩
    rw [e2] at hm
    obtain ⟨s1, s2⟩ := hm.split_eql hx
    exact ⟨s1, s2, by rw [find, hroot]; exact hf⟩
  · right
    rw [plug_nil] at e
    have hf' : find h c = some (lastOf cx, pid cx) := by rw [find, hroot]; exact hf
    cases cx with
    | nil => left; exact ⟨by simpa using e, hf'⟩
    | cons f cx =>
      right
      have : T.ids = before (f :: cx) ++ [] ++ after (f :: cx) := by rw [e, plug_ids]; rfl
      rw [this] at hm
      obtain ⟨s1, s2⟩ := hp.sides hm
      exact ⟨f, cx, e, s1, s2, hf'⟩

theorem find?_split {c : Nat → Cmp} {p : Cmp → Bool} {pre post : List Nat} (h1 : ∀ a ∈ pre, p (c a) = false)
    (h2 : ∀ a ∈ post, p (c a) = true) :
    (((pre ++ post).find? (fun a => p (c a))).getD 0) = post.headD 0 := by
  rw [List.find?_append]
  have : pre.find? (fun a => p (c a)) = none := by
    rw [List.find?_eq_none]; intro a ha; simp [h1 a ha]
  rw [this]
  cases post with
  | nil => simp
  | cons x post => simp [h2 x (by simp)]

/-- The four searches `equal_range` is made of: the first element, in the traversal direction, on which the
comparison satisfies `p`. -/
theorem bound_spec {h : Links} {T : Tree} (w : Wv h [] T) (hne : T ≠ nil) {c : Nat → Cmp} (hm : Mono c T.ids)
    (trav incl : Bool) :
    (do let b ← find h c
        if (if incl then b.1 = (if trav then Cmp.grt else Cmp.les) else b.1 ≠ (if trav then Cmp.les else Cmp.grt))
        then next h b.2 trav else some b.2) =
      some (((if trav then T.ids else T.ids.reverse).find? (fun a =>
        if incl then c a != (if trav then Cmp.grt else Cmp.les) else c a == (if trav then Cmp.les else Cmp.grt))).getD 0)
      := by
  have hlast : ∀ l : List Nat, l.reverse.headD 0 = l.getLastD 0 := by
    intro l; simp
  rcases find_cases (by simpa using w.whole.tree) w.whole.ctx hm with
    ⟨pre, x, post, e, hx, h1, h2, hf⟩ | ⟨rfl, _⟩ | ⟨f, cx, e, h1, h2, hf⟩
  · have hn := next_spec w e trav
    simp only [hf, Option.bind_eq_bind, Option.bind_some, hn]
    have hi : ∀ P : Cmp → Bool, P .grt = false → P .eql = true → P .les = true →
        (T.ids.find? (fun a => P (c a))).getD 0 = x := by
      intro P p1 p2 p3
      rw [e, find?_split (c := c) (p := P) (fun a ha => by rw [h1 a ha]; exact p1)]
      · rfl
      · intro a ha
        rcases List.mem_cons.1 ha with rfl | ha
        · rw [hx]; exact p2
        · rw [h2 a ha]; exact p3
    have lo : ∀ P : Cmp → Bool, P .grt = false → P .eql = false → P .les = true →
        (T.ids.find? (fun a => P (c a))).getD 0 = post.headD 0 := by
      intro P p1 p2 p3
      rw [e, show pre ++ x :: post = (pre ++ [x]) ++ post by simp,
        find?_split (c := c) (p := P)]
      · intro a ha
        simp only [List.mem_append, List.mem_singleton] at ha
        rcases ha with ha | rfl
        · rw [h1 a ha]; exact p1
        · rw [hx]; exact p2
      · intro a ha; rw [h2 a ha]; exact p3
    have hi' : ∀ P : Cmp → Bool, P .grt = true → P .eql = true → P .les = false →
        (T.ids.reverse.find? (fun a => P (c a))).getD 0 = x := by
      intro P p1 p2 p3
      rw [e, show (pre ++ x :: post).reverse = post.reverse ++ (x :: pre.reverse) by simp,
        find?_split (c := c) (p := P) (fun a ha => by rw [h2 a (by simpa using ha)]; exact p3)]
      · rfl
      · intro a ha
        rcases List.mem_cons.1 ha with rfl | ha
        · rw [hx]; exact p2
        · rw [h1 a (by simpa using ha)]; exact p1
    have lo' : ∀ P : Cmp → Bool, P .grt = true → P .eql = false → P .les = false →
        (T.ids.reverse.find? (fun a => P (c a))).getD 0 = pre.getLastD 0 := by
      intro P p1 p2 p3
      rw [e, show (pre ++ x :: post).reverse = (post.reverse ++ [x]) ++ pre.reverse by simp,
        find?_split (c := c) (p := P), hlast]
      · intro a ha
        simp only [List.mem_append, List.mem_singleton, List.mem_reverse] at ha
        rcases ha with ha | rfl
        · rw [h2 a ha]; exact p3
        · rw [hx]; exact p2
      · intro a ha; rw [h1 a (by simpa using ha)]; exact p1
    cases trav <;> cases incl
    · simpa using (lo' (fun c => c == .grt) rfl rfl rfl).symm
    · simpa using (hi' (fun c => c != .les) rfl rfl rfl).symm
    · simpa using (lo (fun c => c == .les) rfl rfl rfl).symm
    · simpa using (hi (fun c => c != .grt) rfl rfl rfl).symm
  · exact absurd rfl hne
  · have ei : T.ids = before (f :: cx) ++ after (f :: cx) := by rw [e, plug_ids]; simp [ids]
    have lo : ∀ P : Cmp → Bool, P .grt = false → P .les = true →
        (T.ids.find? (fun a => P (c a))).getD 0 = (after (f :: cx)).headD 0 := by
      intro P p1 p3
      rw [ei, find?_split (c := c) (p := P)]
      · intro a ha; rw [h1 a ha]; exact p1
      · intro a ha; rw [h2 a ha]; exact p3
    have lo' : ∀ P : Cmp → Bool, P .grt = true → P .les = false →
        (T.ids.reverse.find? (fun a => P (c a))).getD 0 = (before (f :: cx)).getLastD 0 := by
      intro P p1 p3
      rw [ei, List.reverse_append, find?_split (c := c) (p := P), hlast]
      · intro a ha; rw [h2 a (by simpa using ha)]; exact p3
      · intro a ha; rw [h1 a (by simpa using ha)]; exact p1
    cases hd : f.dir with
    | true =>
      have e3 : T.ids = (before cx ++ f.sib.ids) ++ f.id :: after cx := by
        rw [ei]; simp [before, after, hd]
      have hn := next_spec w e3 trav
      simp only [hf, hd, Option.bind_eq_bind, Option.bind_some, hn, if_true]
      simp only [before, after, hd, if_true] at lo lo'
      cases trav <;> cases incl
      · simpa using (lo' (fun c => c == .grt) rfl rfl).symm
      · simpa using (lo' (fun c => c != .les) rfl rfl).symm
      · simpa using (lo (fun c => c == .les) rfl rfl).symm
      · simpa using (lo (fun c => c != .grt) rfl rfl).symm
    | false =>
      have e3 : T.ids = before cx ++ f.id :: (f.sib.ids ++ after cx) := by
        rw [ei]; simp [before, after, hd]
      have hn := next_spec w e3 trav
      simp only [hf, hd, Option.bind_eq_bind, Option.bind_some, hn]
      simp only [before, after, hd, Bool.false_eq_true, if_false] at lo lo'
      cases trav <;> cases incl
      · simpa using (lo' (fun c => c == .grt) rfl rfl).symm
      · simpa using (lo' (fun c => c != .les) rfl rfl).symm
      · simpa using (lo (fun c => c == .les) rfl rfl).symm
      · simpa using (lo (fun c => c != .grt) rfl rfl).symm

theorem equalRange_spec {h : Links} {T : Tree} (w : Wv h [] T) (hne : T ≠ nil) {cb ce : Nat → Cmp}
    (hb : Mono cb T.ids) (he : Mono ce T.ids) (trav : Bool) :
    equalRange h cb ce trav = some
      (((if trav then T.ids else T.ids.reverse).find? (fun a => cb a != (if trav then Cmp.grt else Cmp.les))).getD 0,
       ((if trav then T.ids else T.ids.reverse).find? (fun a => ce a == (if trav then Cmp.les else Cmp.grt))).getD 0)
      := by
  have b1 := bound_spec w hne hb trav true
  have b2 := bound_spec w hne he trav false
  simp only [if_true, Bool.false_eq_true, if_false, Option.bind_eq_bind] at b1 b2
  simp only [equalRange, Option.bind_eq_bind]
  rw [← Option.bind_assoc, b1, Option.bind_some, ← Option.bind_assoc, b2, Option.bind_some]

/-! ### Attaching a new leaf -/

theorem insertBelow_spec {h : Links} {f : Frame} {cx : Ctx} {e : Nat} (w : Wv h (f :: cx) nil)
    (v : Valid (plug (f :: cx) nil)) (e0 : e ≠ 0) (el : h.live e = true) (he : e ∉ cids (f :: cx))
    (hb0 : ∀ d, h.br e d = 0) (hpy : h.parity e = false) :
    Fixed (insertBelow h f.id (if f.dir then .grt else .les) e) h.live
      (before (f :: cx) ++ e :: after (f :: cx)) := by
  obtain ⟨f0, fl, b1, b2, fp, rs, rc⟩ := w.whole.ctx
  obtain ⟨vc, _⟩ := (Valid_plug _ _).1 v
  obtain ⟨k1, k2, k3, vs, vcx⟩ := vc
  simp only [nil_rk, nil_rootId] at k1 k2 k3 b1
  have nd := w.whole.nodup
  have ndc : (cids (f :: cx)).Nodup := w.whole.cids_nodup
  simp only [cids_cons, List.nodup_cons, List.mem_append, not_or] at ndc
  simp only [cids_cons, List.mem_cons, List.mem_append, not_or] at he
  obtain ⟨hef, hes, hec⟩ := he
  -- the state after the two writes
  let h2 : Links := { h with br := fun b d => if b = f.id ∧ d = f.dir then e else h.br b d, par := upd h.par e f.id }
  have w2 : Wv h2 (f :: cx) (node e 1 nil nil) := by
    refine ⟨⟨?_, ?_, ?_, w.whole.live0⟩, ?_, ?_, w.par0⟩
    · refine ⟨f0, fl, by simp [h2], ?_, ?_, ?_, ?_⟩
      · have : ¬ ((!f.dir) = f.dir) := by cases f.dir <;> simp
        simp [h2, this, b2]
      · show upd h.par e f.id f.id = pid cx
        rw [upd_ne _ _ (Ne.symm hef)]; exact fp
      · refine rs.congr (fun _ _ => rfl) ?_ ?_
        · intro a ha
          have : a ≠ f.id := fun hh => ndc.1.1 (hh ▸ ha)
          funext d; simp [h2, this]
        · intro a ha; exact upd_ne _ _ (fun hh => hes (hh ▸ ha))
      · refine rc.congr rfl (fun _ _ => rfl) ?_ ?_
        · intro a ha
          have : a ≠ f.id := fun hh => ndc.1.2 (hh ▸ ha)
          funext d; simp [h2, this]
        · intro a ha; exact upd_ne _ _ (fun hh => hec (hh ▸ ha))
    · refine ⟨e0, el, ?_, ?_, ?_, trivial, trivial⟩
      · simp [h2, hef, hb0]
      · simp [h2, hef, hb0]
      · simp [h2]
    · simp only [ids, List.nil_append, List.cons_append, List.nodup_cons, cids_cons, List.mem_cons,
        List.mem_append, not_or]
      refine ⟨⟨hef, hes, hec⟩, ?_⟩
      simpa using ndc
    · exact ⟨by simpa [ev] using hpy, trivial, trivial⟩
    · exact w.rpc.congr (fun _ _ => rfl)
  have run : insertBelow h f.id (if f.dir then .grt else .les) e =
      (if f.sib.rootId = 0 then insertFixup h2 f.id else some h2) := by
    have hbrk : (h.br f.id false = 0 ∧ h.br f.id true = 0) ↔ f.sib.rootId = 0 := by
      cases hd : f.dir <;> rw [hd] at b1 b2 <;> simp only [Bool.not_false, Bool.not_true] at b2 <;>
        simp [b1, b2]
    have hreq : req ((if f.dir then Cmp.grt else Cmp.les) == .grt || (if f.dir then Cmp.grt else Cmp.les) == .les)
        = some () := by cases f.dir <;> rfl
    have hdd : decide ((if f.dir then Cmp.grt else Cmp.les) = .grt) = f.dir := by cases f.dir <;> rfl
    simp only [insertBelow, hreq, Option.bind_eq_bind, Option.bind_some, getBr_live fl, setBr_live fl, hbrk, hdd]
    rw [setPar_live (by exact el)]
    simp only [Option.bind_some, decide_eq_true_eq]
    rfl
  have hids : (plug (f :: cx) (node e 1 nil nil)).ids = before (f :: cx) ++ e :: after (f :: cx) := by
    rw [plug_ids]; simp [ids]
  rw [run]
  by_cases hs0 : f.sib.rootId = 0
  · rw [if_pos hs0]
    have hs : f.sib = nil := vs.eq_nil ((vs.rootId rs).1 hs0)
    have hk : f.rk = 1 := k3 trivial (by rw [hs]; rfl)
    have := insertFixup_spec (d := f.dir) (z := f.id) (k := f.rk) (A := node e 1 nil nil) (B := f.sib)
      (Wv.up.1 w2) (by simp [Valid]) vs (by simp [hk]) (by rw [hs, hk]; rfl) vcx
    refine this.cast rfl ?_
    rw [← hids]; rfl
  · rw [if_neg hs0]
    have hk0 : f.sib.rk ≠ 0 := fun hh => hs0 ((vs.rootId rs).2 hh)
    refine ⟨h2, plug (f :: cx) (node e 1 nil nil), rfl, Wv.plug.1 w2, ?_, hids, rfl⟩
    rw [Valid_plug]
    refine ⟨⟨?_, ?_, ?_, vs, vcx⟩, by simp [Valid]⟩
    · simp only [node_rk]; omega
    · exact k2
    · simp

end CCC.Wavl
