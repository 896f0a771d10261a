import Verif.Proof.MultiExtract
import Verif.Proof.Stable
import Verif.Proof.Iter
/-
The order in which the multimap is traversed.
-/
namespace CCC.Omm
open CCC Links Tree Wavl Splay MultiSpec

set_option linter.unusedSimpArgs false

variable {α κ : Type} {cmp : κ → κ → Cmp} {key : α → κ}

/-- The groups one after the other: ascending (`true`) or descending. -/
def flat (d : Bool) (D : Nat → List Nat) (T : Tree) : List Nat :=
  (if d then T.ids else T.ids.reverse).flatMap (fun n => n :: D n)

/-- `a` may come before `b`. -/
def aheadOf (cmp : κ → κ → Cmp) (key : α → κ) (val : Nat → α) (d : Bool) (a b : Nat) : Bool :=
  cmp (key (val a)) (key (val b)) != (if d then .grt else .les)

theorem aheadOf_pre (hc : LawfulCmp cmp) (val : Nat → α) (d : Bool) : Preorder' (aheadOf cmp key val d) := by
  have fl : ∀ x y : κ, cmp x y = .grt ↔ cmp y x = .les := fun x y => hc.grt_iff
  constructor
  · intro a b h
    unfold aheadOf at h ⊢
    cases d
    · simp only [Bool.false_eq_true, if_false, bne_eq_false_iff_eq, bne_iff_ne, ne_eq] at h ⊢
      rw [(fl _ _).2 h]; simp
    · simp only [if_true, bne_eq_false_iff_eq, bne_iff_ne, ne_eq] at h ⊢
      rw [(fl _ _).1 h]; simp
  · intro a b c h1 h2
    unfold aheadOf at h1 h2 ⊢
    cases d
    · simp only [Bool.false_eq_true, if_false, bne_iff_ne, ne_eq, ← fl] at h1 h2 ⊢
      exact hc.trans _ _ _ h2 h1
    · simp only [if_true, bne_iff_ne, ne_eq] at h1 h2 ⊢
      exact hc.trans _ _ _ h1 h2

theorem same_iff (hc : LawfulCmp cmp) (val : Nat → α) (d : Bool) (a b : Nat) :
    same (aheadOf cmp key val d) a b = (cmp (key (val a)) (key (val b)) == .eql) := by
  have fl : cmp (key (val a)) (key (val b)) = .grt ↔ cmp (key (val b)) (key (val a)) = .les := hc.grt_iff
  have fl' : cmp (key (val b)) (key (val a)) = .grt ↔ cmp (key (val a)) (key (val b)) = .les := hc.grt_iff
  have sy : cmp (key (val a)) (key (val b)) = .eql → cmp (key (val b)) (key (val a)) = .eql := hc.symm
  have ne := hc.noErr (key (val a)) (key (val b))
  unfold same aheadOf
  cases d <;> cases h : cmp (key (val a)) (key (val b)) <;> simp_all

variable {H : Omm α} {A : List Nat} {N : Nat → Prop} {D : Nat → List Nat} {h : Links} {T : Tree}

theorem flatMap_one {f : Nat → List Nat} {pre post : List Nat} {n : Nat} (h : ∀ b ∈ pre ++ post, f b = []) :
    (pre ++ n :: post).flatMap f = f n := by
  have z : ∀ l : List Nat, (∀ b ∈ l, f b = []) → l.flatMap f = [] := by
    intro l hl
    rw [List.flatMap_eq_nil_iff]; exact hl
  rw [List.flatMap_append, List.flatMap_cons, z pre (fun b hb => h b (by simp [hb])), z post (fun b hb => h b (by simp [hb]))]
  simp

/-- What a traversal has to visit is the elements, stably sorted. -/
theorem Core.arrange (c : Core cmp key H A N D h T) (hc : LawfulCmp cmp) (d : Bool) :
    MultiSpec.arrange (aheadOf cmp key H.val d) A = flat d D T := by
  have inG : ∀ n ∈ T.ids, ∀ y ∈ n :: D n, cmp (key (H.val n)) (key (H.val y)) = .eql := by
    intro n hn y hy
    rcases List.mem_cons.1 hy with rfl | hy
    · exact hc.refl _
    · exact (c.memD hy).2
  have hmem : ∀ n, n ∈ (if d then T.ids else T.ids.reverse) ↔ n ∈ T.ids := by intro n; cases d <;> simp
  have hpw : (if d then T.ids else T.ids.reverse).Pairwise
      (fun a b => cmp (key (H.val a)) (key (H.val b)) = (if d then .les else .grt)) := by
    cases d
    · simp only [Bool.false_eq_true, if_false, List.pairwise_reverse]
      exact c.sorted.imp (fun {a b} hab => hc.grt_iff.2 hab)
    · exact c.sorted
  refine arrange_eq (aheadOf_pre hc H.val d) ?_ ?_
  · unfold flat
    rw [List.pairwise_flatMap]
    constructor
    · intro n hn
      rw [hmem] at hn
      rw [List.pairwise_iff_forall_sublist]
      intro a b hab
      have ha := inG n hn a (hab.subset (by simp))
      have hb := inG n hn b (hab.subset (by simp))
      unfold aheadOf
      rw [← hc.eql_congr_left ha, hb]; cases d <;> rfl
    · refine hpw.imp_of_mem ?_
      intro n m hn hm hnm x hx y hy
      rw [hmem] at hn hm
      unfold aheadOf
      rw [← hc.eql_congr_left (inG n hn x hx), ← hc.eql_congr (inG m hm y hy), hnm]
      cases d <;> rfl
  · intro z
    have es : ∀ l : List Nat, l.filter (same (aheadOf cmp key H.val d) z) =
        l.filter (fun a => cmp (key (H.val z)) (key (H.val a)) == .eql) := by
      intro l
      exact List.filter_congr (fun a _ => same_iff hc H.val d z a)
    rw [es, es]
    unfold flat
    rw [List.filter_flatMap]
    have hgrp : ∀ n ∈ T.ids, (n :: D n).filter (fun a => cmp (key (H.val z)) (key (H.val a)) == .eql) =
        if cmp (key (H.val z)) (key (H.val n)) = .eql then n :: D n else [] := by
      intro n hn
      split
      · rename_i he
        rw [List.filter_eq_self]
        intro y hy
        rw [← hc.eql_congr (inG n hn y hy), he]; rfl
      · rename_i he
        rw [List.filter_eq_nil_iff]
        intro y hy
        rw [← hc.eql_congr (inG n hn y hy)]; simpa using he
    by_cases hex : ∃ n ∈ T.ids, cmp (key (H.val z)) (key (H.val n)) = .eql
    · obtain ⟨n, hn, he⟩ := hex
      obtain ⟨pre, post, e⟩ := List.append_of_mem ((hmem n).2 hn)
      rw [e]
      rw [flatMap_one, hgrp n hn, if_pos he, c.group n hn]
      · exact List.filter_congr (fun a _ => by rw [hc.eql_congr_left he])
      · intro b hb
        have hb' : b ∈ T.ids := by rw [← hmem, e]; simp at hb ⊢; grind
        rw [hgrp b hb', if_neg]
        intro hzb
        have hnb : cmp (key (H.val n)) (key (H.val b)) = .eql := by rw [← hc.eql_congr_left he]; exact hzb
        have hbn := hc.symm hnb
        rw [e, List.pairwise_append] at hpw
        obtain ⟨_, p2, p3⟩ := hpw
        rw [List.pairwise_cons] at p2
        rcases List.mem_append.1 hb with hb | hb
        · have := p3 b hb n (by simp)
          rw [hbn] at this; cases d <;> simp at this
        · have := p2.1 b hb
          rw [hnb] at this; cases d <;> simp at this
    · have z1 : A.filter (fun a => cmp (key (H.val z)) (key (H.val a)) == .eql) = [] := by
        rw [List.filter_eq_nil_iff]
        intro a ha hh
        obtain ⟨n, hn, he⟩ := c.cover a ha
        exact hex ⟨n, hn, by rw [hc.eql_congr he]; simpa using hh⟩
      rw [z1, List.flatMap_eq_nil_iff]
      intro n hn
      rw [hmem] at hn
      rw [hgrp n hn, if_neg (fun he => hex ⟨n, hn, he⟩)]

theorem Core.flat_mem (c : Core cmp key H A N D h T) (hc : LawfulCmp cmp) (d : Bool) {a : Nat} : a ∈ flat d D T ↔ a ∈ A := by
  rw [← c.arrange hc d, mem_arrange]

theorem Core.flat_length (c : Core cmp key H A N D h T) (hc : LawfulCmp cmp) (d : Bool) :
    (flat d D T).length = A.length := by
  rw [← c.arrange hc d, length_arrange]

/-- Nothing is visited twice. -/
theorem Core.flat_nodup (c : Core cmp key H A N D h T) (d : Bool) : (flat d D T).Nodup := by
  unfold flat List.Nodup
  have hmem : ∀ n, n ∈ (if d then T.ids else T.ids.reverse) ↔ n ∈ T.ids := by intro n; cases d <;> simp
  have hnd : (if d then T.ids else T.ids.reverse).Pairwise (· ≠ ·) := by
    cases d
    · simp only [Bool.false_eq_true, if_false, List.pairwise_reverse]
      exact c.nodup.imp (fun {a b} hab => Ne.symm hab)
    · exact c.nodup
  have notD : ∀ n ∈ T.ids, ∀ m, n ∉ D m := by
    intro n hn m hm
    have := (c.rel.dnl m n hm).2.2
    rw [c.whole.tree.live n hn] at this; cases this
  rw [List.pairwise_flatMap]
  constructor
  · intro n hn
    rw [hmem] at hn
    rw [List.pairwise_cons]
    exact ⟨fun y hy hh => notD n hn n (hh ▸ hy), c.rel.dnd n⟩
  · refine hnd.imp_of_mem ?_
    intro n m hn hm hnm x hx y hy hxy
    rw [hmem] at hn hm
    subst hxy
    rcases List.mem_cons.1 hx with rfl | hx
    · rcases List.mem_cons.1 hy with rfl | hy
      · exact hnm rfl
      · exact notD _ hn m hy
    · rcases List.mem_cons.1 hy with rfl | hy
      · exact notD _ hm n hx
      · exact hnm (c.rel.ddj n m x hx hy)

theorem flatMap_split {f : Nat → List Nat} {l : List Nat} : ∀ {pre post : List Nat} {a : Nat},
    l.flatMap f = pre ++ a :: post →
    ∃ p n q u v, l = p ++ n :: q ∧ f n = u ++ a :: v ∧ pre = p.flatMap f ++ u ∧ post = v ++ q.flatMap f := by
  induction l with
  | nil => intro pre post a e; simp at e
  | cons b l ih =>
    intro pre post a e
    rw [List.flatMap_cons, List.append_eq_append_iff] at e
    rcases e with ⟨w, e1, e2⟩ | ⟨w, e1, e2⟩
    · obtain ⟨p, n, q, u, v, h1, h2, h3, h4⟩ := ih e2
      exact ⟨b :: p, n, q, u, v, by rw [h1]; rfl, h2, by rw [e1, h3]; simp, h4⟩
    · cases w with
      | nil =>
        simp only [List.nil_append] at e2
        obtain ⟨p, n, q, u, v, h1, h2, h3, h4⟩ := ih (pre := []) e2.symm
        refine ⟨b :: p, n, q, u, v, by rw [h1]; rfl, h2, ?_, h4⟩
        simp only [List.append_nil] at e1
        rw [← e1, List.flatMap_cons, List.append_assoc, ← h3]; simp
      | cons x w =>
        simp only [List.cons_append, List.cons.injEq] at e2
        obtain ⟨rfl, e2⟩ := e2
        exact ⟨[], b, l, pre, w, rfl, e1, by simp, e2⟩

theorem head_flatMap (D : Nat → List Nat) (q : List Nat) : (q.flatMap (fun n => n :: D n)).headD 0 = q.headD 0 := by
  cases q <;> rfl

theorem Ring.succ {br : Nat → Bool → Slot} {x : Nat} {xs u v : List Nat} {a : Nat} (r : Ring br x xs)
    (e : x :: xs = u ++ a :: v) : br a true = some (v.headD x) := by
  unfold Ring at r
  rw [e, List.append_assoc, List.cons_append] at r
  have := ((Lnks_append _ _ _).1 r).2
  cases v with
  | nil => exact this.1
  | cons y v => exact this.1

/-- A node that is not the root is a child of its parent. -/
theorem Rep.par_br {p : Nat} {T : Tree} (hr : Rep h p T) : ∀ a ∈ T.ids, a ≠ T.rootId →
    h.par a ∈ T.ids ∧ ∃ d, h.br (h.par a) d = a := by
  induction T generalizing p with
  | nil => intro a ha; simp [ids] at ha
  | node i k l r il ir =>
    obtain ⟨_, _, b1, b2, ip, rl, rr⟩ := hr
    intro a ha hne
    simp only [ids, List.mem_append, List.mem_cons, rootId] at ha hne ⊢
    rcases ha with ha | rfl | ha
    · by_cases hq : a = l.rootId
      · have := Rep.root_par rl (hq ▸ ha)
        rw [hq, this]
        exact ⟨Or.inr (Or.inl rfl), false, b1⟩
      · obtain ⟨h1, h2⟩ := il rl a ha hq
        exact ⟨Or.inl h1, h2⟩
    · exact absurd rfl hne
    · by_cases hq : a = r.rootId
      · have := Rep.root_par rr (hq ▸ ha)
        rw [hq, this]
        exact ⟨Or.inr (Or.inl rfl), true, b2⟩
      · obtain ⟨h1, h2⟩ := ir rr a ha hq
        exact ⟨Or.inr (Or.inr h1), h2⟩

theorem Rel.leadsTo (w : Rel D N H h) {l n x : Nat} {xs : List Nat} (hl : h.live l = true) (hn : h.live n = true)
    (n0 : n ≠ 0) (e : D n = x :: xs) : Omm.leadsTo H l x = some (l == n) := by
  have hx : x ∈ D n := by rw [e]; simp
  unfold Omm.leadsTo
  by_cases l0 : l = 0
  · subst l0; rw [if_pos rfl]
    have : (0 == n) = false := by simpa using Ne.symm n0
    rw [this]
  · rw [if_neg l0, getPar_live (w.live l hl)]
    simp only [Option.bind_eq_bind, Option.bind_some]
    by_cases hln : l = n
    · subst hln
      rw [(w.head l x xs hl e).1]; simp
    · have : H.par l ≠ some x := by
        cases el : D l with
        | nil =>
          rw [w.plain l hl el]
          intro hh
          cases hh
          have := (w.dnl n _ hx).2.2
          rw [w.parl l hl l0] at this; cases this
        | cons y ys =>
          rw [(w.head l y ys hl el).1]
          intro hh
          cases hh
          exact hln (w.ddj l n x (by rw [el]; simp) hx)
      have e1 : (H.par l == some x) = false := by simpa using this
      have e2 : (l == n) = false := by simpa using hln
      rw [e1, e2]

/-- From the ring back to the tree. -/
theorem Core.nextTreeNode (c : Core cmp key H A N D h T) {n x : Nat} {xs : List Nat} (hn : n ∈ T.ids) (e : D n = x :: xs)
    (d : Bool) : Omm.nextTreeNode H x d = nextTree H n d := by
  have hx : x ∈ D n := by rw [e]; simp
  have nl := c.whole.tree.live n hn
  have n0 : n ≠ 0 := fun hh => c.whole.tree.ne_zero (hh ▸ hn)
  have hp := (c.rel.head n x xs nl e).2.1
  unfold Omm.nextTreeNode
  rw [parent_live (c.rel.dnl n x hx).2.1, hp]
  simp only [Option.bind_eq_bind, Option.bind_some]
  by_cases hroot : n = T.rootId
  · have : h.par n = 0 := by rw [hroot]; exact Rep.root_par c.whole.tree (hroot ▸ hn)
    rw [if_pos this, c.root, hroot]
  · obtain ⟨hm, b, hb⟩ := Rep.par_br c.whole.tree n hn hroot
    have p0 : h.par n ≠ 0 := fun hh => c.whole.tree.ne_zero (hh ▸ hm)
    have pl := c.whole.tree.live _ hm
    rw [if_neg p0, c.rel.branch pl]
    simp only [Option.bind_some]
    rw [c.rel.leadsTo (c.rel.brl _ _ pl p0) nl n0 e, c.rel.branch pl]
    simp only [Option.bind_some]
    by_cases hl : h.br (h.par n) false = n
    · rw [hl]; simp
    · have hr : h.br (h.par n) true = n := by cases b <;> simp_all
      have : (h.br (h.par n) false == n) = false := by simpa using hl
      rw [this]
      simp only [Bool.false_eq_true, if_false]
      rw [hr, c.rel.leadsTo nl nl n0 e]
      simp

/-- `multimap_next` goes to the next element. -/
theorem Core.multimapNext (c : Core cmp key H A N D h T) (d : Bool) {pre post : List Nat} {a : Nat}
    (e : flat d D T = pre ++ a :: post) : Omm.multimapNext H a d = some (post.headD 0) := by
  obtain ⟨p, n, q, u, v, e1, e2, rfl, rfl⟩ := flatMap_split e
  have hn : n ∈ T.ids := by
    have : n ∈ (if d then T.ids else T.ids.reverse) := by rw [e1]; simp
    cases d <;> simpa using this
  have nl := c.whole.tree.live n hn
  have n0 : n ≠ 0 := fun hh => c.whole.tree.ne_zero (hh ▸ hn)
  have ht : nextTree H n d = some (q.headD 0) := by
    cases d
    · simp only [Bool.false_eq_true, if_false] at e1
      have e1' : T.ids = q.reverse ++ n :: p.reverse := by
        have := congrArg List.reverse e1
        simpa using this
      rw [nextTree_whole c.rel c.whole e1']
      simp
    · simp only [if_true] at e1
      rw [nextTree_whole c.rel c.whole e1]
      simp
  cases u with
  | nil =>
    simp only [List.nil_append, List.cons.injEq] at e2
    obtain ⟨rfl, e2⟩ := e2
    unfold Omm.multimapNext
    rw [getPar_live (c.rel.live _ nl)]
    have hd := c.rel.hasDups nl
    have hr : isDupHead H n = some false := by
      unfold isDupHead
      rw [if_neg n0]; exact c.rel.notRing nl n0
    cases hv : v with
    | nil =>
      rw [hv] at e2
      rw [c.rel.plain n nl e2]
      rw [e2] at hd
      simp only [Option.bind_eq_bind, Option.bind_some, reduceCtorEq, if_false, hr, hd, List.isEmpty_nil, Bool.not_true,
        Bool.false_eq_true, List.nil_append]
      rw [ht, head_flatMap]
    | cons x xs =>
      rw [hv] at e2
      have hh := (c.rel.head n x xs nl e2).1
      rw [e2] at hd
      rw [hh]
      simp only [Option.bind_eq_bind, Option.bind_some, reduceCtorEq, if_false, hr, hd, List.isEmpty_cons, Bool.not_false,
        Bool.false_eq_true, if_true]
      rw [parent_live (c.rel.live _ nl), hh]
      rfl
  | cons n' u =>
    simp only [List.cons_append, List.cons.injEq] at e2
    obtain ⟨rfl, e2⟩ := e2
    have ha : a ∈ D n := by rw [e2]; simp
    have al := (c.rel.dnl n a ha).2.1
    have a0 := c.rel.dne ha
    obtain ⟨x, xs, ex⟩ : ∃ x xs, D n = x :: xs := by
      cases hx : D n with
      | nil => rw [hx] at ha; simp at ha
      | cons x xs => exact ⟨x, xs, rfl⟩
    obtain ⟨q1, q2, q3, q4⟩ := c.rel.head n x xs nl ex
    have hs := q4.succ (ex.symm.trans e2)
    have hxD : x ∈ D n := by rw [ex]; simp
    have xl := (c.rel.dnl n x hxD).2.1
    have nd := c.rel.dnd n
    -- whether the next one in the ring is the head
    have hnx : isDupHeadNext H a = some v.isEmpty := by
      unfold isDupHeadNext
      rw [branch_live al, hs]
      simp only [Option.bind_eq_bind, Option.bind_some]
      cases v with
      | nil =>
        simp only [List.headD_nil]
        rw [getPar_live xl, q2]; rfl
      | cons y v =>
        simp only [List.headD_cons]
        have hy : y ∈ D n := by rw [e2]; simp
        rw [getPar_live (c.rel.dnl n y hy).2.1]
        have : y ∈ xs := by
          have h1 : x :: xs = (u ++ [a]) ++ y :: v := by rw [← ex, e2]; simp
          cases u with
          | nil => simp at h1; rw [h1.2]; simp
          | cons z u => simp at h1; rw [h1.2]; simp
        rw [q3 y this]; rfl
    have hbr : Omm.branch H a true = some (v.headD x) := by rw [branch_live al, hs]
    unfold Omm.multimapNext
    rw [getPar_live al]
    simp only [Option.bind_eq_bind, Option.bind_some]
    cases u with
    | nil =>
      -- the first duplicate
      have : a = x := by rw [ex] at e2; simp at e2; exact e2.1.symm
      subst this
      rw [q2]
      have hr : isDupHead H a = some true := by
        unfold isDupHead
        rw [if_neg a0]; exact c.rel.inRing nl ex
      simp only [reduceCtorEq, if_false, hr, Option.bind_some, if_true, hnx]
      cases v with
      | nil =>
        simp only [List.isEmpty_nil, if_true, List.nil_append]
        rw [c.nextTreeNode hn ex, ht, head_flatMap]
      | cons y v =>
        simp only [List.isEmpty_cons, Bool.false_eq_true, if_false]
        rw [hbr]; rfl
    | cons z u =>
      have hax : a ∈ xs := by
        rw [ex] at e2; simp at e2; rw [e2.2]; simp
      rw [q3 a hax]
      simp only [if_true, hnx, Option.bind_some]
      cases v with
      | nil =>
        simp only [List.isEmpty_nil, if_true, List.nil_append, hbr, List.headD_nil, Option.bind_some]
        rw [c.nextTreeNode hn ex, ht, head_flatMap]
      | cons y v =>
        simp only [List.isEmpty_cons, Bool.false_eq_true, if_false]
        rw [hbr]; rfl

theorem toUser_headD {l : List Nat} (h : ∀ a ∈ l, a ≠ 0) : toUser (l.headD 0) = l.head? := by
  cases l with
  | nil => rfl
  | cons a l => exact if_neg (h a (by simp))

/-- `next` and `rnext`. -/
theorem Core.next (c : Core cmp key H A N D h T) (hc : LawfulCmp cmp) (d : Bool) {pre post : List Nat} {a : Nat}
    (e : flat d D T = pre ++ a :: post) : Omm.next H a d = some post.head? := by
  unfold Omm.next
  rw [c.multimapNext d e]
  simp only [Option.bind_eq_bind, Option.bind_some]
  rw [toUser_headD]
  intro b hb
  exact c.ne_zero ((c.flat_mem hc d).1 (by rw [e]; simp [hb]))

theorem flat_head (d : Bool) (hne : T ≠ nil) : (flat d D T).head? = some (endOf (!d) T.ids) := by
  have hi : T.ids ≠ [] := by cases T <;> simp_all [ids]
  unfold flat
  cases d
  · simp only [Bool.false_eq_true, if_false, endOf, Bool.not_false, if_true]
    obtain ⟨l, a, e⟩ : ∃ l a, T.ids = l ++ [a] := ⟨_, _, (List.dropLast_concat_getLast hi).symm⟩
    rw [e]; simp
  · simp only [if_true, endOf, Bool.not_true, Bool.false_eq_true, if_false]
    cases e : T.ids with
    | nil => exact absurd e hi
    | cons a l => simp

theorem flat_nil (d : Bool) : flat d D nil = [] := by cases d <;> rfl

/-- The first element of a traversal. -/
theorem Core.runDown (c : Core cmp key H A N D h T) (hne : T ≠ nil) (d : Bool) :
    ∃ m, Omm.runDown H H.root d = some m ∧ (flat (!d) D T).head? = some m := by
  refine ⟨endOf d T.ids, runDown_whole c.rel c.whole hne d, ?_⟩
  rw [flat_head _ hne]; simp

theorem Core.sz_zero (c : Core cmp key H A N D h T) (hsz : H.sz = A.length) : H.sz = 0 ↔ T = nil := by
  rw [c.nil_iff, hsz, List.length_eq_zero_iff]

theorem Core.begin_ (c : Core cmp key H A N D h T) (hsz : H.sz = A.length) :
    Omm.begin_ H = some (flat false D T).head? := by
  unfold Omm.begin_
  by_cases hne : T = nil
  · rw [if_pos ((c.sz_zero hsz).2 hne), hne, flat_nil]; rfl
  · obtain ⟨m, h1, h2⟩ := c.runDown hne true
    rw [if_neg (fun hh => hne ((c.sz_zero hsz).1 hh)), h1]
    simp only [Bool.not_true] at h2
    rw [h2]; rfl

theorem Core.rbegin (c : Core cmp key H A N D h T) (hsz : H.sz = A.length) :
    Omm.rbegin H = some (flat true D T).head? := by
  unfold Omm.rbegin
  by_cases hne : T = nil
  · rw [if_pos ((c.sz_zero hsz).2 hne), hne, flat_nil]; rfl
  · obtain ⟨m, h1, h2⟩ := c.runDown hne false
    rw [if_neg (fun hh => hne ((c.sz_zero hsz).1 hh)), h1]
    simp only [Bool.not_false] at h2
    rw [h2]; rfl

/-- `max` (`true`) and `min`. -/
theorem Core.maxMin (c : Core cmp key H A N D h T) (hne : T ≠ nil) (d : Bool) :
    ∃ H' h' T', Omm.maxMin H (if d then .grt else .les) = some (H', (flat (!d) D T).head?) ∧
      Core cmp key H' A N D h' T' ∧ Only H H' := by
  obtain ⟨H', h', i, m, L, B, run, c', o, hr, hi, he⟩ := c.splayEnd hne d
  refine ⟨H', h', _, ?_, c', o⟩
  unfold Omm.maxMin
  rw [run, flat_head _ hne, Bool.not_not, ← he]
  rfl

theorem find_flat {l : List Nat} {D : Nat → List Nat} {p : Nat → Bool} (hp : ∀ n ∈ l, ∀ y ∈ D n, p y = p n) :
    (l.flatMap (fun n => n :: D n)).find? p = l.find? p := by
  induction l with
  | nil => rfl
  | cons n l ih =>
    rw [List.flatMap_cons, List.find?_append, ih (fun m hm => hp m (by simp [hm])), List.find?_cons, List.find?_cons]
    cases hn : p n with
    | true => rfl
    | false =>
      have : (D n).find? p = none := by
        rw [List.find?_eq_none]
        intro y hy
        rw [hp n (by simp) y hy, hn]; simp
      simp only [this]; rfl

/-- `equal_range`. -/
theorem Core.equalRange (c : Core cmp key H A N D h T) (hc : LawfulCmp cmp) (hsz : H.sz = A.length) (b e : κ) (d : Bool) :
    ∃ H' h' T', Omm.equalRange cmp key H b e d = some (H',
      (flat d D T).find? (fun a => cmp b (key (H.val a)) != (if d then Cmp.grt else Cmp.les)),
      (flat d D T).find? (fun a => cmp e (key (H.val a)) == (if d then Cmp.les else Cmp.grt))) ∧
      Core cmp key H' A N D h' T' ∧ Only H H' := by
  by_cases hne : T = nil
  · refine ⟨H, h, T, ?_, c, Only.refl _⟩
    unfold Omm.equalRange
    rw [if_pos ((c.sz_zero hsz).2 hne), hne, flat_nil]; rfl
  obtain ⟨H1, h1, i, m, L, B, e1, c1, o1, r1, i1, a1, b1, _, q1⟩ := c.splay hc hne b
  obtain ⟨H2, h2, j, k, P, Q, e2, c2, o2, r2, i2, a2, b2, _, q2⟩ := c1.splay hc (by simp) e
  rw [o1.val.1] at a2 b2 q2
  have n1 := nextTree_whole c1.rel c1.whole (pre := L.ids) (post := B.ids) (n := i) rfl d
  have n2 := nextTree_whole c2.rel c2.whole (pre := P.ids) (post := Q.ids) (n := j) rfl d
  have p1 := bound_list (c := fun a => cmp b (key (H.val a))) (x := i) a1 b1 (hc.noErr _ _) d true
  have p2 := bound_list (c := fun a => cmp e (key (H.val a))) (x := j) a2 b2 (hc.noErr _ _) d false
  rw [show L.ids ++ i :: B.ids = T.ids from i1] at p1
  rw [show P.ids ++ j :: Q.ids = T.ids from i2.trans i1] at p2
  simp only [if_true, Bool.false_eq_true, if_false] at p1 p2
  have hmem : ∀ n, n ∈ (if d then T.ids else T.ids.reverse) ↔ n ∈ T.ids := by intro n; cases d <;> simp
  have ff : ∀ (k : κ) (P : Cmp → Bool), (flat d D T).find? (fun a => P (cmp k (key (H.val a)))) =
      (if d then T.ids else T.ids.reverse).find? (fun a => P (cmp k (key (H.val a)))) := by
    intro k P
    refine find_flat ?_
    intro n hn y hy
    rw [hc.eql_congr (c.memD hy).2]
  have tu : ∀ p : Nat → Bool, toUser (((if d then T.ids else T.ids.reverse).find? p).getD 0) =
      (if d then T.ids else T.ids.reverse).find? p := by
    intro p
    cases hf : (if d then T.ids else T.ids.reverse).find? p with
    | none => rfl
    | some a =>
      have := List.mem_of_find?_eq_some hf
      rw [hmem] at this
      exact if_neg (c.ne_zero (c.memT this))
  have f1 := ff b (fun q => q != (if d then Cmp.grt else Cmp.les))
  have f2 := ff e (fun q => q == (if d then Cmp.les else Cmp.grt))
  refine ⟨H2, h2, _, ?_, c2, o1.trans o2⟩
  have g1 := f1.trans (tu _).symm
  have g2 := f2.trans (tu _).symm
  rw [← p1] at g1
  rw [← p2] at g2
  rw [g1, g2]
  have st : ∀ (P : Prop) [Decidable P] (x y : Nat),
      (if P then some x else some y) = some (if P then x else y) := by
    intro P _ x y; split <;> rfl
  unfold Omm.equalRange
  rw [if_neg (fun hh => hne ((c.sz_zero hsz).1 hh))]
  simp only [e1, Option.bind_eq_bind, Option.bind_some, q1, n1, st, e2, q2, n2]

end CCC.Omm
