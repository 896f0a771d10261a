import Verif.Proof.PriorityQueueValidate
/-
Soundness of the validation of the pairing heap: from a memory that validation accepts to the shape of a heap.
-/
namespace CCC.Pq
open CCC PrioQ

variable {α : Type} {c : Cfg α} {s : Pq α}

/-- First child and next sibling. -/
inductive Bin where
  | nil
  | node (a : Nat) (kids sibs : Bin)

namespace Bin

/-- The elements, parents before their children. -/
def ids : Bin → List Nat
  | nil => []
  | node a k b => a :: (k.ids ++ b.ids)

/-- The siblings at the top. -/
def ring : Bin → List Nat
  | nil => []
  | node a _ b => a :: b.ring

theorem ring_sub : ∀ {t : Bin} {x : Nat}, x ∈ t.ring → x ∈ t.ids
  | node a k b, x, h => by
    rcases List.mem_cons.1 h with rfl | h
    · simp [ids]
    · simp [ids, ring_sub h]

/-- The list with its first element at the end. -/
def rot : List Nat → List Nat
  | [] => []
  | a :: l => l ++ [a]

theorem rot_perm : ∀ l : List Nat, (rot l).Perm l
  | [] => .refl _
  | a :: l => (List.perm_append_comm (l₁ := l) (l₂ := [a]))

/-- The children of an element, oldest first. -/
def kf : Bin → Nat → List Nat
  | nil, _ => []
  | node a k b, x => if x = a then rot k.ring else if x ∈ k.ids then k.kf x else b.kf x

/-- The number of elements below. -/
def rf : Bin → Nat → Nat
  | nil, _ => 0
  | node a k b, x => if x = a then k.ids.length + 1 else if x ∈ k.ids then k.rf x else b.rf x

theorem rf_le : ∀ (t : Bin) (x : Nat), t.rf x ≤ t.ids.length
  | nil, _ => Nat.le_refl _
  | node a k b, x => by
    have h1 := rf_le k x
    have h2 := rf_le b x
    simp only [rf, ids, List.length_cons, List.length_append]
    split
    · omega
    · split <;> omega

theorem perm_kids : ∀ (t : Bin), t.ids.Nodup → t.ids.Perm (t.ring ++ t.ids.flatMap t.kf)
  | nil, _ => .refl _
  | node a k b, h => by
    simp only [ids, List.nodup_cons, List.mem_append, not_or] at h
    obtain ⟨⟨ha1, ha2⟩, h⟩ := h
    obtain ⟨h1, h2, h3⟩ := List.nodup_append.1 h
    have e1 : k.ids.flatMap (kf (node a k b)) = k.ids.flatMap k.kf :=
      flatMap_congr' (fun x hx => by
        simp only [kf]
        rw [if_neg (by rintro rfl; exact ha1 hx), if_pos hx])
    have e2 : b.ids.flatMap (kf (node a k b)) = b.ids.flatMap b.kf :=
      flatMap_congr' (fun x hx => by
        simp only [kf]
        rw [if_neg (by rintro rfl; exact ha2 hx), if_neg (fun hk => h3 x hk x hx rfl)])
    have e3 : kf (node a k b) a = rot k.ring := by simp [kf]
    have p1 := perm_kids k h1
    have p2 := perm_kids b h2
    simp only [ids, ring, List.flatMap_cons, List.flatMap_append, e1, e2, e3]
    rw [List.cons_append]
    refine .cons _ ?_
    refine (p1.append p2).trans ?_
    have q : (rot k.ring).Perm k.ring := rot_perm _
    refine (List.Perm.append_right _ (List.Perm.append_right _ q.symm)).trans ?_
    simp only [List.append_assoc]
    rw [← List.append_assoc (rot k.ring), ← List.append_assoc (rot k.ring) _ (b.ids.flatMap b.kf)]
    refine List.perm_append_comm_assoc _ _ _

end Bin

/-- What the two recursive functions of validation establish about the siblings from `cur` on: `child` is the first of them,
`parent` the struct above. -/
def Rep (c : Cfg α) (s : Pq α) (parent : Slot) (child : Nat) (cur : Slot) : Bin → Prop
  | .nil => False
  | .node a k b => cur = some a ∧ ∃ x, s.mem a = some x ∧
      (∀ p, parent = some p → s.v.pr child = some p ∧
        ∃ y, s.mem p = some y ∧ c.cmp y.val x.val ≠ if c.order = .les then .grt else .les) ∧
      (∀ n, s.v.nx child = some n → s.v.pv n = some child) ∧
      ((x.left = none ∧ k = .nil) ∨ ∃ l, x.left = some l ∧ Rep c s (some a) l (some l) k) ∧
      ((x.next = some child ∧ b = .nil) ∨ (x.next ≠ some child ∧ Rep c s parent child x.next b))

theorem links_sound (parent : Slot) (child : Nat) (cur : Slot) (h : linksLoop c s parent child cur = some true) :
    ∃ t, Rep c s parent child cur t := by
  have key : ∀ (parent : Slot) (child : Nat) (cur : Slot) (r : Bool), linksLoop c s parent child cur = some r → r = true →
      ∃ t, Rep c s parent child cur t := by
    refine linksLoop.partial_correctness c s (fun parent child cur r => r = true → ∃ t, Rep c s parent child cur t) ?_
    intro f ih parent child cur r h hr
    subst hr
    cases cur with
    | none => simp at h
    | some a =>
      simp only [bind, Option.bind_eq_some_iff] at h
      obtain ⟨ch, hch, h⟩ := h
      split at h
      · simp at h
      rename_i b1
      simp only [Option.bind_eq_some_iff] at h
      obtain ⟨bad2, hb2, h⟩ := h
      split at h
      · simp at h
      simp only [Option.bind_eq_some_iff] at h
      obtain ⟨n, hn, en, hen, bad3, hb3, h⟩ := h
      split at h
      · simp at h
      rename_i b3
      simp only [Option.bind_eq_some_iff] at h
      obtain ⟨x, hx, bad4, hb4, h⟩ := h
      split at h
      · simp at h
      rename_i b4
      simp only [Option.bind_eq_some_iff] at h
      obtain ⟨ok, hok, h⟩ := h
      split at h
      · simp at h
      rename_i b5
      have hok' : ok = true := by cases ok <;> simp_all
      subst hok'
      -- the parts
      have hpar : ∀ p, parent = some p → s.v.pr child = some p ∧
          ∃ y, s.mem p = some y ∧ c.cmp y.val x.val ≠ if c.order = .les then .grt else .les := by
        intro p hp
        subst hp
        simp only [Option.bind_eq_some_iff] at hb4
        obtain ⟨ep, hep, hb4⟩ := hb4
        refine ⟨?_, ep, hep, ?_⟩
        · rw [(view_mem hch).2.2.2.1]
          exact Decidable.byContradiction (fun hne => b1 ⟨by simp, hne⟩)
        · intro he
          simp only [he, decide_true, Option.some.injEq] at hb4
          exact b4 (by rw [← hb4])
      have hsib : ∀ n, s.v.nx child = some n → s.v.pv n = some child := by
        intro m hm
        rw [(view_mem hch).1, hn, Option.some.injEq] at hm
        subst hm
        rw [(view_mem hen).2.1]
        refine Decidable.byContradiction (fun hne => ?_)
        rw [if_pos hne, Option.some.injEq] at hb3
        exact b3 hb3.symm
      have hk : ∃ k, (x.left = none ∧ k = Bin.nil) ∨ ∃ l, x.left = some l ∧ Rep c s (some a) l (some l) k := by
        cases hl : x.left with
        | none => exact ⟨.nil, .inl ⟨rfl, rfl⟩⟩
        | some l =>
          rw [hl] at hok
          obtain ⟨k, hk⟩ := ih _ _ _ _ hok rfl
          exact ⟨k, .inr ⟨l, rfl, hk⟩⟩
      obtain ⟨k, hk⟩ := hk
      split at h
      · rename_i hlast
        exact ⟨.node a k .nil, rfl, x, hx, hpar, hsib, hk, .inl ⟨hlast, rfl⟩⟩
      · rename_i hlast
        obtain ⟨b, hb⟩ := ih _ _ _ _ h rfl
        exact ⟨.node a k b, rfl, x, hx, hpar, hsib, hk, .inr ⟨hlast, hb⟩⟩
  exact key _ _ _ _ h rfl

theorem size_sound : ∀ (t : Bin) (parent : Slot) (child a acc : Nat), Rep c s parent child (some a) t →
    sizeLoop s child a acc = some (acc + t.ids.length)
  | .nil, _, _, _, _, h => h.elim
  | .node a' k b, parent, child, a, acc, h => by
    obtain ⟨ha, x, hx, hp, hs, hk, hb⟩ := h
    cases ha
    have hsub : (match x.left with
      | none => some 0
      | some l => sizeLoop s l l 0) = some k.ids.length := by
      rcases hk with ⟨h1, rfl⟩ | ⟨l, h1, h2⟩
      · rw [h1]; rfl
      · rw [h1]
        have := size_sound k _ _ _ 0 h2
        rw [Nat.zero_add] at this
        exact this
    rw [sizeLoop.eq_def]
    simp only [bind, hx, Option.bind_some]
    cases hl : x.left with
    | none =>
      rw [hl] at hsub
      cases hsub' : k.ids.length with
      | succ n => rw [hsub'] at hsub; simp at hsub
      | zero =>
      simp only [Option.bind_some]
      rcases hb with ⟨h1, rfl⟩ | ⟨h1, h2⟩
      · rw [h1]
        simp [Bin.ids, hsub']
      · cases hn : x.next with
        | none =>
          rw [hn] at h2
          cases b with
          | nil => exact h2.elim
          | node => exact absurd h2.1 (by simp)
        | some n =>
          rw [hn] at h2 h1
          simp only [Option.bind_some]
          rw [if_neg (by rintro rfl; exact h1 rfl), size_sound b _ _ _ _ h2]
          simp only [Bin.ids, List.length_cons, List.length_append, hsub']
          congr 1; omega
    | some l =>
      rw [hl] at hsub
      simp only at hsub
      simp only [hsub, Option.bind_some]
      rcases hb with ⟨h1, rfl⟩ | ⟨h1, h2⟩
      · rw [h1]
        simp [Bin.ids]; omega
      · cases hn : x.next with
        | none =>
          rw [hn] at h2
          cases b with
          | nil => exact h2.elim
          | node => exact absurd h2.1 (by simp)
        | some n =>
          rw [hn] at h2 h1
          simp only [Option.bind_some]
          rw [if_neg (by rintro rfl; exact h1 rfl), size_sound b _ _ _ _ h2]
          simp only [Bin.ids, List.length_cons, List.length_append]
          congr 1; omega

/-! ### No element stands in two places -/

/-- The struct `j` steps above. -/
def up (s : Pq α) : Nat → Nat → Option Nat
  | 0, x => some x
  | j + 1, x => (s.v.pr x).bind (up s j)

theorem up_add (s : Pq α) : ∀ (i j x : Nat), up s (i + j) x = (up s i x).bind (up s j)
  | 0, j, x => by simp [up]
  | i + 1, j, x => by
    rw [Nat.add_right_comm]
    simp only [up]
    cases s.v.pr x with
    | none => rfl
    | some y => simp only [Option.bind_some]; exact up_add s i j y

/-- Every sibling in every ring names the struct above as its parent. -/
def Par (s : Pq α) (parent : Slot) : Bin → Prop
  | .nil => True
  | .node a k b => s.v.pr a = parent ∧ Par s (some a) k ∧ Par s parent b

theorem up_ring : ∀ (t : Bin) (parent : Slot), Par s parent t → ∀ x ∈ t.ids, ∃ j, ∃ r ∈ t.ring, up s j x = some r ∧
    (j = 0 → x ∈ t.ring)
  | .node a k b, parent, h, x, hx => by
    simp only [Bin.ids, List.mem_cons, List.mem_append] at hx
    rcases hx with rfl | hx | hx
    · exact ⟨0, x, by simp [Bin.ring], rfl, fun _ => by simp [Bin.ring]⟩
    · obtain ⟨j, r, hr, hu, _⟩ := up_ring k _ h.2.1 x hx
      refine ⟨j + 1, a, by simp [Bin.ring], ?_, by omega⟩
      rw [up_add, hu]
      have hpr : s.v.pr r = some a := by
        have : ∀ (t : Bin) (p : Slot), Par s p t → ∀ r ∈ t.ring, s.v.pr r = p := by
          intro t
          induction t with
          | nil => intro p _ r hr; cases hr
          | node a k b _ ih =>
            intro p hp r hr
            rcases List.mem_cons.1 hr with rfl | hr
            · exact hp.1
            · exact ih p hp.2.2 r hr
        exact this k _ h.2.1 r hr
      simp [up, hpr]
    · obtain ⟨j, r, hr, hu, h0⟩ := up_ring b _ h.2.2 x hx
      exact ⟨j, r, by simp [Bin.ring, hr], hu, fun hj => by simp [Bin.ring, h0 hj]⟩

theorem ring_par : ∀ (t : Bin) (p : Slot), Par s p t → ∀ r ∈ t.ring, s.v.pr r = p
  | .node a k b, p, hp, r, hr => by
    rcases List.mem_cons.1 hr with rfl | hr
    · exact hp.1
    · exact ring_par b p hp.2.2 r hr

/-- The siblings from an element on are determined by the element. -/
theorem ring_det : ∀ (t u : Bin) (parent : Slot) (child : Nat) (cur : Slot), Rep c s parent child cur t →
    Rep c s parent child cur u → t.ring = u.ring
  | .nil, _, _, _, _, h, _ => h.elim
  | _, .nil, _, _, _, _, h => h.elim
  | .node a k b, .node a' k' b', parent, child, cur, h, h' => by
    obtain ⟨rfl, x, hx, _, _, _, hb⟩ := h
    obtain ⟨e, x', hx', _, _, _, hb'⟩ := h'
    cases e
    rw [hx] at hx'
    cases hx'
    simp only [Bin.ring]
    rcases hb with ⟨h1, rfl⟩ | ⟨h1, h2⟩
    · rcases hb' with ⟨_, rfl⟩ | ⟨g1, _⟩
      · rfl
      · exact absurd h1 g1
    · rcases hb' with ⟨g1, _⟩ | ⟨_, g2⟩
      · exact absurd g1 h1
      · rw [ring_det b b' _ _ _ h2 g2]

/-- An element of the ring begins a shorter ring. -/
theorem ring_tail : ∀ (t : Bin) (parent : Slot) (child : Nat) (cur : Slot), Rep c s parent child cur t → ∀ x ∈ t.ring,
    ∃ u, Rep c s parent child (some x) u ∧ u.ring.length ≤ t.ring.length
  | .node a k b, parent, child, cur, h, x, hx => by
    rcases List.mem_cons.1 hx with rfl | hx
    · exact ⟨_, by rw [← h.1]; exact h, Nat.le_refl _⟩
    · obtain ⟨rfl, y, hy, h1, h2, h3, hb⟩ := h
      rcases hb with ⟨_, rfl⟩ | ⟨_, g⟩
      · cases hx
      · obtain ⟨u, hu, hl⟩ := ring_tail b _ _ _ g x hx
        exact ⟨u, hu, Nat.le_trans hl (by simp [Bin.ring])⟩

theorem ring_nodup : ∀ (t : Bin) (parent : Slot) (child : Nat) (cur : Slot), Rep c s parent child cur t → t.ring.Nodup
  | .node a k b, parent, child, cur, h => by
    have h' := h
    obtain ⟨rfl, y, hy, h1, h2, h3, hb⟩ := h
    simp only [Bin.ring, List.nodup_cons]
    rcases hb with ⟨_, rfl⟩ | ⟨_, g⟩
    · exact ⟨by simp [Bin.ring], .nil⟩
    · refine ⟨fun hm => ?_, ring_nodup b _ _ _ g⟩
      obtain ⟨u, hu, hl⟩ := ring_tail b _ _ _ g a hm
      have := ring_det _ _ _ _ _ h' hu
      have := congrArg List.length this
      simp only [Bin.ring, List.length_cons] at this
      omega

theorem rep_nodup : ∀ (t : Bin) (n : Nat) (root : Nat) (parent : Slot) (child : Nat) (cur : Slot),
    s.v.pr root = none → Rep c s parent child cur t → Par s parent t →
    (∀ x ∈ t.ring, up s n x = some root) → t.ids.Nodup
  | .nil, _, _, _, _, _, _, _, _, _ => .nil
  | .node a k b, n, root, parent, child, cur, hroot, h, hp, hn => by
    have hnd := ring_nodup _ _ _ _ h
    simp only [Bin.ring, List.nodup_cons] at hnd
    -- the depth of an element is unique
    have uniq : ∀ i j x, up s i x = some root → up s j x = some root → i ≤ j → i = j := by
      intro i j x hi hj hle
      obtain ⟨d, rfl⟩ := Nat.exists_eq_add_of_le hle
      rw [up_add, hi, Option.bind_some] at hj
      cases d with
      | zero => rfl
      | succ d => simp [up, hroot] at hj
    have uniq' : ∀ i j x, up s i x = some root → up s j x = some root → i = j := by
      intro i j x hi hj
      rcases Nat.le_total i j with hle | hle
      · exact uniq i j x hi hj hle
      · exact (uniq j i x hj hi hle).symm
    have ha : up s n a = some root := hn a (by simp [Bin.ring])
    obtain ⟨hcur, y, hy, h1, h2, hk, hb⟩ := h
    have kring : ∀ r ∈ k.ring, up s (n + 1) r = some root := by
      intro r hr
      rw [Nat.add_comm, up_add]
      simp only [up, ring_par k _ hp.2.1 r hr, Option.bind_some]
      exact ha
    have kn : k.ids.Nodup := by
      rcases hk with ⟨_, rfl⟩ | ⟨l, _, g⟩
      · exact .nil
      · exact rep_nodup k (n + 1) root _ _ _ hroot g hp.2.1 kring
    have bn : b.ids.Nodup := by
      rcases hb with ⟨_, rfl⟩ | ⟨_, g⟩
      · exact .nil
      · exact rep_nodup b n root _ _ _ hroot g hp.2.2 (fun x hx => hn x (by simp [Bin.ring, hx]))
    -- where an element below `a` can be
    have below : ∀ x ∈ k.ids, ∃ j, up s (j + 1) x = some a ∧ up s (j + 1 + n) x = some root := by
      intro x hx
      obtain ⟨j, r, hr, hu, _⟩ := up_ring k _ hp.2.1 x hx
      have e : up s (j + 1) x = some a := by
        rw [up_add, hu]; simp [up, ring_par k _ hp.2.1 r hr]
      exact ⟨j, e, by rw [up_add, e]; exact ha⟩
    have beside : ∀ x ∈ b.ids, ∃ j, ∃ r ∈ b.ring, up s j x = some r ∧ up s (j + n) x = some root := by
      intro x hx
      obtain ⟨j, r, hr, hu, _⟩ := up_ring b _ hp.2.2 x hx
      exact ⟨j, r, hr, hu, by rw [up_add, hu]; exact hn r (by simp [Bin.ring, hr])⟩
    simp only [Bin.ids, List.nodup_cons, List.mem_append, not_or]
    refine ⟨⟨fun hx => ?_, fun hx => ?_⟩, List.nodup_append.2 ⟨kn, bn, ?_⟩⟩
    · obtain ⟨j, _, e⟩ := below a hx
      have := uniq' _ _ _ e ha
      omega
    · obtain ⟨j, r, hr, e1, e⟩ := beside a hx
      have := uniq' _ _ _ e ha
      have hj : j = 0 := by omega
      subst hj
      cases e1
      exact hnd.1 hr
    · intro x hx z hz hxz
      subst hxz
      obtain ⟨j, e1, e2⟩ := below x hx
      obtain ⟨i, r, hr, e3, e4⟩ := beside x hz
      have hij := uniq' _ _ _ e2 e4
      have : i = j + 1 := by omega
      subst this
      rw [e1] at e3
      cases e3
      exact hnd.1 hr

/-! ### The shape of the heap -/

/-- Neighbours know each other. -/
def Mutual (s : Pq α) (t : Bin) : Prop :=
  ∀ a ∈ t.ids, ∀ b, s.v.nx a = some b → s.v.pv b = some a ∧ s.v.pr b = s.v.pr a

theorem par_of : ∀ (t : Bin) (parent : Slot) (child : Nat) (cur : Slot), Rep c s parent child cur t → Mutual s t →
    (∀ a, cur = some a → s.v.pr a = parent) → Par s parent t
  | .node a k b, parent, child, cur, h, hm, hh => by
    obtain ⟨rfl, x, hx, h1, h2, hk, hb⟩ := h
    have hpa := hh a rfl
    refine ⟨hpa, ?_, ?_⟩
    · rcases hk with ⟨_, rfl⟩ | ⟨l, hl, g⟩
      · trivial
      · refine par_of k _ _ _ g (fun y hy => hm y (by simp [Bin.ids, hy])) ?_
        intro a' e
        cases e
        cases k with
        | nil => exact g.elim
        | node a'' k' b' =>
          obtain ⟨_, _, _, g1, _⟩ := g
          exact (g1 _ rfl).1
    · rcases hb with ⟨_, rfl⟩ | ⟨_, g⟩
      · trivial
      · refine par_of b _ _ _ g (fun y hy => hm y (by simp [Bin.ids, hy])) ?_
        intro a' e
        rw [(hm a (by simp [Bin.ids]) a' ((view_mem hx).1.trans e)).2]
        exact hpa

theorem link_of : ∀ (t : Bin) (parent : Slot) (child : Nat) (cur : Slot), Rep c s parent child cur t → Mutual s t →
    Link s.v (t.ring ++ [child])
  | .node a k b, parent, child, cur, h, hm => by
    obtain ⟨rfl, x, hx, h1, h2, hk, hb⟩ := h
    have hn := (view_mem hx).1
    rcases hb with ⟨e, rfl⟩ | ⟨_, g⟩
    · simp only [Bin.ring, List.nil_append, List.cons_append, Link, and_true]
      exact ⟨hn.trans e, (hm a (by simp [Bin.ids]) child (hn.trans e)).1⟩
    · cases b with
      | nil => exact g.elim
      | node a' k' b' =>
        have ih := link_of _ _ _ _ g (fun y hy => hm y (by simp only [Bin.ids, List.mem_cons, List.mem_append] at hy ⊢; right; right; exact hy))
        have e := g.1
        simp only [Bin.ring, List.cons_append, Link] at ih ⊢
        exact ⟨⟨hn.trans e, (hm a (by simp [Bin.ids]) a' (hn.trans e)).1⟩, ih⟩

/-- What holds at an element of the tree. -/
theorem at_node : ∀ (t : Bin) (parent : Slot) (child : Nat) (cur : Slot), Rep c s parent child cur t → Mutual s t →
    t.ids.Nodup → ∀ a ∈ t.ids, s.v.vl a ≠ none ∧ s.v.lf a = (t.kf a).getLast? ∧ Ring s.v (t.kf a) ∧
      (∀ r ∈ t.kf a, t.rf r < t.rf a ∧ r ∈ t.ids ∧ ∃ x y, s.v.vl r = some x ∧ s.v.vl a = some y ∧
        c.cmp y x ≠ if c.order = .les then .grt else .les)
  | .node a k b, parent, child, cur, h, hm, hnd, z, hz => by
    obtain ⟨rfl, x, hx, h1, h2, hk, hb⟩ := h
    have hnd' := hnd
    simp only [Bin.ids, List.nodup_cons, List.mem_append, not_or] at hnd'
    obtain ⟨⟨ha1, ha2⟩, hnd'⟩ := hnd'
    obtain ⟨n1, n2, n3⟩ := List.nodup_append.1 hnd'
    have hmk : Mutual s k := fun y hy => hm y (by simp [Bin.ids, hy])
    have hmb : Mutual s b := fun y hy => hm y (by simp [Bin.ids, hy])
    have hv := view_mem hx
    -- the order between `a` and its children
    have hkids : ∀ (t : Bin) (l : Nat) (cur : Slot), Rep c s (some a) l cur t → ∀ r ∈ t.ring, ∃ x y, s.v.vl r = some x ∧ s.v.vl a = some y ∧
        c.cmp y x ≠ if c.order = .les then .grt else .les := by
      intro t
      induction t with
      | nil => intro l cur g; exact g.elim
      | node a' k' b' _ ih =>
        intro l cur g r hr
        obtain ⟨_, x', hx', g1, _, _, gb⟩ := g
        rcases List.mem_cons.1 hr with rfl | hr
        · obtain ⟨_, y, hy, hc⟩ := g1 a rfl
          exact ⟨x'.val, y.val, (view_mem hx').2.2.2.2, (view_mem hy).2.2.2.2, hc⟩
        · rcases gb with ⟨_, rfl⟩ | ⟨_, g⟩
          · cases hr
          · exact ih _ _ g r hr
    simp only [Bin.ids, List.mem_cons, List.mem_append] at hz
    have inK : ∀ r, r ∈ k.ids → (Bin.node a k b).rf r = k.rf r ∧ (Bin.node a k b).kf r = k.kf r := by
      intro r hr
      have : r ≠ a := by rintro rfl; exact ha1 hr
      simp [Bin.rf, Bin.kf, this, hr]
    have inB : ∀ r, r ∈ b.ids → (Bin.node a k b).rf r = b.rf r ∧ (Bin.node a k b).kf r = b.kf r := by
      intro r hr
      have h1 : r ≠ a := by rintro rfl; exact ha2 hr
      have h2 : r ∉ k.ids := fun hk => n3 r hk r hr rfl
      simp [Bin.rf, Bin.kf, h1, h2]
    rcases hz with rfl | hz | hz
    · have e : (Bin.node z k b).kf z = Bin.rot k.ring := by simp [Bin.kf]
      have e2 : (Bin.node z k b).rf z = k.ids.length + 1 := by simp [Bin.rf]
      rw [e, e2]
      refine ⟨by rw [hv.2.2.2.2]; simp, ?_, ?_, ?_⟩
      · rw [hv.2.2.1]
        rcases hk with ⟨hl, rfl⟩ | ⟨l, hl, g⟩
        · rw [hl]; rfl
        · cases k with
          | nil => exact g.elim
          | node a' k' b' =>
            have := g.1
            cases this
            simp [hl, Bin.ring, Bin.rot]
      · rcases hk with ⟨hl, rfl⟩ | ⟨l, hl, g⟩
        · exact trivial
        · cases k with
          | nil => exact g.elim
          | node a' k' b' =>
            have g' := link_of _ _ _ _ g hmk
            have := g.1
            cases this
            simp only [Bin.ring, Bin.rot]
            rw [← ring_rotate]
            exact g'
      · intro r hr
        have hr' : r ∈ k.ring := (Bin.rot_perm _).subset hr
        have hr2 := Bin.ring_sub hr'
        rw [(inK r hr2).1]
        refine ⟨by have := Bin.rf_le k r; omega, by simp [Bin.ids, hr2], ?_⟩
        rcases hk with ⟨hl, rfl⟩ | ⟨l, hl, g⟩
        · cases hr'
        · exact hkids k l _ g r hr'
    · rcases hk with ⟨_, rfl⟩ | ⟨l, _, g⟩
      · cases hz
      · obtain ⟨g1, g2, g3, g4⟩ := at_node k _ _ _ g hmk n1 z hz
        rw [(inK z hz).2, (inK z hz).1]
        refine ⟨g1, g2, g3, fun r hr => ?_⟩
        obtain ⟨m1, m2, m3⟩ := g4 r hr
        rw [(inK r m2).1]
        exact ⟨m1, by simp [Bin.ids, m2], m3⟩
    · rcases hb with ⟨_, rfl⟩ | ⟨_, g⟩
      · cases hz
      · obtain ⟨g1, g2, g3, g4⟩ := at_node b _ _ _ g hmb n2 z hz
        rw [(inB z hz).2, (inB z hz).1]
        refine ⟨g1, g2, g3, fun r hr => ?_⟩
        obtain ⟨m1, m2, m3⟩ := g4 r hr
        rw [(inB r m2).1]
        exact ⟨m1, by simp [Bin.ids, m2], m3⟩

theorem kf_par : ∀ (t : Bin) (parent : Slot), Par s parent t → t.ids.Nodup → ∀ a ∈ t.ids, ∀ r ∈ t.kf a, s.v.pr r = some a
  | .node a k b, parent, hp, hnd, z, hz, r, hr => by
    simp only [Bin.ids, List.nodup_cons, List.mem_append, not_or] at hnd
    obtain ⟨⟨ha1, ha2⟩, hnd'⟩ := hnd
    obtain ⟨n1, n2, n3⟩ := List.nodup_append.1 hnd'
    simp only [Bin.ids, List.mem_cons, List.mem_append] at hz
    simp only [Bin.kf] at hr
    rcases hz with rfl | hz | hz
    · rw [if_pos rfl] at hr
      exact ring_par k _ hp.2.1 r ((Bin.rot_perm _).subset hr)
    · rw [if_neg (by rintro rfl; exact ha1 hz), if_pos hz] at hr
      exact kf_par k _ hp.2.1 n1 z hz r hr
    · rw [if_neg (by rintro rfl; exact ha2 hz), if_neg (fun hk => n3 z hk z hz rfl)] at hr
      exact kf_par b _ hp.2.2 n2 z hz r hr

/-- Following a link from an element leads to an element. -/
theorem rep_closed : ∀ (t : Bin) (parent : Slot) (child : Nat) (cur : Slot), Rep c s parent child cur t → ∀ a ∈ t.ids,
    (∃ x, s.mem a = some x) ∧ ∀ b, s.v.nx a = some b ∨ s.v.lf a = some b → b ∈ t.ids ∨ b = child
  | .node a k b, parent, child, cur, h, z, hz => by
    obtain ⟨rfl, x, hx, h1, h2, hk, hb⟩ := h
    have hv := view_mem hx
    simp only [Bin.ids, List.mem_cons, List.mem_append] at hz ⊢
    rcases hz with rfl | hz | hz
    · refine ⟨⟨x, hx⟩, fun y hy => ?_⟩
      rcases hy with hy | hy
      · rw [hv.1] at hy
        rcases hb with ⟨e, rfl⟩ | ⟨_, g⟩
        · rw [e] at hy; cases hy; exact .inr rfl
        · cases b with
          | nil => exact g.elim
          | node a' k' b' =>
            rw [g.1] at hy; cases hy
            simp [Bin.ids]
      · rw [hv.2.2.1] at hy
        rcases hk with ⟨e, rfl⟩ | ⟨l, e, g⟩
        · rw [e] at hy; cases hy
        · rw [e] at hy; cases hy
          cases k with
          | nil => exact g.elim
          | node a' k' b' =>
            have := g.1
            cases this
            simp [Bin.ids]
    · rcases hk with ⟨_, rfl⟩ | ⟨l, e, g⟩
      · cases hz
      · obtain ⟨g1, g2⟩ := rep_closed k _ _ _ g z hz
        refine ⟨g1, fun y hy => ?_⟩
        rcases g2 y hy with m | rfl
        · simp [m]
        · cases k with
          | nil => exact g.elim
          | node a' k' b' =>
            have := g.1
            cases this
            simp [Bin.ids]
    · rcases hb with ⟨_, rfl⟩ | ⟨_, g⟩
      · cases hz
      · obtain ⟨g1, g2⟩ := rep_closed b _ _ _ g z hz
        refine ⟨g1, fun y hy => ?_⟩
        rcases g2 y hy with m | rfl
        · simp [m]
        · simp

/-- Every element is reached by following links. -/
theorem rep_reach {P : Nat → Prop} (hP : ∀ a b, P a → s.v.nx a = some b ∨ s.v.lf a = some b → P b) :
    ∀ (t : Bin) (parent : Slot) (child : Nat) (cur : Slot), Rep c s parent child cur t → (∀ a, cur = some a → P a) →
    ∀ a ∈ t.ids, P a
  | .node a k b, parent, child, cur, h, hc, z, hz => by
    obtain ⟨rfl, x, hx, h1, h2, hk, hb⟩ := h
    have hv := view_mem hx
    have ha := hc a rfl
    simp only [Bin.ids, List.mem_cons, List.mem_append] at hz
    rcases hz with rfl | hz | hz
    · exact ha
    · rcases hk with ⟨_, rfl⟩ | ⟨l, e, g⟩
      · cases hz
      · exact rep_reach hP k _ _ _ g (fun y hy => by cases hy; exact hP a _ ha (.inr (hv.2.2.1.trans e))) z hz
    · rcases hb with ⟨_, rfl⟩ | ⟨_, g⟩
      · cases hz
      · exact rep_reach hP b _ _ _ g (fun y hy => hP a y ha (.inl (hv.1.trans hy))) z hz

/-- What an accepting validation has seen. -/
theorem validate_sound (h : validate c s = some true) : (s.root = none ∧ s.sz = 0) ∨ ∃ r t, s.root = some r ∧
    s.v.pr r = none ∧ Rep c s none r (some r) t ∧ s.sz = t.ids.length := by
  unfold validate at h
  cases hr : s.root with
  | none =>
    left
    simp only [hr, hasValidLinks, traversalSize, bind, Option.bind_some, Bool.false_eq_true, if_false, Bool.not_true] at h
    refine ⟨rfl, ?_⟩
    simp at h
    omega
  | some r =>
    right
    simp only [hr, hasValidLinks, traversalSize, bind, Option.bind_eq_some_iff] at h
    obtain ⟨bad, ⟨e, he, hb⟩, h⟩ := h
    split at h
    · simp at h
    rename_i hbad
    simp only [Option.bind_eq_some_iff] at h
    obtain ⟨ok, hok, h⟩ := h
    split at h
    · simp at h
    rename_i hok'
    have : ok = true := by cases ok <;> simp_all
    subst this
    simp only [Option.bind_eq_some_iff] at h
    obtain ⟨n, hn, h⟩ := h
    obtain ⟨t, ht⟩ := links_sound _ _ _ hok
    refine ⟨r, t, rfl, ?_, ht, ?_⟩
    · rw [(view_mem he).2.2.2.1]
      cases hp : e.par with
      | none => rfl
      | some p => rw [hp] at hb; simp at hb; exact absurd hb hbad
    · have := size_sound t _ _ _ 0 ht
      rw [hn] at this
      simp at this h
      omega

/-- What validation accepts is a heap, provided that neighbours know each other and the root is alone. -/
theorem sound_sim (hl : LawfulCmp c.cmp) (hi : IsOrder c.order) {r : Nat} {t : Bin} (hr : s.root = some r) (hp : s.v.pr r = none)
    (ht : Rep c s none r (some r) t) (hz : s.sz = t.ids.length) (hm : Mutual s t) (ha : s.v.nx r = some r) :
    Sim c s ⟨s.v.vl, t.ids, some r, false⟩ := by
  have hpar := par_of t _ _ _ ht hm (fun a e => by cases e; exact hp)
  have hring : t.ring = [r] := by
    cases t with
    | nil => exact ht.elim
    | node a k b =>
      obtain ⟨e, x, hx, _, _, _, hb⟩ := ht
      cases e
      rcases hb with ⟨_, rfl⟩ | ⟨g, _⟩
      · rfl
      · rw [(view_mem hx).1] at ha; exact absurd ha g
  have hrm : r ∈ t.ids := Bin.ring_sub (by rw [hring]; simp)
  have hnd : t.ids.Nodup := rep_nodup t 0 r _ _ _ hp ht hpar (by rw [hring]; simp [up])
  have hat := at_node t _ _ _ ht hm hnd
  refine ⟨⟨t.kf, ⟨hnd, ?_, fun a h => (hat a h).1, fun a h => (hat a h).2.1, fun a h => (hat a h).2.2.1,
    fun a h k hk => kf_par t _ hpar hnd a h k hk, ⟨t.rf, fun a h k hk => ((hat a h).2.2.2 k hk).1⟩⟩, ?_⟩, rfl, hr, hz, ?_⟩
  · have := Bin.perm_kids t hnd
    rw [hring] at this
    rw [hr]
    exact this
  · intro a h k hk x y hx hy
    obtain ⟨_, _, x', y', hx', hy', hc⟩ := (hat a h).2.2.2 k hk
    rw [hx] at hx'
    rw [hy] at hy'
    cases hx'
    cases hy'
    rcases hi with ho | ho
    · exact up_les hl (by rw [ho] at hc; simpa using hc) ho
    · exact up_grt hl (by rw [ho] at hc; simpa using hc) ho
  · intro r' e
    rw [hr] at e
    cases e
    exact top_self ⟨ha, (hm r hrm r ha).1, hp⟩ _

end CCC.Pq
