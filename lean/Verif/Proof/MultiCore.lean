import Verif.Proof.MultiSnip
import Verif.Proof.Mono
/-
The multimap as a sorted tree of groups of equal keys.
-/
namespace CCC.Omm
open CCC Links Tree Wavl Splay

set_option linter.unusedSimpArgs false

variable {α κ : Type} {cmp : κ → κ → Cmp} {key : α → κ}

/-- The multimap stores the structs at the addresses `A`, oldest first.  The tree has one node for each key, the oldest
struct with it, and the ring of the node are the other structs with the key, oldest first. -/
structure Core (cmp : κ → κ → Cmp) (key : α → κ) (H : Omm α) (A : List Nat) (N : Nat → Prop) (D : Nat → List Nat)
    (h : Links) (T : Tree) : Prop where
  rel : Rel D N H h
  whole : Whole h [] T
  live : ∀ a, h.live a = true → a = 0 ∨ a ∈ T.ids
  sorted : T.ids.Pairwise (fun a b => cmp (key (H.val a)) (key (H.val b)) = .les)
  group : ∀ n ∈ T.ids, n :: D n = A.filter (fun a => cmp (key (H.val n)) (key (H.val a)) == .eql)
  cover : ∀ a ∈ A, ∃ n ∈ T.ids, cmp (key (H.val n)) (key (H.val a)) = .eql

variable {H : Omm α} {A : List Nat} {N : Nat → Prop} {D : Nat → List Nat} {h : Links} {T : Tree}

theorem Core.nodup (c : Core cmp key H A N D h T) : T.ids.Nodup := by simpa using c.whole.nodup
theorem Core.root (c : Core cmp key H A N D h T) : H.root = T.rootId := c.rel.root.trans c.whole.ctx

theorem Core.memT (c : Core cmp key H A N D h T) {n : Nat} (hn : n ∈ T.ids) : n ∈ A := by
  have : n ∈ n :: D n := by simp
  rw [c.group n hn] at this
  exact (List.mem_filter.1 this).1

theorem Core.tree_of (c : Core cmp key H A N D h T) {n y : Nat} (hy : y ∈ D n) : n ∈ T.ids := by
  rcases c.live n (c.rel.dnl n y hy).1 with h0 | hm
  · subst h0; rw [c.rel.d0] at hy; simp at hy
  · exact hm

theorem Core.memD (c : Core cmp key H A N D h T) {n y : Nat} (hy : y ∈ D n) :
    y ∈ A ∧ cmp (key (H.val n)) (key (H.val y)) = .eql := by
  have : y ∈ n :: D n := by simp [hy]
  rw [c.group n (c.tree_of hy)] at this
  have := List.mem_filter.1 this
  exact ⟨this.1, by simpa using this.2⟩

theorem Core.of_eql (c : Core cmp key H A N D h T) {a n : Nat} (ha : a ∈ A) (hn : n ∈ T.ids)
    (he : cmp (key (H.val n)) (key (H.val a)) = .eql) : a = n ∨ a ∈ D n := by
  have : a ∈ n :: D n := by rw [c.group n hn]; exact List.mem_filter.2 ⟨ha, by simp [he]⟩
  simpa using this

theorem Core.find_node (c : Core cmp key H A N D h T) {a : Nat} (ha : a ∈ A) : ∃ n ∈ T.ids, a = n ∨ a ∈ D n := by
  obtain ⟨n, hn, he⟩ := c.cover a ha
  exact ⟨n, hn, c.of_eql ha hn he⟩

theorem Core.ne_zero (c : Core cmp key H A N D h T) {a : Nat} (ha : a ∈ A) : a ≠ 0 := by
  obtain ⟨n, hn, hh⟩ := c.find_node ha
  rcases hh with rfl | hh
  · rintro rfl; exact c.whole.tree.ne_zero hn
  · exact c.rel.dne hh

theorem Core.alive (c : Core cmp key H A N D h T) {a : Nat} (ha : a ∈ A) : H.live a = true := by
  obtain ⟨n, hn, hh⟩ := c.find_node ha
  rcases hh with rfl | hh
  · exact c.rel.live _ (c.whole.tree.live _ hn)
  · exact (c.rel.dnl n a hh).2.1

theorem Core.notN (c : Core cmp key H A N D h T) {a : Nat} (ha : a ∈ A) : ¬ N a := by
  intro hN
  obtain ⟨_, _, _, q4, q5⟩ := c.rel.null a hN
  obtain ⟨n, hn, hh⟩ := c.find_node ha
  rcases hh with rfl | hh
  · rw [c.whole.tree.live _ hn] at q4; cases q4
  · exact q5 n hh

theorem Core.outside (c : Core cmp key H A N D h T) {a : Nat} (h0 : a ≠ 0) (ha : a ∉ A) :
    h.live a = false ∧ ∀ b, a ∉ D b := by
  refine ⟨?_, fun b hb => ha (c.memD hb).1⟩
  cases e : h.live a with
  | false => rfl
  | true =>
    rcases c.live a e with h1 | h1
    · exact absurd h1 h0
    · exact absurd (c.memT h1) ha

theorem Core.nil_iff (c : Core cmp key H A N D h T) : T = nil ↔ A = [] := by
  constructor
  · rintro rfl
    cases A with
    | nil => rfl
    | cons a l =>
      obtain ⟨n, hn, _⟩ := c.cover a (by simp)
      simp [ids] at hn
  · intro hA
    cases T with
    | nil => rfl
    | node i k l r =>
      have := c.memT (n := i) (by simp [ids])
      rw [hA] at this; simp at this

theorem Core.cmpAt (c : Core cmp key H A N D h T) (k : κ) {a : Nat} (ha : a ∈ A) :
    Omm.cmpAt cmp key H k a = some (cmp k (key (H.val a))) := if_pos ⟨c.ne_zero ha, c.alive ha⟩

theorem sorted_mono (hc : LawfulCmp cmp) {val : Nat → α} {l : List Nat}
    (hs : l.Pairwise (fun a b => cmp (key (val a)) (key (val b)) = .les)) (k : κ) :
    Mono (fun a => cmp k (key (val a))) l :=
  Mono.of_sorted hc (f := val) (key := key) (by unfold MapSpec.Sorted; rw [List.pairwise_map]; exact hs) k

theorem Core.mono (c : Core cmp key H A N D h T) (hc : LawfulCmp cmp) (k : κ) :
    Mono (fun a => cmp k (key (H.val a))) T.ids := sorted_mono hc c.sorted k

/-- Only links changed, and the tree its shape. -/
theorem Core.reshape (c : Core cmp key H A N D h T) {H' : Omm α} {h' : Links} {T' : Tree} (o : Only H H')
    (R : Rel D N H' h') (w : Whole h' [] T') (hi : T'.ids = T.ids) (hl : h'.live = h.live) :
    Core cmp key H' A N D h' T' := by
  obtain ⟨_, _, _, rfl⟩ := o
  refine ⟨R, w, ?_, ?_, ?_, ?_⟩
  · intro a ha; rw [hi]; rw [hl] at ha; exact c.live a ha
  · rw [hi]; exact c.sorted
  · rw [hi]; exact c.group
  · rw [hi]; exact c.cover

theorem Core.reshapeN (c : Core cmp key H A N D h T) {H' : Omm α} {M : Nat → Prop} (o : Only H H')
    (R : Rel D M H' h) : Core cmp key H' A M D h T := by
  obtain ⟨_, _, _, rfl⟩ := o
  exact ⟨R, c.whole, c.live, c.sorted, c.group, c.cover⟩

/-- Everything but the links and the data of stored elements may change. -/
theorem Rel.frame (w : Rel D N H h) {M : Nat → Prop} (hm : ∀ a, M a → N a) {H' : Omm α} (hr : H'.root = H.root)
    (hag : ∀ a, (h.live a = true ∨ (∃ b, a ∈ D b) ∨ M a) → H'.br a = H.br a ∧ H'.par a = H.par a ∧ H'.live a = H.live a) :
    Rel D M H' h := by
  have hl : ∀ a, h.live a = true → _ := fun a ha => hag a (Or.inl ha)
  have hd : ∀ a b, a ∈ D b → _ := fun a b hb => hag a (Or.inr (Or.inl ⟨b, hb⟩))
  have hM : ∀ a, M a → _ := fun a ha => hag a (Or.inr (Or.inr ha))
  refine ⟨?_, hr.trans w.root, w.zero, ?_, w.brl, w.parl, ?_, ?_, w.d0, ?_, w.dnd, w.ddj, w.nocyc, ?_⟩
  · intro a ha; rw [(hl a ha).2.2]; exact w.live a ha
  · intro a d ha; rw [(hl a ha).1]; exact w.br a d ha
  · intro a ha e; rw [(hl a ha).2.1]; exact w.plain a ha e
  · intro a x xs ha e
    obtain ⟨q1, q2, q3, q4⟩ := w.head a x xs ha e
    have mem : ∀ y ∈ x :: xs, y ∈ D a := by intro y hy; rw [e]; exact hy
    refine ⟨by rw [(hl a ha).2.1]; exact q1, by rw [(hd x a (mem x (by simp))).2.1]; exact q2, ?_, ?_⟩
    · intro y hy; rw [(hd y a (mem y (by simp [hy]))).2.1]; exact q3 y hy
    · exact q4.congr (fun b hb => (hd b a (mem b hb)).1)
  · intro a x hx
    obtain ⟨q1, q2, q3⟩ := w.dnl a x hx
    exact ⟨q1, by rw [(hd x a hx).2.2]; exact q2, q3⟩
  · intro a ha
    obtain ⟨q1, q2, q3, q4, q5⟩ := w.null a (hm a ha)
    obtain ⟨e1, e2, e3⟩ := hM a ha
    exact ⟨by rw [e3]; exact q1, by rw [e1]; exact q2, by rw [e2]; exact q3, q4, q5⟩

/-- Structs that are not stored may change, and the data of stored ones if their keys stay equal. -/
theorem Core.frame (c : Core cmp key H A N D h T) (hc : LawfulCmp cmp) {M : Nat → Prop} (hm : ∀ a, M a → N a) {H' : Omm α}
    (hr : H'.root = H.root)
    (hag : ∀ a, (a = 0 ∨ a ∈ A ∨ M a) → H'.br a = H.br a ∧ H'.par a = H.par a ∧ H'.live a = H.live a)
    (hv : ∀ a ∈ A, cmp (key (H'.val a)) (key (H.val a)) = .eql) : Core cmp key H' A M D h T := by
  have eq : ∀ a ∈ A, ∀ b ∈ A, cmp (key (H'.val a)) (key (H'.val b)) = cmp (key (H.val a)) (key (H.val b)) := by
    intro a ha b hb
    rw [hc.eql_congr_left (hv a ha), hc.eql_congr (hv b hb)]
  refine ⟨c.rel.frame hm hr ?_, c.whole, c.live, ?_, ?_, ?_⟩
  · intro a ha
    apply hag
    rcases ha with ha | ⟨b, hb⟩ | ha
    · rcases c.live a ha with h0 | h0
      · exact Or.inl h0
      · exact Or.inr (Or.inl (c.memT h0))
    · exact Or.inr (Or.inl (c.memD hb).1)
    · exact Or.inr (Or.inr ha)
  · refine c.sorted.imp_of_mem ?_
    intro a b ha hb hab
    rw [eq a (c.memT ha) b (c.memT hb)]; exact hab
  · intro n hn
    rw [c.group n hn]
    refine List.filter_congr ?_
    intro a ha
    rw [eq n (c.memT hn) a ha]
  · intro a ha
    obtain ⟨n, hn, he⟩ := c.cover a ha
    exact ⟨n, hn, by rw [eq n (c.memT hn) a ha]; exact he⟩

/-- The size field does not matter. -/
theorem Core.setSz (c : Core cmp key H A N D h T) (n : Nat) : Core cmp key { H with sz := n } A N D h T :=
  ⟨⟨c.rel.live, c.rel.root, c.rel.zero, c.rel.br, c.rel.brl, c.rel.parl, c.rel.plain, c.rel.head, c.rel.d0, c.rel.dnl,
    c.rel.dnd, c.rel.ddj, c.rel.nocyc, c.rel.null⟩, c.whole, c.live, c.sorted, c.group, c.cover⟩

/-- Splaying, for any comparison that is consistent with the order. -/
theorem Core.splayCN (c : Core cmp key H A N D h T) (hne : T ≠ nil) {f : Nat → Option Cmp} {f' : Nat → Cmp}
    (hf : ∀ a ∈ T.ids, f a = some (f' a)) (hm : Mono f' T.ids) :
    ∃ H' h' i m L B, splay H f H.root = some (H', i) ∧ Core cmp key H' A N D h' (node i m L B) ∧ Only H H' ∧
      H'.root = i ∧ (node i m L B).ids = T.ids ∧ (∀ a ∈ L.ids, f' a = .grt) ∧ (∀ a ∈ B.ids, f' a = .les) ∧
      ∃ P n, Split f' T P i m n ∧ L = P true ∧ B = P false ∧ Costs (splayN H f H.root) n (H', i) := by
  obtain ⟨H', h', i, m, L, B, e, R, o, w, hi, hA, hB, hs, P, n, hsp, e1, e2, hn⟩ :=
    splay_simN c.rel c.whole.tree c.nodup c.whole.live0 hne hf hm
  have c' := c.reshape o R w hi hs.live
  rw [← c.root] at e hn
  exact ⟨H', h', i, m, L, B, e, c', o, c'.root, hi, hA, hB, P, n, hsp, e1, e2, hn⟩

theorem Core.splayC (c : Core cmp key H A N D h T) (hne : T ≠ nil) {f : Nat → Option Cmp} {f' : Nat → Cmp}
    (hf : ∀ a ∈ T.ids, f a = some (f' a)) (hm : Mono f' T.ids) :
    ∃ H' h' i m L B, splay H f H.root = some (H', i) ∧ Core cmp key H' A N D h' (node i m L B) ∧ Only H H' ∧
      H'.root = i ∧ (node i m L B).ids = T.ids ∧ (∀ a ∈ L.ids, f' a = .grt) ∧ (∀ a ∈ B.ids, f' a = .les) := by
  obtain ⟨H', h', i, m, L, B, e, c', o, hr, hi, hA, hB, _⟩ := c.splayCN hne hf hm
  exact ⟨H', h', i, m, L, B, e, c', o, hr, hi, hA, hB⟩

theorem Only.val {H H' : Omm α} (o : Only H H') : H'.val = H.val ∧ H'.live = H.live ∧ H'.own = H.own ∧ H'.sz = H.sz ∧
    H'.alloc = H.alloc ∧ H'.off = H.off := by
  obtain ⟨_, _, _, rfl⟩ := o
  exact ⟨rfl, rfl, rfl, rfl, rfl, rfl⟩

theorem root_self {H : Omm α} {i : Nat} (e : H.root = i) : ({ H with root := i } : Omm α) = H := by
  cases H; cases e; rfl

/-- Splaying for a key. -/
theorem Core.splay (c : Core cmp key H A N D h T) (hc : LawfulCmp cmp) (hne : T ≠ nil) (k : κ) :
    ∃ H' h' i m L B, splay H (Omm.cmpAt cmp key H k) H.root = some (H', i) ∧ Core cmp key H' A N D h' (node i m L B) ∧
      Only H H' ∧ H'.root = i ∧ (node i m L B).ids = T.ids ∧ (∀ a ∈ L.ids, cmp k (key (H.val a)) = .grt) ∧
      (∀ a ∈ B.ids, cmp k (key (H.val a)) = .les) ∧
      splayTo cmp key H k = some (H', cmp k (key (H.val i))) ∧ Omm.cmpAt cmp key H' k i = some (cmp k (key (H.val i))) := by
  obtain ⟨H', h', i, m, L, B, e, c', o, hr, hi, hA, hB⟩ := c.splayC hne (fun a ha => c.cmpAt k (c.memT ha)) (c.mono hc k)
  have hq := c'.cmpAt k (c'.memT (n := i) (by simp [ids]))
  rw [o.val.1] at hq
  refine ⟨H', h', i, m, L, B, e, c', o, hr, hi, hA, hB, ?_, hq⟩
  simp only [splayTo, e, Option.bind_eq_bind, Option.bind_some, root_self hr]
  rw [hq]; rfl

/-- The oldest stored struct with a key. -/
def first (cmp : κ → κ → Cmp) (key : α → κ) (val : Nat → α) (k : κ) (A : List Nat) : Option Nat :=
  A.find? (fun a => cmp k (key (val a)) == .eql)

/-- What is at the root after a search. -/
theorem Core.first_root {i m : Nat} {L B : Tree} (c : Core cmp key H A N D h (node i m L B)) (hc : LawfulCmp cmp) {k : κ}
    (hA : ∀ a ∈ L.ids, cmp k (key (H.val a)) = .grt) (hB : ∀ a ∈ B.ids, cmp k (key (H.val a)) = .les) :
    first cmp key H.val k A = if cmp k (key (H.val i)) = .eql then some i else none := by
  unfold first
  by_cases he : cmp k (key (H.val i)) = .eql
  · rw [if_pos he, ← List.head?_filter]
    have : A.filter (fun a => cmp k (key (H.val a)) == .eql) = i :: D i := by
      rw [c.group i (by simp [ids])]
      refine List.filter_congr ?_
      intro a _
      rw [hc.eql_congr_left he]
    rw [this]; rfl
  · rw [if_neg he, List.find?_eq_none]
    intro a ha hh
    have hh : cmp k (key (H.val a)) = .eql := by simpa using hh
    obtain ⟨n, hn, hq⟩ := c.cover a ha
    have : cmp k (key (H.val n)) = .eql := by rw [hc.eql_congr hq]; exact hh
    simp only [ids, List.mem_append, List.mem_cons] at hn
    rcases hn with hn | rfl | hn
    · rw [hA n hn] at this; cases this
    · exact he this
    · rw [hB n hn] at this; cases this

/-- `find`. -/
theorem Core.find (c : Core cmp key H A N D h T) (hc : LawfulCmp cmp) (k : κ) :
    ∃ H' h' T', find cmp key H k = some (H', first cmp key H.val k A) ∧ Core cmp key H' A N D h' T' ∧ Only H H' ∧
      T'.ids = T.ids ∧ ∀ a, first cmp key H.val k A = some a → H'.root = a ∧ a ∈ T.ids := by
  by_cases hne : T = nil
  · subst hne
    have hA := c.nil_iff.1 rfl
    refine ⟨H, h, nil, ?_, c, Only.refl _, rfl, ?_⟩
    · unfold Omm.find
      rw [if_pos (by rw [c.root]; rfl), hA]; rfl
    · rw [hA]; simp [first]
  · obtain ⟨H', h', i, m, L, B, _, c', o, hr, hi, hA, hB, run, _⟩ := c.splay hc hne k
    have hf := c'.first_root hc (k := k) (by rw [o.val.1]; exact hA) (by rw [o.val.1]; exact hB)
    rw [o.val.1] at hf
    refine ⟨H', h', _, ?_, c', o, hi, ?_⟩
    · have hz : H.root ≠ 0 := by
        rw [c.root]; exact fun hh => hne ((rootId_ne c.whole.tree).1 hh)
      simp only [Omm.find, if_neg hz, run, Option.bind_eq_bind, Option.bind_some, hf, hr]
    · intro a ha
      rw [hf] at ha
      split at ha
      · cases ha; exact ⟨hr, by rw [← hi]; simp [ids]⟩
      · cases ha

/-- Nothing but links and the size has changed. -/
def OnlyS (n : Nat) (H H' : Omm α) : Prop := ∃ b p r, H' = { H with br := b, par := p, root := r, sz := n }

theorem Only.withSz {H H' : Omm α} {n : Nat} (o : Only { H with sz := n } H') : OnlyS n H H' := by
  obtain ⟨b, p, r, rfl⟩ := o; exact ⟨b, p, r, rfl⟩

theorem OnlyS.val {H H' : Omm α} {n : Nat} (o : OnlyS n H H') : H'.val = H.val ∧ H'.live = H.live ∧ H'.own = H.own ∧
    H'.sz = n ∧ H'.alloc = H.alloc ∧ H'.off = H.off := by
  obtain ⟨_, _, _, rfl⟩ := o
  exact ⟨rfl, rfl, rfl, rfl, rfl, rfl⟩

end CCC.Omm
