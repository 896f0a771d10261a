import Verif.Proof.OrderedMapStep
import Verif.Proof.FlatRealtimeMapAny
/-
The splay tree ordered map with a comparison function that obeys no rule: a splay asks for comparisons along one path
only, and along one path any answers are the answers of some order.
-/
namespace CCC.Splay
open CCC Links Tree Wavl

variable {c : Nat → Option Cmp} {c' c2 : Nat → Cmp} {X : Tree}

theorem Along.congr (h : Along c c' X) (he : ∀ a ∈ X.ids, c2 a = c' a) : Along c c2 X := by
  induction X with
  | nil => trivial
  | node i k l r il ir =>
    have hi := he i (by simp [ids])
    refine ⟨by rw [hi]; exact h.1, fun h1 => il (h.2.1 (by rw [← hi]; exact h1)) (fun a ha => he a (by simp [ids, ha])),
      fun h1 => ir (h.2.2 (by rw [← hi]; exact h1)) (fun a ha => he a (by simp [ids, ha]))⟩

theorem Along.congr_left {b : Nat → Option Cmp} (h : Along c c' X) (he : ∀ a ∈ X.ids, b a = c a) : Along b c' X := by
  induction X with
  | nil => trivial
  | node i k l r il ir =>
    refine ⟨by rw [he i (by simp [ids])]; exact h.1, fun h1 => il (h.2.1 h1) (fun a ha => he a (by simp [ids, ha])),
      fun h1 => ir (h.2.2 h1) (fun a ha => he a (by simp [ids, ha]))⟩

theorem pw_of {α : Type} {R : α → α → Prop} {l : List α} (h : ∀ a ∈ l, ∀ b ∈ l, R a b) : l.Pairwise R := by
  induction l with
  | nil => simp
  | cons x l ih =>
    exact List.pairwise_cons.2 ⟨fun b hb => h x (by simp) b (by simp [hb]), ih (fun a ha b hb => h a (by simp [ha]) b (by simp [hb]))⟩

/-- Whatever the comparisons along the path are, they are those of some order. -/
theorem exists_along (hn : X.ids.Nodup) (hc : ∀ a ∈ X.ids, ∃ q, c a = some q ∧ q ≠ .err) :
    ∃ c', Along c c' X ∧ Mono c' X.ids := by
  induction X with
  | nil => exact ⟨fun _ => .eql, trivial, ⟨by simp [ids], by simp [ids]⟩⟩
  | node i k l r il ir =>
    simp only [ids] at hn
    rw [List.nodup_append, List.nodup_cons] at hn
    obtain ⟨nl, ⟨hir, nr⟩, dlr⟩ := hn
    have hil : i ∉ l.ids := fun h => dlr i h i (by simp) rfl
    have hlr : ∀ a ∈ l.ids, a ∉ r.ids := fun a ha hb => dlr a ha a (by simp [hb]) rfl
    obtain ⟨q, hq, he⟩ := hc i (by simp [ids])
    cases q with
    | err => exact absurd rfl he
    | eql =>
      refine ⟨fun a => if a ∈ l.ids then .grt else if a = i then .eql else .les, ⟨by simp [hil, hq], by simp [hil], by simp [hil]⟩,
        ⟨?_, ?_⟩⟩
      · intro a _; split
        · simp
        · split <;> simp
      · simp only [ids]
        rw [List.pairwise_append]
        refine ⟨pw_of (fun a ha b hb => by simp [ha]), ?_, ?_⟩
        · rw [List.pairwise_cons]
          have hr : ∀ b ∈ r.ids, b ∉ l.ids ∧ b ≠ i := fun b hb => ⟨fun h => hlr b h hb, fun h => hir (h ▸ hb)⟩
          refine ⟨fun b hb => by simp [hil, hr b hb], pw_of (fun a ha b hb => by simp [hr _ ha, hr _ hb])⟩
        · intro a ha b hb
          rcases List.mem_cons.1 hb with rfl | hb
          · simp [ha, hil]
          · have h1 : b ∉ l.ids := fun h => hlr b h hb
            have h2 : b ≠ i := fun h => hir (h ▸ hb)
            simp [ha, h1, h2]
    | grt =>
      obtain ⟨c1, a1, m1⟩ := ir nr (fun a ha => hc a (by simp [ids, ha]))
      refine ⟨fun a => if a ∈ r.ids then c1 a else .grt, ⟨by simp [hir, hq], by simp [hir], fun _ => a1.congr (fun a ha => by simp [ha])⟩,
        ⟨?_, ?_⟩⟩
      · intro a _; split
        · exact m1.noErr a (by assumption)
        · simp
      · simp only [ids]
        rw [List.pairwise_append]
        refine ⟨pw_of (fun a ha b hb => by simp [hlr _ ha, hlr _ hb]), ?_, ?_⟩
        · rw [List.pairwise_cons]
          exact ⟨fun b hb => by simp [hir], List.Pairwise.imp_of_mem (fun ha hb h => by simpa [ha, hb] using h) m1.ord⟩
        · intro a ha b hb
          simp [hlr a ha]
    | les =>
      obtain ⟨c1, a1, m1⟩ := il nl (fun a ha => hc a (by simp [ids, ha]))
      refine ⟨fun a => if a ∈ l.ids then c1 a else .les, ⟨by simp [hil, hq], fun _ => a1.congr (fun a ha => by simp [ha]), by simp [hil]⟩,
        ⟨?_, ?_⟩⟩
      · intro a _; split
        · exact m1.noErr a (by assumption)
        · simp
      · have hr : ∀ b ∈ i :: r.ids, b ∉ l.ids := by
          intro b hb
          rcases List.mem_cons.1 hb with rfl | hb
          · exact hil
          · exact fun h => hlr b h hb
        simp only [ids]
        rw [List.pairwise_append]
        refine ⟨List.Pairwise.imp_of_mem (fun ha hb h => by simpa [ha, hb] using h) m1.ord,
          pw_of (fun a ha b hb => by simp [hr _ ha, hr _ hb]), ?_⟩
        intro a ha b hb
        simp [hr b hb]

/-- The nodes on a border of a tree were compared, with the answer of that side. -/
def Border (c : Nat → Option Cmp) (c' : Nat → Cmp) (d : Bool) : Tree → Prop
  | nil => True
  | node i _ l r => c i = some (c' i) ∧ c' i = dirCmp d ∧ (d = true → Border c c' d r) ∧ (d = false → Border c c' d l)

theorem Border.nd {d : Bool} {i k : Nat} {Y A : Tree} (h1 : c i = some (c' i)) (h2 : c' i = dirCmp d)
    (h3 : Border c c' d Y) : Border c c' d (nd d i k Y A) := by
  cases d
  · exact ⟨h1, h2, by simp, fun _ => h3⟩
  · exact ⟨h1, h2, fun _ => h3, by simp⟩

theorem Border.along {d : Bool} (h : Border c c' d X) : Along c c' X := by
  induction X with
  | nil => trivial
  | node i k l r il ir =>
    obtain ⟨h1, h2, h3⟩ := h
    cases d
    · exact ⟨h1, fun _ => il (h3.2 rfl), fun h => by rw [h2] at h; simp [dirCmp] at h⟩
    · exact ⟨h1, fun h => by rw [h2] at h; simp [dirCmp] at h, fun _ => ir (h3.1 rfl)⟩

theorem Along.here {d : Bool} {i k : Nat} {Y A : Tree} (h : Along c c' (nd d i k Y A)) : c i = some (c' i) := by
  cases d <;> exact h.1

/-- Splaying again for the same key makes the same comparisons as before. -/
theorem Split.border {P : Bool → Tree} {i k m : Nat} (h : Split c' X P i k m) (ha : Along c c' X) :
    c i = some (c' i) ∧ ∀ d, c' i = dirCmp d → Border c c' (!d) (P (!d)) := by
  induction h with
  | found he => exact ⟨ha.1, fun d hd => by rw [he] at hd; cases d <;> simp [dirCmp] at hd⟩
  | @last d i k A hi =>
    refine ⟨ha.here, fun e he => ?_⟩
    have : e = d := by rw [hi] at he; cases d <;> cases e <;> simp [dirCmp] at he <;> rfl
    subst this
    simp [setP, Border]
  | @zzLast d i k j m A B hi hj =>
    refine ⟨(ha.down hi).here, fun e he => ?_⟩
    have : e = d := by rw [hj] at he; cases d <;> cases e <;> simp [dirCmp] at he <;> rfl
    subst this
    simp [setP, Border]
  | @zz d i k j m A B Z P x kx n hi hj hZ hs ih =>
    have hY := ha.down hi
    obtain ⟨h1, h2⟩ := ih (hY.down hj)
    refine ⟨h1, fun e he => ?_⟩
    have h3 := h2 e he
    by_cases hd : (!e) = d
    · subst hd
      simp only [setP, if_true]
      exact Border.nd hY.here hj h3
    · simp only [setP, if_neg hd]; exact h3
  | @zig d i k A Y P x kx n hi hY hy hs ih =>
    obtain ⟨h1, h2⟩ := ih (ha.down hi)
    refine ⟨h1, fun e he => ?_⟩
    have h3 := h2 e he
    by_cases hd : (!e) = d
    · subst hd
      simp only [setP, if_true]
      exact Border.nd ha.here hi h3
    · simp only [setP, if_neg hd]; exact h3

theorem Split.along {P : Bool → Tree} {i k m : Nat} (h : Split c' X P i k m) (ha : Along c c' X) :
    Along c c' (node i k (P true) (P false)) := by
  obtain ⟨h1, h2⟩ := h.border ha
  exact ⟨h1, fun hh => (h2 false (by simpa [dirCmp] using hh)).along, fun hh => (h2 true (by simpa [dirCmp] using hh)).along⟩

end CCC.Splay

namespace CCC.Om
open CCC Links Tree Wavl Splay MapSpec PtrMap
open _root_.CCC.Rom (put view toSlot elems mem_elems elems_congr elems_upd elems_append recursiveSize isStoringParent
  areSubtreesValid recursiveSize_spec isStoringParent_spec view_head view_last
  dropWhile_split put_comm_val occ_occ unwrap_occ unwrap_vac unwrap_ie view_some
  view_none ids_elems putAt_elems fnd gap fnd_ok gap_ok areSubtreesValid_any)
open _root_.CCC.Frm (lt blind sorted_lt)

/-- `s` stores the elements `l`, in a tree of shape `T`; nothing is said about their order. -/
abbrev Kept {α : Type} (s : Om α) (l : List (Nat × α)) (T : Tree) : Prop := Ok lt blind s l T

variable {α κ : Type} {cmp : κ → κ → Cmp} {key : α → κ} {s : Om α} {l : List (Nat × α)} {T : Tree}

theorem Ok.shape (o : Ok cmp key s l T) : Kept s l T := ⟨o.whole, o.list, sorted_lt l, o.size⟩

theorem Kept.mem (o : Kept s l T) {a : Nat} (h : a ∈ T.ids) : (a, s.val a) ∈ l := by
  rw [o.list, mem_elems]; exact ⟨h, rfl⟩

theorem Kept.set (o : Kept s l T) (a : Nat) (x : α) : Kept { s with val := upd s.val a x } (setAt a x l) T := by
  refine ⟨o.whole, ?_, sorted_lt _, by rw [o.size]; simp [setAt]⟩
  rw [o.list]
  simp only [setAt, elems, List.map_map]
  refine List.map_congr_left (fun b hb => ?_)
  by_cases hba : b = a
  · subst hba; simp
  · simp [hba, upd_ne _ _ hba]

theorem Kept.cmpAt (o : Kept s l T) (cmp : κ → κ → Cmp) (key : α → κ) (k : κ) {a : Nat} (ha : a ∈ T.ids) :
    cmpAt cmp key s k a = some (cmp k (key (s.val a))) :=
  if_pos ⟨o.ne_zero ha, o.whole.tree.live a ha⟩

/-- The comparisons of a search in `T` are those of an order in which the key is missing. -/
def Miss (c : Nat → Option Cmp) (T : Tree) : Prop := ∃ c', Along c c' T ∧ Mono c' T.ids ∧ ∀ a ∈ T.ids, c' a ≠ .eql

theorem Miss.congr {c b : Nat → Option Cmp} (h : Miss c T) (he : ∀ a ∈ T.ids, b a = c a) : Miss b T := by
  obtain ⟨c', h1, h2, h3⟩ := h
  exact ⟨c', h1.congr_left he, h2, h3⟩

theorem Kept.splay (o : Kept s l T) (hT : T ≠ nil) (k : κ) {c' : Nat → Cmp}
    (al : Along (Om.cmpAt cmp key s k) c' T) (mo : Mono c' T.ids) :
    ∃ t i m A B, splay s.t (Om.cmpAt cmp key s k) s.t.root = some (t, i) ∧ Kept { s with t := t } l (node i m A B) ∧
      t.root = i ∧ (node i m A B).ids = T.ids ∧ (∀ a ∈ A.ids, c' a = .grt) ∧ (∀ a ∈ B.ids, c' a = .les) ∧
      t.live = s.t.live ∧ c' i = cmp k (key (s.val i)) ∧ Along (Om.cmpAt cmp key s k) c' (node i m A B) ∧
      splayTo cmp key s k = some ({ s with t := t }, cmp k (key (s.val i))) := by
  obtain ⟨t, i, m, A, B, e, w, hi, hA, hB, hs, P, n, hsp, rfl, rfl, _⟩ := splay_specA o.whole.tree o.nodup o.whole.live0 hT al mo
  have o' : Kept { s with t := t } l (node i m (P true) (P false)) := o.reshape w hi
  have hr : t.root = i := o'.root
  rw [← o.root] at e
  have mi : i ∈ T.ids := by rw [← hi]; simp [ids]
  have hal := hsp.along al
  have hci : c' i = cmp k (key (s.val i)) := by
    have := hal.1
    rw [o.cmpAt cmp key k mi] at this
    simpa using this.symm
  refine ⟨t, i, m, _, _, e, o', hr, hi, hA, hB, hs.live, hci, hal, ?_⟩
  have hq := o'.cmpAt cmp key k (a := i) (by simp [ids])
  simp only [splayTo, e, Option.bind_eq_bind, Option.bind_some, setRoot_self hr, hr, hq]

theorem Kept.along (o : Kept s l T) (hne : ∀ a b, cmp a b ≠ .err) (k : κ) :
    ∃ c', Along (Om.cmpAt cmp key s k) c' T ∧ Mono c' T.ids :=
  exists_along o.nodup (fun _ ha => ⟨_, o.cmpAt cmp key k ha, hne _ _⟩)

theorem cmpAt_live {t : Links} (h : t.live = s.t.live) (k : κ) : cmpAt cmp key { s with t := t } k = cmpAt cmp key s k := by
  funext a; simp only [cmpAt, h]

/-- What a search answers. -/
theorem Kept.find (o : Kept s l T) (hne : ∀ a b, cmp a b ≠ .err) (k : κ) :
    (∃ t x m A B, find cmp key s k = some ({ s with t := t }, some x) ∧ Kept { s with t := t } l (node x m A B) ∧
      t.root = x ∧ cmp k (key (s.val x)) = .eql) ∨
    (∃ t T', find cmp key s k = some ({ s with t := t }, none) ∧ Kept { s with t := t } l T' ∧ T'.ids = T.ids ∧
      Miss (Om.cmpAt cmp key { s with t := t } k) T') := by
  by_cases hT : T = nil
  · subst hT
    right
    have hr : s.t.root = 0 := o.root
    exact ⟨s.t, nil, by simp [Om.find, hr], o, rfl, ⟨fun _ => .eql, trivial, ⟨by simp [ids], by simp [ids]⟩, by simp [ids]⟩⟩
  · obtain ⟨c', al, mo⟩ := o.along (cmp := cmp) (key := key) hne k
    obtain ⟨t, i, m, A, B, _, o', hr, hi, hA, hB, hlv, hci, hal, run⟩ := o.splay hT k al mo
    have hz : s.t.root ≠ 0 := by
      intro hh
      have := o.not_empty hT
      simp [empty, hh] at this
    by_cases he : cmp k (key (s.val i)) = .eql
    · left
      refine ⟨t, i, m, A, B, ?_, o', hr, he⟩
      simp only [Om.find, if_neg hz, run, Option.bind_eq_bind, Option.bind_some, if_pos he, hr]
    · right
      refine ⟨t, _, ?_, o', hi, ⟨c', by rw [cmpAt_live hlv]; exact hal, by rw [hi]; exact mo, ?_⟩⟩
      · simp only [Om.find, if_neg hz, run, Option.bind_eq_bind, Option.bind_some, if_neg he]
      · intro a ha
        simp only [ids, List.mem_append, List.mem_cons] at ha
        rcases ha with ha | rfl | ha
        · rw [hA a ha]; simp
        · rw [hci]; exact he
        · rw [hB a ha]; simp

theorem Kept.place (o : Kept s l T) {e : Nat} {t : Links} {T' : Tree} {pre post : List Nat}
    (w : Whole t [] T') (ei : T.ids = pre ++ post) (ei' : T'.ids = pre ++ e :: post) :
    Kept { s with t := t, sz := s.sz + 1 } (putAt pre.length (e, s.val e) l) T' := by
  refine ⟨w, ?_, sorted_lt _, ?_⟩
  · rw [o.list, ei, putAt_elems, ei']
  · rw [o.list, ei, putAt_elems]
    show s.sz + 1 = _
    rw [o.size, o.list, ei]; simp [elems]; omega

theorem Kept.connect {i m : Nat} {A B : Tree} (o : Kept s l (node i m A B)) {e : Nat} (e0 : e ≠ 0)
    (he : e ∉ (node i m A B).ids) (hlv : s.t.live e = true) {q : Cmp} (h1 : q ≠ .eql) (h2 : q ≠ .err) :
    ∃ t T' p, connectNewRoot s.t e q = some t ∧ t.root = e ∧
      Kept { s with t := t, sz := s.sz + 1 } (putAt p (e, s.val e) l) T' ∧ t.live = s.t.live := by
  cases q with
  | eql => exact absurd rfl h1
  | err => exact absurd rfl h2
  | les =>
    obtain ⟨t, run, w, hl⟩ := connect_spec (h := s.t) (i := i) (k := m) (e := e) (Y := A) (C := B) (res := .les)
      (by exact o.whole) e0 hlv he
    exact ⟨t, _, _, run, w.ctx, o.place w (pre := A.ids) (post := i :: B.ids) rfl (by simp [ids, nd]), hl⟩
  | grt =>
    obtain ⟨t, run, w, hl⟩ := connect_spec (h := s.t) (i := i) (k := m) (e := e) (Y := B) (C := A) (res := .grt)
      (by exact o.whole) e0 hlv he
    exact ⟨t, _, _, run, w.ctx, o.place w (pre := A.ids ++ [i]) (post := B.ids) (by simp [ids]) (by simp [ids, nd]), hl⟩

theorem Kept.first (o : Kept s l nil) {e : Nat} (e0 : e ≠ 0) {t : Links}
    (h0 : t.live 0 = true) (hlv : t.live e = true) (hb : ∀ d, t.br e d = 0) (hp : t.par e = 0) :
    Kept { s with t := t.setRoot e, sz := 1 } (putAt 0 (e, s.val e) l) (node e 0 nil nil) := by
  have hl : l = [] := o.list
  subst hl
  exact ⟨⟨rfl, ⟨e0, hlv, hb _, hb _, hp, trivial, trivial⟩, by simp [ids], h0⟩, rfl, sorted_lt _, rfl⟩

/-- Inserting a struct whose key a search has just missed. -/
theorem insertNode_any (o : Kept s l T) (hne : ∀ a b, cmp a b ≠ .err) {e : Nat} (e0 : e ≠ 0) (he : e ∉ T.ids)
    (hk : Miss (Om.cmpAt cmp key s (key (s.val e))) T) :
    ∃ s' T' p, insertNode cmp key s e = some (s', some e) ∧ Kept s' (putAt p (e, s.val e) l) T' ∧ s'.val = s.val ∧
      s'.alloc = s.alloc := by
  obtain ⟨t, run, w, hlv, hb, hp, hr⟩ := init_whole o.whole e0 he
  have o1 : Kept { s with t := t } l T := o.reshape w rfl
  simp only [insertNode, run, Option.bind_eq_bind, Option.bind_some]
  by_cases hT : T = nil
  · subst hT
    rw [if_pos (o1.empty_iff.2 rfl)]
    exact ⟨_, _, _, rfl, o1.first e0 w.live0 (by rw [hlv]; simp) hb hp, rfl, rfl⟩
  · obtain ⟨c', al, mo, hn⟩ : Miss (Om.cmpAt cmp key { s with t := t } (key (s.val e))) T :=
      hk.congr (fun a ha => by rw [o1.cmpAt cmp key _ ha, o.cmpAt cmp key _ ha])
    obtain ⟨t2, i, m, A, B, _, o2, hr2, hi, hA, hB, hlv2, hci, _, run2⟩ := o1.splay hT _ al mo
    have mi : i ∈ T.ids := by rw [← hi]; simp [ids]
    have hq : cmp (key (s.val e)) (key (s.val i)) ≠ .eql := by
      have := hn i mi
      rw [hci] at this; exact this
    obtain ⟨t3, T', p, run3, hr3, o3, _⟩ := o2.connect e0 (by rw [hi]; exact he)
      (by rw [hlv2]; show t.live e = true; rw [hlv]; simp) hq (hne _ _)
    refine ⟨_, T', p, ?_, o3, rfl, rfl⟩
    simp only [o1.not_empty hT, Bool.false_eq_true, if_false, run2, Option.bind_some, if_neg hq]
    simp only at run3
    rw [run3]; rfl

theorem allocInsert_any (o : Kept s l T) (hne : ∀ a b, cmp a b ≠ .err) {h : Nat} {x : α} (hx : s.val h = x) (fh : fresh l h)
    {ans : Option Nat} (ha : goodAns l ans h) (hk : Miss (Om.cmpAt cmp key s (key x)) T) :
    (addAt s.alloc (some h) ans = none ∧ ∃ t T', allocInsert cmp key s h ans = some ({ s with t := t }, none) ∧
      Kept { s with t := t } l T') ∨
    (∃ n s' T' p, addAt s.alloc (some h) ans = some n ∧ allocInsert cmp key s h ans = some (s', some n) ∧
      Kept s' (putAt p (n, x) l) T' ∧ s'.val = upd s.val n x ∧ s'.alloc = s.alloc ∧ (n = h ∨ ans = some n)) := by
  subst hx
  obtain ⟨h0, hh⟩ := o.fresh.1 fh
  have hadd : addAt s.alloc (some h) ans = (if s.alloc then ans else some h) := rfl
  obtain ⟨c', al, mo, hno⟩ := hk
  cases hn : addAt s.alloc (some h) ans with
  | none =>
    left
    refine ⟨rfl, ?_⟩
    rw [hadd] at hn
    by_cases hT : T = nil
    · refine ⟨s.t, T, ?_, o⟩
      simp only [allocInsert, o.empty_iff.2 hT, Bool.not_true, Bool.false_eq_true, if_false, Option.bind_eq_bind,
        Option.bind_some, hn]
      rfl
    · obtain ⟨t, i, m, A, B, _, o', hr, hi, hA, hB, hlv, _, _, run⟩ := o.splay hT _ al mo
      refine ⟨t, _, ?_, o'⟩
      simp only [allocInsert, o.not_empty hT, Bool.not_false, if_true, Option.bind_eq_bind, run, Option.bind_some, hn]
      split <;> rfl
  | some n =>
    right
    have hnf : n ≠ 0 ∧ n ∉ T.ids ∧ (n = h ∨ ans = some n) ∧
        (if s.alloc then upd s.val n (s.val h) else s.val) = upd s.val n (s.val h) := by
      rw [hadd] at hn
      cases hal : s.alloc with
      | true =>
        rw [hal, if_pos rfl] at hn
        have := o.fresh.1 (ha n hn).1
        exact ⟨this.1, this.2, Or.inr hn, rfl⟩
      | false =>
        rw [hal] at hn
        simp only [Bool.false_eq_true, if_false, Option.some.injEq] at hn
        subst hn
        refine ⟨h0, hh, Or.inl rfl, ?_⟩
        simp only [Bool.false_eq_true, if_false]
        funext a; by_cases e : a = h <;> simp [upd, e]
    obtain ⟨n0, hnT, hor, hval⟩ := hnf
    have on : Kept (put s n (s.val h)) l T := o.put hnT
    have hvn : (put s n (s.val h)).val n = s.val h := by simp [put]
    rw [hadd] at hn
    by_cases hT : T = nil
    · subst hT
      obtain ⟨t, run, w, hlv, hb, hp, hr⟩ := init_whole o.whole n0 hnT
      have o2 := on.first n0 w.live0 (by rw [hlv]; simp) hb hp
      rw [hvn] at o2
      refine ⟨n, _, _, _, rfl, ?_, o2, rfl, rfl, hor⟩
      simp only [allocInsert, o.empty_iff.2 rfl, Bool.not_true, Bool.false_eq_true, if_false, Option.bind_eq_bind,
        Option.bind_some, hn, run, if_true, hval]
      rfl
    · obtain ⟨t, i, m, A, B, _, o', hr, hi, hA, hB, hlv, hci, _, run⟩ := o.splay hT _ al mo
      have mi : i ∈ T.ids := by rw [← hi]; simp [ids]
      have hq : cmp (key (s.val h)) (key (s.val i)) ≠ .eql := by rw [← hci]; exact hno i mi
      have hni : n ∉ (node i m A B).ids := by rw [hi]; exact hnT
      obtain ⟨t2, run2, w2, hlv2, hb, hp, hr2⟩ := init_whole o'.whole n0 hni
      have o2 : Kept { put s n (s.val h) with t := t2 } l (node i m A B) := on.reshape w2 hi
      obtain ⟨t3, T', p, run3, hr3, o3, _⟩ := o2.connect (e := n) n0 hni
        (by show t2.live n = true; rw [hlv2]; simp) hq (hne _ _)
      simp only [hvn] at run3 o3
      refine ⟨n, _, T', p, rfl, ?_, o3, rfl, rfl, hor⟩
      have he2 : (cmp (key (s.val h)) (key (s.val i)) != .err) = true := by simpa using hne _ _
      have hem : empty ({ s with t := t } : Om α) = false := o'.not_empty (by simp)
      simp only [allocInsert, o.not_empty hT, Bool.not_false, if_true, Option.bind_eq_bind, run, Option.bind_some, hn,
        if_neg hq, run2, hval, hem, Bool.false_eq_true, if_false, req, he2, run3]
      rfl

/-! ### The calls -/

/-- Goal of the per-call theorem. -/
def StepAny (cmp : κ → κ → Cmp) (key : α → κ) (s : Om α) (l : List (Nat × α)) (op : Op α κ) : Prop :=
  ∃ s' c T', Choice.Ok cmp key l op c ∧ step cmp key s op = some (s', (specAny c s.alloc l op).2) ∧
    Kept s' (specAny c s.alloc l op).1 T' ∧ s'.alloc = s.alloc

theorem Kept.entry (o : Kept s l T) (hne : ∀ a b, cmp a b ≠ .err) (k : κ) :
    (∃ t x m A B, entry cmp key s k = some ({ s with t := t }, ⟨some x, Stat.occupied⟩) ∧
      Kept { s with t := t } l (node x m A B) ∧ t.root = x ∧ cmp k (key (s.val x)) = .eql) ∨
    (∃ t T', entry cmp key s k = some ({ s with t := t }, ⟨none, Stat.vacant⟩) ∧ Kept { s with t := t } l T' ∧
      T'.ids = T.ids ∧ Miss (Om.cmpAt cmp key { s with t := t } k) T') := by
  rcases o.find (key := key) hne k with ⟨t, x, m, A, B, hf, h⟩ | ⟨t, T', hf, h⟩
  · exact Or.inl ⟨t, x, m, A, B, by simp [Om.entry, hf], h⟩
  · exact Or.inr ⟨t, T', by simp [Om.entry, hf], h⟩

theorem any_insert (hne : ∀ a b, cmp a b ≠ .err) (o : Kept s l T) {h tmp : Nat} {x y : α} {ans : Option Nat}
    (ok : okAny s.alloc l (.insert h x tmp y ans : Op α κ)) : StepAny cmp key s l (.insert h x tmp y ans) := by
  obtain ⟨fh, ft, hht, ga, ant⟩ := ok
  have fh' := o.fresh.1 fh
  have ft' := o.fresh.1 ft
  have o1 : Kept (put (put s tmp y) h x) l T := Ok.put (Ok.put o ft'.2) fh'.2
  have hx : (put (put s tmp y) h x).val h = x := put_comm_val
  have hy : (put (put s tmp y) h x).val tmp = y := by
    show upd (upd s.val tmp y) h x tmp = y; rw [upd_ne _ _ (Ne.symm hht)]; simp
  have hal : (put (put s tmp y) h x).alloc = s.alloc := rfl
  simp only [StepAny, step, insert]
  generalize put (put s tmp y) h x = s1 at o1 hx hy hal
  rw [hx]
  rcases o1.find (key := key) hne (key x) with ⟨t, a, m, A, B, hf, o2, hr, ha⟩ | ⟨t, T', hf, o2, hi, ms⟩
  · have ham : a ∈ (node a m A B).ids := by simp [ids]
    have ft2 := o2.fresh.1 ft
    have fh2 := o2.fresh.1 fh
    have hat : a ≠ tmp := fun hh => ft2.2 (hh ▸ ham)
    have hah : a ≠ h := fun hh => fh2.2 (hh ▸ ham)
    have o3 := o2.set a x
    have o4 := Ok.put (Ok.put o3 (h := tmp) (x := s1.val a) ft2.2) (h := h) (x := s1.val a) fh2.2
    refine ⟨{ s1 with t := t, val := upd (upd (upd s1.val tmp (s1.val a)) a x) h (s1.val a) }, fnd (a, s1.val a),
      node a m A B, fnd_ok rfl (o2.mem ham) ha, ?_, ?_, hal⟩
    · rw [hf]
      simp only [Option.bind_eq_bind, Option.bind_some, Option.isSome_some, if_true, hr, bne_root (o2.ne_zero ham),
        specAny, fnd]
      have e1 : upd s1.val tmp (s1.val a) h = x := by rw [upd_ne _ _ hht, hx]
      have e2 : upd (upd s1.val tmp (s1.val a)) a x tmp = s1.val a := by
        rw [upd_ne _ _ (Ne.symm hat)]; simp
      simp only [e1, e2, unwrap_occ, view, Option.map_some, upd_ne _ _ (Ne.symm hht)]
    · have hv : upd (upd (upd s1.val tmp (s1.val a)) a x) h (s1.val a) =
          upd (upd (upd s1.val a x) tmp (s1.val a)) h (s1.val a) := by
        funext b
        simp only [upd]
        by_cases c1 : b = h
        · simp [c1]
        · by_cases c2 : b = a
          · simp [c2, hat]
          · simp [c1, c2]
      simp only [specAny, fnd]
      rw [hv]
      exact o4
  · rw [hf]
    simp only [Option.bind_eq_bind, Option.bind_some, Option.isSome_none, Bool.false_eq_true, if_false]
    rcases allocInsert_any o2 hne hx fh ga ms with
      ⟨hn, t3, T3, run, o3⟩ | ⟨n, s', T3, p, hn, run, o', v', a', hnh⟩
    · rw [show ({ s1 with t := t } : Om α).alloc = s.alloc from hal] at hn
      refine ⟨{ s1 with t := t3 }, gap 0, T3, gap_ok, ?_, ?_, hal⟩
      · simp only [run, Option.bind_some, specAny, gap, hn, unwrap_ie, hy]; rfl
      · simp only [specAny, gap, hn]; exact o3
    · rw [show ({ s1 with t := t } : Om α).alloc = s.alloc from hal] at hn a'
      refine ⟨s', gap p, T3, gap_ok, ?_, ?_, a'⟩
      · simp only [run, Option.bind_some, specAny, gap, hn, unwrap_vac]
        have htn : tmp ≠ n := by
          rcases hnh with rfl | h'
          · exact Ne.symm hht
          · exact fun hh => ant (by rw [h', hh])
        rw [v', upd_ne _ _ htn]
        show some (s', Out.insEnt _ _ (s1.val tmp)) = _
        rw [hy]; rfl
      · simp only [specAny, gap, hn]; exact o'

theorem any_tryInsert (hne : ∀ a b, cmp a b ≠ .err) (o : Kept s l T) {h : Nat} {x : α} {ans : Option Nat}
    (ok : okAny s.alloc l (.tryInsert h x ans : Op α κ)) : StepAny cmp key s l (.tryInsert h x ans) := by
  obtain ⟨fh, ga⟩ := ok
  have o1 : Kept (put s h x) l T := Ok.put o (o.fresh.1 fh).2
  have hx : (put s h x).val h = x := put_comm_val
  have hal : (put s h x).alloc = s.alloc := rfl
  simp only [StepAny, step, tryInsert]
  generalize put s h x = s1 at o1 hx hal
  rw [hx]
  rcases o1.find (key := key) hne (key x) with ⟨t, a, m, A, B, hf, o2, hr, ha⟩ | ⟨t, T', hf, o2, hi, ms⟩
  · have ham : a ∈ (node a m A B).ids := by simp [ids]
    refine ⟨{ s1 with t := t }, fnd (a, s1.val a), _, fnd_ok rfl (o2.mem ham) ha, ?_, by
      simp only [specAny, fnd]; exact o2, hal⟩
    simp only [hf, Option.bind_eq_bind, Option.bind_some, Option.isSome_some, if_true, hr, bne_root (o2.ne_zero ham),
      specAny, fnd, unwrap_occ, view_some]
  · rw [hf]
    simp only [Option.bind_eq_bind, Option.bind_some, Option.isSome_none, Bool.false_eq_true, if_false]
    rcases allocInsert_any o2 hne hx fh ga ms with ⟨hn, t3, T3, run, o3⟩ | ⟨n, s', T3, p, hn, run, o', v', a', hnh⟩
    · rw [show ({ s1 with t := t } : Om α).alloc = s.alloc from hal] at hn
      refine ⟨{ s1 with t := t3 }, gap 0, T3, gap_ok, ?_, by simp only [specAny, gap, hn]; exact o3, hal⟩
      simp only [run, Option.bind_some, specAny, gap, hn, unwrap_ie, view_none]
    · rw [show ({ s1 with t := t } : Om α).alloc = s.alloc from hal] at hn a'
      refine ⟨s', gap p, T3, gap_ok, ?_, by simp only [specAny, gap, hn]; exact o', a'⟩
      simp only [run, Option.bind_some, specAny, gap, hn, unwrap_vac, view_some, v', upd_same]

theorem any_insertOrAssign (hne : ∀ a b, cmp a b ≠ .err) (o : Kept s l T) {h : Nat} {x : α} {ans : Option Nat}
    (ok : okAny s.alloc l (.insertOrAssign h x ans : Op α κ)) : StepAny cmp key s l (.insertOrAssign h x ans) := by
  obtain ⟨fh, ga⟩ := ok
  have o1 : Kept (put s h x) l T := Ok.put o (o.fresh.1 fh).2
  have hx : (put s h x).val h = x := put_comm_val
  have hal : (put s h x).alloc = s.alloc := rfl
  simp only [StepAny, step, insertOrAssign]
  generalize put s h x = s1 at o1 hx hal
  rw [hx]
  rcases o1.find (key := key) hne (key x) with ⟨t, a, m, A, B, hf, o2, hr, ha⟩ | ⟨t, T', hf, o2, hi, ms⟩
  · have ham : a ∈ (node a m A B).ids := by simp [ids]
    refine ⟨{ s1 with t := t, val := upd s1.val a x }, fnd (a, s1.val a), _, fnd_ok rfl (o2.mem ham) ha, ?_, by
      simp only [specAny, fnd]; exact o2.set a x, hal⟩
    simp only [hf, Option.bind_eq_bind, Option.bind_some, hr, bne_root (o2.ne_zero ham), hx,
      specAny, fnd, unwrap_occ, view_some, upd_same]
  · rw [hf]
    simp only [Option.bind_eq_bind, Option.bind_some]
    rcases allocInsert_any o2 hne hx fh ga ms with ⟨hn, t3, T3, run, o3⟩ | ⟨n, s', T3, p, hn, run, o', v', a', hnh⟩
    · rw [show ({ s1 with t := t } : Om α).alloc = s.alloc from hal] at hn
      refine ⟨{ s1 with t := t3 }, gap 0, T3, gap_ok, ?_, by simp only [specAny, gap, hn]; exact o3, hal⟩
      simp only [run, Option.bind_some, specAny, gap, hn, unwrap_ie, view_none]
    · rw [show ({ s1 with t := t } : Om α).alloc = s.alloc from hal] at hn a'
      refine ⟨s', gap p, T3, gap_ok, ?_, by simp only [specAny, gap, hn]; exact o', a'⟩
      simp only [run, Option.bind_some, specAny, gap, hn, unwrap_vac, view_some, v', upd_same]

theorem any_orInsert (hne : ∀ a b, cmp a b ≠ .err) (o : Kept s l T) {h : Nat} {x : α} {ans : Option Nat}
    (ok : okAny s.alloc l (.orInsert (key x) h x ans)) : StepAny cmp key s l (.orInsert (key x) h x ans) := by
  obtain ⟨fh, ga⟩ := ok
  have o1 : Kept (put s h x) l T := Ok.put o (o.fresh.1 fh).2
  have hx : (put s h x).val h = x := put_comm_val
  have hal : (put s h x).alloc = s.alloc := rfl
  simp only [StepAny, step, orInsert]
  generalize put s h x = s1 at o1 hx hal
  rcases o1.entry (key := key) hne (key x) with ⟨t, a, m, A, B, hf, o2, hr, ha⟩ | ⟨t, T', hf, o2, hi, ms⟩
  · refine ⟨{ s1 with t := t }, fnd (a, s1.val a), _, fnd_ok rfl (o2.mem (by simp [ids])) ha, ?_, by
      simp only [specAny, fnd]; exact o2, hal⟩
    simp only [hf, Option.bind_eq_bind, Option.bind_some, occ_occ, if_true, specAny, fnd, view_some]
  · rw [hf]
    simp only [Option.bind_eq_bind, Option.bind_some, isVac_not_occ, Bool.false_eq_true, if_false]
    rcases allocInsert_any o2 hne hx fh ga ms with ⟨hn, t3, T3, run, o3⟩ | ⟨n, s', T3, p, hn, run, o', v', a', hnh⟩
    · rw [show ({ s1 with t := t } : Om α).alloc = s.alloc from hal] at hn
      refine ⟨{ s1 with t := t3 }, gap 0, T3, gap_ok, ?_, by simp only [specAny, gap, hn]; exact o3, hal⟩
      simp only [run, Option.bind_some, specAny, gap, hn, view_none]
    · rw [show ({ s1 with t := t } : Om α).alloc = s.alloc from hal] at hn a'
      refine ⟨s', gap p, T3, gap_ok, ?_, by simp only [specAny, gap, hn]; exact o', a'⟩
      simp only [run, Option.bind_some, specAny, gap, hn, view_some, v', upd_same]

theorem any_insertEntry (hne : ∀ a b, cmp a b ≠ .err) (o : Kept s l T) {h : Nat} {x : α} {ans : Option Nat}
    (ok : okAny s.alloc l (.insertEntry (key x) h x ans)) : StepAny cmp key s l (.insertEntry (key x) h x ans) := by
  obtain ⟨fh, ga⟩ := ok
  have o1 : Kept (put s h x) l T := Ok.put o (o.fresh.1 fh).2
  have hx : (put s h x).val h = x := put_comm_val
  have hal : (put s h x).alloc = s.alloc := rfl
  simp only [StepAny, step, insertEntry]
  generalize put s h x = s1 at o1 hx hal
  rcases o1.entry (key := key) hne (key x) with ⟨t, a, m, A, B, hf, o2, hr, ha⟩ | ⟨t, T', hf, o2, hi, ms⟩
  · refine ⟨{ s1 with t := t, val := upd s1.val a x }, fnd (a, s1.val a), _, fnd_ok rfl (o2.mem (by simp [ids])) ha, ?_, by
      simp only [specAny, fnd]; exact o2.set a x, hal⟩
    simp only [hf, Option.bind_eq_bind, Option.bind_some, if_true, specAny, fnd, view_some, hx, upd_same]
  · rw [hf]
    simp only [Option.bind_eq_bind, Option.bind_some, if_neg isVac_ne_occ]
    rcases allocInsert_any o2 hne hx fh ga ms with ⟨hn, t3, T3, run, o3⟩ | ⟨n, s', T3, p, hn, run, o', v', a', hnh⟩
    · rw [show ({ s1 with t := t } : Om α).alloc = s.alloc from hal] at hn
      refine ⟨{ s1 with t := t3 }, gap 0, T3, gap_ok, ?_, by simp only [specAny, gap, hn]; exact o3, hal⟩
      simp only [run, Option.bind_some, specAny, gap, hn, view_none]
    · rw [show ({ s1 with t := t } : Om α).alloc = s.alloc from hal] at hn a'
      refine ⟨s', gap p, T3, gap_ok, ?_, by simp only [specAny, gap, hn]; exact o', a'⟩
      simp only [run, Option.bind_some, specAny, gap, hn, view_some, v', upd_same]

theorem lazy_any (hne : ∀ a b, cmp a b ≠ .err) (o : Kept s l T) {x : α} {ans : Option Nat} (ga : goodAns l ans 0)
    (ms : Miss (Om.cmpAt cmp key s (key x)) T) {n : Nat} (hn : addAt s.alloc none ans = some n) :
    ∃ s' T' p, insertNode cmp key { s with val := upd s.val n x } n = some (s', some n) ∧
      Kept s' (putAt p (n, x) l) T' ∧ s'.val n = x ∧ s'.alloc = s.alloc := by
  have hf : fresh l n := by
    cases hal : s.alloc with
    | true => rw [hal] at hn; exact (ga n hn).1
    | false => rw [hal] at hn; simp [addAt] at hn
  have hf' := o.fresh.1 hf
  have o1 : Kept (put s n x) l T := Ok.put o hf'.2
  have hx : (put s n x).val n = x := put_comm_val
  have ms' : Miss (Om.cmpAt cmp key (put s n x) (key ((put s n x).val n))) T := by
    rw [hx]
    refine ms.congr (fun a ha => ?_)
    rw [o1.cmpAt cmp key _ ha, o.cmpAt cmp key _ ha]
    simp only [put, upd_ne _ _ (fun h : a = n => hf'.2 (h ▸ ha))]
  obtain ⟨s', T', p, run, o', v', a'⟩ := insertNode_any o1 hne hf'.1 hf'.2 ms'
  rw [hx] at o'
  exact ⟨s', T', p, run, o', by rw [v', hx], a'⟩

theorem any_orInsertW (hne : ∀ a b, cmp a b ≠ .err) (o : Kept s l T) {x : α} {ans : Option Nat}
    (ga : okAny s.alloc l (.orInsertW (key x) x ans)) : StepAny cmp key s l (.orInsertW (key x) x ans) := by
  simp only [StepAny, step, orInsertW]
  rcases o.entry (key := key) hne (key x) with ⟨t, a, m, A, B, hf, o2, hr, ha⟩ | ⟨t, T', hf, o2, hi, ms⟩
  · refine ⟨{ s with t := t }, fnd (a, s.val a), _, fnd_ok rfl (o2.mem (by simp [ids])) ha, ?_, by
      simp only [specAny, fnd]; exact o2, rfl⟩
    simp only [hf, Option.bind_eq_bind, Option.bind_some, if_true, specAny, fnd, view_some]
  · rw [hf]
    simp only [Option.bind_eq_bind, Option.bind_some, if_neg isVac_ne_occ, newMem_eq]
    cases hn : addAt s.alloc none ans with
    | none =>
      refine ⟨{ s with t := t }, gap 0, _, gap_ok, ?_, by simp only [specAny, gap, hn]; exact o2, rfl⟩
      simp only [insertKeyVal, Option.bind_some, specAny, gap, hn, view_none]
    | some n =>
      obtain ⟨s', T', p, run, sim, hv, a'⟩ := lazy_any hne o2 ga ms hn
      refine ⟨s', gap p, T', gap_ok, ?_, by simp only [specAny, gap, hn]; exact sim, a'⟩
      simp only [insertKeyVal, run, Option.bind_some, specAny, gap, hn, view_some, hv]

theorem any_insertEntryW (hne : ∀ a b, cmp a b ≠ .err) (o : Kept s l T) {x : α} {ans : Option Nat}
    (ga : okAny s.alloc l (.insertEntryW (key x) x ans)) : StepAny cmp key s l (.insertEntryW (key x) x ans) := by
  simp only [StepAny, step, insertEntryW]
  rcases o.entry (key := key) hne (key x) with ⟨t, a, m, A, B, hf, o2, hr, ha⟩ | ⟨t, T', hf, o2, hi, ms⟩
  · refine ⟨{ s with t := t, val := upd s.val a x }, fnd (a, s.val a), _, fnd_ok rfl (o2.mem (by simp [ids])) ha, ?_, by
      simp only [specAny, fnd]; exact o2.set a x, rfl⟩
    simp only [hf, Option.bind_eq_bind, Option.bind_some, if_true, occ_occ, Bool.not_true, Bool.false_eq_true, if_false,
      specAny, fnd, view_some, upd_same]
  · rw [hf]
    simp only [Option.bind_eq_bind, Option.bind_some, isVac_not_occ, Bool.not_false, if_true, newMem_eq]
    cases hn : addAt s.alloc none ans with
    | none =>
      refine ⟨{ s with t := t }, gap 0, _, gap_ok, ?_, by simp only [specAny, gap, hn]; exact o2, rfl⟩
      simp only [insertKeyVal, Option.bind_some, specAny, gap, hn, view_none]
    | some n =>
      obtain ⟨s', T', p, run, sim, hv, a'⟩ := lazy_any hne o2 ga ms hn
      refine ⟨s', gap p, T', gap_ok, ?_, by simp only [specAny, gap, hn]; exact sim, a'⟩
      simp only [insertKeyVal, run, Option.bind_some, specAny, gap, hn, view_some, hv]

theorem any_tryInsertW (hne : ∀ a b, cmp a b ≠ .err) (o : Kept s l T) {x : α} {ans : Option Nat}
    (ga : okAny s.alloc l (.tryInsertW (key x) x ans)) : StepAny cmp key s l (.tryInsertW (key x) x ans) := by
  simp only [StepAny, step, tryInsertW]
  rcases o.entry (key := key) hne (key x) with ⟨t, a, m, A, B, hf, o2, hr, ha⟩ | ⟨t, T', hf, o2, hi, ms⟩
  · refine ⟨{ s with t := t }, fnd (a, s.val a), _, fnd_ok rfl (o2.mem (by simp [ids])) ha, ?_, by
      simp only [specAny, fnd]; exact o2, rfl⟩
    simp only [hf, Option.bind_eq_bind, Option.bind_some, if_true, occ_occ, Bool.not_true, Bool.false_eq_true, if_false,
      specAny, fnd, view_some, unwrap_occ]
  · rw [hf]
    simp only [Option.bind_eq_bind, Option.bind_some, isVac_not_occ, Bool.not_false, if_true, insertAndCopyKey, newMem_eq]
    cases hn : addAt s.alloc none ans with
    | none =>
      refine ⟨{ s with t := t }, gap 0, _, gap_ok, ?_, by simp only [specAny, gap, hn]; exact o2, rfl⟩
      simp only [Option.bind_some, specAny, gap, hn, view_none, unwrap_ie]
    | some n =>
      obtain ⟨s', T', p, run, sim, hv, a'⟩ := lazy_any hne o2 ga ms hn
      refine ⟨s', gap p, T', gap_ok, ?_, by simp only [specAny, gap, hn]; exact sim, a'⟩
      simp only [run, Option.bind_eq_bind, Option.bind_some, specAny, gap, hn, view_some, hv, unwrap_ie]

theorem any_insertOrAssignW (hne : ∀ a b, cmp a b ≠ .err) (o : Kept s l T) {x : α} {ans : Option Nat}
    (ga : okAny s.alloc l (.insertOrAssignW (key x) x ans)) : StepAny cmp key s l (.insertOrAssignW (key x) x ans) := by
  simp only [StepAny, step, insertOrAssignW]
  rcases o.entry (key := key) hne (key x) with ⟨t, a, m, A, B, hf, o2, hr, ha⟩ | ⟨t, T', hf, o2, hi, ms⟩
  · refine ⟨{ s with t := t, val := upd s.val a x }, fnd (a, s.val a), _, fnd_ok rfl (o2.mem (by simp [ids])) ha, ?_, by
      simp only [specAny, fnd]; exact o2.set a x, rfl⟩
    simp only [hf, Option.bind_eq_bind, Option.bind_some, if_true, occ_occ, Bool.not_true, Bool.false_eq_true, if_false,
      specAny, fnd, view_some, unwrap_occ, upd_same]
  · rw [hf]
    simp only [Option.bind_eq_bind, Option.bind_some, isVac_not_occ, Bool.not_false, if_true, insertAndCopyKey, newMem_eq]
    cases hn : addAt s.alloc none ans with
    | none =>
      refine ⟨{ s with t := t }, gap 0, _, gap_ok, ?_, by simp only [specAny, gap, hn]; exact o2, rfl⟩
      simp only [Option.bind_some, specAny, gap, hn, view_none, unwrap_ie]
    | some n =>
      obtain ⟨s', T', p, run, sim, hv, a'⟩ := lazy_any hne o2 ga ms hn
      refine ⟨s', gap p, T', gap_ok, ?_, by simp only [specAny, gap, hn]; exact sim, a'⟩
      simp only [run, Option.bind_eq_bind, Option.bind_some, specAny, gap, hn, view_some, hv, unwrap_ie]

theorem any_andModify (hne : ∀ a b, cmp a b ≠ .err) (o : Kept s l T) {k : κ} {f : α → α} :
    StepAny cmp key s l (.andModify k f) := by
  simp only [StepAny, step, andModify]
  rcases o.entry (key := key) hne k with ⟨t, a, m, A, B, hf, o2, hr, ha⟩ | ⟨t, T', hf, o2, hi, ms⟩
  · refine ⟨{ s with t := t, val := upd s.val a (f (s.val a)) }, fnd (a, s.val a), _,
      fnd_ok rfl (o2.mem (by simp [ids])) ha, ?_, by simp only [specAny, fnd]; exact o2.set a _, rfl⟩
    simp only [hf, Option.bind_eq_bind, Option.bind_some, occ_occ, if_true, specAny, fnd, unwrap, view_some, upd_same]
  · refine ⟨{ s with t := t }, gap 0, _, gap_ok, ?_, by simp only [specAny, gap]; exact o2, rfl⟩
    simp only [hf, Option.bind_eq_bind, Option.bind_some, isVac_not_occ, Bool.false_eq_true, if_false, specAny, gap,
      unwrap, if_neg isVac_ne_occ, view_none]

theorem any_query (hne : ∀ a b, cmp a b ≠ .err) (o : Kept s l T) {k : κ} :
    StepAny cmp key s l (.occupied k) ∧ StepAny cmp key s l (.get k) := by
  constructor
  · simp only [StepAny, step]
    rcases o.entry (key := key) hne k with ⟨t, a, m, A, B, hf, o2, hr, ha⟩ | ⟨t, T', hf, o2, hi, ms⟩
    · refine ⟨{ s with t := t }, fnd (a, s.val a), _, fnd_ok rfl (o2.mem (by simp [ids])) ha, ?_, o2, rfl⟩
      simp only [hf, Option.bind_eq_bind, Option.bind_some, specAny, fnd, occupied, occ_occ, Option.isSome_some]
    · refine ⟨{ s with t := t }, gap 0, _, gap_ok, ?_, o2, rfl⟩
      simp only [hf, Option.bind_eq_bind, Option.bind_some, specAny, gap, occupied, isVac_not_occ, Option.isSome_none]
  · simp only [StepAny, step, get]
    rcases o.find (key := key) hne k with ⟨t, a, m, A, B, hf, o2, hr, ha⟩ | ⟨t, T', hf, o2, hi, ms⟩
    · refine ⟨{ s with t := t }, fnd (a, s.val a), _, fnd_ok rfl (o2.mem (by simp [ids])) ha, ?_, o2, rfl⟩
      simp only [hf, Option.bind_eq_bind, Option.bind_some, specAny, fnd, view_some]
    · refine ⟨{ s with t := t }, gap 0, _, gap_ok, ?_, o2, rfl⟩
      simp only [hf, Option.bind_eq_bind, Option.bind_some, specAny, gap, view_none]

theorem any_contains (hne : ∀ a b, cmp a b ≠ .err) (o : Kept s l T) {k : κ} (hl : l ≠ []) :
    StepAny cmp key s l (.contains k) := by
  have hT : T ≠ nil := fun h => hl (o.nil_iff.2 h)
  obtain ⟨c', al, mo⟩ := o.along (cmp := cmp) (key := key) hne k
  obtain ⟨t, i, m, A, B, _, o', hr, hi, hA, hB, hlv, hci, hal, run⟩ := o.splay hT k al mo
  by_cases he : cmp k (key (s.val i)) = .eql
  · refine ⟨{ s with t := t }, fnd (i, s.val i), _, fnd_ok rfl (o'.mem (by simp [ids])) he, ?_, o', rfl⟩
    simp only [step, contains, run, Option.bind_eq_bind, Option.bind_some, specAny, fnd, he, Option.isSome_some]; rfl
  · refine ⟨{ s with t := t }, gap 0, _, gap_ok, ?_, o', rfl⟩
    have he' : (cmp k (key (s.val i)) == .eql) = false := by simpa using he
    simp only [step, contains, run, Option.bind_eq_bind, Option.bind_some, specAny, gap, he', Option.isSome_none]

theorem any_begin (o : Kept s l T) : StepAny cmp key s l .begin ∧ StepAny cmp key s l .rbegin := by
  refine ⟨⟨s, gap 0, T, gap_ok, ?_, o, rfl⟩, ⟨s, gap 0, T, gap_ok, ?_, o, rfl⟩⟩
  · simp only [step, begin_eq o, Option.bind_eq_bind, Option.bind_some, specAny, endOf, Bool.false_eq_true, if_false]
    rw [view_head (fun a ha => o.ne_zero ha), o.list]
  · simp only [step, rbegin_eq o, Option.bind_eq_bind, Option.bind_some, specAny, endOf, if_true]
    rw [view_last (fun a ha => o.ne_zero ha), o.list]

theorem any_next (o : Kept s l T) {a : Nat} (ok : ∃ e ∈ l, e.1 = a) :
    StepAny cmp key s l (.next a) ∧ StepAny cmp key s l (.rnext a) := by
  obtain ⟨pre, post, e, h1, h2⟩ := Ok.split o ok
  refine ⟨⟨s, gap 0, T, gap_ok, ?_, o, rfl⟩, ⟨s, gap 0, T, gap_ok, ?_, o, rfl⟩⟩
  · simp only [step, next, next_whole o.whole e true, Option.bind_eq_bind, Option.bind_some, specAny, if_true]
    rw [view_head (fun b hb => o.ne_zero (by rw [e]; simp [hb])), o.list, e, dropWhile_split h1]
  · simp only [step, rnext, next_whole o.whole e false, Option.bind_eq_bind, Option.bind_some, specAny, Bool.false_eq_true,
      if_false]
    rw [view_last (fun b hb => o.ne_zero (by rw [e]; simp [hb])), o.list, e]
    have : (elems s.val (pre ++ a :: post)).reverse = elems s.val (post.reverse ++ a :: pre.reverse) := by
      simp [elems]
    rw [this, dropWhile_split (by simpa using h2)]
    simp [elems]

/-- The end of a range is the element splayed or its neighbour. -/
theorem half_any {i m : Nat} {A B : Tree} (o : Kept s l (node i m A B)) (p : Prop) [Decidable p] (trav : Bool) :
    ∃ b, (if p then Wavl.next s.t i trav else some i) = some b ∧ ∀ e, view s (toSlot b) = some e → e ∈ l := by
  have hview : ∀ b, (b = 0 ∨ b ∈ (node i m A B).ids) → ∀ e, view s (toSlot b) = some e → e ∈ l := by
    intro b hb e he
    rcases hb with rfl | hb
    · simp [toSlot, view] at he
    · simp only [toSlot, if_neg (o.ne_zero hb), view, Option.map_some, Option.some.injEq] at he
      subst he; exact o.mem hb
  by_cases hp : p
  · rw [if_pos hp, next_whole o.whole (pre := A.ids) (post := B.ids) rfl trav]
    refine ⟨_, rfl, hview _ ?_⟩
    cases trav with
    | true =>
      simp only [if_true]
      cases hB : B.ids with
      | nil => left; rfl
      | cons b post => right; simp [ids, hB]
    | false =>
      simp only [Bool.false_eq_true, if_false]
      rcases List.eq_nil_or_concat A.ids with hA | ⟨pre', b, hA⟩
      · left; rw [hA]; rfl
      · right; simp [ids, hA]
  · rw [if_neg hp]
    exact ⟨_, rfl, hview _ (Or.inr (by simp [ids]))⟩

theorem range_any (hne : ∀ a b, cmp a b ≠ .err) (o : Kept s l T) (b e : κ) (trav : Bool) :
    ∃ t T' r, equalRange cmp key s b e trav = some ({ s with t := t }, r) ∧ Kept { s with t := t } l T' ∧
      (∀ e, view s r.1 = some e → e ∈ l) ∧ (∀ e, view s r.2 = some e → e ∈ l) := by
  by_cases hT : T = nil
  · subst hT
    have hl : l = [] := o.list
    have hsz : s.sz = 0 := by rw [o.size, hl]; rfl
    exact ⟨s.t, nil, (none, none), by rw [equalRange, if_pos hsz], o, by simp [view], by simp [view]⟩
  · have hsz : s.sz ≠ 0 := by
      rw [o.size]; intro h
      exact hT (o.nil_iff.1 (List.eq_nil_of_length_eq_zero h))
    obtain ⟨c1, al1, mo1⟩ := o.along (cmp := cmp) (key := key) hne b
    obtain ⟨t1, i, m, A, B, run1, o1, hr1, hi1, _, _, hlv1, _, _, _⟩ := o.splay hT b al1 mo1
    obtain ⟨c2, al2, mo2⟩ := o1.along (cmp := cmp) (key := key) hne e
    obtain ⟨t2, j, n, C, D, run2, o2, hr2, hi2, _, _, hlv2, _, _, _⟩ := o1.splay (by simp) e al2 mo2
    rw [cmpAt_live hlv1] at run2
    obtain ⟨p, hp, mp⟩ := half_any o1 (cmp b (key (s.val i)) = (if trav then Cmp.grt else Cmp.les)) trav
    obtain ⟨r, hr, mr⟩ := half_any o2 (cmp e (key (s.val j)) ≠ (if trav then Cmp.les else Cmp.grt)) trav
    have q1 : Om.cmpAt cmp key s b i = some (cmp b (key (s.val i))) := o.cmpAt cmp key b (by rw [← hi1]; simp [ids])
    have q2 : Om.cmpAt cmp key s e j = some (cmp e (key (s.val j))) :=
      o.cmpAt cmp key e (by rw [← hi1, ← hi2]; simp [ids])
    refine ⟨t2, _, (toSlot p, toSlot r), ?_, o2, mp, mr⟩
    simp only at run2 hp hr
    simp only [equalRange, if_neg hsz, Splay.equalRange, Option.bind_eq_bind, run1, Option.bind_some, q1, hp, run2, q2, hr]

theorem any_range (hne : ∀ a b, cmp a b ≠ .err) (o : Kept s l T) {b e : κ} :
    StepAny cmp key s l (.equalRange b e) ∧ StepAny cmp key s l (.equalRrange b e) := by
  obtain ⟨t, T1, r, hr, o1, m1, m2⟩ := range_any (key := key) hne o b e true
  obtain ⟨t', T2, r', hr', o2, m1', m2'⟩ := range_any (key := key) hne o b e false
  refine ⟨⟨_, ⟨none, 0, view s r.1, view s r.2, true⟩, T1, ⟨fun _ h => (by cases h), m1, m2⟩, ?_, o1, rfl⟩,
    ⟨_, ⟨none, 0, view s r'.1, view s r'.2, true⟩, T2, ⟨fun _ h => (by cases h), m1', m2'⟩, ?_, o2, rfl⟩⟩
  · simp only [step, hr, Option.bind_eq_bind, Option.bind_some, specAny]; rfl
  · simp only [step, hr', Option.bind_eq_bind, Option.bind_some, specAny]; rfl

theorem validate_any (cmp : κ → κ → Cmp) (key : α → κ) (o : Kept s l T) : ∃ b, validate cmp key s = some b := by
  have hsz : T.ids.length = s.sz := by rw [o.size, o.list]; simp [elems]
  obtain ⟨b, hb⟩ := areSubtreesValid_any cmp key s (low := 0) (high := 0) o.whole.tree
  rw [validate]
  simp only [o.root, hb, recursiveSize_spec o.whole.tree, isStoringParent_spec (p := 0) (by simpa using o.whole.tree),
    Option.bind_eq_bind, Option.bind_some, Bool.not_true, Bool.false_eq_true, if_false, hsz]
  cases b <;> exact ⟨_, rfl⟩

/-- Every call, from every state that stores a list, whatever the comparison function. -/
theorem step_any (hne : ∀ a b, cmp a b ≠ .err) (o : Kept s l T) (op : Op α κ) (ok : okAny s.alloc l op)
    (ca : calm key l op) : StepAny cmp key s l op := by
  cases op with
  | insert h x tmp y ans => exact any_insert hne o ok
  | tryInsert h x ans => exact any_tryInsert hne o ok
  | insertOrAssign h x ans => exact any_insertOrAssign hne o ok
  | remove h x => exact ca.elim
  | orInsert k h x ans => cases ca; exact any_orInsert hne o ok
  | insertEntry k h x ans => cases ca; exact any_insertEntry hne o ok
  | removeEntry k => exact ca.elim
  | andModify k f => exact any_andModify hne o
  | occupied k => exact (any_query hne o).1
  | orInsertW k x ans => cases ca; exact any_orInsertW hne o ok
  | insertEntryW k x ans => cases ca; exact any_insertEntryW hne o ok
  | tryInsertW k x ans => cases ca; exact any_tryInsertW hne o ok
  | insertOrAssignW k x ans => cases ca; exact any_insertOrAssignW hne o ok
  | contains k => exact any_contains hne o ca
  | get k => exact (any_query hne o).2
  | begin => exact (any_begin o).1
  | rbegin => exact (any_begin o).2
  | next a => exact (any_next o ok).1
  | rnext a => exact (any_next o ok).2
  | equalRange b e => exact (any_range hne o).1
  | equalRrange b e => exact (any_range hne o).2
  | size => exact ⟨s, gap 0, T, gap_ok, by simp only [step, size, specAny, o.size], o, rfl⟩
  | isEmpty =>
    refine ⟨s, gap 0, T, gap_ok, ?_, o, rfl⟩
    have : empty s = l.isEmpty := by
      by_cases hT : T = nil
      · rw [o.empty_iff.2 hT, o.nil_iff.2 hT]; rfl
      · rw [o.not_empty hT]
        have := fun h => hT (o.nil_iff.1 h)
        cases l with
        | nil => exact absurd rfl this
        | cons _ _ => rfl
    simp only [step, isEmpty, specAny, this]
  | validate =>
    obtain ⟨b, hb⟩ := validate_any cmp key o
    refine ⟨s, ⟨none, 0, none, none, b⟩, T, ⟨fun _ h => (by cases h), fun _ h => (by cases h), fun _ h => (by cases h)⟩, ?_, o, rfl⟩
    simp only [step, hb, specAny, Option.bind_eq_bind, Option.bind_some]
  | clear => exact ca.elim

theorem Kept.next_walk (o : Kept s l T) :
    (l.map Prod.fst).Nodup ∧
    (∀ pre a post, l.map Prod.fst = pre ++ a :: post → next s a = some post.head?) ∧
    (∀ pre a post, (l.map Prod.fst).reverse = pre ++ a :: post → rnext s a = some post.head?) ∧
    begin_ s = some (l.map Prod.fst).head? ∧ rbegin s = some (l.map Prod.fst).reverse.head? := by
  have hids : l.map Prod.fst = T.ids := by rw [o.list]; exact ids_elems _ _
  have hz : ∀ m : List Nat, (∀ a ∈ m, a ∈ T.ids) → toSlot (m.headD 0) = m.head? := by
    intro m hm
    cases m with
    | nil => rfl
    | cons b m => simp [toSlot, o.ne_zero (hm b (by simp))]
  have hz' : ∀ m : List Nat, (∀ a ∈ m, a ∈ T.ids) → toSlot (m.getLastD 0) = m.reverse.head? := by
    intro m hm
    have := hz m.reverse (by simpa using hm)
    simpa using this
  rw [hids]
  refine ⟨o.nodup, ?_, ?_, ?_, ?_⟩
  · intro pre a post e
    simp only [next, next_whole o.whole e true, Option.bind_eq_bind, Option.bind_some, if_true]
    rw [hz post (fun b hb => by rw [e]; simp [hb])]
  · intro pre a post e
    have e' : T.ids = post.reverse ++ a :: pre.reverse := by
      have := congrArg List.reverse e
      simpa using this
    simp only [rnext, next_whole o.whole e' false, Option.bind_eq_bind, Option.bind_some, Bool.false_eq_true, if_false]
    rw [hz' _ (fun b hb => by rw [e']; simp [List.mem_reverse.1 hb])]
    simp
  · rw [begin_eq o]
    simp only [endOf, Bool.false_eq_true, if_false]
    rw [hz _ (fun _ h => h)]
  · rw [rbegin_eq o]
    simp only [endOf, if_true]
    rw [hz' _ (fun _ h => h)]

end CCC.Om
