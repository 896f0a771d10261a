import Verif.Proof.FlatOrderedMapStep
import Verif.Proof.OrderedMapSpine
/-
Ascending insertions into the flat ordered map make a path of the tree.
-/
namespace CCC.Splay
open CCC Links Tree Wavl

/-- A split of a tree whose root has no right child, at a key above the root, leaves the tree alone. -/
theorem Split.max {f : Nat → Cmp} {r m : Nat} {A : Tree} {P : Bool → Tree} {i m' n : Nat}
    (hsp : Split f (node r m A nil) P i m' n) (hk : f r = .grt) : i = r ∧ m' = m ∧ P true = A ∧ P false = nil := by
  generalize hX : node r m A nil = X at hsp
  cases hsp with
  | found h =>
    cases hX
    rw [hk] at h; cases h
  | @last d i k A' h =>
    cases d
    · simp only [nd_false] at hX
      cases hX
      simp only [dirCmp] at h
      rw [hk] at h; cases h
    · simp only [nd_true] at hX
      cases hX
      exact ⟨rfl, rfl, by simp [setP], by simp [setP]⟩
  | @zzLast d i k j m A B h h' =>
    cases d
    · simp only [nd_false] at hX
      cases hX
      simp only [dirCmp] at h
      rw [hk] at h; cases h
    · simp only [nd_true] at hX
      cases hX
  | @zz d i k j m A B Z P x kx n h h' hZ hs =>
    cases d
    · simp only [nd_false] at hX
      cases hX
      simp only [dirCmp] at h
      rw [hk] at h; cases h
    · simp only [nd_true] at hX
      cases hX
  | @zig d i k A Y P x kx n h hY hne hs =>
    cases d
    · simp only [nd_false] at hX
      cases hX
      simp only [dirCmp] at h
      rw [hk] at h; cases h
    · simp only [nd_true] at hX
      cases hX
      exact absurd rfl hY

end CCC.Splay

namespace CCC.Fom
open CCC Links Tree Wavl Splay MapSpec FlatMap
open CCC.Rom (elems mem_elems elems_append elems_congr elems_upd)
open CCC.Frm (Frm Junk inUse setSize growTo bufAllocBack setVal copyLinks copySlot sizeSet destroyLoop asRom view inUse_lt
  Fresh bufAllocBack_spec Same ren copySlot_live swap_links)
open CCC.Om (setRoot_self lookup_after elems_side spine spine_ids nums)

variable {α κ : Type} {cmp : κ → κ → Cmp} {key : α → κ} {s : Fom α} {st : St α} {l : List (Nat × α)} {T : Tree}

theorem splay_max {n : Nat} {b : Bool} {r m : Nat} {A : Tree} (o : Om.Ok cmp key ⟨s.t, n, s.val, b⟩ l (node r m A nil))
    (hc : LawfulCmp cmp) {k : κ} (hk : cmp k (key (s.val r)) = .grt) :
    ∃ t, splayTo cmp key s k = some ({ s with t := t }, .grt) ∧ Whole t [] (node r m A nil) ∧ t.live = s.t.live := by
  obtain ⟨t, i, m', A', B', e, w, hi, hA, hB, hs, P, n, hsp, rfl, rfl, hn⟩ :=
    splay_specN (c := Fom.cmpAt cmp key s k) o.whole.tree o.nodup o.whole.live0 (by simp)
      (fun a ha => if_pos (o.whole.tree.live a ha)) (o.mono hc k)
  obtain ⟨rfl, rfl, h1, h2⟩ := hsp.max hk
  rw [h1, h2] at w
  have hr : t.root = i := w.ctx
  have hr0 : s.t.root = i := o.root
  rw [node_rootId, ← hr0] at e
  refine ⟨t, ?_, w, hs.live⟩
  have hq : Fom.cmpAt cmp key { s with t := t } k i = some (cmp k (key (s.val i))) :=
    if_pos (w.tree.live i (by simp [ids]))
  rw [hr0] at e
  simp only [splayTo, e, Option.bind_eq_bind, Option.bind_some, setRoot_self hr, hr, hr0, hq, hk]

theorem spine_mem {n a : Nat} : a ∈ (spine n).ids ↔ 1 ≤ a ∧ a ≤ n := by
  rw [spine_ids, List.mem_range'_1]; omega

theorem nums_val {s : Fom Nat} {n i : Nat} {b : Bool} (o : Om.Ok natCmp id ⟨s.t, n, s.val, b⟩ (nums i) (spine i)) :
    ∀ a ∈ (spine i).ids, s.val a = a := by
  intro a ha
  have hm : (a, s.val a) ∈ nums i := by rw [o.list, mem_elems]; exact ⟨ha, rfl⟩
  simp only [nums, List.mem_map, Prod.mk.injEq] at hm
  obtain ⟨b, _, h1, h2⟩ := hm
  rw [← h2, h1]

theorem insertNode_spine {s : Fom Nat} {i : Nat} (al : Alloced natCmp id s (nums i) (spine i)) (hv : s.val (i + 1) = i + 1) :
    ∃ t, insertNode natCmp id s (i + 1) = some ({ s with t := t }, some (i + 1)) ∧
      Started natCmp id { s with t := t } (nums (i + 1)) (spine (i + 1)) := by
  have hlen : (nums i).length = i := by simp [nums]
  have nl : s.t.live (i + 1) = true := by rw [al.live, inUse_lt al.le, al.sz, hlen]; omega
  have nT : i + 1 ∉ (spine i).ids := by rw [al.slots, hlen]; omega
  obtain ⟨t, run, l1, r1, b1, p1, f1⟩ := Om.initNode_spec (t := s.t) (e := i + 1) nl
  have w : Whole t [] (spine i) := by
    have w0 := al.ok.whole
    refine ⟨?_, ?_, w0.nodup, ?_⟩
    · exact r1.trans w0.ctx
    · exact w0.tree.congr (fun a _ => by rw [l1]) (fun a ha => (f1 a (fun h => nT (h ▸ ha))).1)
        (fun a ha => (f1 a (fun h => nT (h ▸ ha))).2)
    · rw [l1]; exact w0.live0
  have o1 : Om.Ok natCmp id ⟨t, (nums i).length, s.val, false⟩ (nums i) (spine i) := al.ok.reshape w rfl
  have hval : ∀ a ∈ (spine i).ids, s.val a = a := nums_val (s := s) al.ok
  have hlist : nums (i + 1) = elems s.val (spine (i + 1)).ids := by
    rw [spine_ids, nums, elems]
    refine List.map_congr_left (fun a ha => ?_)
    rw [List.mem_range'_1] at ha
    by_cases h : a = i + 1
    · rw [h, hv]
    · rw [hval a (by rw [spine_mem]; omega)]
  have hsorted : Sorted natCmp (ekey id) (nums (i + 1)) := by
    rw [Sorted, nums, List.pairwise_map]
    refine List.Pairwise.imp ?_ List.pairwise_lt_range'
    intro a b hab
    simp [natCmp, ekey, hab]
  have fin : ∀ t', t'.live = s.t.live → Whole t' [] (spine (i + 1)) →
      Started natCmp id { s with t := t' } (nums (i + 1)) (spine (i + 1)) := by
    intro t' hlv w'
    refine ⟨⟨w', hlist, hsorted, ?_⟩, hlv.trans al.live, ?_, al.le, ?_⟩
    · show s.sz - 1 = _; rw [al.sz]; simp [nums]
    · show s.sz = _; rw [al.sz]; simp [nums]
    · intro a h1 h2
      simp only [nums, List.length_map, List.length_range'] at h2
      rw [spine_mem]
      omega
  simp only [insertNode, run, Option.bind_eq_bind, Option.bind_some]
  cases i with
  | zero =>
    rw [if_pos (by rw [al.sz]; rfl)]
    have := (o1.first (e := 1) (by decide) w.live0 (by rw [l1]; exact nl) b1 p1).whole
    exact ⟨_, rfl, fin _ l1 this⟩
  | succ i =>
    rw [if_neg (by rw [al.sz, hlen]; omega)]
    have hk : natCmp (id (i + 1 + 1)) (id (s.val (i + 1))) = .grt := by
      rw [hval (i + 1) (by rw [spine_mem]; omega)]
      simp [natCmp]
    obtain ⟨t2, run2, w2, hlv2⟩ := splay_max (s := { s with t := t }) (b := false) o1 natCmp_lawful (k := id (s.val (i + 1 + 1)))
      (by rw [hv]; exact hk)
    have hlv2' : t2.live = t.live := hlv2
    obtain ⟨t3, run3, w3, hlv3⟩ := connect_spec (h := t2) (i := i + 1) (k := 0) (e := i + 1 + 1) (Y := nil) (C := spine i)
      (res := .grt) (by exact w2) (by omega) (by rw [hlv2', l1]; exact nl) nT
    refine ⟨t3, ?_, fin _ (by rw [hlv3, hlv2', l1]) w3⟩
    simp only [run2, Option.bind_some, run3, reduceCtorEq, if_false]

theorem spine_insert {s : Fom Nat} {i cap : Nat} (hcap : i + 1 < cap)
    (o : Ok natCmp id s ⟨nums i, cap, decide (i ≠ 0)⟩ (spine i)) (ha : s.hasAlloc = false) :
    ∃ s' r, step natCmp id s (.tryInsert (i + 1) none) = some (s', r) ∧
      Ok natCmp id s' ⟨nums (i + 1), cap, true⟩ (spine (i + 1)) ∧ s'.hasAlloc = false := by
  have hlen : (nums i).length = i := by simp [nums]
  obtain ⟨t, hf, o1⟩ : ∃ t, find natCmp id s (id (i + 1)) = some ({ s with t := t }, none) ∧
      Ok natCmp id { s with t := t } ⟨nums i, cap, decide (i ≠ 0)⟩ (spine i) := by
    cases i with
    | zero =>
      have hr : s.t.root = 0 := by
        obtain ⟨_, ⟨h, _⟩ | ⟨_, _, _, h⟩⟩ := o
        · cases h
        · exact h.root
      exact ⟨s.t, by simp [find, hr], o⟩
    | succ i =>
      obtain ⟨h1, ⟨h2, h⟩ | ⟨h, _⟩⟩ := o
      swap
      · cases h
      have hk : natCmp (id (i + 1 + 1)) (id (s.val (i + 1))) = .grt := by
        rw [nums_val (s := s) h.ok (i + 1) (by rw [spine_mem]; omega)]
        simp [natCmp]
      obtain ⟨t, run, w, hlv⟩ := splay_max (s := s) h.ok natCmp_lawful hk
      refine ⟨t, ?_, h1, Or.inl ⟨h2, h.reshape w rfl hlv⟩⟩
      rw [find, if_neg (h.root_ne (by simp [spine])), run]
      rfl
  have hr : room false false ⟨nums i, cap, decide (i ≠ 0)⟩ = (⟨nums i, cap, true⟩, true) := by
    by_cases h0 : i = 0
    · subst h0
      simp only [room, grow, ne_eq, not_true, decide_false, Bool.false_eq_true, if_false, if_pos (show 0 < cap by omega),
        if_pos (show 1 < cap by omega)]
    · simp only [room, grow, ne_eq, h0, not_false_eq_true, decide_true, if_true, hlen, if_pos hcap]
  rcases allocBack_spec o1 none with ⟨h, _⟩ | ⟨h, s', run, hc, hst, al, a', hvl⟩
  · exfalso
    rw [show ({ s with t := t } : Fom Nat).hasAlloc = false from ha, Option.isSome_none, hr] at h; cases h
  rw [show ({ s with t := t } : Fom Nat).hasAlloc = false from ha, Option.isSome_none, hr] at hc
  simp only at al
  have hn : s'.sz - 1 = i + 1 := by rw [al.sz, hlen]; rfl
  have nl : s'.t.live (i + 1) = true := by rw [al.live, inUse_lt al.le, al.sz, hlen]; omega
  have nT : i + 1 ∉ (spine i).ids := by rw [al.slots, hlen]; omega
  have al2 : Alloced natCmp id { s' with val := upd s'.val (i + 1) (i + 1) } (nums i) (spine i) :=
    ⟨al.sz, al.le, al.live, ⟨al.ok.whole, al.ok.list.trans (elems_upd nT).symm, al.ok.sorted, rfl⟩, al.slots⟩
  obtain ⟨t2, run2, st2⟩ := insertNode_spine al2 (by simp)
  have hstep : ∃ r, step natCmp id s (.tryInsert (i + 1) none) =
      some ({ s' with val := upd s'.val (i + 1) (i + 1), t := t2 }, r) := by
    simp only [step, tryInsert, hf, Option.bind_eq_bind, Option.bind_some, maybeAllocInsert, run, hn, setVal, if_pos nl, run2]
    exact ⟨_, rfl⟩
  obtain ⟨r, hstep⟩ := hstep
  exact ⟨_, r, hstep, st2.toOk (st := ⟨nums (i + 1), cap, true⟩) hc rfl rfl, a'.trans ha⟩

theorem spine_run {cap : Nat} (j : Nat) : ∀ {s : Fom Nat} {i : Nat}, i + j < cap →
    Ok natCmp id s ⟨nums i, cap, decide (i ≠ 0)⟩ (spine i) → s.hasAlloc = false →
    ∃ s' rs, run natCmp id s ((List.range' (i + 1) j).map (fun i => .tryInsert i none)) = some (s', rs) ∧
      Ok natCmp id s' ⟨nums (i + j), cap, decide (i + j ≠ 0)⟩ (spine (i + j)) := by
  induction j with
  | zero => intro s i _ o _; exact ⟨s, [], rfl, o⟩
  | succ j ih =>
    intro s i hi o ha
    obtain ⟨s1, r, e, o1, ha1⟩ := spine_insert (by omega) o ha
    obtain ⟨s', rs, h, o'⟩ := ih (i := i + 1) (by omega) o1 ha1
    refine ⟨s', r :: rs, ?_, by rw [show i + (j + 1) = i + 1 + j by omega]; exact o'⟩
    rw [List.range'_succ, List.map_cons, run]
    simp only [e, h, Option.bind_eq_bind, Option.bind_some]

end CCC.Fom
