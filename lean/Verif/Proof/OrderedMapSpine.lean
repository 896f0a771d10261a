import Verif.Model.OrderedMapSteps
import Verif.Proof.OrderedMapStep
import Verif.Proof.SplayPotential
/-
Ascending insertions make a path of the tree, and `begin` walks down that path every time.
-/
namespace CCC.Om
open CCC Links Tree Wavl Splay MapSpec PtrMap
open _root_.CCC.Rom (put view toSlot elems mem_elems elems_congr elems_upd elems_append put_comm_val lookup_congr occ_occ
  unwrap_vac view_some)

variable {α κ : Type} {cmp : κ → κ → Cmp} {key : α → κ} {s : Om α} {l : List (Nat × α)} {T : Tree}

/-- Splaying for a key above all others leaves a tree whose root has no right child alone. -/
theorem splay_max (hc : LawfulCmp cmp) {r m : Nat} {A : Tree} (o : Ok cmp key s l (node r m A nil)) {k : κ}
    (hk : cmp k (key (s.val r)) = .grt) :
    ∃ t, splayTo cmp key s k = some ({ s with t := t }, .grt) ∧ Ok cmp key { s with t := t } l (node r m A nil) := by
  obtain ⟨t, i, m', A', B', e, w, hi, hA, hB, hs, P, n, hsp, rfl, rfl, hn⟩ :=
    splay_specN o.whole.tree o.nodup o.whole.live0 (by simp) (o.cmpAt k) (o.mono hc k)
  have hsh : i = r ∧ m' = m ∧ P true = A ∧ P false = nil := by
    generalize hX : node r m A nil = X at hsp
    cases hsp with
    | found h =>
      cases hX
      rw [hk] at h; cases h
    | @last d i k A' h =>
      cases d
      · simp only [nd_false] at hX
        cases hX
        simp only [dirCmp] at h
        rw [hk] at h; cases h
      · simp only [nd_true] at hX
        cases hX
        exact ⟨rfl, rfl, by simp [setP], by simp [setP]⟩
    | @zzLast d i k j m A B h h' =>
      cases d
      · simp only [nd_false] at hX
        cases hX
        simp only [dirCmp] at h
        rw [hk] at h; cases h
      · simp only [nd_true] at hX
        cases hX
    | @zz d i k j m A B Z P x kx n h h' hZ hs =>
      cases d
      · simp only [nd_false] at hX
        cases hX
        simp only [dirCmp] at h
        rw [hk] at h; cases h
      · simp only [nd_true] at hX
        cases hX
    | @zig d i k A Y P x kx n h hY hne hs =>
      cases d
      · simp only [nd_false] at hX
        cases hX
        simp only [dirCmp] at h
        rw [hk] at h; cases h
      · simp only [nd_true] at hX
        cases hX
        exact absurd rfl hY
  obtain ⟨rfl, rfl, h1, h2⟩ := hsh
  rw [h1, h2] at w hi
  have o' := o.reshape w hi
  have hr : t.root = i := o'.root
  rw [← o.root] at e
  refine ⟨t, ?_, o'⟩
  have hq := o'.cmpAt k i (by simp [ids])
  simp only [splayTo, e, Option.bind_eq_bind, Option.bind_some, setRoot_self hr, hr, hq, hk]

/-- The left path with the addresses `n, …, 1`. -/
def spine : Nat → Tree
  | 0 => nil
  | n + 1 => node (n + 1) 0 (spine n) nil

theorem spine_ids (n : Nat) : (spine n).ids = List.range' 1 n := by
  induction n with
  | zero => rfl
  | succ n ih => simp [spine, ids, ih, List.range'_concat, Nat.add_comm]

/-- The struct at address `i` holds the number `i`. -/
def nums (n : Nat) : List (Nat × Nat) := (List.range' 1 n).map (fun a => (a, a))

theorem spine_insert {s : Om Nat} {n : Nat} (o : Ok natCmp id s (nums n) (spine n)) (ha : s.alloc = false) :
    ∃ s', step natCmp id s (.tryInsert (n + 1) (n + 1) none) = some (s', .ent Stat.vacant (some (n + 1, n + 1))) ∧
      Ok natCmp id s' (nums (n + 1)) (spine (n + 1)) ∧ s'.alloc = false := by
  have hf : n + 1 ∉ (spine n).ids := by rw [spine_ids, List.mem_range']; omega
  have o1 : Ok natCmp id (put s (n + 1) (n + 1)) (nums n) (spine n) := o.put hf
  have hv : (put s (n + 1) (n + 1)).val (n + 1) = n + 1 := put_comm_val
  have hal : (put s (n + 1) (n + 1)).alloc = false := ha
  simp only [step]
  generalize put s (n + 1) (n + 1) = s1 at o1 hv hal
  cases n with
  | zero =>
    obtain ⟨t, run, w, hlv, hb, hp, hr⟩ := init_whole o1.whole (show 1 ≠ 0 by decide) hf
    have o2 := o1.first (e := 1) (by decide) w.live0 (by rw [hlv]; simp) hb hp
    have hr0 : s1.t.root = 0 := o1.root
    have he := o1.empty_iff.2 rfl
    refine ⟨{ s1 with t := t.setRoot 1, sz := 1 }, ?_, ?_, hal⟩
    · have ea : allocInsert natCmp id s1 (0 + 1) none = some ({ s1 with t := t.setRoot 1, sz := 1 }, some 1) := by
        simp only [allocInsert, he, Bool.not_true, Bool.false_eq_true, if_false, Option.bind_eq_bind, Option.bind_some, hal,
          reduceCtorEq, run, if_true, Nat.zero_add]
      have ef : find natCmp id s1 (id (s1.val (0 + 1))) = some (s1, none) := by simp only [find, hr0, if_true]
      simp only [tryInsert, ef, Option.bind_eq_bind, Option.bind_some, Option.isSome_none, Bool.false_eq_true, if_false, ea]
      have e : s1.val 1 = 1 := hv
      simp only [unwrap_vac, view_some, e]
    · have e : s1.val 1 = 1 := hv
      simp only [e] at o2
      exact o2
  | succ n =>
    have hval : ∀ a ∈ (spine (n + 1)).ids, s1.val a = a := by
      intro a ha
      have hm : (a, s1.val a) ∈ nums (n + 1) := by rw [o1.list, mem_elems]; exact ⟨ha, rfl⟩
      simp only [nums, List.mem_map, Prod.mk.injEq] at hm
      obtain ⟨b, _, h1, h2⟩ := hm
      rw [← h2, h1]
    have hk : natCmp (id (n + 1 + 1)) (id (s1.val (n + 1))) = .grt := by
      have hm : (n + 1, s1.val (n + 1)) ∈ nums (n + 1) := by
        rw [o1.list, mem_elems, spine_ids, List.mem_range']; exact ⟨⟨n, by omega, by omega⟩, rfl⟩
      simp only [nums, List.mem_map, Prod.mk.injEq] at hm
      obtain ⟨a, _, h1, h2⟩ := hm
      rw [← h2, h1]
      simp [natCmp]
    obtain ⟨t, e1, o2⟩ := splay_max natCmp_lawful (by exact o1) hk
    obtain ⟨t2, e2, o3⟩ := splay_max natCmp_lawful (s := { s1 with t := t }) (by exact o2) hk
    obtain ⟨t3, run, w, hlv, hb, hp, hr⟩ := init_whole o3.whole (show n + 1 + 1 ≠ 0 by omega) hf
    have hn2 : n + 1 + 1 ∉ (nd (decide (Cmp.grt = .grt)) (n + 1) 0 nil (spine n)).ids := hf
    obtain ⟨t4, run4, w4, _⟩ := connect_spec (h := t3) (i := n + 1) (k := 0) (e := n + 1 + 1) (Y := nil) (C := spine n)
      (res := .grt) (by exact w) (by omega) (by rw [hlv]; simp) hn2
    have w4' : Whole t4 [] (spine (n + 1 + 1)) := w4
    have he : empty ({ s1 with t := t2 } : Om Nat) = false := o3.not_empty (by simp [spine])
    have he2 : empty ({ s1 with t := t } : Om Nat) = false := o2.not_empty (by simp [spine])
    have hr0 : s1.t.root ≠ 0 := by rw [o1.root]; simp [spine]
    have o4 : Ok natCmp id { s1 with t := t4, sz := s1.sz + 1 } (place natCmp (ekey id) (n + 1 + 1, s1.val (n + 1 + 1))
        (nums (n + 1))) (spine (n + 1 + 1)) := by
      refine o3.place natCmp_lawful (e := n + 1 + 1) w4' (pre := (spine (n + 1)).ids) (post := [])
        (List.append_nil _).symm rfl ?_ (by simp)
      intro a ha
      show natCmp (id (s1.val (n + 1 + 1))) (id (s1.val a)) = .grt
      rw [hv, hval a ha]
      rw [spine_ids, List.mem_range'] at ha
      have : a < n + 1 + 1 := by omega
      simp only [natCmp, id]
      rw [if_neg (by omega), if_pos this]
    refine ⟨{ s1 with t := t4, sz := s1.sz + 1 }, ?_, ?_, hal⟩
    · have ea : allocInsert natCmp id { s1 with t := t } (n + 1 + 1) none =
          some ({ s1 with t := t4, sz := s1.sz + 1 }, some (n + 1 + 1)) := by
        simp only at e2
        have hif : (if s1.alloc = true then none else some (n + 1 + 1)) = some (n + 1 + 1) := by rw [hal]; rfl
        have hif2 : (if s1.alloc = true then upd s1.val (n + 1 + 1) (s1.val (n + 1 + 1)) else s1.val) = s1.val := by
          rw [hal]; rfl
        simp only [allocInsert, he2, Bool.not_false, if_true, hv, e2, Option.bind_eq_bind, Option.bind_some, reduceCtorEq,
          if_false, hif]
        simp only [hv] at hif2
        simp only [run, he, Bool.false_eq_true, if_false, Option.bind_some, run4, req, hif2]
        rfl
      have ef : find natCmp id s1 (id (s1.val (n + 1 + 1))) = some ({ s1 with t := t }, none) := by
        simp only [find, hr0, if_false, hv, e1, Option.bind_eq_bind, Option.bind_some, reduceCtorEq]
      simp only [tryInsert, ef, Option.bind_eq_bind, Option.bind_some, Option.isSome_none, Bool.false_eq_true, if_false, ea]
      simp only [unwrap_vac, view_some, hv]
    · have e : place natCmp (ekey id) (n + 1 + 1, s1.val (n + 1 + 1)) (nums (n + 1)) = nums (n + 1 + 1) := by
        rw [o4.list]
        simp only [elems, nums, spine_ids]
        refine List.map_congr_left (fun a ha => ?_)
        rw [List.mem_range'] at ha
        by_cases h : a = n + 1 + 1
        · rw [h, hv]
        · rw [hval a (by rw [spine_ids, List.mem_range']; obtain ⟨i, _, h2⟩ := ha; exact ⟨i, by omega, h2⟩)]
      rw [e] at o4
      exact o4


theorem tick_bind {β : Type} {f : Unit → Count β} {n : Nat} {r : β} (h : Costs (f ()) n r) :
    Costs ((modify (· + 1) : Count Unit) >>= f) (n + 1) r := by
  intro q
  rw [Count.bind_run]
  show Option.bind (some ((), q + 1)) (fun r => f r.1 r.2) = _
  rw [Option.bind_some, h (q + 1)]
  rw [Nat.add_right_comm, Nat.add_assoc q]

/-- Walking down the path. -/
theorem minMaxLoopB_spine {t : Links} (n : Nat) : ∀ {p : Nat}, Rep t p (spine (n + 1)) →
    Costs (minMaxLoopB t (n + 1) false) n 1 := by
  induction n with
  | zero =>
    rintro p ⟨_, hl, hb, _⟩
    rw [minMaxLoopB]
    refine (Costs.lift (getBr_live hl)).bind (m := 0) (m' := 0) ?_
    rw [hb, if_pos (show (spine 0).rootId = 0 from rfl)]
    exact .pure _
  | succ n ih =>
    rintro p ⟨_, hl, hb, _, _, hr, _⟩
    rw [minMaxLoopB]
    have := (Costs.lift (getBr_live (d := false) hl)).bind (m := 0) (m' := n + 1)
      (f := fun b => if b = 0 then pure (n + 1 + 1) else do modify (· + 1); minMaxLoopB t b false) (r' := 1) (by
        have hb' : t.br (n + 1 + 1) false = n + 1 := hb
        rw [hb', if_neg (by omega)]
        exact tick_bind (ih hr))
    rw [Nat.zero_add] at this
    exact this

/-- Inserting `1, …, n`. -/
def ascending (n : Nat) : List (Op Nat Nat) := (List.range' 1 n).map (fun i => .tryInsert i i none)

theorem runB_cons {s s1 s2 : Om Nat} {o : Op Nat Nat} {os : List (Op Nat Nat)} {r : Out Nat} {rs : List (Out Nat)}
    {m n : Nat} (h1 : Costs (stepB natCmp id s o) m (s1, r)) (h2 : Costs (runB natCmp id s1 os) n (s2, rs)) :
    Costs (runB natCmp id s (o :: os)) (m + n) (s2, r :: rs) := by
  intro q
  simp only [runB, Count.bind_run, h1 q, h2 (q + m), Option.bind_some, Count.pure_run, Nat.add_assoc]

theorem ascending_from (j : Nat) : ∀ {s : Om Nat} {i : Nat}, Ok natCmp id s (nums i) (spine i) → s.alloc = false →
    ∃ s' rs, Ok natCmp id s' (nums (i + j)) (spine (i + j)) ∧ ∀ {os : List (Op Nat Nat)} {n s2 r2},
      Costs (runB natCmp id s' os) n (s2, r2) →
      Costs (runB natCmp id s ((List.range' (i + 1) j).map (fun i => .tryInsert i i none) ++ os)) n (s2, rs ++ r2) := by
  induction j with
  | zero => intro s i o _; exact ⟨s, [], o, fun h => h⟩
  | succ j ih =>
    intro s i o ha
    obtain ⟨s1, e, o1, ha1⟩ := spine_insert o ha
    obtain ⟨s', rs, o', h⟩ := ih o1 ha1
    refine ⟨s', .ent Stat.vacant (some (i + 1, i + 1)) :: rs, by rw [show i + (j + 1) = i + 1 + j by omega]; exact o', fun {os n s2 r2} hos => ?_⟩
    have := runB_cons (o := .tryInsert (i + 1) (i + 1) none) (Costs.lift e) (h hos)
    rw [Nat.zero_add] at this
    exact this

theorem begins {s : Om Nat} {n : Nat} (o : Ok natCmp id s (nums (n + 1)) (spine (n + 1))) (k : Nat) :
    ∃ rs, Costs (runB natCmp id s (List.replicate k .begin)) (k * n) (s, rs) := by
  induction k with
  | zero => exact ⟨[], by rw [Nat.zero_mul]; exact .pure _⟩
  | succ k ih =>
    obtain ⟨rs, h⟩ := ih
    have hsz : s.sz ≠ 0 := by rw [o.size]; simp [nums]
    have hb : Costs (stepB natCmp id s .begin) n (s, .ptr (view s (some 1))) := by
      show Costs (beginN s >>= fun p => pure (s, Out.ptr (view s p))) n _
      have h1 : Costs (beginN s) n (some 1) := by
        rw [beginN, if_neg hsz, o.root]
        exact (minMaxLoopB_spine n o.whole.tree).out some
      exact h1.out (fun p => (s, Out.ptr (view s p)))
    have := runB_cons hb h
    refine ⟨Out.ptr (view s (some 1)) :: rs, ?_⟩
    rw [List.replicate_succ, show (k + 1) * n = n + k * n by rw [Nat.add_mul, Nat.one_mul, Nat.add_comm]]
    exact this

/-- `n + 1` ascending insertions, then `k` times `begin`: `k * n` links. -/
theorem begin_cost (mem : Nat → Nat) (n k : Nat) :
    ∃ s rs, Costs (runB natCmp id (init mem false) (ascending (n + 1) ++ List.replicate k .begin)) (k * n) (s, rs) := by
  obtain ⟨s, rs, o, h⟩ := ascending_from (n + 1) (s := init mem false) (i := 0) (init_ok mem false) rfl
  rw [Nat.zero_add] at o
  obtain ⟨rs', h'⟩ := begins o k
  exact ⟨s, _, h h'⟩

/-! The specified contents along this history. -/

theorem spec_insert (i : Nat) : (specStep natCmp id false (nums i) (.tryInsert (i + 1) (i + 1) none)).1 = nums (i + 1) := by
  have hg : ∀ e ∈ nums i, natCmp (i + 1) (ekey id e) = .grt := by
    intro e he
    simp only [nums, List.mem_map, List.mem_range'] at he
    obtain ⟨a, ⟨j, hj, rfl⟩, rfl⟩ := he
    have h1 : ¬ i + 1 < ekey id (1 + 1 * j, 1 + 1 * j) := by show ¬ i + 1 < 1 + 1 * j; omega
    have h2 : ekey id (1 + 1 * j, 1 + 1 * j) < i + 1 := by show 1 + 1 * j < i + 1; omega
    rw [natCmp, if_neg h1, if_pos h2]
  have hlk : lookup natCmp (ekey id) (id (i + 1)) (nums i) = none := by
    have := lookup_none (cmp := natCmp) (key := ekey id) (k := i + 1) (post := []) hg (by simp)
    simpa using this
  have hpl := place_split (cmp := natCmp) (key := ekey id) (e := (i + 1, i + 1)) (pre := nums i) (post := []) hg (by simp)
  rw [List.append_nil] at hpl
  simp only [specStep, hlk, addAt, Bool.false_eq_true, if_false, hpl]
  simp [nums, List.range'_concat, Nat.add_comm]

theorem fresh_nums (i : Nat) : fresh (nums i) (i + 1) := by
  refine ⟨by omega, fun e he => ?_⟩
  simp only [nums, List.mem_map, List.mem_range'] at he
  obtain ⟨a, ⟨j, hj, rfl⟩, rfl⟩ := he
  simp only
  omega

theorem safe_begins (l : List (Nat × Nat)) (k : Nat) : safeRun natCmp id false l (List.replicate k .begin) := by
  induction k with
  | zero => trivial
  | succ k ih => exact ⟨trivial, trivial, ih⟩

theorem safe_ascending (k : Nat) : ∀ (j i : Nat), safeRun natCmp id false (nums i)
    ((List.range' (i + 1) j).map (fun i => .tryInsert i i none) ++ List.replicate k .begin) := by
  intro j
  induction j with
  | zero => intro i; exact safe_begins _ k
  | succ j ih =>
    intro i
    refine ⟨⟨fresh_nums i, fun n h => by cases h⟩, trivial, ?_⟩
    rw [spec_insert]
    exact ih (i + 1)

theorem size_begins (l : List (Nat × Nat)) (k : Nat) : ∀ pre, pre <+: List.replicate k (.begin : Op Nat Nat) →
    (specRun natCmp id false l pre).1.length ≤ l.length := by
  induction k generalizing l with
  | zero => intro pre h; rw [List.replicate_zero, List.prefix_nil] at h; subst h; exact Nat.le_refl _
  | succ k ih =>
    intro pre h
    rw [List.replicate_succ] at h
    rcases List.prefix_cons_iff.1 h with rfl | ⟨t, rfl, h'⟩
    · exact Nat.le_refl _
    · exact ih l t h'

theorem size_ascending (k : Nat) : ∀ (j i : Nat) (pre), pre <+: ((List.range' (i + 1) j).map
    (fun i => (.tryInsert i i none : Op Nat Nat)) ++ List.replicate k .begin) →
    (specRun natCmp id false (nums i) pre).1.length ≤ i + j := by
  intro j
  induction j with
  | zero => intro i pre h; have := size_begins (nums i) k pre h; simpa [nums] using this
  | succ j ih =>
    intro i pre h
    rw [List.range'_succ, List.map_cons, List.cons_append] at h
    rcases List.prefix_cons_iff.1 h with rfl | ⟨t, rfl, h'⟩
    · simp [specRun, nums]
    · have := ih (i + 1) t h'
      simp only [specRun]
      rw [spec_insert]
      omega

end CCC.Om
