import Verif.Proof.PriorityQueueCost
import Verif.Props.PriorityQueue
/-
C65: the pairing heap priority queue pushes in constant time, and takes logarithmic time on average for every call.

The work counted is every call of the user's comparison function and every access to an element of the heap, whether it is
read or written.  `runN` is `run` with the work counted (`Verif/Model/PriorityQueueCost.lean`).
-/
namespace CCC.Pq
open CCC PrioQ Splay

variable {α : Type} {c : Cfg α} {s : Pq α} {st : St α}

/-- **C65**.  Every history of allowed actions, from the empty queue, that never holds more than `N` elements: all actions go
through with the answers of the specification, and take on average at most `70 log₂ (N + 1) + 56` comparisons and element
accesses each.  As in C19, actions the code gets wrong (`safeOp`) are left out. -/
theorem C65_pq_amortized_partial (hl : Lawful c) (ops : List (Op α)) (N : Nat) (hok : safeRun c.cmp c.order St.empty ops)
    (hN : ∀ pre s outs, pre <+: ops → run c (init fun _ => none) pre = some (s, outs) → size s ≤ N) :
    ∃ s outs st n, run c (init fun _ => none) ops = some (s, outs) ∧ SpecRun c.cmp c.order St.empty ops outs st ∧
      runN c (init fun _ => none) ops 0 = some ((s, outs), n) ∧
      (n : ℝ) ≤ ops.length * (70 * Real.logb 2 (N + 1) + 56) := by
  have hs : Sim c (init fun _ => none) (St.empty : St α) := init_sim
  obtain ⟨kids, sh, _⟩ := hs.heap
  obtain ⟨s, outs, st, h1, h2, _⟩ := run_sim hl.cmp hl.order hl.alloc ops hs hok
  obtain ⟨s', outs', m, hr, hm⟩ := runN_pays hl.cmp hl.order hl.alloc ops hs hok sh (w := fun _ => 0)
    (by intro x hx; simp [St.empty] at hx) hN
  have := h1.symm.trans hr.1
  simp only [Option.some.injEq, Prod.mk.injEq] at this
  obtain ⟨rfl, rfl⟩ := this
  refine ⟨s, outs, st, m, h1, h2, by have := hr.2 0; rw [Nat.zero_add] at this; exact this, ?_⟩
  have hL : lg (N + 1) = Real.logb 2 (N + 1) := by simp [lg]
  rw [hL] at hm
  simpa [St.empty, Phi] using hm

/-- **C65**.  Whatever came before, a push takes at most 13 comparisons and element accesses. -/
theorem C65_pq_push (hl : Lawful c) (h : Reach c s st) {e : Nat} (he : e ∉ st.q) (hv : st.val e ≠ none) :
    ∃ s' n, push c s e none = some (s', some e) ∧ pushN c s e none 0 = some ((s', some e), n) ∧ n ≤ 13 := by
  have hs := h.sim hl
  have hg : Good c := ⟨hl.cmp.swo hl.order⟩
  obtain ⟨s', f, h1, _⟩ := push_sim hg hl.alloc hs none he hv
  have hb : Bd (pushN c s e none) (push c s e none) 13 := by
    unfold pushN push
    refine Bd.accBind (by omega) ?_
    intro s1 _
    rw [if_neg (by simp [hl.alloc]), if_neg (by simp [hl.alloc])]
    refine Bd.bind (merge_bd c _ _ _) (by omega) ?_
    intro r _
    exact Bd.pure _ _
  obtain ⟨n, hn, hc⟩ := hb _ h1
  exact ⟨s', n, h1, by have := hc 0; rw [Nat.zero_add] at this; exact this, hn⟩

/-- **C65**.  Whatever came before, `increase` takes at most 22 comparisons and element accesses in a queue with the
greatest element at the front, and so does `decrease` in a queue with the least element at the front. -/
theorem C65_pq_raise_partial (hl : Lawful c) (h : Reach c s st) {e : Nat} (f : α → α) :
    (c.order = .grt → okOp c.cmp st (.increase e f) → safeOp c.order st (.increase e f) →
      ∃ s' n, increase c s e f = some (s', true) ∧ increaseN c s e f 0 = some ((s', true), n) ∧ n ≤ 22) ∧
    (c.order = .les → okOp c.cmp st (.decrease e f) → safeOp c.order st (.decrease e f) →
      ∃ s' n, decrease c s e f = some (s', true) ∧ decreaseN c s e f 0 = some ((s', true), n) ∧ n ≤ 22) := by
  have hs := h.sim hl
  have hg : Good c := ⟨hl.cmp.swo hl.order⟩
  have hb : Bd (changeN s e f (fixupN c · e true)) (change s e f (fixup c · e true)) 22 := by
    unfold changeN change
    refine Bd.accBind (by omega) ?_
    intro x _
    split
    · exact Bd.pure _ _
    refine Bd.accBind (by omega) ?_
    intro s1 _
    refine Bd.bind (k := 20) ?_ (by omega) ?_
    · unfold fixupN fixup
      refine Bd.bind (k := 8) (cutChild_bd _ _) (by omega) ?_
      intro s2 _
      refine Bd.bind (merge_bd c _ _ _) (by omega) ?_
      intro r _
      exact Bd.pure _ _
    · intro r _
      exact Bd.pure _ _
  refine ⟨fun ho hok hsafe => ?_, fun ho hok hsafe => ?_⟩
  · have hd : decide (c.order = .grt) = true := by simpa using ho
    obtain ⟨s', w, h1, _⟩ := fixup_sim hg hs hok.1 f true (fun _ =>
      ⟨fun y hy => up_grt hl.cmp (hok.2 y hy) ho, fun hf => hsafe ho hf⟩)
    obtain ⟨n, hn, hc⟩ := hb _ h1
    refine ⟨s', n, ?_, ?_, hn⟩
    · unfold increase; rw [hd]; exact h1
    · unfold increaseN; rw [hd]; have := hc 0; rw [Nat.zero_add] at this; exact this
  · have hd : decide (c.order = .les) = true := by simpa using ho
    obtain ⟨s', w, h1, _⟩ := fixup_sim hg hs hok.1 f true (fun _ =>
      ⟨fun y hy => up_les hl.cmp (hok.2 y hy) ho, fun hf => hsafe ho hf⟩)
    obtain ⟨n, hn, hc⟩ := hb _ h1
    refine ⟨s', n, ?_, ?_, hn⟩
    · unfold decrease; rw [hd]; exact h1
    · unfold decreaseN; rw [hd]; have := hc 0; rw [Nat.zero_add] at this; exact this

/-! ### One call may take linear time -/

/-- A push that does not beat the front makes it one more child. -/
theorem push_star (ha : c.alloc = false) {S : List Nat} {kids : Nat → List Nat} {r e : Nat} (h : Shape s.v S [r] kids)
    (hr : s.root = some r) (he : e ∉ S) (hl : s.v.vl e ≠ none) (hn : NB c s.v e r) :
    ∃ s' kids', push c s e none = some (s', some e) ∧ s'.root = some r ∧ Shape s'.v (e :: S) [r] kids' ∧
      (kids' r).length = (kids r).length + 1 := by
  obtain ⟨s1, a1, b1, c1, d1⟩ := initNode_view hl
  have hne : ∀ a ∈ S, a ≠ e := by rintro a ha rfl; exact he ha
  have hrS : r ∈ S := h.root_mem (by simp)
  have sh : Shape s1.v (e :: S) (r :: e :: []) (upd kids e []) := by
    refine Shape.perm_roots (R := e :: [r]) ?_ (List.Perm.swap r e [])
    refine h.add he (fun a ha => ?_) (fun a ha => ?_) (fun a ha => ?_) (fun a ha => ?_) (fun a ha => ?_) ?_ ?_ <;> rw [d1]
    · exact upd_ne _ _ (hne a ha)
    · exact upd_ne _ _ (hne a ha)
    · exact upd_ne _ _ (hne a ha)
    · exact upd_ne _ _ (hne a ha)
    · exact h.live a ha
    · exact upd_same _ _ _
    · exact hl
  obtain ⟨x, hx⟩ := live_of (sh.live r (by simp [hrS]))
  obtain ⟨y, hy⟩ := live_of (sh.live e (by simp))
  have vx := (view_mem hx).2.2.2.2
  have vy := (view_mem hy).2.2.2.2
  have hb : ¬ c.cmp y.val x.val = c.order := hn _ _ (by rw [← vy, d1]) (by rw [← vx, d1])
  obtain ⟨s2, h1, h2, h3, h4, _⟩ := linkChild_spec sh
  refine ⟨{ s2 with root := some r, sz := s2.sz + 1 }, _, ?_, rfl, h4, ?_⟩
  · simp only [push, a1, ha, Bool.false_eq_true, if_false, Option.bind_eq_bind, Option.bind_some, b1, hr, merge,
      if_neg (hne r hrS), hx, hy, if_neg hb, h1]
  · rw [upd_same, upd_ne _ _ (hne r hrS)]; simp

/-- Updating the front takes time linear in the number of its children. -/
theorem update_root (hl : Lawful c) {r : Nat} {kids : Nat → List Nat} (hs : Sim c s st) (h : Shape s.v st.q [r] kids) (hr : s.root = some r)
    (f : α → α) : ∃ s' n, Costs (updateN c s r f) n (s', true) ∧ (kids r).length ≤ 2 * n := by
  have hrS : r ∈ st.q := h.root_mem (by simp)
  have hg : Good c := ⟨hl.cmp.swo hl.order⟩
  obtain ⟨w, hw⟩ := h.wt
  obtain ⟨x, hx, hn, hrn⟩ := hs.sibs hrS
  obtain ⟨s1, k0, a1, b1, c1, _, _, _, d1, _⟩ := changed hs hrS f
  have sh1 : Shape s1.v st.q [r] kids := by
    refine h.congr (by rw [d1]; simp) (by rw [d1]; simp) (by rw [d1]; simp) (by rw [d1]; simp) (fun a ha => ?_)
    rw [d1]
    show upd _ _ _ a ≠ none
    by_cases hae : a = r
    · subst hae; rw [upd_same]
      obtain ⟨y, hy⟩ := Option.ne_none_iff_exists'.1 (h.live a ha)
      rw [hy]; simp
    · rw [upd_ne _ _ hae]; exact h.live a ha
  obtain ⟨x1, hx1⟩ := live_of (sh1.live r hrS)
  have hpar : x1.par = none := by
    refine (view_mem hx1).2.2.2.1.symm.trans ?_
    rw [d1]
    exact (hs.top r hr).2.2.1
  obtain ⟨s2, res, k2, w2, m2, p1, p2, p3, p4, p5, p6, p7, _⟩ := deleteMin_pot c sh1 hw
  have hnot : r ∉ st.q.erase r := by rw [h.nodup.mem_erase_iff]; simp
  obtain ⟨s3, s4, x4, k4, w4, m4, q1, q2, _⟩ := insert_pot (s := { s2 with root := res }) c (by rw [List.append_nil] at p4; exact p4)
    p5 hnot (by show s2.v.vl r ≠ none; rw [p6.vl]; exact sh1.live r hrS)
  refine ⟨{ s4 with root := some x4 }, 1 + (1 + ((1 + (0 + (m2 + (1 + (m4 + 0))))) + 0)), Ret.costs (y := update c s r f) ?_, by omega⟩
  unfold updateN update changeN change
  refine Ret.accBind hx ?_
  refine Ret.neg hn ?_
  refine Ret.accBind a1 ?_
  refine Ret.bind (r := { s4 with root := some x4 }) ?_ (.pure _)
  unfold updateFixupN updateFixup
  refine Ret.accBind hx1 ?_
  rw [hpar]
  refine Ret.bind (.pure _) ?_
  refine Ret.neg (by simp) ?_
  refine Ret.bind (r := (s2, res)) ?_ ?_
  · unfold deleteNodeN deleteNode
    exact Ret.pos (b1.trans hr) p1
  refine Ret.accBind q1 ?_
  refine Ret.bind q2 ?_
  exact .pure _

/-- A queue of `n + 1` equal elements. -/
theorem star_reach : ∀ n : Nat, ∃ s st kids, Reach minCfg s st ∧ st.q.length = n + 1 ∧ (∀ e ∈ st.q, e ≤ n) ∧ s.root = some 0 ∧
    s.v.vl 0 = some 0 ∧ Shape s.v st.q [0] kids ∧ (kids 0).length = n
  | 0 => by
    have h := Reach.init (c := minCfg)
    have h1 := Reach.step (op := .make 0 0 none none none none) h (by show (0 : Nat) ∉ []; simp) trivial rfl
    have h2 := Reach.step (op := .push 0) h1 ⟨by show (0 : Nat) ∉ []; simp, by show (some 0 : Option Nat) ≠ none; simp⟩ trivial rfl
    obtain ⟨kids, sh, _⟩ := (h2.sim minCfg_lawful).heap
    refine ⟨_, _, kids, h2, rfl, by intro e he; simpa [specStep, St.empty] using he, rfl, rfl, sh, ?_⟩
    have : kids 0 = [] := by
      cases hk : kids 0 with
      | nil => rfl
      | cons k t =>
        have hk' : k ∈ kids 0 := by rw [hk]; simp
        have hm : (0 : Nat) ∈ [0] := by simp
        have h0 := sh.kid_mem (a := 0) hm hk'
        have : k = 0 := by simpa [specStep, St.empty] using h0
        subst this
        exact absurd hk' (sh.kid_not_self hm)
    rw [this]; rfl
  | n + 1 => by
    obtain ⟨s, st, kids, h, hlen, hle, hr, hv, sh, hk⟩ := star_reach n
    have hnot : n + 1 ∉ st.q := fun hm => by have := hle _ hm; omega
    have h1 := Reach.step (op := .make (n + 1) 0 none none none none) h hnot trivial rfl
    have sh1 : Shape (Pq.v { s with mem := upd s.mem (n + 1) (some ⟨0, none, none, none, none⟩) }) st.q [0] kids :=
      Shape.outside (e := n + 1) sh hnot (fun a ha => upd_ne _ _ ha)
    have hv1 : (Pq.v { s with mem := upd s.mem (n + 1) (some ⟨0, none, none, none, none⟩) }).vl (n + 1) = some 0 := by
      simp [Pq.v]
    have hv0 : (Pq.v { s with mem := upd s.mem (n + 1) (some ⟨0, none, none, none, none⟩) }).vl 0 = some 0 := by
      simp only [Pq.v]
      rw [upd_ne _ _ (by omega)]; exact hv
    obtain ⟨s2, k2, a2, b2, sh2, hk2⟩ := push_star (c := minCfg) rfl sh1 hr hnot (by rw [hv1]; simp) (by
      intro x y hx hy
      rw [hv1] at hx; rw [hv0] at hy
      cases hx; cases hy
      show ¬ natCmp 0 0 = .les
      simp [natCmp])
    have h2 := Reach.step (op := .push (n + 1)) (s' := s2) (out := .ptr (some (n + 1))) h1
      ⟨hnot, by simp [specStep]⟩ trivial (by simp [step, a2])
    refine ⟨s2, _, k2, h2, by simp [specStep, hlen], ?_, b2, ?_, sh2, by rw [hk2, hk]⟩
    · intro e he
      rcases List.mem_cons.1 he with rfl | he
      · exact Nat.le_refl _
      · have := hle e he; omega
    · have := (h2.sim minCfg_lawful).val
      have h3 := (h1.sim minCfg_lawful).val
      rw [this]
      exact (congrFun h3.symm 0).trans hv0

/-- **C65 fails** for `ccc_pq_update`, documented as "O(1) best case, O(lgN) worst case": a single update may take time
linear in the number of elements; no constants bound it by a logarithm. -/
theorem C65_pq_update_violated : ¬ ∃ a b : ℝ, ∀ (s : Pq Nat) (st : St Nat), Reach minCfg s st → ∀ e ∈ st.q, ∀ (f : Nat → Nat) r n,
    updateN minCfg s e f 0 = some (r, n) → (n : ℝ) ≤ a * Real.logb 2 (st.q.length + 1) + b := by
  rintro ⟨a, b, h⟩
  obtain ⟨m, hm⟩ := exists_nat_ge (4 * |a| + 4 * |b| + 8)
  have ha := abs_nonneg a
  have hb := abs_nonneg b
  have hm4 : 8 ≤ m := by
    have : (8 : ℝ) ≤ m := by linarith
    exact_mod_cast this
  have hp : m * m + 2 ≤ 2 ^ m := by
    clear hm
    induction m, hm4 using Nat.le_induction with
    | base => norm_num
    | succ k hk ih => rw [pow_succ]; nlinarith
  obtain ⟨s, st, kids, hr, hlen, _, hroot, _, sh, hk⟩ := star_reach (2 ^ m - 2)
  obtain ⟨s', n, hc, hn⟩ := update_root minCfg_lawful (hr.sim minCfg_lawful) sh hroot id
  have h1 := h s st hr 0 (sh.root_mem (by simp)) id (s', true) n (by have := hc 0; rw [Nat.zero_add] at this; exact this)
  have h2 : ((st.q.length : ℝ) + 1) = 2 ^ m := by
    have : st.q.length + 1 = 2 ^ m := by omega
    exact_mod_cast this
  rw [h2, Real.logb_pow, Real.logb_self_eq_one (by norm_num), mul_one] at h1
  have h3 : m * m ≤ 2 * n := by omega
  have h3' : (m : ℝ) * m ≤ 2 * n := by exact_mod_cast h3
  have h4 : a * m ≤ |a| * m := mul_le_mul_of_nonneg_right (le_abs_self a) (by positivity)
  have h5 := le_abs_self b
  have h6 : (8 : ℝ) ≤ m := by exact_mod_cast hm4
  nlinarith

/-! ### Concrete cases -/

/-- The hypotheses of `C65_pq_push` and `C65_pq_raise_partial` are met, by a queue of four elements. -/
example : ∃ s st, Reach maxCfg s st ∧ 4 ∉ st.q ∧ 2 ∈ st.q ∧ okOp maxCfg.cmp st (.increase 2 (fun _ => 20)) ∧
    safeOp maxCfg.order st (.increase 2 (fun _ => 20)) := by
  obtain ⟨s, _, h⟩ := sample_reach
  refine ⟨s, _, h, by simp [sampleSt], by simp [sampleSt], ⟨by simp [sampleSt], ?_⟩, by intro _ hf; cases hf⟩
  intro v hv
  have : (some 2 : Option Nat) = some v := hv
  cases this
  show natCmp 20 2 ≠ .les
  simp [natCmp]

/-- The user makes `n` structs and pushes them, then the queue is cleared. -/
def fillOps (n : Nat) : List (Op Nat) :=
  (List.range n).flatMap (fun i => [.make i (n - i) none none none none, .push i]) ++ [.pop, .clear false]

/-- The hypothesis of `C65_pq_amortized_partial` on the caller is met, by histories of any length. -/
example (n : Nat) : safeRun minCfg.cmp minCfg.order St.empty (fillOps n) := by
  have h : ∀ (l : List Nat) (st : St Nat), l.Nodup → (∀ i ∈ l, i ∉ st.q) →
      safeRun minCfg.cmp minCfg.order st (l.flatMap (fun i => [.make i (n - i) none none none none, .push i]) ++ [.pop, .clear false]) := by
    intro l
    induction l with
    | nil => intro st _ _; exact ⟨trivial, trivial, fun _ _ _ => ⟨trivial, trivial, fun _ _ _ => trivial⟩⟩
    | cons i l ih =>
      intro st hnd hq
      refine ⟨hq i (by simp), trivial, fun f hf _ => ⟨⟨hq i (by simp), by simp [specStep]⟩, trivial, fun f' _ _ => ?_⟩⟩
      refine ih _ (List.nodup_cons.1 hnd).2 (fun j hj hm => ?_)
      rcases List.mem_cons.1 hm with rfl | hm
      · exact (List.nodup_cons.1 hnd).1 hj
      · exact hq j (by simp [hj]) hm
  exact h _ _ List.nodup_range (by simp [St.empty])

end CCC.Pq
