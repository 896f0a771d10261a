import Verif.Proof.PriorityQueueSound
import Verif.Props.ValidateLinked
/-
C57 for the pairing heap: what follows when `ccc_pq_validate` accepts a memory, however it came about.
-/
namespace CCC.Pq
open CCC PrioQ

/-- The structs reached from the root by following first child and next sibling. -/
inductive Linked {α : Type} (s : Pq α) : Nat → Prop
  | root {r : Nat} : s.root = some r → Linked s r
  | left {a b : Nat} {x : Elem α} : Linked s a → s.mem a = some x → x.left = some b → Linked s b
  | next {a b : Nat} {x : Elem α} : Linked s a → s.mem a = some x → x.next = some b → Linked s b

/-- What validation does not check: the root has no siblings, and the next sibling of an element has it as its previous
sibling and has the same parent. -/
structure Neighbours {α : Type} (s : Pq α) : Prop where
  alone : ∀ r x, s.root = some r → s.mem r = some x → x.next = some r
  back : ∀ a b x y, Linked s a → s.mem a = some x → x.next = some b → s.mem b = some y → y.prev = some a ∧ y.par = x.par

variable {α : Type} {c : Cfg α} {s : Pq α}

/-- **C57** for the pairing heap, the part that holds.  If validation accepts a memory in which neighbours know each other and
the root has no siblings, then the structs reached from the root are a queue: there are as many as the size says, the front is one
that none of the others beats, and every later sequence of calls does what the specification of the queue says, starting with
exactly those structs.  Missing: validation itself does not notice when neighbours do not know each other (`C57_pq_violated`,
`C57_pq_violated_shared`). -/
theorem C57_pq_validate_partial (hc : Lawful c) (h : validate c s = some true) (hn : Neighbours s) :
    ∃ q : List Nat, q.Nodup ∧ (∀ a, a ∈ q ↔ Linked s a) ∧ (∀ a ∈ q, ∃ x, s.mem a = some x) ∧ size s = q.length ∧
      IsFront c.cmp c.order ⟨fun a => (s.mem a).map Elem.val, q, front s, false⟩ ∧
      ∀ ops, safeRun c.cmp c.order ⟨fun a => (s.mem a).map Elem.val, q, front s, false⟩ ops → ∃ s' outs st', run c s ops = some (s', outs) ∧
        SpecRun c.cmp c.order ⟨fun a => (s.mem a).map Elem.val, q, front s, false⟩ ops outs st' := by
  have fin : ∀ q : List Nat, q.Nodup → (∀ a, a ∈ q ↔ Linked s a) → (∀ a ∈ q, ∃ x, s.mem a = some x) →
      Sim c s ⟨s.v.vl, q, s.root, false⟩ → ∃ q : List Nat, q.Nodup ∧ (∀ a, a ∈ q ↔ Linked s a) ∧ (∀ a ∈ q, ∃ x, s.mem a = some x) ∧ size s = q.length ∧
      IsFront c.cmp c.order ⟨fun a => (s.mem a).map Elem.val, q, front s, false⟩ ∧
      ∀ ops, safeRun c.cmp c.order ⟨fun a => (s.mem a).map Elem.val, q, front s, false⟩ ops → ∃ s' outs st', run c s ops = some (s', outs) ∧
        SpecRun c.cmp c.order ⟨fun a => (s.mem a).map Elem.val, q, front s, false⟩ ops outs st' := by
    intro q h1 h2 h3 hs
    refine ⟨q, h1, h2, h3, hs.sz, hs.isFront ⟨hc.cmp.swo hc.order⟩, fun ops ho => ?_⟩
    obtain ⟨s', outs, st', g1, g2, _⟩ := run_sim hc.cmp hc.order hc.alloc ops hs ho
    exact ⟨s', outs, st', g1, g2⟩
  rcases validate_sound h with ⟨hr, hz⟩ | ⟨r, t, hr, hp, ht, hz⟩
  · refine fin [] .nil (fun a => ⟨fun ha => by simp at ha, fun ha => ?_⟩) (by simp) ?_
    · exfalso
      induction ha with
      | root e => rw [hr] at e; cases e
      | left _ _ _ ih => exact ih
      | next _ _ _ ih => exact ih
    · exact ⟨⟨fun _ => [], ⟨.nil, by rw [hr]; exact .refl _, by simp, by simp, by simp, by simp, ⟨fun _ => 0, by simp⟩⟩, by intro a ha; simp at ha⟩,
        rfl, rfl, hz, by simp [hr]⟩
  · have hcl := rep_closed t _ _ _ ht
    have hrm : r ∈ t.ids := by
      cases t with
      | nil => exact ht.elim
      | node a k b => have := ht.1; cases this; simp [Bin.ids]
    have hreach : ∀ a ∈ t.ids, Linked s a := by
      refine rep_reach (P := Linked s) ?_ t _ _ _ ht (fun a e => by cases e; exact .root hr)
      intro a b ha hb
      have hlive : ∃ x, s.mem a = some x := by
        cases hm : s.mem a with
        | some x => exact ⟨x, rfl⟩
        | none => rcases hb with hb | hb <;> simp [Pq.v, hm] at hb
      obtain ⟨x, hx⟩ := hlive
      rcases hb with hb | hb
      · exact .next ha hx ((view_mem hx).1.symm.trans hb)
      · exact .left ha hx ((view_mem hx).2.2.1.symm.trans hb)
    have hmem : ∀ a, a ∈ t.ids ↔ Linked s a := by
      refine fun a => ⟨hreach a, fun ha => ?_⟩
      induction ha with
      | root e => rw [hr] at e; cases e; exact hrm
      | left _ hx e ih =>
        rcases (hcl _ ih).2 _ (.inr ((view_mem hx).2.2.1.trans e)) with m | rfl
        · exact m
        · exact hrm
      | next _ hx e ih =>
        rcases (hcl _ ih).2 _ (.inl ((view_mem hx).1.trans e)) with m | rfl
        · exact m
        · exact hrm
    have hmut : Mutual s t := by
      intro a ha b hb
      obtain ⟨x, hx⟩ := (hcl a ha).1
      have hbm : b ∈ t.ids := by
        rcases (hcl a ha).2 b (.inl hb) with m | rfl
        · exact m
        · exact hrm
      obtain ⟨y, hy⟩ := (hcl b hbm).1
      have := hn.back a b x y (hreach a ha) hx ((view_mem hx).1.symm.trans hb) hy
      exact ⟨(view_mem hy).2.1.trans this.1, ((view_mem hy).2.2.2.1.trans this.2).trans (view_mem hx).2.2.2.1.symm⟩
    obtain ⟨x, hx⟩ := (hcl r hrm).1
    have hs := sound_sim hc.cmp hc.order hr hp ht hz hmut ((view_mem hx).1.trans (hn.alone r x hr hx))
    refine fin t.ids ?_ hmem (fun a ha => (hcl a ha).1) (by rw [← hr] at hs; exact hs)
    obtain ⟨_, sh, _⟩ := hs.heap
    exact sh.nodup

theorem ring_step {v : View α} {l : List Nat} (h : Ring v l) {a : Nat} (ha : a ∈ l) : ∃ b ∈ l, Adj v a b := by
  obtain ⟨A, B, rfl⟩ := List.append_of_mem ha
  rw [ring_rot] at h
  cases hB : B ++ A with
  | nil =>
    rw [List.cons_append, hB] at h
    exact ⟨a, by simp, h.1⟩
  | cons b l =>
    rw [List.cons_append, hB] at h
    refine ⟨b, ?_, h.1⟩
    have : b ∈ B ++ A := by rw [hB]; simp
    simp only [List.mem_append, List.mem_cons] at this ⊢
    rcases this with h | h
    · exact .inr (.inr h)
    · exact .inl h

/-- The hypotheses of `C57_pq_validate_partial` hold in every state the program can reach, except when an update brought the
front element to the front. -/
theorem C57_pq_neighbours (hl : Lawful c) {st : St α} (h : Reach c s st) (hst : st.stale = false) :
    validate c s = some true ∧ Neighbours s ∧ ∀ a, Linked s a → a ∈ st.q := by
  have hs := h.sim hl
  obtain ⟨kids, sh, o⟩ := hs.heap
  have step : ∀ a ∈ st.q, ∃ b ∈ st.q, Adj s.v a b ∧ s.v.pr b = s.v.pr a := by
    intro a ha
    rcases sh.root_or_kid ha with hr | ⟨p, hp, hk⟩
    · have hr' : s.root = some a := by cases h : s.root <;> simp_all
      have := (hs.top a hr').2.2.2 hst
      exact ⟨a, ha, this, rfl⟩
    · obtain ⟨b, hb, hadj⟩ := ring_step (sh.ring p hp) hk
      exact ⟨b, sh.kid_mem hp hb, hadj, by rw [sh.par p hp b hb, sh.par p hp a hk]⟩
  have hmem : ∀ a, Linked s a → a ∈ st.q := by
    intro a ha
    induction ha with
    | root e => exact sh.root_mem (by rw [e]; simp)
    | left _ hx e ih =>
      have := sh.left _ ih
      rw [(view_mem hx).2.2.1, e] at this
      exact sh.kid_mem ih (List.mem_of_getLast? this.symm)
    | next _ hx e ih =>
      obtain ⟨b, hb, hadj, _⟩ := step _ ih
      have := hadj.1
      rw [(view_mem hx).1, e] at this
      cases this
      exact hb
  refine ⟨validate_sim hl.cmp hl.order hs hst, ⟨?_, ?_⟩, hmem⟩
  · intro r x hr hx
    have := ((hs.top r hr).2.2.2 hst).1
    rwa [(view_mem hx).1] at this
  · intro a b x y ha hx e hy
    obtain ⟨b', hb, hadj, hpr⟩ := step _ (hmem a ha)
    have := hadj.1
    rw [(view_mem hx).1, e] at this
    cases this
    have h1 := hadj.2
    rw [(view_mem hy).2.1] at h1
    rw [(view_mem hy).2.2.2.1, (view_mem hx).2.2.2.1] at hpr
    exact ⟨h1, hpr⟩

/-- In a reachable state in which any other number is written into the size, validation does not succeed. -/
theorem C57_pq_wrong_size (hl : Lawful c) {st : St α} (h : Reach c s st) (hst : st.stale = false) {n : Nat} (hn : n ≠ size s) :
    validate c { s with sz := n } ≠ some true := by
  intro hv
  obtain ⟨hv0, hnb, _⟩ := C57_pq_neighbours hl h hst
  have tr : ∀ {s1 s2 : Pq α}, s2.mem = s1.mem → s2.root = s1.root → ∀ a, Linked s1 a → Linked s2 a := by
    intro s1 s2 e1 e2 a ha
    induction ha with
    | root e => exact .root (by rw [e2]; exact e)
    | left _ hx e ih => exact .left ih (by rw [e1]; exact hx) e
    | next _ hx e ih => exact .next ih (by rw [e1]; exact hx) e
  have hnb' : Neighbours { s with sz := n } :=
    ⟨hnb.alone, fun a b x y ha => hnb.back a b x y (tr (s1 := { s with sz := n }) (s2 := s) rfl rfl a ha)⟩
  obtain ⟨q, q1, q2, _, q3, _⟩ := C57_pq_validate_partial hl hv0 hnb
  obtain ⟨q', p1, p2, _, p3, _⟩ := C57_pq_validate_partial hl hv hnb'
  have : q.Perm q' := (List.perm_ext_iff_of_nodup q1 p1).2 (fun a => by
    rw [q2, p2]; exact ⟨tr (s1 := s) (s2 := { s with sz := n }) rfl rfl a, tr (s1 := { s with sz := n }) (s2 := s) rfl rfl a⟩)
  have := this.length_eq
  simp only [size] at q3 p3 hn
  omega

/-- A queue of four elements. -/
example : ∃ s, ∃ st : St Nat, Reach maxCfg s st ∧ st.q = [3, 2, 1, 0] ∧ Neighbours s ∧ validate maxCfg s = some true := by
  obtain ⟨s, _, h⟩ := sample_reach
  have := C57_pq_neighbours maxCfg_lawful h rfl
  exact ⟨s, _, h, rfl, this.2.1, this.1⟩

end CCC.Pq
