import Verif.Proof.PriorityQueueCalls
/-
Proofs about the pairing heap: validation, and histories.
-/
namespace CCC.Pq
open CCC PrioQ

variable {α : Type} {c : Cfg α} {s : Pq α} {S R : List Nat} {kids : Nat → List Nat}

/-- The siblings from the youngest on. -/
theorem ring_young {v : View α} {l q : List Nat} {z : Nat} (h : Ring v l) (hq : l = q ++ [z]) : Chain v z (z :: q) := by
  subst hq
  have h1 : Ring v (z :: q) := (ring_rotate z q).2 h
  exact ring_chain h1

theorem Chain.next {v : View α} {z a : Nat} {rest : List Nat} (h : Chain v z (a :: rest)) : v.nx a = cursor z rest := by
  cases rest with
  | nil => exact h
  | cons b r => exact h.1

theorem Chain.rest {v : View α} {z a : Nat} {rest : List Nat} (h : Chain v z (a :: rest)) : Chain v z rest := by
  cases rest with
  | nil => trivial
  | cons b r => exact h.2

theorem young {l : List Nat} (h : l ≠ []) (hnd : l.Nodup) : ∃ q z, l = q ++ [z] ∧ z ∉ q := by
  obtain ⟨_, _, q, z, _, hq⟩ := head_last h
  refine ⟨q, z, hq, fun hz => ?_⟩
  rw [hq] at hnd
  exact (List.nodup_append.1 hnd).2.2 z hz z (by simp) rfl

theorem linksLoop_kids (hl : LawfulCmp c.cmp) (hi : IsOrder c.order) (h : Shape s.v S R kids) (ho : Ord c s.v S kids) {rk : Nat → Nat}
    (hrk : ∀ a ∈ S, ∀ k ∈ kids a, rk k < rk a) : ∀ (n : Nat) (p : Nat), p ∈ S → rk p ≤ n → ∀ (q : List Nat) (z : Nat), kids p = q ++ [z] →
      ∀ (rest : List Nat) (cur : Nat), (∀ x ∈ cur :: rest, x ∈ kids p) → z ∉ rest → Chain s.v z (cur :: rest) →
      linksLoop c s (some p) z (some cur) = some true := by
  intro n
  induction n with
  | zero =>
    intro p hp hn q z hq
    have := hrk p hp z (by rw [hq]; simp)
    omega
  | succ n ihn =>
    intro p hp hn q z hq rest
    induction rest with
    | nil => ?_
    | cons b rest ihr => ?_
    all_goals
      intro cur hm hz hc
      have hzk : z ∈ kids p := by rw [hq]; simp
      have hcur : cur ∈ kids p := hm cur (by simp)
      have hcS := h.kid_mem hp hcur
      obtain ⟨ez, hez⟩ := live_of (h.live z (h.kid_mem hp hzk))
      obtain ⟨ep, hep⟩ := live_of (h.live p hp)
      obtain ⟨x, hx⟩ := live_of (h.live cur hcS)
      obtain ⟨nn, pp, hn1, hp1, hnk, hpk, hn2, hp2⟩ := ring_some (h.ring p hp) hzk
      obtain ⟨en, hen⟩ := live_of (h.live nn (h.kid_mem hp hnk))
      obtain ⟨epp, hepp⟩ := live_of (h.live pp (h.kid_mem hp hpk))
      have e1 : ez.par = some p := (view_mem hez).2.2.2.1.symm.trans (h.par p hp z hzk)
      have e2 : ez.next = some nn := (view_mem hez).1.symm.trans hn1
      have e3 : ez.prev = some pp := (view_mem hez).2.1.symm.trans hp1
      have e4 : en.prev = some z := (view_mem hen).2.1.symm.trans hn2
      have e5 : epp.next = some z := (view_mem hepp).1.symm.trans hp2
      have e6 : x.left = (kids cur).getLast? := (view_mem hx).2.2.1.symm.trans (h.left cur hcS)
      have e7 : c.cmp ep.val x.val ≠ if c.order = .les then .grt else .les := by
        have hb := ho p hp cur hcur x.val ep.val (view_mem hx).2.2.2.2 (view_mem hep).2.2.2.2
        unfold Beats at hb
        rcases hi with hi | hi
        · rw [hi] at hb
          rw [if_pos hi]
          exact fun h => hb ((hl.flip _ _).2 h)
        · rw [hi] at hb
          rw [if_neg (by rw [hi]; simp)]
          exact fun h => hb ((hl.flip _ _).1 h)
      have e8 : x.next = cursor z _ := (view_mem hx).1.symm.trans hc.next
      have sub : x.left = none ∨ ∃ l, x.left = some l ∧ linksLoop c s (some cur) l (some l) = some true := by
        rw [e6]
        by_cases hk : kids cur = []
        · rw [hk]; exact .inl rfl
        · obtain ⟨q', z', hq', hz'⟩ := young hk (h.kids_nodup hcS)
          have hlast : (kids cur).getLast? = some z' := by rw [hq']; simp
          refine .inr ⟨z', hlast, ?_⟩
          refine ihn cur hcS (by have := hrk p hp cur hcur; omega) q' z' hq' q' z' ?_ hz' (ring_young (h.ring cur hcS) hq')
          intro y hy
          rw [hq']
          simp only [List.mem_cons, List.mem_append, List.not_mem_nil, or_false] at hy ⊢
          exact hy.symm
      rw [linksLoop.eq_def]
      simp only [hez, e1, e2, e3, hep, hen, hepp, e4, e5, hx, e7, Option.bind_eq_bind, Option.bind_some, ne_eq, not_true_eq_false,
        and_false, if_false, decide_false, Bool.false_eq_true, Bool.not_true, reduceCtorEq, not_false_eq_true, e8]
    · rcases sub with h0 | ⟨l, h0, h1⟩
      · simp [cursor, h0]
      · simp [cursor, h0, h1]
    · have hzb : b ≠ z := fun e => hz (by simp [e])
      have fin := ihr b (fun y hy => hm y (List.mem_cons_of_mem _ hy)) (fun h => hz (List.mem_cons_of_mem _ h)) hc.rest
      rcases sub with h0 | ⟨l, h0, h1⟩
      · simp [cursor, h0, hzb, fin]
      · simp [cursor, h0, h1, hzb, fin]

/-- How many elements are below and at `x`, if the tree is not too high. -/
def weight (kids : Nat → List Nat) : Nat → Nat → Nat
  | 0, _ => 1
  | n + 1, x => 1 + ((kids x).map (weight kids n)).sum

theorem sum_congr {f g : Nat → Nat} {l : List Nat} (h : ∀ x ∈ l, f x = g x) : (l.map f).sum = (l.map g).sum := by
  rw [List.map_congr_left h]

theorem weight_stable {rk : Nat → Nat} (h : Shape s.v S R kids) (hrk : ∀ a ∈ S, ∀ k ∈ kids a, rk k < rk a) :
    ∀ (n m x : Nat), x ∈ S → rk x < n → rk x < m → weight kids n x = weight kids m x
  | n + 1, m + 1, x, hx, hn, hm => by
    show 1 + _ = 1 + _
    rw [sum_congr (fun k hk => weight_stable h hrk n m k (h.kid_mem hx hk) (by have := hrk x hx k hk; omega)
      (by have := hrk x hx k hk; omega))]

theorem sum_flatMap {f : Nat → Nat} : ∀ (l : List Nat), ((l.flatMap kids).map f).sum = (l.map (fun a => ((kids a).map f).sum)).sum
  | [] => rfl
  | a :: l => by
    rw [List.flatMap_cons, List.map_append, List.sum_append, sum_flatMap l]; simp

theorem sum_one_add {f : Nat → Nat} : ∀ (l : List Nat), (l.map (fun a => 1 + f a)).sum = l.length + (l.map f).sum
  | [] => rfl
  | a :: l => by
    simp only [List.map_cons, List.sum_cons, List.length_cons, sum_one_add l]; omega

/-- The weights of the roots add up to the number of elements. -/
theorem weights (h : Shape s.v S R kids) {w : Nat → Nat} (hw : ∀ x ∈ S, w x = 1 + ((kids x).map w).sum) :
    (R.map w).sum = S.length := by
  have h1 := (h.perm.map w).sum_nat
  rw [List.map_append, List.sum_append, sum_flatMap] at h1
  have h2 := sum_congr hw
  rw [sum_one_add] at h2
  omega

theorem sizeLoop_kids (h : Shape s.v S R kids) {rk w : Nat → Nat}
    (hrk : ∀ a ∈ S, ∀ k ∈ kids a, rk k < rk a) (hw : ∀ x ∈ S, w x = 1 + ((kids x).map w).sum) :
    ∀ (n : Nat) (p : Nat), p ∈ S → rk p ≤ n → ∀ (q : List Nat) (z : Nat), kids p = q ++ [z] →
      ∀ (rest : List Nat) (cur acc : Nat), (∀ x ∈ cur :: rest, x ∈ kids p) → z ∉ rest → Chain s.v z (cur :: rest) →
      sizeLoop s z cur acc = some (acc + ((cur :: rest).map w).sum) := by
  intro n
  induction n with
  | zero =>
    intro p hp hn q z hq
    have := hrk p hp z (by rw [hq]; simp)
    omega
  | succ n ihn =>
    intro p hp hn q z hq rest
    induction rest with
    | nil => ?_
    | cons b rest ihr => ?_
    all_goals
      intro cur acc hm hz hc
      have hcur : cur ∈ kids p := hm cur (by simp)
      have hcS := h.kid_mem hp hcur
      obtain ⟨x, hx⟩ := live_of (h.live cur hcS)
      have e6 : x.left = (kids cur).getLast? := (view_mem hx).2.2.1.symm.trans (h.left cur hcS)
      have e8 : x.next = cursor z _ := (view_mem hx).1.symm.trans hc.next
      have sub : (x.left = none ∧ ((kids cur).map w).sum = 0) ∨ ∃ l, x.left = some l ∧
          sizeLoop s l l 0 = some (((kids cur).map w).sum) := by
        rw [e6]
        by_cases hk : kids cur = []
        · rw [hk]; exact .inl ⟨rfl, rfl⟩
        · obtain ⟨q', z', hq', hz'⟩ := young hk (h.kids_nodup hcS)
          have hlast : (kids cur).getLast? = some z' := by rw [hq']; simp
          refine .inr ⟨z', hlast, ?_⟩
          refine (ihn cur hcS (by have := hrk p hp cur hcur; omega) q' z' hq' q' z' 0 ?_ hz' (ring_young (h.ring cur hcS) hq')).trans ?_
          · intro y hy
            rw [hq']
            simp only [List.mem_cons, List.mem_append, List.not_mem_nil, or_false] at hy ⊢
            exact hy.symm
          · rw [hq']; simp; omega
      rw [sizeLoop.eq_def]
      simp only [hx, Option.bind_eq_bind, Option.bind_some, e8, cursor]
    · rcases sub with ⟨h0, h1⟩ | ⟨l, h0, h1⟩
      · simp [hw cur hcS, h0, h1]
      · simp [hw cur hcS, h0, h1]
    · have hzb : b ≠ z := fun e => hz (by simp [e])
      have fin := fun acc => ihr b acc (fun y hy => hm y (List.mem_cons_of_mem _ hy)) (fun h => hz (List.mem_cons_of_mem _ h)) hc.rest
      rcases sub with ⟨h0, h1⟩ | ⟨l, h0, h1⟩
      · simp only [h0, if_neg hzb, fin, Option.bind_some, List.map_cons, List.sum_cons, hw cur hcS, h1]
        congr 1; omega
      · simp only [h0, h1, if_neg hzb, fin, Option.bind_some, List.map_cons, List.sum_cons, hw cur hcS]
        congr 1; omega

theorem validate_sim (hl : LawfulCmp c.cmp) (hi : IsOrder c.order) {st : St α} (h : Sim c s st) (hst : st.stale = false) :
    validate c s = some true := by
  obtain ⟨kids, sh, o⟩ := h.heap
  obtain ⟨rk, hrk⟩ := sh.rank
  cases hr : s.root with
  | none =>
    have hq : st.q = [] := by
      apply Classical.byContradiction
      intro hq
      obtain ⟨a, t, ht⟩ := List.exists_cons_of_ne_nil hq
      have := sh.roots_ne (a := a) (by rw [ht]; simp)
      rw [hr] at this; simp at this
    have hz : s.sz = 0 := by rw [h.sz, hq]; rfl
    simp [validate, hr, hasValidLinks, traversalSize, hz]
  | some r =>
    rw [hr] at sh
    have hrS : r ∈ st.q := sh.root_mem (by simp)
    obtain ⟨x, hx⟩ := live_of (sh.live r hrS)
    obtain ⟨t1, t2, t3, t4⟩ := h.top r hr
    obtain ⟨t4, t5⟩ := t4 hst
    have e1 : x.next = some r := (view_mem hx).1.symm.trans t4
    have e2 : x.prev = some r := (view_mem hx).2.1.symm.trans t5
    have e3 : x.par = none := (view_mem hx).2.2.2.1.symm.trans t3
    have e6 : x.left = (kids r).getLast? := (view_mem hx).2.2.1.symm.trans (sh.left r hrS)
    have hw : ∀ y ∈ st.q, weight kids (rk y + 1) y = 1 + ((kids y).map (fun k => weight kids (rk k + 1) k)).sum := by
      intro y hy
      show 1 + _ = _
      rw [sum_congr (fun k hk => weight_stable sh hrk (rk y) (rk k + 1) k (sh.kid_mem hy hk) (hrk y hy k hk) (by omega))]
    have hlinks : linksLoop c s none r (some r) = some true := by
      have sub : x.left = none ∨ ∃ l, x.left = some l ∧ linksLoop c s (some r) l (some l) = some true := by
        rw [e6]
        by_cases hk : kids r = []
        · rw [hk]; exact .inl rfl
        · obtain ⟨q', z', hq', hz'⟩ := young hk (sh.kids_nodup hrS)
          have hlast : (kids r).getLast? = some z' := by rw [hq']; simp
          refine .inr ⟨z', hlast, ?_⟩
          refine linksLoop_kids hl hi sh o hrk (rk r) r hrS (Nat.le_refl _) q' z' hq' q' z' ?_ hz' (ring_young (sh.ring r hrS) hq')
          intro y hy
          rw [hq']
          simp only [List.mem_cons, List.mem_append, List.not_mem_nil, or_false] at hy ⊢
          exact hy.symm
      rw [linksLoop.eq_def]
      rcases sub with h0 | ⟨l, h0, h1⟩
      · simp [hx, e1, e2, h0]
      · simp [hx, e1, e2, h0, h1]
    have hsize : sizeLoop s r r 0 = some st.q.length := by
      have sub : (x.left = none ∧ ((kids r).map (fun k => weight kids (rk k + 1) k)).sum = 0) ∨ ∃ l, x.left = some l ∧
          sizeLoop s l l 0 = some (((kids r).map (fun k => weight kids (rk k + 1) k)).sum) := by
        rw [e6]
        by_cases hk : kids r = []
        · rw [hk]; exact .inl ⟨rfl, rfl⟩
        · obtain ⟨q', z', hq', hz'⟩ := young hk (sh.kids_nodup hrS)
          have hlast : (kids r).getLast? = some z' := by rw [hq']; simp
          refine .inr ⟨z', hlast, ?_⟩
          refine (sizeLoop_kids sh hrk hw (rk r) r hrS (Nat.le_refl _) q' z' hq' q' z' 0 ?_ hz' (ring_young (sh.ring r hrS) hq')).trans ?_
          · intro y hy
            rw [hq']
            simp only [List.mem_cons, List.mem_append, List.not_mem_nil, or_false] at hy ⊢
            exact hy.symm
          · rw [hq']; simp; omega
      rw [sizeLoop.eq_def]
      have := weights sh hw
      simp only [Option.toList, List.map_cons, List.map_nil, List.sum_cons, List.sum_nil, hw r hrS] at this
      rcases sub with ⟨h0, h1⟩ | ⟨l, h0, h1⟩
      · simp only [hx, h0, Option.bind_eq_bind, Option.bind_some, e1, if_true]
        congr 1; omega
      · simp only [hx, h0, h1, Option.bind_eq_bind, Option.bind_some, e1, if_true]
        congr 1; omega
    simp [validate, hr, hx, e3, hasValidLinks, hlinks, traversalSize, hsize, h.sz]

/-! ### Histories -/

theorem upd_ite {β : Type} (f : Nat → β) (e : Nat) (x : β) : (fun a => if a = e then x else f a) = upd f e x := by
  funext a
  by_cases h : a = e
  · subst h; simp
  · rw [upd_ne _ _ h, if_neg h]

/-- Moving up is what `increase` promises for a queue of the greatest, `decrease` for one of the least. -/
theorem up_grt (hl : LawfulCmp c.cmp) {x y : α} (h : c.cmp y x ≠ .les) (ho : c.order = .grt) : ¬ Beats c.cmp c.order x y := by
  unfold Beats; rw [ho]; exact fun hb => h ((hl.flip _ _).2 hb)

theorem up_les (hl : LawfulCmp c.cmp) {x y : α} (h : c.cmp y x ≠ .grt) (ho : c.order = .les) : ¬ Beats c.cmp c.order x y := by
  unfold Beats; rw [ho]; exact fun hb => h ((hl.flip _ _).1 hb)

/-- Every call does what the specification says. -/
theorem step_sim (hl : LawfulCmp c.cmp) (hi : IsOrder c.order) (ha : c.alloc = false) {st : St α} (h : Sim c s st) (op : Op α)
    (hok : okOp c.cmp st op) (hsafe : safeOp c.order st op) :
    ∃ s' f, step c s op = some (s', (specStep c.order st f op).2) ∧ (keepsFront op → f = st.front) ∧
      Sim c s' (specStep c.order st f op).1 := by
  have hg : Good c := ⟨hl.swo hi⟩
  cases op with
  | make e x l n p r =>
    refine ⟨_, st.front, rfl, fun _ => rfl, ?_⟩
    have := h.outside (s' := { s with mem := upd s.mem e (some ⟨x, l, n, p, r⟩) }) hok rfl rfl (fun a ha => upd_ne _ _ ha)
    simp only [specStep, upd_ite]
    rwa [show (Pq.v { s with mem := upd s.mem e (some ⟨x, l, n, p, r⟩) }).vl e = some x by simp [Pq.v]] at this
  | drop e =>
    refine ⟨_, st.front, rfl, fun _ => rfl, ?_⟩
    have := h.outside (s' := { s with mem := upd s.mem e none }) hok rfl rfl (fun a ha => upd_ne _ _ ha)
    simp only [specStep, upd_ite]
    rwa [show (Pq.v { s with mem := upd s.mem e none }).vl e = none by simp [Pq.v]] at this
  | push e =>
    obtain ⟨s', f, h1, h2⟩ := push_sim hg ha h none hok.1 hok.2
    exact ⟨s', f, by simp [step, h1, specStep], fun hk => hk.elim, h2⟩
  | pop =>
    cases hf : st.front with
    | none =>
      refine ⟨s, none, by simp [step, pop_none h hf, specStep, hf], fun _ => rfl, ?_⟩
      simp only [specStep, hf]
      rw [← hf]; exact h
    | some e =>
      obtain ⟨s', f, h1, h2⟩ := pop_sim hg ha h hf
      exact ⟨s', f, by simp [step, h1, specStep, hf], fun hk => hk.elim, by simpa only [specStep, hf] using h2⟩
  | extract e =>
    obtain ⟨s', f, h1, h2⟩ := extract_sim hg h hok
    exact ⟨s', f, by simp [step, h1, specStep], fun hk => hk.elim, h2⟩
  | erase e =>
    obtain ⟨s', f, h1, h2⟩ := erase_sim hg ha h hok
    exact ⟨s', f, by simp [step, h1, specStep], fun hk => hk.elim, h2⟩
  | update e g =>
    obtain ⟨s', f, h1, h2⟩ := update_sim hg h hok g
    exact ⟨s', f, by simp [step, h1, specStep], fun hk => hk.elim, h2⟩
  | increase e g =>
    obtain ⟨s', f, h1, h2⟩ := fixup_sim hg h hok.1 g (decide (c.order = .grt)) (by
      intro hd
      have ho : c.order = .grt := by simpa using hd
      exact ⟨fun y hy => up_grt hl (hok.2 y hy) ho, fun hf => hsafe ho hf⟩)
    exact ⟨s', f, by simp [step, increase, h1, specStep], fun hk => hk.elim, h2⟩
  | decrease e g =>
    obtain ⟨s', f, h1, h2⟩ := fixup_sim hg h hok.1 g (decide (c.order = .les)) (by
      intro hd
      have ho : c.order = .les := by simpa using hd
      exact ⟨fun y hy => up_les hl (hok.2 y hy) ho, fun hf => hsafe ho hf⟩)
    exact ⟨s', f, by simp [step, decrease, h1, specStep], fun hk => hk.elim, h2⟩
  | clear d =>
    obtain ⟨s', ds, h1, h2, _⟩ := clearLoop_sim hg ha d _ h rfl
    exact ⟨s', none, by simp [step, clear, h1, specStep], fun hk => hk.elim, h2⟩
  | front => exact ⟨s, st.front, by simp [step, front, h.root, specStep], fun _ => rfl, h⟩
  | size => exact ⟨s, st.front, by simp [step, size, h.sz, specStep], fun _ => rfl, h⟩
  | isEmpty => exact ⟨s, st.front, by simp [step, isEmpty, h.sz, specStep], fun _ => rfl, h⟩
  | validate => exact ⟨s, st.front, by simp [step, validate_sim hl hi h hsafe, specStep], fun _ => rfl, h⟩
  | order => exact ⟨s, st.front, by simp [step, order, specStep], fun _ => rfl, h⟩

theorem run_sim (hl : LawfulCmp c.cmp) (hi : IsOrder c.order) (ha : c.alloc = false) : ∀ (ops : List (Op α)) {s : Pq α} {st : St α},
    Sim c s st → safeRun c.cmp c.order st ops →
    ∃ s' outs st', run c s ops = some (s', outs) ∧ SpecRun c.cmp c.order st ops outs st' ∧ Sim c s' st'
  | [], s, st, h, _ => ⟨s, [], st, rfl, .nil st, h⟩
  | op :: ops, s, st, h, hr => by
    have hg : Good c := ⟨hl.swo hi⟩
    obtain ⟨s1, f, h1, h2, h3⟩ := step_sim hl hi ha h op hr.1 hr.2.1
    obtain ⟨s2, outs, st2, h4, h5, h6⟩ := run_sim hl hi ha ops h3 (hr.2.2 f h2 (h3.isFront hg))
    exact ⟨s2, _, st2, by simp [run, h1, h4], .cons st f op ops outs st2 h2 (h3.isFront hg) h5, h6⟩

theorem init_sim : Sim c (init (fun _ => none)) (St.empty : St α) :=
  ⟨⟨fun _ => [], ⟨.nil, .refl _, by simp [St.empty], by simp [St.empty], by simp [St.empty], by simp [St.empty], ⟨fun _ => 0, by simp [St.empty]⟩⟩,
    by intro a ha; simp [St.empty] at ha⟩, by funext a; simp [init, Pq.v, St.empty], rfl, rfl, by simp [init]⟩

end CCC.Pq
