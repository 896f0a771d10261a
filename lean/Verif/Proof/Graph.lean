import Verif.Model.Graph
import Verif.Props.PriorityQueue
/-
Proof of the shortest path search of the graph sample.
-/
namespace CCC.Pq
open CCC PrioQ

variable {α : Type} {c : Cfg α} {s s' : Pq α}

theorem mod_root {p : Slot} {f : Elem α → Elem α} (h : s.mod p f = some s') : s'.root = s.root := by
  unfold Pq.mod at h
  simp only [Option.bind_eq_bind, Option.bind_eq_some_iff, Option.some.injEq] at h
  obtain ⟨_, _, _, _, rfl⟩ := h
  rfl

theorem cutChild_root {e : Nat} (h : cutChild s e = some s') : s'.root = s.root := by
  unfold cutChild at h
  simp only [Option.bind_eq_bind, Option.bind_eq_some_iff] at h
  obtain ⟨x, _, s1, h1, y, _, s2, h2, z, _, s3, h3, h4⟩ := h
  rw [mod_root h4, ← mod_root h1, ← mod_root h2]
  cases hp : z.par with
  | none => rw [hp] at h3; cases h3; rfl
  | some p =>
    rw [hp] at h3
    simp only [Option.bind_eq_some_iff] at h3
    obtain ⟨_, _, h3⟩ := h3
    split at h3
    · exact mod_root h3
    · cases h3; rfl

theorem merge_or {a b r : Slot} (h : merge c s a b = some (s', r)) : r = a ∨ r = b := by
  cases a with
  | none => cases h; exact .inr rfl
  | some a => cases b with
    | none => cases h; exact .inl rfl
    | some b =>
      simp only [merge] at h
      split at h
      · cases h; exact .inl rfl
      · simp only [Option.bind_eq_bind, Option.bind_eq_some_iff] at h
        obtain ⟨_, _, _, _, h⟩ := h
        split at h <;> simp only [Option.bind_eq_some_iff, Option.some.injEq, Prod.mk.injEq] at h <;> obtain ⟨_, _, _, h⟩ := h
        · exact .inr h.symm
        · exact .inl h.symm

/-- In a queue with the least element at the front, `decrease` leaves the front or makes its element the front. -/
theorem decrease_front (ho : c.order = .les) {e : Nat} {f : α → α} {b : Bool} (h : decrease c s e f = some (s', b)) :
    front s' = front s ∨ front s' = some e := by
  simp only [decrease, change, fixup, ho, decide_true, if_true, Option.bind_eq_bind, Option.bind_eq_some_iff] at h
  obtain ⟨x, _, h⟩ := h
  split at h
  · cases h; exact .inl rfl
  · simp only [Option.bind_eq_some_iff, Option.some.injEq, Prod.mk.injEq] at h
    obtain ⟨s1, h1, s2, ⟨s3, h3, ⟨s4, r⟩, h4, rfl⟩, rfl, _⟩ := h
    rcases merge_or h4 with h | h
    · exact .inl (by show r = s.root; rw [h, cutChild_root h3, mod_root h1])
    · exact .inr h

end CCC.Pq

namespace CCC.Graph
open CCC PrioQ

theorem cmpCosts_lawful : LawfulCmp cmpCosts := by
  constructor
  · intro a b; unfold cmpCosts; grind
  · intro a b; unfold cmpCosts; grind
  · intro a b c; unfold cmpCosts; grind

theorem cfg_lawful : Pq.Lawful cfg := ⟨cmpCosts_lawful, .inl rfl, rfl⟩

theorem beats_iff {a b : Vtx} : Beats cfg.cmp cfg.order a b ↔ a.dist < b.dist := by
  simp only [Beats, cfg, cmpCosts]; grind

/-- What holds before each vertex is taken, and, up to the edges `todo p` of the vertices `p`, while edges are followed.
The vertices that are not in the queue are done; `rk` numbers them in the order they were taken. -/
structure Inv (g : G) (src : Nat) (st : St Vtx) (todo : Nat → List (Nat × Nat)) (rk : Nat → Nat) (N : Nat) : Prop where
  mem : ∀ v ∈ st.q, v < g.n
  nodup : st.q.Nodup
  has : ∀ v, v < g.n → ∃ x, st.val v = some x ∧ x.name = v ∧ x.dist ≤ intMax
  srcn : src < g.n
  src0 : ∀ x, st.val src = some x → x.dist = 0 ∧ x.from_ = none
  fin : ∀ v x, v < g.n → v ∉ st.q → st.val v = some x → x.dist ≠ intMax
  pre : ∀ v x, v < g.n → st.val v = some x → x.dist ≠ intMax → v ≠ src →
    ∃ p y w, x.from_ = some p ∧ p < g.n ∧ p ∉ st.q ∧ st.val p = some y ∧ (v, w) ∈ g.edges p ∧ x.dist = y.dist + w
  edge : ∀ p x, p < g.n → p ∉ st.q → st.val p = some x → ∀ v w, (v, w) ∈ g.edges p → (v, w) ∉ todo p →
    ∀ y, st.val v = some y → y.dist ≤ x.dist + w
  le : ∀ p x v y, p < g.n → p ∉ st.q → st.val p = some x → v ∈ st.q → st.val v = some y → x.dist ≤ y.dist
  rank : ∀ v y, v < g.n → v ∉ st.q → st.val v = some y → rk v < N ∧ ∀ u, y.from_ = some u → v ≠ src → rk u < rk v

variable {g : G} {src : Nat} {st : St Vtx} {s : Pq.Pq Vtx} {rk : Nat → Nat} {N : Nat} {todo : Nat → List (Nat × Nat)}

/-- What the structs hold. -/
theorem mem_val (h : Pq.Reach cfg s st) {v : Nat} {x : Vtx} (hx : st.val v = some x) : ∃ e, s.mem v = some e ∧ e.val = x := by
  have := (Pq.C19_pq_size_partial cfg_lawful h).2.2.2 v
  rw [hx] at this
  cases he : s.mem v with
  | none => rw [he] at this; simp at this
  | some e => rw [he] at this; simp at this; exact ⟨e, rfl, this⟩

/-- The way back from a vertex that is done. -/
theorem back (hr : Pq.Reach cfg s st) (h : Inv g src st todo rk N) : ∀ (k v : Nat) (x : Vtx), rk v = k → v < g.n → v ∉ st.q → st.val v = some x →
    ∃ l, Way g src v l x.dist ∧ paint s v = some (0, l) := by
  intro k
  induction k using Nat.strongRecOn with
  | _ k ih =>
    intro v x hk hv hq hx
    obtain ⟨e, he, hxe⟩ := mem_val hr hx
    by_cases hs : v = src
    · subst hs
      obtain ⟨h1, h2⟩ := h.src0 _ hx
      refine ⟨[], by rw [h1]; exact .nil, ?_⟩
      rw [paint]
      simp [he, hxe, h1, h2]
    · obtain ⟨p, y, w, h1, h2, h3, h4, h5, h6⟩ := h.pre v x hv hx (h.fin v x hv hq hx) hs
      obtain ⟨l, a, b⟩ := ih (rk p) (by rw [← hk]; exact (h.rank v x hv hq hx).2 p h1 hs) p y rfl h2 h3 h4
      have hn : x.name = v := by
        obtain ⟨x', a1, a2, _⟩ := h.has v hv
        rw [hx] at a1; cases a1; exact a2
      refine ⟨(v, p) :: l, by rw [h6]; exact .cons h5 a, ?_⟩
      rw [paint]
      simp [he, hxe, h1, b, hn]

theorem Way.walk {a b d : Nat} {l : List (Nat × Nat)} (h : Way g a b l d) : Walk g a b d := by
  induction h with
  | nil => exact .nil
  | cons h1 _ ih => exact .snoc ih h1

/-- A way from the source leaves the vertices that are done through one in the queue. -/
theorem walks (hg : ∀ u < g.n, ∀ v w, (v, w) ∈ g.edges u → v < g.n) (h : Inv g src st (fun _ => []) rk N) {v d : Nat} (hw : Walk g src v d) :
    v < g.n ∧ ((v ∉ st.q ∧ ∃ x, st.val v = some x ∧ x.dist ≤ d) ∨ ∃ y ∈ st.q, ∃ z, st.val y = some z ∧ z.dist ≤ d) := by
  have key : ∀ v d x, st.val v = some x → x.dist ≤ d →
      ((v ∉ st.q ∧ ∃ x, st.val v = some x ∧ x.dist ≤ d) ∨ ∃ y ∈ st.q, ∃ z, st.val y = some z ∧ z.dist ≤ d) := by
    intro v d x hx hd
    by_cases hq : v ∈ st.q
    · exact .inr ⟨v, hq, x, hx, hd⟩
    · exact .inl ⟨hq, x, hx, hd⟩
  induction hw with
  | nil =>
    obtain ⟨x, hx, _⟩ := h.has src h.srcn
    exact ⟨h.srcn, key src 0 x hx (by rw [(h.src0 _ hx).1]; exact Nat.le_refl 0)⟩
  | @snoc u v w d _ he ih =>
    obtain ⟨hu, ih⟩ := ih
    have hv := hg u hu v w he
    refine ⟨hv, ?_⟩
    rcases ih with ⟨hq, x, hx, hd⟩ | ⟨y, hy, z, hz, hd⟩
    · obtain ⟨y, hy, _⟩ := h.has v hv
      have := h.edge u x hu hq hx v w he (by simp) y hy
      exact key v _ y hy (by omega)
    · exact .inr ⟨y, hy, z, hz, by omega⟩

/-- Following the edges of the vertex taken last. -/
theorem relax_spec (hg : ∀ u < g.n, ∀ v w, (v, w) ∈ g.edges u → v < g.n) {u : Nat} {x : Vtx} (hu : u < g.n)
    (hfit : ∀ v w, (v, w) ∈ g.edges u → x.dist + w < intMax) : ∀ (es : List (Nat × Nat)) {s : Pq.Pq Vtx} {st : St Vtx},
    Pq.Reach cfg s st → Inv g src st (fun p => if p = u then es else []) rk N → (∀ e ∈ es, e ∈ g.edges u) → (es.map Prod.fst).Nodup →
    st.val u = some x → u ∉ st.q → (∀ p y, p < g.n → p ∉ st.q → st.val p = some y → y.dist ≤ x.dist) →
    (st.stale = true → ∃ f, st.front = some f ∧ f ∉ es.map Prod.fst) →
    ∃ s' st', relax u s es = some s' ∧ Pq.Reach cfg s' st' ∧ st'.q = st.q ∧ Inv g src st' (fun _ => []) rk N := by
  intro es
  induction es with
  | nil =>
    intro s st hr h _ _ _ _ _ _
    refine ⟨s, st, rfl, hr, rfl, ?_⟩
    have e : (fun p => if p = u then ([] : List (Nat × Nat)) else []) = fun _ => [] := by funext p; split <;> rfl
    rwa [e] at h
  | cons vw es ih =>
    obtain ⟨v, w⟩ := vw
    intro s st hr h hsub hnd hux huq hmax hstale
    have hmem := hsub (v, w) (by simp)
    have hv := hg u hu v w hmem
    obtain ⟨y, hy, hyn, hyd⟩ := h.has v hv
    obtain ⟨eu, heu, rfl⟩ := mem_val hr hux
    obtain ⟨ev, hev, rfl⟩ := mem_val hr hy
    have hf := hfit v w hmem
    rw [List.map_cons, List.nodup_cons] at hnd
    by_cases hlt : eu.val.dist + w < ev.val.dist
    · have hvu : v ≠ u := by
        rintro rfl
        rw [hux] at hy
        simp only [Option.some.injEq] at hy
        rw [hy] at hlt; omega
      have hvq : v ∈ st.q := by
        apply Classical.byContradiction
        intro hvq
        have := hmax v _ hv hvq hy
        omega
      have hvs : v ≠ src := by
        rintro rfl
        rw [(h.src0 _ hy).1] at hlt; omega
      have hok : okOp cfg.cmp st (.decrease v (fun x => { x with dist := eu.val.dist + w, from_ := some eu.val.name })) := by
        refine ⟨hvq, fun z hz => ?_⟩
        rw [hy] at hz
        cases hz
        simp only [cfg, cmpCosts]
        rw [if_neg (by omega), if_pos hlt]
        simp
      have hsafe : safeOp cfg.order st (.decrease v (fun x => { x with dist := eu.val.dist + w, from_ := some eu.val.name })) := by
        intro _ hfr
        cases hs : st.stale with
        | false => rfl
        | true =>
          obtain ⟨f, hf1, hf2⟩ := hstale hs
          rw [hfr] at hf1
          cases hf1
          simp at hf2
      obtain ⟨s1, h1, h2, _, _⟩ := Pq.C19_pq_step_partial cfg_lawful hr _ hok hsafe
      have hd : Pq.decrease cfg s v (fun x => { x with dist := eu.val.dist + w, from_ := some eu.val.name }) = some (s1, true) := by
        simp only [Pq.step, specStep, Option.bind_eq_bind, Option.bind_eq_some_iff, Option.some.injEq, Prod.mk.injEq, Out.flag.injEq] at h1
        obtain ⟨⟨a, b⟩, h1, rfl, rfl⟩ := h1
        exact h1
      have hfr := Pq.decrease_front (c := cfg) rfl hd
      have hroot : Pq.front s = st.front := (hr.sim cfg_lawful).root
      have hun : eu.val.name = u := by
        obtain ⟨x', a1, a2, _⟩ := h.has u hu
        rw [hux] at a1; cases a1; exact a2
      generalize hst : (specStep cfg.order st (Pq.front s1) (.decrease v (fun x => { x with dist := eu.val.dist + w, from_ := some eu.val.name }))).1 = st1 at h2
      have hq1 : st1.q = st.q := by rw [← hst]; rfl
      have hval1 : ∀ a, a ≠ v → st1.val a = st.val a := by
        intro a ha; rw [← hst]; simp only [specStep, St.change, if_neg ha]
      have hvalv : st1.val v = some { ev.val with dist := eu.val.dist + w, from_ := some eu.val.name } := by
        rw [← hst]; simp only [specStep, St.change, if_true, hy, Option.map_some]
      have hdone : ∀ a, a ∉ st1.q → st1.val a = st.val a := by
        intro a ha; refine hval1 a ?_; rintro rfl; rw [hq1] at ha; exact ha hvq
      have hinv : Inv g src st1 (fun p => if p = u then es else []) rk N := by
        refine ⟨?_, ?_, ?_, h.srcn, ?_, ?_, ?_, ?_, ?_, ?_⟩
        · rw [hq1]; exact h.mem
        · rw [hq1]; exact h.nodup
        · intro a ha
          by_cases hav : a = v
          · subst hav; exact ⟨_, hvalv, hyn, by show eu.val.dist + w ≤ intMax; omega⟩
          · rw [hval1 a hav]; exact h.has a ha
        · intro z hz; rw [hval1 src (Ne.symm hvs)] at hz; exact h.src0 z hz
        · intro a z ha haq hz; rw [hdone a haq] at hz; rw [hq1] at haq; exact h.fin a z ha haq hz
        · intro a z ha hz hzd has
          by_cases hav : a = v
          · subst hav
            rw [hvalv] at hz
            cases hz
            exact ⟨u, eu.val, w, by rw [hun], hu, by rw [hq1]; exact huq, by rw [hval1 u (Ne.symm hvu)]; exact hux, hmem, rfl⟩
          · rw [hval1 a hav] at hz
            obtain ⟨p, y, w', b1, b2, b3, b4, b5, b6⟩ := h.pre a z ha hz hzd has
            rw [← hq1] at b3
            exact ⟨p, y, w', b1, b2, b3, by rw [hdone p b3]; exact b4, b5, b6⟩
        · intro p z hp hpq hz b w' hb hbt yb hyb
          have hpq' : p ∉ st.q := by rw [← hq1]; exact hpq
          rw [hdone p hpq] at hz
          by_cases hbv : b = v
          · subst hbv
            rw [hvalv] at hyb
            cases hyb
            show eu.val.dist + w ≤ z.dist + w'
            by_cases hpu : p = u
            · subst hpu
              rw [hux] at hz
              cases hz
              by_cases hww : w' = w
              · omega
              · have := h.edge p eu.val hp hpq' hux b w' hb (by simp only [if_true] at hbt ⊢; simp [hww, hbt]) _ hy
                omega
            · have := h.edge p z hp hpq' hz b w' hb (by rw [if_neg hpu]; simp) _ hy
              omega
          · rw [hval1 b hbv] at hyb
            refine h.edge p z hp hpq' hz b w' hb ?_ yb hyb
            by_cases hpu : p = u
            · subst hpu; simp only [if_true] at hbt ⊢; simp [hbv, hbt]
            · rw [if_neg hpu]; simp
        · intro p z a yb hp hpq hz ha hyb
          have hpq' : p ∉ st.q := by rw [← hq1]; exact hpq
          rw [hdone p hpq] at hz
          by_cases hav : a = v
          · subst hav
            rw [hvalv] at hyb
            cases hyb
            have := hmax p z hp hpq' hz
            show z.dist ≤ eu.val.dist + w
            omega
          · rw [hval1 a hav] at hyb
            exact h.le p z a yb hp hpq' hz (by rw [← hq1]; exact ha) hyb
        · intro a z ha haq hz
          rw [hdone a haq] at hz; rw [hq1] at haq
          exact h.rank a z ha haq hz
      obtain ⟨s', st', e1, e2, e3, e4⟩ := ih h2 hinv (fun e he => hsub e (by simp [he])) hnd.2 (by rw [hval1 u (Ne.symm hvu)]; exact hux)
        (by rw [hq1]; exact huq) (fun p z hp hpq hz => by rw [hdone p hpq] at hz; rw [hq1] at hpq; exact hmax p z hp hpq hz) (by
          intro hs
          have hf1 : st1.front = Pq.front s1 := by rw [← hst]; rfl
          rw [hf1]
          by_cases hfv : Pq.front s1 = some v
          · exact ⟨v, hfv, hnd.1⟩
          · have hs2 : st.stale = true := by
              rw [← hst] at hs
              simp only [specStep, St.change, Bool.and_eq_true, Bool.or_eq_true, beq_iff_eq] at hs
              rcases hs.2 with h | h
              · exact h
              · exact absurd h hfv
            obtain ⟨f, f1, f2⟩ := hstale hs2
            refine ⟨f, ?_, fun hc => f2 (by simp [List.mem_map] at hc ⊢; exact .inr hc)⟩
            rcases hfr with h | h
            · rw [h, hroot, f1]
            · exact absurd h hfv)
      refine ⟨s', st', ?_, e2, by rw [e3, hq1], e4⟩
      rw [relax]
      simp only [heu, hev, Option.bind_eq_bind, Option.bind_some, if_neg (show ¬ eu.val.dist + w > intMax by omega), if_pos hlt, hd, if_true, e1]
    · have hinv : Inv g src st (fun p => if p = u then es else []) rk N := by
        refine ⟨h.mem, h.nodup, h.has, h.srcn, h.src0, h.fin, h.pre, ?_, h.le, h.rank⟩
        intro p z hp hpq hz b w' hb hbt yb hyb
        by_cases hpu : p = u
        · subst hpu
          simp only [if_true] at hbt
          by_cases hbw : b = v ∧ w' = w
          · obtain ⟨rfl, rfl⟩ := hbw
            rw [hux] at hz
            rw [hy] at hyb
            cases hz; cases hyb
            omega
          · refine h.edge p z hp hpq hz b w' hb ?_ yb hyb
            simp only [if_true, List.mem_cons, Prod.mk.injEq, hbw, hbt, or_self, not_false_eq_true]
        · exact h.edge p z hp hpq hz b w' hb (by rw [if_neg hpu]; simp) yb hyb
      obtain ⟨s', st', e1, e2, e3, e4⟩ := ih hr hinv (fun e he => hsub e (by simp [he])) hnd.2 hux huq hmax (fun hs => by
        obtain ⟨f, f1, f2⟩ := hstale hs
        exact ⟨f, f1, fun hc => f2 (by simp [List.mem_map] at hc ⊢; exact .inr hc)⟩)
      refine ⟨s', st', ?_, e2, e3, e4⟩
      rw [relax]
      simp only [heu, hev, Option.bind_eq_bind, Option.bind_some, if_neg (show ¬ eu.val.dist + w > intMax by omega), if_neg hlt, e1]

end CCC.Graph
