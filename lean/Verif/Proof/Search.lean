import Verif.Proof.SearchInv
import Verif.Proof.FlatHashMapRun
import Verif.Props.FlatDequeMore
/-
The breadth first search of `samples/graph.c` with its hash map and its queue.
-/
namespace CCC.Search
open CCC HashMap

theorem cfg_lawful (wide : Bool) (hash : Pt → UInt64) : Lawful (cfg wide hash) := by
  refine ⟨?_, ?_, ?_, ?_⟩ <;> intros <;> simp_all [cfg]

/-- The map holds the cells of the list and has been used. -/
def Holds (c : Cfg Pt Back) (m : Fhm.Fhm Back) (l : List Back) : Prop :=
  ∃ st : St Back, Fhm.Sim c m st ∧ st.l = l ∧ st.stale = false ∧ m.hasAlloc = true

/-- There is room for more cells than an `int` can count. -/
theorem room_ok (st : St Back) (h : st.l.length ≤ 2147483647) :
    (room true true st).2 = true ∧ (room true true st).1.stale = false ∧ (room true true st).1.l = st.l := by
  unfold room
  split
  · exact ⟨rfl, rfl, rfl⟩
  · next hc =>
    have hw : st.cap < wanted st.l.length st.cap := by
      unfold wanted
      split
      · omega
      · next h0 =>
        cases hf : primes.find? (fun p => decide (p > 2 * (st.l.length + 2))) with
        | none =>
          rw [List.find?_eq_none] at hf
          have := hf 17617221824571301183 (by simp [primes])
          simp only [gt_iff_lt, decide_eq_true_eq, not_lt] at this
          omega
        | some p =>
          have := List.find?_some hf
          simp only [gt_iff_lt, decide_eq_true_eq] at this
          simp only [Option.getD_some]
          omega
    simp [hw]

section
variable {wide : Bool} {hash : Pt → UInt64}
local notation "C" => cfg wide hash

theorem lookup_met {l : List Back} (hn : (l.map Back.current).Nodup) {x : Back} (hx : x ∈ l) :
    lookup C x.current l = some x := by
  have hu : Fhm.Uniq C l := by
    unfold Fhm.Uniq
    rw [List.nodup_iff_pairwise_ne, List.pairwise_map] at hn
    exact hn.imp (fun h => by simpa [cfg] using h)
  exact Fhm.lookup_some (cfg_lawful wide hash) hu hx (by simp [cfg])

theorem lookup_new {l : List Back} {p : Pt} (h : ¬ Met l p) : lookup C p l = none :=
  Fhm.lookup_none (fun x hx => by
    simp only [cfg, decide_eq_false_iff_not]
    exact fun e => h ⟨x, hx, e.symm⟩)

theorem assign_self {l : List Back} (hn : (l.map Back.current).Nodup) {x : Back} (hx : x ∈ l) :
    assign C x.current x l = l := by
  unfold assign
  conv_rhs => rw [← List.map_id l]
  apply List.map_congr_left
  intro y hy
  simp only [cfg, id]
  by_cases e : x.current = y.current
  · simp only [e, decide_true, if_true]
    exact List.inj_on_of_nodup_map hn hx hy e
  · simp [e]

theorem fetch_spec {m : Fhm.Fhm Back} {l : List Back} (h : Holds C m l) (hn : (l.map Back.current).Nodup) {x : Back}
    (hx : x ∈ l) : ∃ m', fetch C m x.current = some (m', x) ∧ Holds C m' l := by
  obtain ⟨st, sim, rfl, hst, hal⟩ := h
  obtain ⟨m', e, s', ha⟩ := Fhm.step_good (cfg_lawful wide hash) sim (.get x.current id) (fun v _ hv => hv) (.inr hst)
  have hsp : specStep C m.hasAlloc st (.get x.current id) = (st, .ptr (some x)) := by
    simp only [specStep, lookup_met hn hx, id, assign_self hn hx]
  rw [hsp] at e s'
  refine ⟨m', ?_, st, s', rfl, hst, by rw [ha, hal]⟩
  simp [fetch, e]

theorem try_old {m : Fhm.Fhm Back} {l : List Back} (h : Holds C m l) (hn : (l.map Back.current).Nodup)
    (hs : l.length ≤ 2147483647) {x : Back} (hx : x ∈ l) (y : Back) (hy : y.current = x.current) (g : Nat → Back) :
    ∃ m', Fhm.step C m (.tryInsert y (some g)) = some (m', .ent Stat.occupied (some x)) ∧ Holds C m' l := by
  obtain ⟨st, sim, rfl, hst, hal⟩ := h
  obtain ⟨m', e, s', ha⟩ := Fhm.step_good (cfg_lawful wide hash) sim (.tryInsert y (some g)) trivial trivial
  have hr := room_ok st hs
  have hsp : specStep C m.hasAlloc st (.tryInsert y (some g)) = ((room true true st).1, .ent Stat.occupied (some x)) := by
    have : (C).key y = x.current := hy
    simp only [specStep, this, lookup_met hn hx, hal, Option.isSome_some]
  rw [hsp] at e s'
  exact ⟨m', e, _, s', hr.2.2, hr.2.1, by rw [ha, hal]⟩

theorem try_new {m : Fhm.Fhm Back} {l : List Back} (h : Holds C m l) (hs : l.length ≤ 2147483647) (y : Back)
    (hy : ¬ Met l y.current) (g : Nat → Back) :
    ∃ m', Fhm.step C m (.tryInsert y (some g)) = some (m', .ent Stat.vacant (some y)) ∧ Holds C m' (y :: l) := by
  obtain ⟨st, sim, rfl, hst, hal⟩ := h
  obtain ⟨m', e, s', ha⟩ := Fhm.step_good (cfg_lawful wide hash) sim (.tryInsert y (some g)) trivial trivial
  have hr := room_ok st hs
  have hsp : specStep C m.hasAlloc st (.tryInsert y (some g)) =
      ({ (room true true st).1 with l := y :: st.l }, .ent Stat.vacant (some y)) := by
    have : (C).key y = y.current := rfl
    simp only [specStep, this, lookup_new hy, hal, Option.isSome_some, hr.1]
  rw [hsp] at e s'
  exact ⟨m', e, _, s', rfl, hr.2.1, by rw [ha, hal]⟩

theorem put_new {m : Fhm.Fhm Back} {l : List Back} (h : Holds C m l) (hs : l.length ≤ 2147483647) (y : Back)
    (hy : ¬ Met l y.current) (g : Nat → Back) :
    ∃ m', Fhm.step C m (.insertOrAssign y (some g)) = some (m', .ent Stat.vacant (some y)) ∧ Holds C m' (y :: l) := by
  obtain ⟨st, sim, rfl, hst, hal⟩ := h
  obtain ⟨m', e, s', ha⟩ := Fhm.step_good (cfg_lawful wide hash) sim (.insertOrAssign y (some g)) trivial trivial
  have hr := room_ok st hs
  have hsp : specStep C m.hasAlloc st (.insertOrAssign y (some g)) =
      ({ (room true true st).1 with l := y :: st.l }, .ent Stat.vacant (some y)) := by
    have : (C).key y = y.current := rfl
    simp only [specStep, this, lookup_new hy, hal, Option.isSome_some, hr.1]
  rw [hsp] at e s'
  exact ⟨m', e, _, s', rfl, hr.2.1, by rw [ha, hal]⟩

theorem put_first (junk : Nat → Fhm.Cell Back) (y : Back) (g : Nat → Back) :
    ∃ m', Fhm.step C (Fhm.init junk 0 true) (.insertOrAssignW y.current y (some g)) =
      some (m', .ent Stat.vacant (some y)) ∧ Holds C m' [y] := by
  have sim : Fhm.Sim C (Fhm.init junk 0 true) (⟨[], 0, true⟩ : St Back) := ⟨rfl, .inr ⟨rfl, rfl, .inl rfl⟩⟩
  have hl : lookup C y.current ([] : List Back) = none := rfl
  obtain ⟨m', e, s', ha⟩ := Fhm.step_good (cfg_lawful wide hash) sim (.insertOrAssignW y.current y (some g))
    (by simp [okOp, cfg]) (.inl hl)
  have hr := room_ok (⟨[], 0, true⟩ : St Back) (by simp)
  have hal : (Fhm.init junk 0 true : Fhm.Fhm Back).hasAlloc = true := rfl
  have hsp : specStep C (Fhm.init junk 0 true : Fhm.Fhm Back).hasAlloc ⟨[], 0, true⟩ (.insertOrAssignW y.current y (some g)) =
      ({ (room true true (⟨[], 0, true⟩ : St Back)).1 with l := [y] }, .ent Stat.vacant (some y)) := by
    simp only [specStep, hl, hal, Option.isSome_some, hr.1]
  rw [hsp] at e s'
  exact ⟨m', e, _, s', rfl, hr.2.1, by rw [ha, hal]⟩

/-- The queue holds the places of the list. -/
def Queue (q : Fdeq Pt) (l : List Pt) : Prop := q.Inv ∧ q.buf.hasAlloc = true ∧ q.seq = l

theorem push_spec {q : Fdeq Pt} {l : List Pt} (h : Queue q l) (p : Pt) (g : Nat → Pt) :
    ∃ q' k, q.pushBack p (some g) = some (q', some k) ∧ Queue q' (l ++ [p]) := by
  rcases Fdeq.C07_push_back q h.1 h.2.1 p (some g) with ⟨_, q', k, e, i, s, _, _, ha, _⟩ | ⟨⟨_, hc⟩, _⟩
  · exact ⟨q', k, e, i, ha, by rw [s, h.2.2]⟩
  · cases hc

variable {b : Board} {net : Net} {src : Nat} {hp : Heap}

/-- What has still to be looked at while the directions `ds` of `cur` are left. -/
def Left (Q : List Pt) (cur : Pt) (ds : List Pt) (x y : Pt) : Prop :=
  x ∈ Q ∨ (x = cur ∧ ∃ d ∈ ds, y = (cur.1 + d.1, cur.2 + d.2))

/-- The queue is in the order of the number of steps, between that of `cur` and one more. -/
structure Sorted (l : List Back) (D : Pt → Nat) (cur : Pt) (Q : List Pt) : Prop where
  met : ∀ p ∈ Q, Met l p
  here : Met l cur
  order : Q.Pairwise (fun p r => D p ≤ D r)
  low : ∀ p ∈ Q, D cur ≤ D p
  high : ∀ p ∈ Q, D p ≤ D cur + 1

/-- How a scan may end. -/
def ScanOk (wide : Bool) (hash : Pt → UInt64) (b : Board) (net : Net) (src : Nat) (cur : Pt) (n k : Nat) : Scan → Prop
  | .more m q => ∃ l D Q, Inv b net src l D (fun x _ => x ∈ Q) ∧ Sorted l D cur Q ∧ Holds (cfg wide hash) m l ∧ Queue q Q ∧
      n ≤ l.length ∧ l.length + k = n + Q.length
  | .found m v => ∃ l D y, Inv b net src l D (fun x _ => D cur ≤ D x) ∧ Met l cur ∧ Adj cur y ∧ b.Goal net src v y ∧
      ¬ Met l y ∧ Holds (cfg wide hash) m (⟨y, cur⟩ :: l)

theorem scan_spec (r : Ready b net src) (cur : Pt) : ∀ (ds : List Pt) (m : Fhm.Fhm Back) (q : Fdeq Pt) (l : List Back)
    (D : Pt → Nat) (Q : List Pt) (n k : Nat), (∀ d ∈ ds, d ∈ dirs) → Inv b net src l D (Left Q cur ds) → Sorted l D cur Q →
    Holds C m l → Queue q Q → n ≤ l.length ∧ l.length + k = n + Q.length →
    ∃ s, scan C hp b net src cur ds m q = some s ∧ ScanOk wide hash b net src cur n k s := by
  intro ds
  induction ds with
  | nil =>
    intro m q l D Q n k _ hi hs hm hq hlen
    refine ⟨.more m q, rfl, l, D, Q, ?_, hs, hm, hq, hlen⟩
    have e : Left Q cur [] = fun x _ => x ∈ Q := by funext x y; simp [Left]
    rwa [e] at hi
  | cons d ds ih =>
    intro m q l D Q n k hds hi hs hm hq hlen
    have ha : Adj cur (cur.1 + d.1, cur.2 + d.2) := adj_dirs.2 ⟨d, hds d (by simp), rfl⟩
    have hin : b.In (cur.1 + d.1, cur.2 + d.2) := (hi.inner r hs.here).adj ha
    have hat : b.at_ (cur.1 + d.1, cur.2 + d.2) = some (b.cell (cur.1 + d.1, cur.2 + d.2)) := r.at_ hin
    have hds' : ∀ d ∈ ds, d ∈ dirs := fun x hx => hds x (by simp [hx])
    have hcnt := hi.count r
    have hsz := r.size
    have hle : l.length ≤ 2147483647 := by omega
    have hpd : ∀ x z, Met l x → Left Q cur (d :: ds) x z → D cur ≤ D x := by
      rintro x z _ (hx | ⟨rfl, _⟩)
      · exact hs.low x hx
      · exact Nat.le_refl _
    have hnext : ∀ x z, Left Q cur (d :: ds) x z → Left Q cur ds x z ∨ (x = cur ∧ z = (cur.1 + d.1, cur.2 + d.2)) := by
      rintro x z (hx | ⟨hx, d', hd', e⟩)
      · exact .inl (.inl hx)
      · rcases List.mem_cons.1 hd' with rfl | hd'
        · exact .inr ⟨hx, e⟩
        · exact .inl (.inr ⟨hx, d', hd', e⟩)
    generalize hy : ((cur.1 + d.1, cur.2 + d.2) : Pt) = y at *
    simp only [scan, hy, hat, Option.bind_eq_bind, Option.bind_some]
    cases hv : (b.cell y).vertex.filter (eligible net src) with
    | some v =>
      rw [Option.filter_eq_some_iff] at hv
      have hg : b.Goal net src v y := ⟨hin, hv.1, hv.2⟩
      have hnm : ¬ Met l y := by rintro ⟨x, hx, rfl⟩; exact hi.plain x hx v hg
      obtain ⟨m', e, hm'⟩ := put_new hm hle ⟨y, cur⟩ hnm (hp.map m.cap)
      refine ⟨.found m' v, ?_, l, D, y, ?_, hs.here, ha, hg, hnm, hm'⟩
      · simp only [e, Option.bind_some]
        rfl
      · refine { hi with closed := ?_ }
        intro x z hx az
        exact (hi.closed x z hx az).imp_left (hpd x z hx)
    | none =>
      have hno : ∀ v, ¬ b.Goal net src v y := by
        intro v hg
        rw [Option.filter_eq_none_iff] at hv
        exact hv v hg.2.1 hg.2.2
      simp only []
      cases hpa : (b.cell y).path with
      | true =>
        simp only [if_true]
        exact ih m q l D Q n k hds' (hi.pass hnext hno (fun hf => by rw [hf.2] at hpa; cases hpa)) hs hm hq hlen
      | false =>
        simp only [Bool.false_eq_true, if_false]
        by_cases hmet : Met l y
        · obtain ⟨x, hx, ex⟩ := hmet
          obtain ⟨m', e, hm'⟩ := try_old hm hi.nodup hle hx ⟨y, cur⟩ ex.symm (hp.map m.cap)
          obtain ⟨s, es, ok⟩ := ih m' q l D Q n k hds' (hi.pass hnext hno (fun _ => ⟨x, hx, ex⟩)) hs hm' hq hlen
          refine ⟨s, ?_, ok⟩
          simp only [e, Option.bind_some]
          rw [if_pos (by decide)]
          exact es
        · have hfree : b.Free y := ⟨hin, hpa⟩
          obtain ⟨m', e, hm'⟩ := try_new hm hle ⟨y, cur⟩ hmet (hp.map m.cap)
          obtain ⟨q', j, eq, hq'⟩ := push_spec hq y (hp.queue q.capacity)
          have hcy : cur ≠ y := fun e => hmet (e ▸ hs.here)
          have hne : ∀ p, Met l p → p ≠ y := fun p hp e => hmet (e ▸ hp)
          have hi' := hi.add (pend' := Left (Q ++ [y]) cur ds) hs.here ha
            (fun x z h => (hnext x z h).imp_left (fun h => h.imp_left (fun h => by simp [h])))
            (fun z => .inl (by simp)) hpd hno hfree hmet
          have hup : ∀ p, Met l p → Met (⟨y, cur⟩ :: l) p := fun p ⟨x, hx, e⟩ => ⟨x, List.mem_cons_of_mem _ hx, e⟩
          have hs' : Sorted (⟨y, cur⟩ :: l) (fun p => if p = y then D cur + 1 else D p) cur (Q ++ [y]) := by
            refine ⟨?_, hup _ hs.here, ?_, ?_, ?_⟩
            · intro p hp
              rcases List.mem_append.1 hp with hp | hp
              · exact hup _ (hs.met p hp)
              · rw [List.mem_singleton] at hp; subst hp
                exact ⟨_, List.mem_cons_self, rfl⟩
            · rw [List.pairwise_append]
              refine ⟨?_, by simp, ?_⟩
              · apply hs.order.imp_of_mem
                intro p r hp hr h
                simp only [if_neg (hne p (hs.met p hp)), if_neg (hne r (hs.met r hr))]; exact h
              · intro p hp r hr
                rw [List.mem_singleton] at hr; subst hr
                simp only [if_neg (hne p (hs.met p hp)), if_true]
                exact hs.high p hp
            · intro p hp
              simp only [if_neg hcy]
              split
              · omega
              · next hpy =>
                rcases List.mem_append.1 hp with hp | hp
                · exact hs.low p hp
                · exact absurd (List.mem_singleton.1 hp) hpy
            · intro p hp
              simp only [if_neg hcy]
              split
              · omega
              · next hpy =>
                rcases List.mem_append.1 hp with hp | hp
                · exact hs.high p hp
                · exact absurd (List.mem_singleton.1 hp) hpy
          obtain ⟨s, es, ok⟩ := ih m' q' _ _ _ n k hds' hi' hs' hm' hq' (by simp; omega)
          refine ⟨s, ?_, ok⟩
          simp only [e, Option.bind_some]
          rw [if_neg (by decide)]
          simp only [eq, Option.bind_some]
          exact es

/-- What the search finds. -/
def SearchOk (wide : Bool) (hash : Pt → UInt64) (b : Board) (net : Net) (src : Nat) : Option (Fhm.Fhm Back × Nat) → Prop
  | none => ∀ v q n, b.Goal net src v q → ¬ Reach b.Free (net src).pos n q
  | some (m, v) => ∃ cur, ScanOk wide hash b net src cur 0 0 (.found m v)

theorem search_spec (r : Ready b net src) : ∀ (k : Nat) (m : Fhm.Fhm Back) (q : Fdeq Pt) (l : List Back) (D : Pt → Nat)
    (Q : List Pt), Inv b net src l D (fun x _ => x ∈ Q) → (∀ p ∈ Q, Met l p) → Q.Pairwise (fun p r => D p ≤ D r) →
    (∀ p ∈ Q, ∀ p' ∈ Q, D p' ≤ D p + 1) → Holds C m l → Queue q Q →
    2 * ((b.rows * b.cols).toNat - l.length) + Q.length < k →
    ∃ s, search C hp b net src m q = some s ∧ SearchOk wide hash b net src s := by
  intro k
  induction k with
  | zero => intro m q l D Q _ _ _ _ _ _ hk; omega
  | succ k ih =>
    intro m q l D Q hi hmet hord hspan hm hq hk
    rw [search]
    have hlen : q.seq.length = q.buf.sz := Fdeq.seq_length q
    cases Q with
    | nil =>
      have : q.isEmpty = true := by
        rw [hq.2.2] at hlen
        simp only [Fdeq.isEmpty, decide_eq_true_eq]
        simpa using hlen.symm
      rw [if_pos this]
      exact ⟨none, rfl, fun v y n hg => hi.nothing (fun x _ _ h => by cases h) hg⟩
    | cons cur Q =>
      have : ¬ q.isEmpty = true := by
        rw [hq.2.2] at hlen
        simp only [Fdeq.isEmpty, decide_eq_true_eq]
        intro h0
        rw [h0] at hlen; simp at hlen
      rw [if_neg this]
      have hfront : q.frontElem.bind q.buf.load = some cur := by
        have := Fdeq.C10_front q hq.1
        rw [hq.2.2] at this
        exact this
      have hpop := Fdeq.C07_pop_front q hq.1
      have hq1 : Queue q.popFront.1 Q := ⟨hpop.1, by rw [hpop.2.2.2.1, hq.2.1], by rw [hpop.2.1, hq.2.2]; rfl⟩
      rw [List.pairwise_cons] at hord
      have hs : Sorted l D cur Q :=
        ⟨fun p hp => hmet p (by simp [hp]), hmet cur (by simp), hord.2, hord.1,
          fun p hp => hspan cur (by simp) p (by simp [hp])⟩
      have hi1 : Inv b net src l D (Left Q cur dirs) := by
        refine { hi with closed := ?_ }
        intro x y hx a
        rcases hi.closed x y hx a with h | h
        · left
          rcases List.mem_cons.1 h with rfl | h
          · exact .inr ⟨rfl, adj_dirs.1 a⟩
          · exact .inl h
        · exact .inr h
      have hcnt := hi.count r
      obtain ⟨s, es, ok⟩ := scan_spec (hp := hp) r cur dirs m _ l D Q l.length Q.length (fun d h => h) hi1 hs hm hq1
        ⟨by omega, rfl⟩
      simp only [hfront, Option.bind_eq_bind, Option.bind_some, es]
      cases s with
      | found m v => exact ⟨_, rfl, cur, ok⟩
      | more m q =>
        obtain ⟨l', D', Q', hi', hs', hm', hq', hl'⟩ := ok
        have hcnt' := hi'.count r
        simp only [List.length_cons] at hk
        exact ih m q l' D' Q' hi' hs'.met hs'.order
          (fun p hp p' hp' => by have := hs'.low p hp; have := hs'.high p' hp'; omega) hm' hq' (by omega)
end
end CCC.Search
