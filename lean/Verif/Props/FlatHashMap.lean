import Verif.Proof.FlatHashMapRun
import Verif.Proof.Iter
import Verif.Spec.Order
/-
Properties of the flat hash map (`src/flat_hash_map.c`).

`run c (init mem n al) ops` executes a history of calls on a fresh map over a buffer of `n` slots holding the memory
`mem`, with or without an allocation function; `none` would be undefined behaviour (access outside the buffer) or a loop
that does not end.  `specRun c al ⟨[], n, stale⟩ ops` is the same history on a list of elements with different keys, in
no particular order (`Verif/Spec/HashMap.lean`).  `stale` is `false` if the memory was zeroed.  `safeRun` is what the
documentation asks of the caller together with what must be avoided because the code gets it wrong; the theorems
`..._violated` show what happens otherwise.
-/
namespace CCC.Fhm
open CCC HashMap

variable {α κ : Type} {c : Cfg κ α}

/-- The capacities at which the map works: without memory (it must then be able to allocate), or at least 6 slots. -/
def goodCap (n : Nat) : Prop := n = 0 ∨ 6 ≤ n

/-- The reachable states, with the contents the specification says. -/
def Reach (c : Cfg κ α) (s : Fhm α) (st : St α) : Prop :=
  ∃ mem n al b ops, goodCap n ∧ (b = false → ∀ i, i < n → (mem i).hash = 0) ∧ safeRun c al ⟨[], n, b⟩ ops ∧
    (∃ outs, run c (init mem n al) ops = some (s, outs)) ∧ (specRun c al ⟨[], n, b⟩ ops).1 = st

theorem init_sim {mem : Nat → Cell α} {n : Nat} {b : Bool} (al : Bool) (hn : goodCap n)
    (hb : b = false → ∀ i, i < n → (mem i).hash = 0) : Sim c (init mem n al) ⟨[], n, b⟩ :=
  ⟨rfl, .inr ⟨rfl, rfl, hn.imp id (fun h => ⟨h, hb⟩)⟩⟩

theorem Reach.sim {s : Fhm α} {st : St α} (hl : Lawful c) (h : Reach c s st) : Sim c s st := by
  obtain ⟨mem, n, al, b, ops, hn, hb, hok, ⟨outs, hr⟩, rfl⟩ := h
  obtain ⟨s', h1, h2, _⟩ := run_spec hl ops (init_sim al hn hb) hok
  rw [h1] at hr
  simp only [Option.some.injEq, Prod.mk.injEq] at hr
  rw [← hr.1]; exact h2

/-- Keys, hashes and data used in the examples: the hash of a number is the number itself. -/
def natCfg : Cfg Nat (Nat × Nat) where
  wide := false
  hash := UInt64.ofNat
  eq := fun a b => a == b
  key := Prod.fst

theorem natCfg_lawful : Lawful natCfg where
  refl := by simp [natCfg]
  symm := by simp [natCfg]
  trans := by simp [natCfg]
  hash := by simp [natCfg]

/-- The worst hash function: all keys have the same hash. -/
def badCfg : Cfg Nat (Nat × Nat) := { natCfg with hash := fun _ => 7, wide := true }

theorem badCfg_lawful : Lawful badCfg where
  refl := by simp [badCfg, natCfg]
  symm := by simp [badCfg, natCfg]
  trans := by simp [badCfg, natCfg]
  hash := by simp [badCfg, natCfg]

def sampleMem : Nat → Cell (Nat × Nat) := fun i => ⟨UInt64.ofNat (3 * i), (i, 77)⟩

/-- A history used to show that hypotheses are met, over six slots of garbage: three elements fill the map, the fourth
is refused. -/
def sampleOps : List (Op (Nat × Nat) Nat) :=
  [.insert (5, 0) none, .tryInsert (3, 1) none, .get 5 (fun x => (x.1, x.2 + 1)), .insertOrAssign (8, 2) none,
   .insert (1, 1) none, .insert (5, 9) none, .contains 4 none, .size, .validate, .get 3 id]

def sampleSt : St (Nat × Nat) := ⟨[(8, 2), (3, 1), (5, 9)], 6, false⟩

theorem sampleOps_ok : safeRun badCfg false ⟨[], 6, true⟩ sampleOps := by
  simp [sampleOps, safeRun, safeOp, okOp, specStep, lookup, room, wanted, assign, badCfg, natCfg]

/-- Every history, with growth and refused allocations, for every hash function: all answers are those of the finite
map.  Missing: capacities 1 to 5 (see `C40_fhm_violated` and Props/HashSmall), `get`, `remove` and `validate` on memory that holds garbage
(see `C37_fhm_violated`, `C42_fhm_violated`), and entries of stored keys after failed growth (see `C44_fhm_violated`). -/
theorem C37_fhm_history_partial (hl : Lawful c) (mem : Nat → Cell α) (n : Nat) (al b : Bool) (ops : List (Op α κ))
    (hn : goodCap n) (hb : b = false → ∀ i, i < n → (mem i).hash = 0) (hok : safeRun c al ⟨[], n, b⟩ ops) :
    ∃ s, run c (init mem n al) ops = some (s, (specRun c al ⟨[], n, b⟩ ops).2) := by
  obtain ⟨s, h, _⟩ := run_spec hl ops (init_sim al hn hb) hok
  exact ⟨s, h⟩

example : ∃ s, run badCfg (init sampleMem 6 false) sampleOps =
    some (s, [.insEnt Stat.vacant none (5, 0), .ent Stat.vacant (some (3, 1)), .ptr (some (5, 0)),
      .ent Stat.vacant (some (8, 2)), .insEnt Stat.insertError none (1, 1), .insEnt Stat.occupied (some (5, 1)) (5, 1),
      .flag false, .num 3, .flag true, .ptr (some (3, 1))]) := by
  obtain ⟨s, h⟩ := C37_fhm_history_partial badCfg_lawful sampleMem 6 false true sampleOps (.inr (by omega)) (by simp)
    sampleOps_ok
  refine ⟨s, h.trans ?_⟩
  simp [sampleOps, specRun, specStep, lookup, room, wanted, assign, badCfg, natCfg]

theorem sample_reach : ∃ s, Reach badCfg s sampleSt := by
  obtain ⟨s, h⟩ := C37_fhm_history_partial badCfg_lawful sampleMem 6 false true sampleOps (.inr (by omega)) (by simp)
    sampleOps_ok
  exact ⟨s, _, _, _, _, sampleOps, .inr (by omega), by simp, sampleOps_ok, ⟨_, h⟩, by
    simp [sampleSt, sampleOps, specRun, specStep, lookup, room, wanted, assign, badCfg, natCfg]⟩

/-- A map that starts without memory, is refused memory, grows to 11 and then to 37. -/
def growOps : List (Op (Nat × Nat) Nat) :=
  [.insert (0, 0) none, .tryInsert (0, 0) (some fun _ => (9, 9)), .tryInsert (1, 0) none, .tryInsert (2, 0) none,
   .tryInsert (3, 0) none, .tryInsert (4, 0) none, .tryInsert (5, 0) none, .tryInsert (6, 0) none,
   .remove (3, 9), .tryInsert (7, 0) none, .tryInsert (8, 0) (some fun _ => (9, 9)), .capacity, .remove (2, 2),
   .get 8 id, .get 3 id]

theorem growOps_ok : safeRun natCfg true ⟨[], 0, true⟩ growOps := by
  simp [growOps, safeRun, safeOp, okOp, specStep, lookup, room, wanted, primes, without, natCfg]

example : ∃ s, run natCfg (init sampleMem 0 true) growOps =
    some (s, [.insEnt Stat.insertError none (0, 0), .ent Stat.vacant (some (0, 0)), .ent Stat.vacant (some (1, 0)),
      .ent Stat.vacant (some (2, 0)), .ent Stat.vacant (some (3, 0)), .ent Stat.vacant (some (4, 0)),
      .ent Stat.vacant (some (5, 0)), .ent Stat.vacant (some (6, 0)), .insEnt Stat.occupied (some (3, 0)) (3, 0),
      .ent Stat.vacant (some (7, 0)), .ent Stat.vacant (some (8, 0)), .num 37, .insEnt Stat.occupied (some (2, 0)) (2, 0),
      .ptr (some (8, 0)), .ptr none]) := by
  obtain ⟨s, h⟩ := C37_fhm_history_partial natCfg_lawful sampleMem 0 true true growOps (.inl rfl) (by simp) growOps_ok
  refine ⟨s, h.trans ?_⟩
  simp [growOps, specRun, specStep, lookup, room, wanted, primes, without, assign, natCfg]

/-- The stored elements always have different keys. -/
theorem C37_fhm_unique (hl : Lawful c) {s : Fhm α} {st : St α} (h : Reach c s st) :
    st.l.Pairwise (fun x y => c.eq (c.key x) (c.key y) = false) := (h.sim hl).uniq hl

example : ∃ s, Reach badCfg s sampleSt ∧ sampleSt.l.length = 3 := by
  obtain ⟨s, h⟩ := sample_reach
  exact ⟨s, h, rfl⟩

/-- C37 fails if the first call on a map over uninitialised memory is a lookup: it reports whatever the memory holds. -/
theorem C37_fhm_violated (hl : Lawful c) (x : α) (n : Nat) (al : Bool) :
    ∃ p, get c (init (fun _ => ⟨filter c (c.key x), x⟩) (n + 6) al) (c.key x) = some p ∧
      view (init (fun _ => ⟨filter c (c.key x), x⟩) (n + 6) al) p = some x := by
  have hh := toI_range c (cap := n + 6) (by omega) (filter c (c.key x))
  refine ⟨some (toI c (n + 6) (filter c (c.key x))), ?_, rfl⟩
  rw [get, if_neg (by simp [init]), find, if_neg (by simp [init]), if_neg (by simp [init]), findLoop]
  have hat : at_ (init (fun _ => (⟨filter c (c.key x), x⟩ : Cell α)) (n + 6) al) (toI c (n + 6) (filter c (c.key x))) =
      some ⟨filter c (c.key x), x⟩ := by simp [at_, init, hh.2]
  simp only [show (init (fun _ => (⟨filter c (c.key x), x⟩ : Cell α)) (n + 6) al).cap = n + 6 from rfl, hat,
    Option.bind_eq_bind, Option.bind_some]
  rw [if_neg (by simp [filter_ne c, dist_self]), if_pos ⟨trivial, hl.refl _⟩]
  simp only [Option.bind_some, show Stat.has Stat.occupied Stat.occupied = true from rfl, if_true]

/-! ### Probing -/

/-- What a pointer to the element of key `k` shows, or nothing. -/
theorem Sim.get_eq (hl : Lawful c) {s : Fhm α} {st : St α} (h : Sim c s st) (hs : st.cap = 0 ∨ st.stale = false) (k : κ) :
    ∃ p, get c s k = some p ∧ view s p = lookup c k st.l := by
  obtain ⟨s', h1, _⟩ := get_good hl h k id (fun v _ hk => hk) hs
  simp only [step, Option.bind_eq_bind, Option.bind_eq_some_iff] at h1
  obtain ⟨p, h2, s2, _, h3⟩ := h1
  refine ⟨p, h2, ?_⟩
  simp only [Option.some.injEq, Prod.mk.injEq, specStep] at h3
  have h4 := h3.2
  cases hv : lookup c k st.l with
  | none => simp only [hv, Out.ptr.injEq] at h4; exact h4
  | some v => simp only [hv, Out.ptr.injEq] at h4; exact h4

/-- A lookup looks at no more slots than there are, whether the key is stored or not. -/
theorem C38_fhm_lookup (hl : Lawful c) {s : Fhm α} {st : St α} (h : Reach c s st) (hs : st.cap = 0 ∨ st.stale = false)
    (k : κ) : ∃ e m, find c s k (filter c k) = some (e, m) ∧ m ≤ s.cap := by
  have hs' := h.sim hl
  rcases hs'.body with ⟨t, p⟩ | ⟨hz, hn, hb⟩
  · obtain ⟨e, m, h1, h2, _⟩ := t.find hl k
    exact ⟨e, m, h1, by omega⟩
  · rcases hb with hb | ⟨hb, hw⟩
    · exact ⟨_, 0, by rw [find, if_pos hb], by omega⟩
    · have hw := hw (by have := hs'.cap; have : st.cap ≠ 0 := by omega
                        simpa [this] using hs)
      have hh := toI_range c (cap := s.cap) (by omega) (filter c k)
      refine ⟨⟨some (toI c s.cap (filter c k)), Stat.vacant ||| Stat.noUnwrap⟩, 1, ?_, by omega⟩
      rw [find, if_neg (by omega), if_neg (by omega), findLoop]
      simp only [at_eq hh.2, hw _ hh.2, true_or, if_true, Option.bind_eq_bind, Option.bind_some]

/-- `entry` ends, and so does storing a new element through the entry it returns; the insertion looks at no more slots
than there are. -/
theorem C38_fhm_insert (hl : Lawful c) {s : Fhm α} {st : St α} (h : Reach c s st) (k : κ) (ans : AllocAns α) :
    ∃ s' e, entry c s k ans = some (s', e) ∧
      (occupied e = false → insertError e = false → ∀ x, c.eq k (c.key x) = true →
        ∃ i s'' m, e.ent.e = some i ∧ insertAt c s' x e.hash i = some (s'', m) ∧ m ≤ s'.cap) := by
  obtain ⟨s1, e, h1, h2, h3, h4, h5⟩ := entry_cases hl (h.sim hl) k ans
  refine ⟨s1, e, h1, fun ho hi x hx => ?_⟩
  rcases h5 with ⟨i, v, l1, e1, t, p, H⟩ | ⟨l1, hr, i, e1, t, p, hsz, P⟩ | ⟨l1, hr, hst, hsim⟩
  · rw [occupied, e1, has_occ] at ho; cases ho
  · obtain ⟨s', m, k1, k2, _⟩ := t.insertAt hl P.no hx hsz P.ge P.lt P.right P.dist
    exact ⟨i, s', m, by rw [e1], by rw [h3]; exact k1, by omega⟩
  · rw [insertError, (has_err hst).2.1] at hi; cases hi

/-- Removing the element of a stored key looks at no more slots than there are. -/
theorem C38_fhm_remove (hl : Lawful c) {s : Fhm α} {st : St α} (h : Reach c s st) (k : κ) {v : α}
    (hv : lookup c k st.l = some v) :
    ∃ i m0 s' m, find c s k (filter c k) = some (⟨some i, Stat.occupied⟩, m0) ∧ erase c s i = some (s', m) ∧
      m ≤ s.cap := by
  rcases (h.sim hl).body with ⟨t, p⟩ | ⟨_, hn, _⟩
  · obtain ⟨e, m0, f1, f2⟩ := find_cases hl t p k
    rcases f2 with ⟨i, w, g1, rfl, H⟩ | ⟨g1, _⟩
    · obtain ⟨s', m, k1, k2, _⟩ := erase_spec hl t H.ge H.lt H.occ
      exact ⟨i, m0, s', m, f1, k1, by omega⟩
    · rw [hv] at g1; cases g1
  · rw [hn] at hv; cases hv

example : ∃ s i m0 s' m, Reach badCfg s sampleSt ∧
    find badCfg s 3 (filter badCfg 3) = some (⟨some i, Stat.occupied⟩, m0) ∧ erase badCfg s i = some (s', m) ∧
    m ≤ s.cap := by
  obtain ⟨s, h⟩ := sample_reach
  obtain ⟨i, m0, s', m, hh⟩ := C38_fhm_remove badCfg_lawful h 3 (v := (3, 1)) (by
    simp [lookup, sampleSt, badCfg, natCfg])
  exact ⟨s, i, m0, s', m, h, hh⟩

/-! ### Growth -/

/-- Making room for an entry, which every insertion and `contains` does first: whatever the allocation function answers,
every key is then found with the value it had before; if there is no room afterwards nothing at all was changed. -/
theorem C39_fhm_growth (hl : Lawful c) {s : Fhm α} {st : St α} (h : Reach c s st) (ans : AllocAns α) :
    ∃ s' r, maybeResize c s ans = some (s', r) ∧ size s' = size s ∧
      (∀ k, ∃ p, get c s' k = some p ∧ view s' p = lookup c k st.l) ∧ (r ≠ .ok → s' = s) ∧
      (r = .ok → ∀ x, lookup c (c.key x) st.l = none → ∃ s'', tryInsert c s' x none = some s'' ∧
        size s''.1 = size s + 1) := by
  have hs := h.sim hl
  obtain ⟨s', r, h1, h2, h3, h4⟩ := maybeResize_spec hl hs ans
  have hsim : Sim c s' (room s.hasAlloc ans.isSome st).1 := by
    rcases h4 with ⟨_, _, t, p, _⟩ | ⟨_, _, ⟨t, p, _⟩ | ⟨hz, hc, hn, _⟩⟩
    · exact Sim.room h3 t p
    · exact Sim.room h3 t p
    · exact ⟨h3, .inr ⟨hz, by rw [room_l]; exact hn, .inl hc⟩⟩
  refine ⟨s', r, h1, ?_, ?_, ?_, ?_⟩
  · rw [hsim.size, hs.size, room_l]
  · intro k
    obtain ⟨p, g1, g2⟩ := hsim.get_eq hl (.inr (room_stale _ _ _)) k
    rw [room_l] at g2
    exact ⟨p, g1, g2⟩
  · intro hr
    rcases h4 with ⟨_, hr', _⟩ | ⟨_, _, ⟨_, _, e⟩ | ⟨_, _, _, e⟩⟩
    · exact absurd hr' hr
    · exact e
    · exact e
  · intro hr x hx
    rcases h4 with ⟨hrm, _, t, p, hsz⟩ | ⟨_, hr', _⟩
    · -- there is room in the specification as well
      have hlen := t.length
      have hp := p.length_eq
      have hroom : (HashMap.room s'.hasAlloc false (HashMap.room s.hasAlloc ans.isSome st).1).2 = true := by
        rw [HashMap.room]
        rw [if_pos]
        have hc := t.cap
        refine ⟨by omega, ?_⟩
        rw [room_l]
        unfold HashMap.room at hrm h3 ⊢
        split at hrm
        · next hh => rw [if_pos hh]; exact hh.2
        · next hh =>
          rw [if_neg hh] at h3 ⊢
          split at hrm
          · next h6 =>
            rw [if_pos h6] at h3 ⊢
            simp only
            have hw : wanted st.l.length st.cap ≠ 0 := by
              simp only [Bool.and_eq_true, decide_eq_true_eq] at h6; omega
            unfold wanted at hw ⊢
            by_cases hc0 : st.cap = 0
            · rw [if_pos hc0]
              rcases hs.body with ⟨t0, _⟩ | ⟨_, hn, _⟩
              · have := t0.cap; have := hs.cap; omega
              · rw [hn]; show 5 * (0 + 2) ≤ 4 * 11; omega
            · rw [if_neg hc0] at hw ⊢
              have := nextPrime_spec (n := 2 * (st.l.length + 2)) hw
              unfold nextPrime at this
              omega
          · cases hrm
      obtain ⟨s2, k1, k2, _⟩ := tryInsert_good hl hsim x none
      simp only [step, Option.bind_eq_bind, Option.bind_eq_some_iff] at k1
      obtain ⟨r2, k3, k4⟩ := k1
      refine ⟨r2, k3, ?_⟩
      simp only [Option.some.injEq, Prod.mk.injEq] at k4
      rw [k4.1, k2.size]
      have hx' : lookup c (c.key x) (HashMap.room s.hasAlloc ans.isSome st).1.l = none := by rw [room_l]; exact hx
      simp only [specStep, hx', Option.isSome_none, hroom, List.length_cons]
      rw [room_l, hs.size]
    · exact absurd hr hr'

example : ∃ s s' r, Reach badCfg s sampleSt ∧ maybeResize badCfg s none = some (s', r) ∧ size s' = size s := by
  obtain ⟨s, h⟩ := sample_reach
  obtain ⟨s', r, h1, h2, _⟩ := C39_fhm_growth badCfg_lawful h none
  exact ⟨s, s', r, h, h1, h2⟩

/-! ### Fixed capacity -/

/-- With a fixed capacity of at least 6, `insert` either reports an insertion error and every key is found as before, or
the inserted element is found afterwards, and so is every other key as before.  The error is reported exactly if the key
is not stored and there is no room.  Missing: smaller capacities, see `C40_fhm_violated`. -/
theorem C40_fhm_fixed_partial (hl : Lawful c) {s : Fhm α} {st : St α} (h : Reach c s st) (x : α) (ans : AllocAns α)
    (hal : s.hasAlloc = false) (hcap : st.cap ≠ 0) :
    ∃ s' stats b v, insert c s x ans = some (s', stats, b, v) ∧
      (stats = Stat.insertError ↔ lookup c (c.key x) st.l = none ∧ 4 * st.cap < 5 * (st.l.length + 2)) ∧
      (∀ k, ∃ p, get c s' k = some p ∧
        view s' p = if stats ≠ Stat.insertError ∧ c.eq k (c.key x) = true then some x else lookup c k st.l) := by
  have hs := h.sim hl
  obtain ⟨s', h1, h2, _⟩ := insert_good hl hs x ans
  simp only [step, Option.bind_eq_bind, Option.bind_eq_some_iff] at h1
  obtain ⟨⟨s2, stats, b, v⟩, h3, h4⟩ := h1
  simp only [Option.some.injEq, Prod.mk.injEq] at h4
  obtain ⟨rfl, h4⟩ := h4
  refine ⟨s2, stats, b, v, h3, ?_⟩
  have hrm : room s.hasAlloc ans.isSome st =
      ({ st with stale := false }, decide (5 * (st.l.length + 2) ≤ 4 * st.cap)) := by
    unfold room
    rw [hal]
    by_cases hh : 5 * (st.l.length + 2) ≤ 4 * st.cap
    · rw [if_pos ⟨hcap, hh⟩]; simp [hh]
    · rw [if_neg (by simp [hh])]; simp [hh]
  have hst : (specStep c s.hasAlloc st (.insert x ans)).1.stale = false := by
    simp only [specStep, hrm]; split <;> rfl
  have hget := fun k => h2.get_eq hl (.inr hst) k
  have hu := hs.uniq hl
  simp only [specStep, hrm] at h4 hget
  cases hlk : lookup c (c.key x) st.l with
  | some w =>
    obtain ⟨hm, hk⟩ := lookup_mem hlk
    simp only [hlk, Out.insEnt.injEq] at h4 hget
    refine ⟨by rw [h4.1]; simp [Stat.occupied, Stat.insertError], fun k => ?_⟩
    obtain ⟨p, g1, g2⟩ := hget k
    refine ⟨p, g1, g2.trans ?_⟩
    obtain ⟨A, B, e, hA, hB⟩ := hu.split hl hm hk
    rw [e, assign_split hk hA hB]
    unfold lookup
    rw [h4.1]
    by_cases hkx : c.eq k (c.key x) = true
    · have hA' : ∀ y ∈ A, c.eq k (c.key y) = false := fun y hy => eq_false_of hl hkx (hA y hy)
      rw [if_pos ⟨by decide, hkx⟩, List.find?_append, List.find?_eq_none.2 (by intro y hy; rw [hA' y hy]; simp)]
      simp [hkx]
    · have hkw : c.eq k (c.key w) = false := by
        cases hh : c.eq k (c.key w) with
        | false => rfl
        | true => exact absurd (hl.trans _ _ _ hh (hl.symm _ _ hk)) hkx
      rw [if_neg (by simp [hkx])]
      simp [List.find?_append, List.find?_cons, hkx, hkw]
  | none =>
    by_cases hh : 5 * (st.l.length + 2) ≤ 4 * st.cap
    · simp only [hlk, decide_eq_true hh, Out.insEnt.injEq] at h4 hget
      refine ⟨by rw [h4.1]; simp [Stat.vacant, Stat.insertError]; omega, fun k => ?_⟩
      obtain ⟨p, g1, g2⟩ := hget k
      refine ⟨p, g1, g2.trans ?_⟩
      unfold lookup
      rw [h4.1, List.find?_cons]
      cases hkx : c.eq k (c.key x) with
      | true => rw [if_pos ⟨by decide, rfl⟩]
      | false => rw [if_neg (by simp)]
    · simp only [hlk, decide_eq_false hh, Out.insEnt.injEq] at h4 hget
      refine ⟨by rw [h4.1]; simp; omega, fun k => ?_⟩
      obtain ⟨p, g1, g2⟩ := hget k
      refine ⟨p, g1, g2.trans ?_⟩
      rw [h4.1, if_neg (by simp)]

example : ∃ s s' stats b v, Reach badCfg s sampleSt ∧ insert badCfg s (1, 1) none = some (s', stats, b, v) ∧
    stats = Stat.insertError ∧ ∃ p, get badCfg s' 3 = some p ∧ view s' p = some (3, 1) := by
  obtain ⟨s0, h0, _, hal⟩ := run_spec badCfg_lawful sampleOps
    (init_sim (mem := sampleMem) (b := true) false (.inr (by omega)) (by simp)) sampleOps_ok
  have hre : Reach badCfg s0 sampleSt := ⟨_, _, _, _, sampleOps, .inr (by omega), by simp, sampleOps_ok, ⟨_, h0⟩, by
    simp [init, sampleSt, sampleOps, specRun, specStep, lookup, room, wanted, assign, badCfg, natCfg]⟩
  obtain ⟨s', stats, b, v, h1, h2, h3⟩ := C40_fhm_fixed_partial badCfg_lawful hre (1, 1) none hal (by simp [sampleSt])
  have h4 : stats = Stat.insertError := h2.2 (by simp [lookup, sampleSt, badCfg, natCfg])
  obtain ⟨p, h5, h6⟩ := h3 3
  exact ⟨s0, s', stats, b, v, hre, h1, h4, p, h5, h6.trans (by simp [h4, lookup, sampleSt, badCfg, natCfg])⟩

/-- C40 fails at capacity 3 for every hash function: the first insertion is reported as a success, but the element is
not found afterwards, neither by `get` nor by `contains`. -/
theorem C40_fhm_violated (mem : Nat → Cell α) (x : α) :
    ∃ s, insert c (init mem 3 false) x none = some (s, Stat.vacant, false, x) ∧
      get c s (c.key x) = some none ∧ (contains c s (c.key x) none).map Prod.snd = some false := by
  have hh := toI_range c (cap := 3) (by omega) (filter c (c.key x))
  have hi : toI c 3 (filter c (c.key x)) = 2 := by omega
  let s : Fhm α := { mem := upd (upd (upd (upd (wipe mem) 0 ⟨filter c (c.key x), x⟩) 2 ⟨filter c (c.key x), x⟩) 0 ⟨0, x⟩) 1 ⟨0, (mem 1).val⟩, sz := 3, cap := 3, hasAlloc := false }
  have hmr : maybeResize c (init mem 3 false) none = some ({ mem := wipe mem, sz := 2, cap := 3, hasAlloc := false }, .ok) := by
    simp [maybeResize, init, sizeSet]
  refine ⟨s, ?_, ?_, ?_⟩
  · simp only [insert, entry, hmr, Option.bind_eq_bind, Option.bind_some, find]
    rw [if_neg (by simp), if_neg (by simp), findLoop]
    simp only [hi, at_, show (2 : Nat) < 3 by omega, if_true, wipe, true_or, Option.bind_eq_bind, Option.bind_some,
      has_vac_occ, has_vac_ins, Bool.false_eq_true, if_false, ne_eq, not_true_eq_false, insertAt, put, show (0 : Nat) < 3 by omega]
    rw [insertLoop]
    simp [at_, put, putHash, upd, sizePlus, s, wipe]
  · simp [get, find, s]
  · simp only [contains, entry, Option.bind_eq_bind]
    have : maybeResize c s none = some (s, .noAlloc) := by simp [maybeResize, s]
    rw [this]
    simp [find, s]
    decide

/-! ### Iteration -/

/-- `for (p = begin; p != end; p = next(p))` visits exactly the stored elements, each once. -/
theorem C41_fhm_iteration (hl : Lawful c) {s : Fhm α} {st : St α} (h : Reach c s st) :
    ∃ as, (do let p ← begin_ s; iterate (next s ·) (end_ s) p) = some as ∧ as.Nodup ∧
      (as.map (fun i => (s.mem i).val)).Perm st.l := by
  rcases (h.sim hl).body with ⟨t, p⟩ | ⟨hz, hn, hb⟩
  · have hlen := t.length
    refine ⟨occ s 0 s.cap, ?_, occ_nodup _ _ _, by rw [t.occ_vals]; exact p⟩
    simp only [begin_, if_neg (show ¬ s.sz = 0 by omega), scan_spec s s.cap 0 (by omega), Option.bind_eq_bind,
      Option.bind_some]
    have := iterate_spec (next := next s) (occ_nodup s 0 s.cap) (occ_next s s.cap 0 (by omega)) (pre := [])
      (m := occ s 0 s.cap) (post := []) (by simp)
    simpa [end_] using this
  · refine ⟨[], ?_, List.nodup_nil, by rw [hn]; exact List.Perm.refl _⟩
    simp only [begin_, if_pos hz, Option.bind_eq_bind, Option.bind_some]
    rw [iterate.eq_def]; simp [end_]

example : ∃ s as, Reach badCfg s sampleSt ∧
    (do let p ← begin_ s; iterate (next s ·) (end_ s) p) = some as ∧ as.length = 3 := by
  obtain ⟨s, h⟩ := sample_reach
  obtain ⟨as, h1, _, h2⟩ := C41_fhm_iteration badCfg_lawful h
  exact ⟨s, as, h, h1, by have := h2.length_eq; simpa [sampleSt] using this⟩

/-! ### Clearing -/

/-- After `ccc_fhm_clear` without destructor the map reports size 0, the iteration visits nothing, `contains` finds no
key, and every later history is answered as specified for an empty map.  Missing: `get`, `remove` and `validate` before
the next call that looks for an entry, see `C42_fhm_violated`. -/
theorem C42_fhm_clear_partial (hl : Lawful c) {s : Fhm α} {st : St α} (h : Reach c s st) :
    ∃ s', clear s false = some (s', [], .ok) ∧ size s' = 0 ∧ begin_ s' = some (end_ s') ∧
      (∀ k ans, (contains c s' k ans).map Prod.snd = some false) ∧
      ∀ ops, safeRun c s.hasAlloc ⟨[], st.cap, true⟩ ops →
        ∃ s'', run c s' ops = some (s'', (specRun c s.hasAlloc ⟨[], st.cap, true⟩ ops).2) := by
  obtain ⟨s', h1, h2, h3⟩ := step_good hl (h.sim hl) .clear trivial trivial
  simp only [step, clear, Bool.not_false, if_true, Option.bind_eq_bind, Option.bind_some, Option.some.injEq,
    Prod.mk.injEq] at h1
  obtain ⟨rfl, _⟩ := h1
  have h2 : Sim c { s with sz := 0 } ⟨[], st.cap, true⟩ := h2
  refine ⟨{ s with sz := 0 }, by simp [clear], rfl, rfl, ?_, ?_⟩
  · intro k ans
    obtain ⟨s1, e, k1, _, _, k4, _⟩ := ask_good hl h2 k ans
    simp only [contains, k1, Option.bind_eq_bind, Option.bind_some, k4, Option.map_some]
    rfl
  · intro ops hok
    obtain ⟨s'', h4, _⟩ := run_spec hl ops h2 hok
    exact ⟨s'', h4⟩

/-- C42 fails: every stored element is still found by `get` after `ccc_fhm_clear` without destructor; with a
destructor, which is handed every element, nothing is cleared at all. -/
theorem C42_fhm_violated (hl : Lawful c) {s : Fhm α} {st : St α} (h : Reach c s st) {k : κ} {v : α}
    (hv : lookup c k st.l = some v) :
    (∃ s' p, clear s false = some (s', [], .ok) ∧ size s' = 0 ∧ get c s' k = some p ∧ view s' p = some v) ∧
    (∃ d, clear s true = some (s, d, .ok) ∧ size s = st.l.length ∧ st.l.length ≠ 0) := by
  have hs := h.sim hl
  have hne : st.l.length ≠ 0 := by
    intro h0
    rw [List.length_eq_zero_iff.1 h0] at hv; cases hv
  rcases hs.body with ⟨t, p⟩ | ⟨_, hn, _⟩
  · have hcap := t.cap
    constructor
    · obtain ⟨e, m, f1, f2⟩ := find_cases hl t p k
      rcases f2 with ⟨i, w, g1, rfl, H⟩ | ⟨g1, _⟩
      · rw [hv] at g1
        simp only [Option.some.injEq] at g1
        subst g1
        refine ⟨{ s with sz := 0 }, some i, by simp [clear], rfl, ?_, view_of H.val⟩
        have hrm := t.room
        rw [find, if_neg (by omega), if_neg (by omega)] at f1
        have f2 := findLoop_sz s 0 k (filter c k) _ _ _ f1
        simp only [get, find]
        rw [if_neg (by exact (by omega : ¬ s.cap = 0)), if_neg (by exact (by omega : ¬ s.cap = 0)),
          if_neg (by exact (by omega : ¬ 0 ≥ s.cap)), f2]
        simp only [Option.bind_eq_bind, Option.bind_some]
        rfl
      · rw [hv] at g1; cases g1
    · exact ⟨(occ s 0 s.cap).map (fun j => (j, (s.mem j).val)), by simp [clear, destroyLoop_spec s s.cap 0 (by omega)], hs.size, hne⟩
  · rw [hn] at hne; exact absurd rfl hne

example : ∃ s s' p, Reach badCfg s sampleSt ∧ clear s false = some (s', [], .ok) ∧ size s' = 0 ∧
    get badCfg s' 3 = some p ∧ view s' p = some (3, 1) := by
  obtain ⟨s, h⟩ := sample_reach
  obtain ⟨s', p, hh⟩ := (C42_fhm_violated badCfg_lawful h (k := 3) (v := (3, 1))
    (by simp [lookup, sampleSt, badCfg, natCfg])).1
  exact ⟨s, s', p, h, hh⟩

/-- A destructor passed to `ccc_fhm_clear` or `ccc_fhm_clear_and_free` is called exactly once for every stored element
of a map in use.  Missing: `clear` leaves the map full (see `C42_fhm_violated`), and `clear_and_free` its size (see
`C47_fhm_violated`). -/
theorem C51_fhm_destroy_partial (hl : Lawful c) {s : Fhm α} {st : St α} (h : Reach c s st) (hne : st.l ≠ []) :
    ∃ d s', clear s true = some (s, d, .ok) ∧ clearAndFree s true = some (s', d, if s.hasAlloc then .ok else .noAlloc) ∧
      (d.map Prod.fst).Nodup ∧ (d.map Prod.snd).Perm st.l := by
  rcases (h.sim hl).body with ⟨t, p⟩ | ⟨_, hn, _⟩
  · have hd := destroyLoop_spec s s.cap 0 (by omega)
    refine ⟨_, if s.hasAlloc then { s with cap := 0 } else s, by simp [clear, hd]; rfl, ?_, ?_, ?_⟩
    · simp only [clearAndFree, Bool.not_true, Bool.false_eq_true, if_false, hd, Option.bind_eq_bind, Option.bind_some]
      cases s.hasAlloc <;> rfl
    · rw [List.map_map]
      have : (Prod.fst ∘ fun j => (j, (s.mem j).val)) = id := rfl
      rw [this, List.map_id]
      exact occ_nodup _ _ _
    · rw [List.map_map]
      have : (Prod.snd ∘ fun j => (j, (s.mem j).val)) = fun j => (s.mem j).val := rfl
      rw [this, t.occ_vals]
      exact p
  · exact absurd hn hne

example : ∃ s d, Reach badCfg s sampleSt ∧ clear s true = some (s, d, .ok) ∧ d.length = 3 := by
  obtain ⟨s, h⟩ := sample_reach
  obtain ⟨d, _, h1, _, _, h2⟩ := C51_fhm_destroy_partial badCfg_lawful h (by simp [sampleSt])
  exact ⟨s, d, h, h1, by have := h2.length_eq; simpa [sampleSt] using this⟩

/-- `ccc_fhm_clear_and_free` without destructor leaves an empty map without memory that behaves as a fresh one.
Missing: with a destructor, see `C47_fhm_violated`. -/
theorem C47_fhm_clear_and_free_partial (hl : Lawful c) {s : Fhm α} (hal : s.hasAlloc = true) :
    ∃ s', clearAndFree s false = some (s', [], .ok) ∧ size s' = 0 ∧ s'.cap = 0 ∧
      ∀ ops, safeRun c true ⟨[], 0, false⟩ ops →
        ∃ s'', run c s' ops = some (s'', (specRun c true ⟨[], 0, false⟩ ops).2) := by
  refine ⟨{ s with sz := 0, cap := 0 }, by simp [clearAndFree, hal], rfl, rfl, fun ops hok => ?_⟩
  have hsim : Sim c { s with sz := 0, cap := 0 } ⟨[], 0, false⟩ := ⟨rfl, .inr ⟨rfl, rfl, .inl rfl⟩⟩
  obtain ⟨s'', h1, _⟩ := run_spec hl ops hsim (by show safeRun c s.hasAlloc _ ops; rw [hal]; exact hok)
  refine ⟨s'', h1.trans ?_⟩
  show some (s'', (specRun c s.hasAlloc _ ops).2) = _
  rw [hal]

example : ∃ s', clearAndFree (init sampleMem 6 true) false = some (s', [], .ok) ∧ size s' = 0 ∧
    ∃ s'', run natCfg s' growOps = some (s'', (specRun natCfg true ⟨[], 0, false⟩ growOps).2) := by
  obtain ⟨s', h1, h2, _, h3⟩ := C47_fhm_clear_and_free_partial natCfg_lawful (s := init sampleMem 6 true) rfl
  refine ⟨s', h1, h2, h3 growOps ?_⟩
  simp [growOps, safeRun, safeOp, okOp, specStep, lookup, room, wanted, primes, without, assign, natCfg]

/-- C47 fails with a destructor: the map has no memory left but still reports its old size. -/
theorem C47_fhm_violated (hl : Lawful c) {s : Fhm α} {st : St α} (h : Reach c s st) (hal : s.hasAlloc = true) :
    ∃ s' d, clearAndFree s true = some (s', d, .ok) ∧ s'.cap = 0 ∧ size s' = st.l.length := by
  have hd := destroyLoop_spec s s.cap 0 (by omega)
  refine ⟨{ s with cap := 0 }, (occ s 0 s.cap).map (fun j => (j, (s.mem j).val)), ?_, rfl, (h.sim hl).size⟩
  simp [clearAndFree, hd, hal]

/-! ### Failed growth -/

/-- `removeEntry` and `andModify` on the entry of a stored key do what they should, if there was room for one more
element or the map could grow.  Missing: otherwise, see `C44_fhm_violated`. -/
theorem C44_fhm_entry_partial (hl : Lawful c) {s : Fhm α} {st : St α} (h : Reach c s st) {k : κ} {v : α} {f : α → α}
    (ans : AllocAns α) (hv : lookup c k st.l = some v) (hf : c.eq k (c.key (f v)) = true)
    (hr : (room s.hasAlloc ans.isSome st).2 = true) :
    (∃ s', step c s (.removeEntry k ans) = some (s', .ent Stat.occupied none) ∧ size s' + 1 = size s ∧
      get c s' k = some none) ∧
    (∃ s' p, step c s (.andModify k f ans) = some (s', .ptr (some (f v))) ∧ size s' = size s ∧
      get c s' k = some p ∧ view s' p = some (f v)) := by
  have hs := h.sim hl
  obtain ⟨hm, hk⟩ := lookup_mem hv
  have hu := hs.uniq hl
  obtain ⟨A, B, e, hA, hB⟩ := hu.split hl hm hk
  constructor
  · obtain ⟨s', h1, h2, _⟩ := removeEntry_good hl hs k ans (.inr hr)
    simp only [specStep, hv] at h1 h2
    refine ⟨s', h1, ?_, ?_⟩
    · rw [h2.size, hs.size, e, without_split hk hA hB]; simp; omega
    · obtain ⟨p, g1, g2⟩ := h2.get_eq hl (.inr (room_stale _ _ _)) k
      have : lookup c k (without c k st.l) = none := by
        apply lookup_none
        intro y hy
        unfold without at hy
        have := (List.mem_filter.1 hy).2
        simpa using this
      rw [g1]
      have g2 : view s' p = lookup c k (without c k st.l) := g2
      rw [this] at g2
      cases p with
      | none => rfl
      | some i => cases g2
  · obtain ⟨s', h1, h2, _⟩ := andModify_good hl hs k f ans (by
      intro w hw hkw
      have := lookup_some hl hu hw hkw
      rw [hv] at this
      simp only [Option.some.injEq] at this
      rw [← this]; exact hf) (.inr hr)
    simp only [specStep, hv] at h1 h2
    obtain ⟨p, g1, g2⟩ := h2.get_eq hl (.inr (room_stale _ _ _)) k
    refine ⟨s', p, h1, ?_, g1, ?_⟩
    · rw [h2.size, hs.size]; simp [assign]
    · refine g2.trans ?_
      show lookup c k (assign c k (f v) st.l) = _
      rw [e, assign_split hk hA hB]
      unfold lookup
      rw [List.find?_append, List.find?_eq_none.2 (by intro y hy; rw [hA y hy]; simp)]
      simp [hf]

/-- C44 fails whenever the map would have to grow to take one more element and does not (a full fixed table, or memory
refused): `removeEntry` on the entry of a stored key removes nothing and reports the key as not stored, `andModify`
changes nothing, and the macros `or_insert_w` and `insert_entry_w` evaluate to NULL. -/
theorem C44_fhm_violated (hl : Lawful c) {s : Fhm α} {st : St α} (h : Reach c s st) {k : κ} {v : α}
    (ans : AllocAns α) (hv : lookup c k st.l = some v) (hr : (room s.hasAlloc ans.isSome st).2 = false) :
    step c s (.removeEntry k ans) = some (s, .ent Stat.vacant none) ∧
    (∀ f, step c s (.andModify k f ans) = some (s, .ptr (some v))) ∧
    (∀ x, step c s (.orInsertW k x ans) = some (s, .ptr none)) ∧
    (∀ x, step c s (.insertEntryW k x ans) = some (s, .ptr none)) ∧
    (∀ x, step c s (.tryInsertW k x ans) = some (s, .ent (Stat.occupied ||| Stat.insertError) (some v))) := by
  have hs := h.sim hl
  have hss : ∃ s' r, maybeResize c s ans = some (s', r) ∧ s' = s := by
    obtain ⟨s', r, h1, _, _, h4⟩ := maybeResize_spec hl hs ans
    refine ⟨s', r, h1, ?_⟩
    rcases h4 with ⟨h5, _⟩ | ⟨_, _, ⟨_, _, e⟩ | ⟨_, _, _, e⟩⟩
    · rw [hr] at h5; cases h5
    · exact e
    · exact e
  obtain ⟨s0, r0, hm, rfl⟩ := hss
  obtain ⟨s1, ⟨en, hs1⟩, h1, h2, h3, h4, h5⟩ := entry_cases hl hs k ans
  have he1 : s1 = s0 := by
    simp only [entry, hm, Option.bind_eq_bind, Option.bind_some, Option.bind_eq_some_iff, Option.some.injEq,
      Prod.mk.injEq] at h1
    obtain ⟨_, _, h1, _⟩ := h1
    exact h1.symm
  subst he1
  simp only at h3 h5
  subst h3
  rcases h5 with ⟨i, w, l1, rfl, t, p, H⟩ | ⟨l1, _⟩ | ⟨l1, _⟩
  · rw [hv] at l1
    simp only [Option.some.injEq] at l1
    subst l1
    rw [hr] at h1
    simp only [Bool.false_eq_true, if_false] at h1
    have e1 : (Stat.occupied ||| Stat.insertError) ≠ Stat.occupied := by decide
    have e2 : Stat.has (Stat.occupied ||| Stat.insertError) Stat.occupied = true := by decide
    have e3 : Stat.has (Stat.occupied ||| Stat.insertError) Stat.insertError = true := by decide
    have e4 : Stat.has (Stat.occupied ||| Stat.insertError) Stat.noUnwrap = false := by decide
    refine ⟨?_, ?_, ?_, ?_, ?_⟩
    · simp only [step, h1, Option.bind_eq_bind, Option.bind_some, removeEntry, if_pos e1]
      rfl
    · intro f
      simp only [step, h1, Option.bind_eq_bind, Option.bind_some, andModify, if_neg e1, unwrap, e2, if_true, view_of H.val]
    · intro x
      simp only [step, h1, Option.bind_eq_bind, Option.bind_some, orInsertW, e3, Bool.not_true, Bool.false_eq_true, if_false]
      rfl
    · intro x
      simp only [step, h1, Option.bind_eq_bind, Option.bind_some, insertEntryW, e3, Bool.not_true, Bool.false_eq_true, if_false]
      rfl
    · intro x
      simp only [step, h1, Option.bind_eq_bind, Option.bind_some, tryInsertW, e2, Bool.true_or, if_true, Ent.unwrap, e4,
        Bool.false_eq_true, if_false, view_of H.val]
      rfl
  · rw [hv] at l1; cases l1
  · rw [hv] at l1; cases l1

theorem sample_full (s : Fhm (Nat × Nat)) : (room s.hasAlloc (none : AllocAns (Nat × Nat)).isSome sampleSt).2 = false := by
  simp [room, sampleSt]

example : ∃ s, Reach badCfg s sampleSt ∧ step badCfg s (.removeEntry 3 none) = some (s, .ent Stat.vacant none) := by
  obtain ⟨s, h⟩ := sample_reach
  exact ⟨s, h, (C44_fhm_violated badCfg_lawful h none (k := 3) (v := (3, 1))
    (by simp [lookup, sampleSt, badCfg, natCfg]) (sample_full s)).1⟩

/-! ### Validation -/

/-- `ccc_fhm_validate` accepts every reachable map, unless it may read garbage.  Missing: see `C46_fhm_violated`. -/
theorem C46_fhm_validate_partial (hl : Lawful c) {s : Fhm α} {st : St α} (h : Reach c s st)
    (hs : st.cap = 0 ∨ st.stale = false) : validate c s = some true := by
  obtain ⟨s', h1, _⟩ := step_good hl (h.sim hl) .validate trivial hs
  simp only [step, specStep, Option.bind_eq_bind, Option.bind_eq_some_iff, Option.some.injEq, Prod.mk.injEq, Out.flag.injEq] at h1
  obtain ⟨b, h2, _, rfl⟩ := h1
  exact h2

/-- C46 fails after `ccc_fhm_clear` of a map that is not empty. -/
theorem C46_fhm_violated (hl : Lawful c) {s : Fhm α} {st : St α} (h : Reach c s st) (hne : st.l ≠ []) :
    ∃ s', clear s false = some (s', [], .ok) ∧ validate c s' = some false := by
  refine ⟨{ s with sz := 0 }, by simp [clear], ?_⟩
  rcases (h.sim hl).body with ⟨t, p⟩ | ⟨_, hn, _⟩
  · have hcap := t.cap
    obtain ⟨h1, _⟩ := validateLoop_spec t 0 s.cap 0 0 0 (by omega)
    rw [todo_all (by omega) t.z0 t.z1] at h1
    unfold validate
    rw [h1]
    have hlen := p.length_eq
    unfold vals at hlen
    rw [List.length_map] at hlen
    have : st.l.length ≠ 0 := by simpa using hne
    have h2 : ((0 + (cells s.mem s.cap).length == size { s with sz := 0 }) : Bool) = false := by
      simp only [size, if_true]
      simp; intro h0; rw [h0] at hlen; simp at hlen; omega
    rw [h2]; rfl
  · exact absurd hn hne

example : ∃ s s', Reach badCfg s sampleSt ∧ validate badCfg s = some true ∧ clear s false = some (s', [], .ok) ∧
    validate badCfg s' = some false := by
  obtain ⟨s, h⟩ := sample_reach
  obtain ⟨s', h1, h2⟩ := C46_fhm_violated badCfg_lawful h (by simp [sampleSt])
  exact ⟨s, s', h, C46_fhm_validate_partial badCfg_lawful h (.inr rfl), h1, h2⟩

/-! ### The value replaced by an insertion -/

/-- `ccc_fhm_insert` over a stored key: the returned entry is Occupied and refers to the user's struct, which then holds
the old value, and the map holds the new value. -/
theorem C52_fhm_insert (hl : Lawful c) {s : Fhm α} {st : St α} (h : Reach c s st) {x v : α} (ans : AllocAns α)
    (hv : lookup c (c.key x) st.l = some v) :
    ∃ s' p, insert c s x ans = some (s', Stat.occupied, true, v) ∧ size s' = size s ∧ get c s' (c.key x) = some p ∧
      view s' p = some x := by
  have hs := h.sim hl
  obtain ⟨s1, h1, h2, _⟩ := insert_good hl hs x ans
  simp only [step, Option.bind_eq_bind, Option.bind_eq_some_iff] at h1
  obtain ⟨⟨s2, stats, b, w⟩, h3, h4⟩ := h1
  simp only [Option.some.injEq, Prod.mk.injEq, specStep, hv, Out.insEnt.injEq] at h4
  obtain ⟨rfl, rfl, h5, rfl⟩ := h4
  simp only [specStep, hv] at h2
  obtain ⟨p, g1, g2⟩ := h2.get_eq hl (.inr (room_stale _ _ _)) (c.key x)
  obtain ⟨hm, hk⟩ := lookup_mem hv
  obtain ⟨A, B, e, hA, hB⟩ := (hs.uniq hl).split hl hm hk
  have hb : b = true := by
    cases b with
    | true => rfl
    | false => cases h5
  subst hb
  refine ⟨s2, p, h3, by rw [h2.size, hs.size]; simp [assign], g1, g2.trans ?_⟩
  show lookup c (c.key x) (assign c (c.key x) x st.l) = _
  rw [e, assign_split hk hA hB]
  unfold lookup
  rw [List.find?_append, List.find?_eq_none.2 (by intro y hy; rw [hA y hy]; simp)]
  simp [hl.refl]

/-- If the key is not stored the user's struct is left as it is and the entry refers to nothing. -/
theorem C52_fhm_insert_new (hl : Lawful c) {s : Fhm α} {st : St α} (h : Reach c s st) {x : α} (ans : AllocAns α)
    (hv : lookup c (c.key x) st.l = none) :
    ∃ s' stats, insert c s x ans = some (s', stats, false, x) ∧ Stat.has stats Stat.occupied = false := by
  obtain ⟨s1, h1, h2, _⟩ := insert_good hl (h.sim hl) x ans
  simp only [step, Option.bind_eq_bind, Option.bind_eq_some_iff] at h1
  obtain ⟨⟨s2, stats, b, w⟩, h3, h4⟩ := h1
  simp only [Option.some.injEq, Prod.mk.injEq, specStep, hv] at h4
  cases hr : (room s.hasAlloc ans.isSome st).2 with
  | true =>
    simp only [hr, Out.insEnt.injEq] at h4
    obtain ⟨rfl, rfl, h5, rfl⟩ := h4
    cases b with
    | true => cases h5
    | false => exact ⟨s2, _, h3, by decide⟩
  | false =>
    simp only [hr, Out.insEnt.injEq] at h4
    obtain ⟨rfl, rfl, h5, rfl⟩ := h4
    cases b with
    | true => cases h5
    | false => exact ⟨s2, _, h3, by decide⟩

example : ∃ s s' p, Reach badCfg s sampleSt ∧ insert badCfg s (3, 5) none = some (s', Stat.occupied, true, (3, 1)) ∧
    get badCfg s' 3 = some p ∧ view s' p = some (3, 5) := by
  obtain ⟨s, h⟩ := sample_reach
  obtain ⟨s', p, h1, _, h2, h3⟩ := C52_fhm_insert badCfg_lawful h (x := (3, 5)) (v := (3, 1)) none
    (by simp [lookup, sampleSt, badCfg, natCfg])
  exact ⟨s, s', p, h, h1, h2, h3⟩

/-! ### Copying -/

/-- Copying into a map of the same capacity, or into a smaller one that obtains memory: the destination then answers
every history as the source would (with the destination's own allocation function).  Missing: larger destinations, see
`C43_fhm_violated`. -/
theorem C43_fhm_copy_partial (hl : Lawful c) {src : Fhm α} {st : St α} (h : Reach c src st) (dst : Fhm α)
    (fn : Option Bool) (hc : dst.cap = src.cap ∨ (dst.cap < src.cap ∧ fn = some true)) :
    ∃ d, copy dst src fn = (d, .ok) ∧ size d = size src ∧ d.cap = src.cap ∧
      ∀ ops, safeRun c dst.hasAlloc st ops →
        ∃ s', run c d ops = some (s', (specRun c dst.hasAlloc st ops).2) := by
  have key : ∀ mem : Nat → Cell α, (∀ i, i < src.cap → mem i = src.mem i) →
      Sim c { mem := mem, sz := src.sz, cap := src.cap, hasAlloc := dst.hasAlloc } st := by
    intro mem hmem
    have hs := h.sim hl
    refine ⟨hs.cap, ?_⟩
    rcases hs.body with ⟨t, p⟩ | ⟨hz, hn, hb⟩
    · have hcap := t.cap
      have hce : cells mem src.cap = cells src.mem src.cap := cells_congr (fun q _ hq => hmem q hq)
      refine .inl ⟨⟨t.cap, ?_, ?_, ?_, ?_, ?_, ?_, t.room⟩, ?_⟩
      · exact RH.congr (show 3 ≤ src.cap by omega) t.rh (fun q _ hq => (hmem q hq).symm)
      · show (mem 0).hash = 0; rw [hmem 0 (by omega)]; exact t.z0
      · show (mem 1).hash = 0; rw [hmem 1 (by omega)]; exact t.z1
      · show ∀ x ∈ cells mem src.cap, _; rw [hce]; exact t.good
      · show (cells mem src.cap).Pairwise _; rw [hce]; exact t.uniq
      · show src.sz = (cells mem src.cap).length + 2; rw [hce]; exact t.sz
      · show ((cells mem src.cap).map Cell.val).Perm st.l; rw [hce]; exact p
    · refine .inr ⟨hz, hn, hb.imp id (fun hh => ⟨hh.1, fun hst i hi => ?_⟩)⟩
      show (mem i).hash = 0
      rw [hmem i hi]; exact hh.2 hst i hi
  have hsim := key (fun i => if i < src.cap then src.mem i else dst.mem i) (fun i hi => by simp [hi])
  refine ⟨{ mem := fun i => if i < src.cap then src.mem i else dst.mem i, sz := src.sz, cap := src.cap,
            hasAlloc := dst.hasAlloc }, ?_, rfl, rfl, ?_⟩
  · rcases hc with hc | ⟨hc, rfl⟩
    · simp [copy, hc]
    · simp [copy, hc]
  · intro ops hok
    obtain ⟨s', h1, _⟩ := run_spec hl ops hsim hok
    exact ⟨s', h1⟩

example : ∃ s d, Reach badCfg s sampleSt ∧ copy (init sampleMem 0 true) s (some true) = (d, .ok) ∧ size d = 3 ∧
    ∃ s', run badCfg d [.get 3 id, .remove (8, 0), .insert (1, 1) (some fun _ => (9, 9)), .size] =
      some (s', [.ptr (some (3, 1)), .insEnt Stat.occupied (some (8, 2)) (8, 2), .insEnt Stat.vacant none (1, 1),
        .num 3]) := by
  obtain ⟨s, h⟩ := sample_reach
  have hs := h.sim badCfg_lawful
  obtain ⟨d, h1, h2, _, h3⟩ := C43_fhm_copy_partial badCfg_lawful h (init sampleMem 0 true) (some true)
    (.inr ⟨by rw [hs.cap]; simp [init, sampleSt], rfl⟩)
  obtain ⟨s', h4⟩ := h3 [.get 3 id, .remove (8, 0), .insert (1, 1) (some fun _ => (9, 9)), .size] (by
    simp [safeRun, safeOp, okOp, specStep, lookup, room, wanted, primes, without, assign, badCfg, natCfg, sampleSt, init])
  refine ⟨s, d, h, h1, by rw [h2, hs.size]; rfl, s', h4.trans ?_⟩
  simp [specRun, specStep, lookup, room, wanted, primes, without, assign, badCfg, natCfg, sampleSt, init]

/-- Six or seven zeroed slots. -/
def zeroMem : Nat → Cell (Nat × Nat) := fun _ => ⟨0, (0, 0)⟩

/-- C43 fails for larger destinations: the map of capacity 6 finds the key 9, and its successful copy of capacity 7, which
reports one element, does not. -/
theorem C43_fhm_violated :
    ∃ src d, Reach natCfg src ⟨[(9, 4)], 6, false⟩ ∧ (∃ p, get natCfg src 9 = some p ∧ view src p = some (9, 4)) ∧
      copy (init zeroMem 7 false) src none = (d, .ok) ∧ size d = 1 ∧ get natCfg d 9 = some none := by
  have hok : safeRun natCfg false ⟨[], 6, false⟩ [.insert (9, 4) none] := by
    simp [safeRun, safeOp, okOp]
  let s : Fhm (Nat × Nat) := { mem := upd (upd (upd (upd zeroMem 0 ⟨9, (9, 4)⟩) 3 ⟨9, (9, 4)⟩) 0 ⟨0, (9, 4)⟩) 1 ⟨0, (0, 0)⟩, sz := 3, cap := 6, hasAlloc := false }
  have hw : wipe zeroMem = zeroMem := by funext i; rfl
  have hf : filter natCfg 9 = 9 := by decide
  have ht : toI natCfg 6 9 = 3 := by decide
  have hrun : run natCfg (init zeroMem 6 false) [.insert (9, 4) none] = some (s, [.insEnt Stat.vacant none (9, 4)]) := by
    have hmr : maybeResize natCfg (init zeroMem 6 false) none = some ({ mem := zeroMem, sz := 2, cap := 6, hasAlloc := false }, .ok) := by
      simp [maybeResize, init, sizeSet, hw]
    have hins : insert natCfg (init zeroMem 6 false) (9, 4) none = some (s, Stat.vacant, false, (9, 4)) := by
      have hk : natCfg.key (9, 4) = 9 := rfl
      simp only [insert, entry, hmr, Option.bind_eq_bind, Option.bind_some, find, hk, hf, ht]
      rw [if_neg (by simp), if_neg (by simp), findLoop]
      simp only [at_, show (3 : Nat) < 6 by omega, if_true, show (zeroMem 3).hash = 0 from rfl, true_or, Option.bind_eq_bind,
        Option.bind_some, has_vac_occ, has_vac_ins, Bool.false_eq_true, if_false, ne_eq, not_true_eq_false, insertAt,
        put, show (0 : Nat) < 6 by omega]
      rw [insertLoop]
      simp [at_, put, putHash, upd, sizePlus, s, zeroMem]
    simp only [run, step, hins, Option.bind_eq_bind, Option.bind_some]
    rfl
  refine ⟨s, { s with cap := 7, mem := fun i => if i < 6 then s.mem i else zeroMem i }, ?_, ?_, ?_, rfl, ?_⟩
  · exact ⟨zeroMem, 6, false, false, _, .inr (by omega), fun _ _ _ => rfl, hok, ⟨_, hrun⟩, by
      simp [specRun, specStep, lookup, room, wanted]⟩
  · refine ⟨some 3, ?_, by simp [view, s, upd]⟩
    simp only [get, find, hf]
    rw [if_neg (by simp [s]), if_neg (by simp [s]), if_neg (by simp [s]), show toI natCfg s.cap 9 = 3 from ht, findLoop]
    have h3 : at_ s 3 = some ⟨9, (9, 4)⟩ := by simp [at_, s, upd]
    rw [h3]
    simp only [Option.bind_eq_bind, Option.bind_some]
    rw [if_neg (by simp), if_pos (by simp [natCfg])]
    rfl
  · simp [copy, init, s]
  · simp only [get, find, hf]
    rw [if_neg (by simp), if_neg (by simp), if_neg (by simp [s]), show toI natCfg 7 9 = 2 by decide, findLoop]
    have h3 : at_ { s with cap := 7, mem := fun i => if i < 6 then s.mem i else zeroMem i } 2 = some ⟨0, (0, 0)⟩ := by
      simp [at_, s, upd, zeroMem]
    rw [h3]
    simp only [Option.bind_eq_bind, Option.bind_some]
    rw [if_pos (by simp)]
    rfl

/-- Copying with a destination of the same capacity or with memory obtained (as `C43_fhm_copy_partial`), and copying
without an allocation function into a map that is too small, which is refused and leaves the destination alone.
Missing: see `C43_fhm_violated` and `C53_fhm_violated`. -/
theorem C53_fhm_copy_partial (hl : Lawful c) {src : Fhm α} {st : St α} (h : Reach c src st) (dst : Fhm α)
    (fn : Option Bool) (hle : dst.cap ≤ src.cap) (hfn : fn ≠ some false) :
    ∃ d r, copy dst src fn = (d, r) ∧ (r = .inputErr ∧ d = dst ∨
      r = .ok ∧ ∀ ops, safeRun c dst.hasAlloc st ops →
        ∃ s', run c d ops = some (s', (specRun c dst.hasAlloc st ops).2)) := by
  by_cases hc : dst.cap < src.cap
  · cases fn with
    | none => exact ⟨dst, .inputErr, by simp [copy, hc], .inl ⟨rfl, rfl⟩⟩
    | some b =>
      cases b with
      | false => exact absurd rfl hfn
      | true =>
        obtain ⟨d, h1, _, _, h2⟩ := C43_fhm_copy_partial hl h dst (some true) (.inr ⟨hc, rfl⟩)
        exact ⟨d, _, h1, .inr ⟨rfl, h2⟩⟩
  · obtain ⟨d, h1, _, _, h2⟩ := C43_fhm_copy_partial hl h dst fn (.inl (by omega))
    exact ⟨d, _, h1, .inr ⟨rfl, h2⟩⟩

/-- C53 fails when memory for the copy is refused: the destination keeps its elements but reports the number of elements
of the source. -/
theorem C53_fhm_violated (hl : Lawful c) {src dst : Fhm α} {st st' : St α} (h : Reach c src st) (h' : Reach c dst st')
    (hc : st'.cap < st.cap) (hne : st.l.length ≠ st'.l.length) :
    ∃ d, copy dst src (some false) = (d, .memErr) ∧ d.mem = dst.mem ∧ size d = st.l.length ∧ size d ≠ size dst := by
  have h1 := h.sim hl
  have h2 := h'.sim hl
  have : dst.cap < src.cap := by rw [h1.cap, h2.cap]; exact hc
  refine ⟨{ dst with sz := src.sz }, by simp [copy, this], rfl, h1.size, ?_⟩
  rw [h2.size]
  exact fun e => hne (h1.size.symm.trans e)

example : ∃ s d, Reach badCfg s sampleSt ∧ copy (init sampleMem 0 true) s (some false) = (d, .memErr) ∧ size d = 3 := by
  obtain ⟨s, h⟩ := sample_reach
  obtain ⟨d, h1, _, h2, _⟩ := C53_fhm_violated badCfg_lawful h
    (⟨sampleMem, 0, true, true, [], .inl rfl, by simp, trivial, ⟨[], rfl⟩, rfl⟩ :
      Reach badCfg (init sampleMem 0 true) ⟨[], 0, true⟩) (by simp [sampleSt]) (by simp [sampleSt])
  exact ⟨s, d, h, h1, h2⟩

end CCC.Fhm
