import Verif.Proof.FlatHashMapRun
import Verif.Model.FlatHashMapCost
import Verif.Proof.Count
/-
What a call of the flat hash map costs in terms of the distance from the home of its key to the next empty slot.
-/
namespace CCC.Fhm
open CCC HashMap

variable {α κ : Type} {c : Cfg κ α}

/-! ### Counted programs -/

/-- When `y` has a result, `x` has it as well and takes at most `m` units of work. -/
def Bd {β : Type} (x : Count β) (y : Option β) (m : Nat) : Prop := ∀ r, y = some r → ∃ k, k ≤ m ∧ Costs x k r

variable {β γ : Type}

theorem Bd.mono {x : Count β} {y : Option β} {m m' : Nat} (h : Bd x y m) (hm : m ≤ m') : Bd x y m' := by
  intro r hr
  obtain ⟨k, h1, h2⟩ := h r hr
  exact ⟨k, by omega, h2⟩

theorem Bd.pure (a : β) : Bd (pure a : Count β) (some a) 0 := by
  intro r hr; cases hr; exact ⟨0, by omega, .pure a⟩

theorem Bd.lift (y : Option β) : Bd (liftM y : Count β) y 0 := by
  intro r hr; exact ⟨0, by omega, .lift hr⟩

theorem Bd.work (m : Nat) (a : β) : Bd (CCC.work m (some a)) (some a) m := by
  intro r hr; cases hr; exact ⟨m, by omega, fun n => rfl⟩

theorem Bd.bind {x : Count β} {y : Option β} {f : β → Count γ} {g : β → Option γ} {m m' : Nat} (h : Bd x y m)
    (hf : ∀ a, y = some a → Bd (f a) (g a) m') : Bd (x >>= f) (y >>= g) (m + m') := by
  intro r hr
  cases hy : y with
  | none => rw [hy] at hr; cases hr
  | some a =>
    rw [hy] at hr
    obtain ⟨k, h1, h2⟩ := h a hy
    obtain ⟨k', h3, h4⟩ := hf a hy r hr
    exact ⟨k + k', by omega, h2.bind h4⟩

theorem Bd.seq {x : Count β} {y : Option β} {f : β → Count γ} {g : β → Option γ} {m m' n : Nat} (h : Bd x y m)
    (hf : ∀ a, y = some a → Bd (f a) (g a) m') (hn : m + m' ≤ n) : Bd (x >>= f) (y >>= g) n := (h.bind hf).mono hn

theorem Bd.after {y : Option β} {f : β → Count γ} {g : β → Option γ} {m : Nat}
    (hf : ∀ a, y = some a → Bd (f a) (g a) m) : Bd (liftM y >>= f) (y >>= g) m :=
  (Bd.lift y).seq hf (by omega)

theorem Bd.ite {p : Prop} [Decidable p] {x x' : Count β} {y y' : Option β} {m : Nat} (h : p → Bd x y m)
    (h' : ¬ p → Bd x' y' m) : Bd (if p then x else x') (if p then y else y') m := by
  split
  · exact h ‹_›
  · exact h' ‹_›

theorem Bd.tally {x : Option (β × Nat)} {m : Nat} {f : β → Count γ} {g : β × Nat → Option γ} {m' : Nat}
    (h : ∀ a n, x = some (a, n) → n ≤ m ∧ Bd (f a) (g (a, n)) m') : Bd (Fhm.tally x >>= f) (x >>= g) (m + m') := by
  intro r hr
  cases hx : x with
  | none => rw [hx] at hr; cases hr
  | some a =>
    rw [hx] at hr
    obtain ⟨h1, h2⟩ := h a.1 a.2 hx
    obtain ⟨k', h3, h4⟩ := h2 r hr
    refine ⟨a.2 + k', by omega, Costs.bind (r := a.1) ?_ h4⟩
    intro n; rfl

/-! ### The loops -/

/-- There is an empty slot at most `r` steps behind slot `i`. -/
def Near (s : Fhm α) (i r : Nat) : Prop := ∃ j, 2 ≤ j ∧ j < s.cap ∧ (s.mem j).hash = 0 ∧ distance s.cap j i ≤ r

theorem findLoop_cost {s : Fhm α} (hcap : 3 ≤ s.cap) {j : Nat} (hj : 2 ≤ j) (hj' : j < s.cap) (he : (s.mem j).hash = 0)
    (k : κ) (hash : UInt64) : ∀ n i dist, distance s.cap j i = n → 2 ≤ i → i < s.cap →
    ∃ i' st m, findLoop c s k hash i dist = some (⟨some i', st⟩, m) ∧ m ≤ dist + n + 1 ∧ 2 ≤ i' ∧ i' < s.cap ∧
      distance s.cap j i' ≤ n ∧ (Stat.has st Stat.occupied = true → (s.mem i').hash ≠ 0) := by
  intro n
  induction n with
  | zero =>
    intro i dist hn hi hi'
    have := dist_eq_zero hj hj' hi hi' hn
    subst this
    refine ⟨j, Stat.vacant ||| Stat.noUnwrap, dist + 1,
      by rw [findLoop]; simp only [at_eq hj', Option.bind_eq_bind, Option.bind_some, he, true_or, if_true], by omega, hj, hj', by omega, by intro h; exact absurd h (by decide)⟩
  | succ n ih =>
    intro i dist hn hi hi'
    have hne : i ≠ j := by intro e; subst e; rw [dist_self] at hn; omega
    have hd := dist_to_inc hi hi' hj hj' hne
    have hr := inc_range (cap := s.cap) hcap hi
    rw [findLoop]
    simp only [at_eq hi', Option.bind_eq_bind, Option.bind_some]
    split
    · exact ⟨i, _, _, rfl, by omega, hi, hi', by omega, by intro h; exact absurd h (by decide)⟩
    · rename_i h1
      split
      · exact ⟨i, _, _, rfl, by omega, hi, hi', by omega, fun _ h => h1 (.inl h)⟩
      · obtain ⟨i', st, m, k1, k2, k3, k4, k5, k6⟩ := ih (increment s.cap i) (dist + 1) (by omega) hr.1 hr.2
        exact ⟨i', st, m, k1, by omega, k3, k4, by omega, k6⟩

theorem find_cost {s : Fhm α} {k : κ} {hash : UInt64} {r : Nat} {e : Ent} {m : Nat}
    (hn : s.cap = 0 ∨ (3 ≤ s.cap ∧ Near s (toI c s.cap hash) r)) (h : find c s k hash = some (e, m)) :
    m ≤ r + 1 ∧ ∀ i, e.e = some i → 2 ≤ i ∧ i < s.cap ∧ Near s i r ∧
      (Stat.has e.stats Stat.occupied = true → (s.mem i).hash ≠ 0) := by
  unfold find at h
  split at h
  · cases h; exact ⟨by omega, fun i hi => by cases hi⟩
  · split at h
    · cases h; exact ⟨by omega, fun i hi => by cases hi⟩
    · rcases hn with hn | ⟨hc, j, hj, hj', he, hd⟩
      · contradiction
      · have ht := toI_range c hc hash
        obtain ⟨i', st, m', k1, k2, k3, k4, k5, k6⟩ := findLoop_cost (c := c) hc hj hj' he k hash _ (toI c s.cap hash) 0 rfl ht.1 ht.2
        rw [k1] at h
        cases h
        refine ⟨by omega, fun i hi => ?_⟩
        cases hi
        exact ⟨k3, k4, ⟨j, hj, hj', he, by omega⟩, k6⟩

theorem insertLoop_cost {j cap : Nat} (hcap : 3 ≤ cap) (hj : 2 ≤ j) (hj' : j < cap) : ∀ n (s : Fhm α) i dist m,
    s.cap = cap → distance cap j i = n → 2 ≤ i → i < cap → (s.mem j).hash = 0 →
    ∃ s' m', insertLoop c s i dist m = some (s', m') ∧ m' ≤ m + n + 1 := by
  intro n
  induction n with
  | zero =>
    intro s i dist m hc hn hi hi' he
    subst hc
    have := dist_eq_zero hj hj' hi hi' hn
    subst this
    rw [insertLoop]
    simp only [at_eq hi', Option.bind_eq_bind, Option.bind_some, if_pos he, at_eq (show 0 < s.cap by omega), put_eq hi']
    rw [putHash_eq (by exact (by omega : 0 < s.cap))]
    simp only [Option.bind_some]
    rw [putHash_eq (by exact (by omega : 1 < s.cap))]
    simp only [Option.bind_some]
    exact ⟨_, _, rfl, by omega⟩
  | succ n ih =>
    intro s i dist m hc hn hi hi' he
    subst hc
    have hne : i ≠ j := by intro e; subst e; rw [dist_self] at hn; omega
    have hd := dist_to_inc hi hi' hj hj' hne
    have hr := inc_range (cap := s.cap) hcap hi
    rw [insertLoop]
    simp only [at_eq hi', Option.bind_eq_bind, Option.bind_some]
    split
    · simp only [at_eq (show 0 < s.cap by omega), put_eq hi', Option.bind_some]
      rw [putHash_eq (by exact (by omega : 0 < s.cap))]
      simp only [Option.bind_some]
      rw [putHash_eq (by exact (by omega : 1 < s.cap))]
      simp only [Option.bind_some]
      exact ⟨_, _, rfl, by omega⟩
    · split
      · rw [swap_eq (by omega) (by omega) hi' (by omega) (by omega) (by omega)]
        simp only [Option.bind_some]
        obtain ⟨s', m', k1, k2⟩ := ih { s with mem := upd (upd (upd s.mem 1 (s.mem 0)) 0 (s.mem i)) i (s.mem 0) }
          (increment s.cap i) (distance s.cap i (toI c s.cap (s.mem i).hash) + 1) (m + 1) rfl (by omega) hr.1 hr.2
          (by show (upd (upd (upd s.mem 1 _) 0 _) i _ j).hash = 0
              rw [upd_ne _ _ (by omega), upd_ne _ _ (by omega), upd_ne _ _ (by omega)]; exact he)
        exact ⟨s', m', k1, by omega⟩
      · obtain ⟨s', m', k1, k2⟩ := ih s (increment s.cap i) (dist + 1) (m + 1) rfl (by omega) hr.1 hr.2 he
        exact ⟨s', m', k1, by omega⟩

theorem insertAt_cost {s : Fhm α} {x : α} {hash : UInt64} {i r : Nat} (hc : 3 ≤ s.cap) (hi : 2 ≤ i) (hi' : i < s.cap)
    (hn : Near s i r) {p : Fhm α × Nat} (h : insertAt c s x hash i = some p) : p.2 ≤ r + 1 := by
  obtain ⟨j, hj, hj', he, hd⟩ := hn
  unfold insertAt at h
  rw [put_eq (by omega)] at h
  obtain ⟨s', m', k1, k2⟩ := insertLoop_cost (c := c) hc hj hj' _ { s with mem := upd s.mem 0 ⟨hash, x⟩ } i
    (distance s.cap i (toI c s.cap hash)) 0 rfl rfl hi hi'
    (by show (upd s.mem 0 _ j).hash = 0; rw [upd_ne _ _ (by omega)]; exact he)
  simp only [Option.bind_eq_bind, Option.bind_some] at h
  rw [k1] at h
  cases h
  show m' ≤ _
  omega

theorem eraseLoop_cost {j cap : Nat} (hcap : 3 ≤ cap) (hj : 2 ≤ j) (hj' : j < cap) : ∀ n (s : Fhm α) i m,
    s.cap = cap → distance cap j (increment cap i) = n → 2 ≤ i → i < cap → j ≠ i → (s.mem j).hash = 0 →
    ∃ s' m', eraseLoop c s i (increment cap i) m = some (s', m') ∧ m' ≤ m + n + 1 := by
  intro n
  induction n with
  | zero =>
    intro s i m hc hn hi hi' _ he
    subst hc
    have hr := inc_range (cap := s.cap) hcap hi
    have := dist_eq_zero hj hj' hr.1 hr.2 hn
    rw [eraseLoop]
    simp only [at_eq hr.2, Option.bind_eq_bind, Option.bind_some]
    rw [if_pos (.inl (by rw [← this]; exact he)), putHash_eq (by omega)]
    exact ⟨_, _, rfl, by omega⟩
  | succ n ih =>
    intro s i m hc hn hi hi' hji he
    subst hc
    have hr := inc_range (cap := s.cap) hcap hi
    have hne : increment s.cap i ≠ j := by intro e; rw [e, dist_self] at hn; omega
    have hd := dist_to_inc hr.1 hr.2 hj hj' hne
    have hii : increment s.cap i ≠ i := by
      intro e
      have : s.cap = 3 := by unfold increment at e; split at e <;> omega
      omega
    rw [eraseLoop]
    simp only [at_eq hr.2, Option.bind_eq_bind, Option.bind_some]
    split
    · rw [putHash_eq (by omega)]
      exact ⟨_, _, rfl, by omega⟩
    · rw [swap_eq (by omega) hr.2 hi' hii (by omega) (by omega)]
      simp only [Option.bind_some]
      obtain ⟨s', m', k1, k2⟩ := ih { s with mem := upd (upd (upd s.mem 0 (s.mem (increment s.cap i))) (increment s.cap i) (s.mem i)) i (s.mem (increment s.cap i)) }
        (increment s.cap i) (m + 1) rfl (by omega) hr.1 hr.2 hne.symm
        (by show (upd (upd (upd s.mem 0 _) _ _) i _ j).hash = 0
            rw [upd_ne _ _ hji, upd_ne _ _ hne.symm, upd_ne _ _ (by omega)]; exact he)
      exact ⟨s', m', k1, by omega⟩

theorem erase_cost {s : Fhm α} {i r : Nat} (hc : 3 ≤ s.cap) (hi : 2 ≤ i) (hi' : i < s.cap) (ho : (s.mem i).hash ≠ 0)
    (hn : Near s i r) {p : Fhm α × Nat} (h : erase c s i = some p) : p.2 ≤ r + 1 := by
  obtain ⟨j, hj, hj', he, hd⟩ := hn
  have hji : j ≠ i := by intro e; subst e; exact ho he
  have hdi := dist_to_inc hi hi' hj hj' hji.symm
  unfold erase at h
  rw [putHash_eq hi'] at h
  obtain ⟨s', m', k1, k2⟩ := eraseLoop_cost (c := c) hc hj hj' _ { s with mem := upd s.mem i ⟨0, (s.mem i).val⟩ } i 0 rfl rfl hi hi'
    hji (by show (upd s.mem i _ j).hash = 0; rw [upd_ne _ _ hji]; exact he)
  simp only [Option.bind_eq_bind, Option.bind_some] at h
  rw [k1] at h
  cases h
  show m' ≤ _
  omega

theorem Near.next {s : Fhm α} {i r : Nat} {x : Cell α} (hi : 2 ≤ i) (hi' : i < s.cap) (ho : (s.mem i).hash ≠ 0)
    (hn : Near s i r) : Near { s with mem := upd s.mem i x } (increment s.cap i) r := by
  obtain ⟨j, hj, hj', he, hd⟩ := hn
  have hji : j ≠ i := by intro e; subst e; exact ho he
  have hdi := dist_to_inc hi hi' hj hj' hji.symm
  refine ⟨j, hj, hj', ?_, ?_⟩
  · show (upd s.mem i _ j).hash = 0; rw [upd_ne _ _ hji]; exact he
  · show distance s.cap j _ ≤ r; omega

/-! ### Calls -/

/-- What is known of an entry after `entry`. -/
def Post (s : Fhm α) (e : Ent) (r : Nat) : Prop :=
  ∀ i, e.e = some i → 3 ≤ s.cap ∧ 2 ≤ i ∧ i < s.cap ∧ Near s i r ∧ (Stat.has e.stats Stat.occupied = true → (s.mem i).hash ≠ 0)

theorem has_or (a : Nat) (h : Stat.has (a ||| Stat.insertError) Stat.occupied = true) : Stat.has a Stat.occupied = true := by
  unfold Stat.has at *
  have : (a ||| Stat.insertError) &&& Stat.occupied = a &&& Stat.occupied := by
    rw [Nat.and_or_distrib_right]
    rw [show Stat.insertError &&& Stat.occupied = 0 by decide, Nat.or_zero]
  rw [this] at h
  exact h

/-- The key `k` can be looked for at a cost of `r`. -/
def Close (c : Cfg κ α) (s : Fhm α) (k : κ) (r : Nat) : Prop := s.cap = 0 ∨ (3 ≤ s.cap ∧ Near s (toI c s.cap (filter c k)) r)

theorem find_post {s : Fhm α} {k : κ} {r : Nat} {e : Ent} {m : Nat} (hn : Close c s k r)
    (h : find c s k (filter c k) = some (e, m)) : m ≤ r + 1 ∧ Post s e r := by
  obtain ⟨h1, h2⟩ := find_cost hn h
  refine ⟨h1, fun i hi => ?_⟩
  obtain ⟨k1, k2, k3, k4⟩ := h2 i hi
  exact ⟨by omega, k1, k2, k3, k4⟩

/-- The cost of `entry`. -/
theorem entry_bd {s : Fhm α} {k : κ} {ans : AllocAns α} {rc r : Nat} (hm : Bd (maybeResizeN c s ans) (maybeResize c s ans) rc)
    (hr : ∀ p, maybeResize c s ans = some p → Close c p.1 k r) {f : Fhm α × FEnt → Count β} {g : Fhm α × FEnt → Option β}
    {m' : Nat} (hf : ∀ p, Post p.1 p.2.ent r → Bd (f p) (g p) m') :
    Bd (entryN c s k ans >>= f) (entry c s k ans >>= g) (rc + (r + 1) + m') := by
  have h1 : Bd (entryN c s k ans) (entry c s k ans) (rc + (r + 1)) := by
    unfold entryN entry
    refine hm.bind (fun p hp => ?_)
    obtain ⟨s1, re⟩ := p
    exact Bd.tally (m' := 0) (fun e m hq => ⟨(find_post (hr _ hp) hq).1, Bd.pure _⟩)
  refine h1.bind (fun p hp => hf p ?_)
  unfold entry at hp
  simp only [Option.bind_eq_bind, Option.bind_eq_some_iff] at hp
  obtain ⟨⟨s1, re⟩, e1, ⟨e, m⟩, e2, e3⟩ := hp
  cases e3
  have hP := (find_post (hr _ e1) e2).2
  intro i hi
  obtain ⟨k1, k2, k3, k4, k5⟩ := hP i hi
  refine ⟨k1, k2, k3, k4, fun ho => k5 ?_⟩
  simp only at ho
  split at ho
  · exact has_or _ ho
  · exact ho

theorem insertAt_bd {s : Fhm α} {e : Ent} {r i : Nat} {x : α} {h : UInt64} (hP : Post s e r) (hi : e.e = some i)
    {f : Fhm α → Count β} {g : Fhm α × Nat → Option β} (hf : ∀ t n, Bd (f t) (g (t, n)) 0) :
    Bd (insertAtN c s x h i >>= f) (insertAt c s x h i >>= g) (r + 1) := by
  obtain ⟨k1, k2, k3, k4, k5⟩ := hP i hi
  exact Bd.tally (m' := 0) (fun q n hq => ⟨insertAt_cost k1 k2 k3 k4 hq, hf q n⟩)

theorem erase_bd {s : Fhm α} {e : Ent} {r i : Nat} (hP : Post s e r) (hi : e.e = some i)
    (ho : Stat.has e.stats Stat.occupied = true)
    {f : Fhm α → Count β} {g : Fhm α × Nat → Option β} (hf : ∀ t n, Bd (f t) (g (t, n)) 0) :
    Bd (eraseN c s i >>= f) (erase c s i >>= g) (r + 1) := by
  obtain ⟨k1, k2, k3, k4, k5⟩ := hP i hi
  exact Bd.tally (m' := 0) (fun q n hq => ⟨erase_cost k1 k2 k3 (k5 ho) k4 hq, hf q n⟩)

theorem swaps_bd {s : Fhm α} {e : FEnt} {r : Nat} {x : α} (hP : Post s e.ent r) :
    Bd (swapsN c s e x) (swaps c s e x) (r + 1) := by
  unfold swapsN swaps
  refine Bd.after (fun i hi => Bd.after (fun y hy => ?_))
  obtain ⟨k1, k2, k3, k4, k5⟩ := hP i hi
  rw [at_eq k3] at hy
  cases hy
  refine Bd.ite (fun _ => ?_) (fun h0 => ?_)
  · exact (Bd.after (fun t _ => Bd.pure _)).mono (by omega)
  · refine Bd.after (fun t ht => ?_)
    rw [put_eq k3] at ht
    cases ht
    have hr := inc_range (cap := s.cap) k1 k2
    exact Bd.tally (m' := 0) (fun q n hq => ⟨insertAt_cost (s := { s with mem := upd s.mem i _ }) k1 hr.1 hr.2 (k4.next k2 k3 h0) hq, Bd.pure _⟩)

/-- The key a call looks for, with the answer of the allocation function if the call may grow the map. -/
def looks : Op α κ → Option (κ × Option (AllocAns α))
  | .insert x ans | .tryInsert x ans | .insertOrAssign x ans => some (c.key x, some ans)
  | .remove x => some (c.key x, none)
  | .orInsert k _ _ ans | .insertEntry k _ ans | .removeEntry k ans | .andModify k _ ans | .occupied k ans
  | .insertError k ans | .orInsertW k _ ans | .insertEntryW k _ ans | .tryInsertW k _ ans
  | .insertOrAssignW k _ ans | .contains k ans => some (k, some ans)
  | .get k _ => some (k, none)
  | .size | .isEmpty | .capacity | .validate | .clear => none

theorem step_bd_entry {s : Fhm α} {op : Op α κ} {k : κ} {ans : AllocAns α} (hop : looks (c := c) op = some (k, some ans)) {rc r : Nat}
    (hm : Bd (maybeResizeN c s ans) (maybeResize c s ans) rc) (hr : ∀ p, maybeResize c s ans = some p → Close c p.1 k r) :
    Bd (stepN c s op) (step c s op) (rc + (r + 1) + (r + 1)) := by
  cases op <;> simp only [looks, Option.some.injEq, Prod.mk.injEq, reduceCtorEq, and_false] at hop <;>
    (obtain ⟨rfl, rfl⟩ := hop) <;> simp only [stepN, step]
  · -- insert
    refine Bd.seq (m := rc + (r + 1) + (r + 1)) ?_ (fun a _ => Bd.pure _) (by omega)
    exact entry_bd hm hr (fun p hP => Bd.ite
      (fun _ => (Bd.after (fun i _ => Bd.after (fun _ _ => Bd.after (fun _ _ => Bd.after (fun _ _ => Bd.after (fun _ _ => Bd.pure _)))))).mono (by omega))
      (fun _ => Bd.ite (fun _ => (Bd.pure _).mono (by omega)) (fun _ => Bd.after (fun i hi => insertAt_bd hP hi (fun _ _ => Bd.pure _)))))
  · -- tryInsert
    refine Bd.seq (m := rc + (r + 1) + (r + 1)) ?_ (fun a _ => Bd.pure _) (by omega)
    exact entry_bd hm hr (fun p hP => Bd.ite (fun _ => (Bd.pure _).mono (by omega)) (fun _ => Bd.ite (fun _ => (Bd.pure _).mono (by omega)) (fun _ => Bd.after (fun i hi => insertAt_bd hP hi (fun _ _ => Bd.pure _)))))
  · -- insertOrAssign
    refine Bd.seq (m := rc + (r + 1) + (r + 1)) ?_ (fun a _ => Bd.pure _) (by omega)
    exact entry_bd hm hr (fun p hP => Bd.ite (fun _ => (Bd.after (fun i _ => Bd.after (fun _ _ => Bd.pure _))).mono (by omega)) (fun _ => Bd.ite (fun _ => (Bd.pure _).mono (by omega)) (fun _ => Bd.after (fun i hi => insertAt_bd hP hi (fun _ _ => Bd.pure _)))))
  · -- orInsert
    refine entry_bd hm hr (fun p hP => Bd.seq (m := r + 1) (m' := 0) ?_ (fun a _ => Bd.after (fun _ _ => Bd.pure _)) (by omega))
    exact Bd.ite (fun _ => (Bd.pure _).mono (by omega)) (fun _ => Bd.ite (fun _ => (Bd.pure _).mono (by omega)) (fun _ => Bd.after (fun i hi => insertAt_bd hP hi (fun _ _ => Bd.pure _))))
  · -- insertEntry
    refine entry_bd hm hr (fun p hP => Bd.seq (m := r + 1) (m' := 0) ?_ (fun a _ => Bd.pure _) (by omega))
    exact Bd.ite (fun _ => (Bd.after (fun i _ => Bd.after (fun _ _ => Bd.pure _))).mono (by omega)) (fun _ => Bd.ite (fun _ => (Bd.pure _).mono (by omega)) (fun _ => Bd.after (fun i hi => insertAt_bd hP hi (fun _ _ => Bd.pure _))))
  · -- removeEntry
    refine entry_bd hm hr (fun p hP => Bd.seq (m := r + 1) (m' := 0) ?_ (fun a _ => Bd.pure _) (by omega))
    exact Bd.ite (fun _ => (Bd.pure _).mono (by omega)) (fun h => Bd.after (fun i hi => erase_bd hP hi (by rw [Decidable.not_not.1 h]; rfl) (fun _ _ => Bd.pure _)))
  · -- andModify
    exact entry_bd hm hr (fun p hP => (Bd.after (fun _ _ => Bd.pure _)).mono (by omega))
  · -- occupied
    exact entry_bd hm hr (fun p hP => (Bd.pure _).mono (by omega))
  · -- insertError
    exact entry_bd hm hr (fun p hP => (Bd.pure _).mono (by omega))
  · -- orInsertW
    refine entry_bd hm hr (fun p hP => Bd.seq (m := r + 1) (m' := 0) ?_ (fun a _ => Bd.pure _) (by omega))
    exact Bd.ite (fun _ => Bd.ite (fun _ => (Bd.pure _).mono (by omega)) (fun _ => swaps_bd hP)) (fun _ => (Bd.pure _).mono (by omega))
  · -- insertEntryW
    refine entry_bd hm hr (fun p hP => Bd.seq (m := r + 1) (m' := 0) ?_ (fun a _ => Bd.pure _) (by omega))
    exact Bd.ite (fun _ => Bd.ite (fun _ => (Bd.after (fun i _ => Bd.after (fun _ _ => Bd.pure _))).mono (by omega)) (fun _ => swaps_bd hP)) (fun _ => (Bd.pure _).mono (by omega))
  · -- tryInsertW
    refine Bd.seq (m := rc + (r + 1) + (r + 1)) ?_ (fun a _ => Bd.pure _) (by omega)
    exact entry_bd hm hr (fun p hP => Bd.ite (fun _ => (Bd.pure _).mono (by omega)) (fun _ => (swaps_bd hP).seq (m' := 0) (fun _ _ => Bd.pure _) (by omega)))
  · -- insertOrAssignW
    refine Bd.seq (m := rc + (r + 1) + (r + 1)) ?_ (fun a _ => Bd.pure _) (by omega)
    exact entry_bd hm hr (fun p hP => Bd.ite (fun _ => (Bd.after (fun i _ => Bd.after (fun _ _ => Bd.pure _))).mono (by omega)) (fun _ => Bd.ite (fun _ => (Bd.pure _).mono (by omega)) (fun _ => (swaps_bd hP).seq (m' := 0) (fun _ _ => Bd.pure _) (by omega))))
  · -- contains
    refine Bd.seq (m := rc + (r + 1) + (r + 1)) ?_ (fun a _ => Bd.pure _) (by omega)
    exact entry_bd hm hr (fun p hP => (Bd.pure _).mono (by omega))

theorem step_bd_find {s : Fhm α} {op : Op α κ} {k : κ} (hop : looks (c := c) op = some (k, none)) {r : Nat} (hr : Close c s k r) :
    Bd (stepN c s op) (step c s op) ((r + 1) + (r + 1)) := by
  cases op <;> simp only [looks, Option.some.injEq, Prod.mk.injEq, reduceCtorEq, and_false, and_true] at hop <;>
    subst hop <;> simp only [stepN, step]
  · -- remove
    refine Bd.seq (m := (r + 1) + (r + 1)) ?_ (fun a _ => Bd.pure _) (by omega)
    unfold removeN remove
    refine Bd.tally (fun e m hq => ?_)
    obtain ⟨h1, h2⟩ := find_post hr hq
    refine ⟨h1, Bd.ite (fun ho => ?_) (fun _ => (Bd.pure _).mono (by omega))⟩
    exact Bd.after (fun i hi => Bd.after (fun _ _ => erase_bd h2 hi ho (fun _ _ => Bd.pure _)))
  · -- get
    refine Bd.seq (m := r + 1) (m' := 0) ?_ (fun a _ => Bd.after (fun _ _ => Bd.pure _)) (by omega)
    unfold getN get
    refine Bd.ite (fun _ => (Bd.pure _).mono (by omega)) (fun _ => ?_)
    exact Bd.tally (m' := 0) (fun e m hq => ⟨(find_post hr hq).1, Bd.pure _⟩)

theorem step_bd_none {s : Fhm α} {op : Op α κ} (hop : looks (c := c) op = none) : Bd (stepN c s op) (step c s op) 0 := by
  cases op <;> simp only [looks, reduceCtorEq] at hop <;> simp only [stepN, step]
  · exact Bd.pure _
  · exact Bd.pure _
  · exact Bd.pure _
  · exact Bd.after (fun _ _ => Bd.pure _)
  · exact Bd.after (fun _ _ => Bd.pure _)

end CCC.Fhm
