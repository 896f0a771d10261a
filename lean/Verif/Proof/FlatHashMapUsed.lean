import Verif.Proof.FlatHashMapGrow
/-
A table that has been put in order stays in order: its memory is not wiped again unless the map is cleared.
-/
namespace CCC.Fhm
open CCC HashMap

variable {α κ : Type} {c : Cfg κ α} {β γ : Type}

/-- Every result has the property. -/
def Sat (y : Option β) (Q : β → Prop) : Prop := ∀ r, y = some r → Q r

theorem Sat.pure {a : β} {Q : β → Prop} (h : Q a) : Sat (some a) Q := by
  intro r hr; cases hr; exact h

theorem Sat.bind {y : Option β} {g : β → Option γ} {Q : γ → Prop} (h : ∀ a, y = some a → Sat (g a) Q) : Sat (y >>= g) Q := by
  intro r hr
  cases hy : y with
  | none => rw [hy] at hr; cases hr
  | some a => rw [hy] at hr; exact h a hy r hr

theorem Sat.ite {p : Prop} [Decidable p] {y y' : Option β} {Q : β → Prop} (h : p → Sat y Q) (h' : ¬ p → Sat y' Q) :
    Sat (if p then y else y') Q := by
  split
  · exact h ‹_›
  · exact h' ‹_›

/-- The memory has been put in order. -/
def Used (s : Fhm α) : Prop := 2 ≤ s.cap → 2 ≤ s.sz

/-- Only the contents of slots differ. -/
theorem put_used {s t : Fhm α} {i : Nat} {x : Cell α} (h : put s i x = some t) (hu : Used s) : Used t := by
  unfold put at h
  split at h
  · cases h; exact hu
  · cases h

theorem putHash_used {s t : Fhm α} {i : Nat} {x : UInt64} (h : putHash s i x = some t) (hu : Used s) : Used t := by
  unfold putHash at h
  simp only [Option.bind_eq_bind, Option.bind_eq_some_iff] at h
  obtain ⟨_, _, h⟩ := h
  exact put_used h hu

theorem swap_used {s t : Fhm α} {a b d : Nat} (h : swap s a b d = some t) (hu : Used s) : Used t := by
  unfold swap at h
  split at h
  · cases h; exact hu
  · simp only [Option.bind_eq_bind, Option.bind_eq_some_iff] at h
    obtain ⟨_, _, s1, h1, _, _, s2, h2, _, _, h3⟩ := h
    exact put_used h3 (put_used h2 (put_used h1 hu))

theorem sizePlus_used {s : Fhm α} (hu : Used s) : Used (sizePlus s 1) := by
  intro h
  have := hu h
  have h : 2 ≤ s.cap := h
  simp only [sizePlus]
  split <;> omega

theorem poke_used {s t : Fhm α} {p : Slot} {f : α → α} (h : poke s p f = some t) (hu : Used s) : Used t := by
  unfold poke at h
  split at h
  · cases h; exact hu
  · simp only [Option.bind_eq_bind, Option.bind_eq_some_iff] at h
    obtain ⟨_, _, h⟩ := h
    exact put_used h hu

theorem andModify_used {s t : Fhm α} {e : FEnt} {f : α → α} (h : andModify s e f = some t) (hu : Used s) : Used t := by
  unfold andModify at h
  split at h
  · simp only [Option.bind_eq_bind, Option.bind_eq_some_iff] at h
    obtain ⟨_, _, _, _, h⟩ := h
    exact put_used h hu
  · cases h; exact hu

theorem insertLoop_used : ∀ (s : Fhm α) (i dist n : Nat) (r : Fhm α × Nat), insertLoop c s i dist n = some r → Used s → Used r.1 := by
  refine insertLoop.partial_correctness c (fun s _ _ _ r => Used s → Used r.1) ?_
  intro f hf s i dist n r h hu
  simp only [Option.bind_eq_bind, Option.bind_eq_some_iff] at h
  obtain ⟨x, _, h⟩ := h
  split at h
  · simp only [Option.bind_eq_some_iff] at h
    obtain ⟨_, _, s1, h1, s2, h2, s3, h3, h4⟩ := h
    cases h4
    exact putHash_used h3 (putHash_used h2 (sizePlus_used (put_used h1 hu)))
  · split at h
    · simp only [Option.bind_eq_some_iff] at h
      obtain ⟨s1, h1, h2⟩ := h
      exact hf _ _ _ _ _ h2 (swap_used h1 hu)
    · exact hf _ _ _ _ _ h hu

theorem insertAt_used {s : Fhm α} {x : α} {h : UInt64} {i : Nat} (hu : Used s) : Sat (insertAt c s x h i) (fun p => Used p.1) := by
  intro r hr
  unfold insertAt at hr
  simp only [Option.bind_eq_bind, Option.bind_eq_some_iff] at hr
  obtain ⟨s1, h1, h2⟩ := hr
  exact insertLoop_used _ _ _ _ _ h2 (put_used h1 hu)

theorem eraseLoop_sz : ∀ (s : Fhm α) (i next n : Nat) (r : Fhm α × Nat), eraseLoop c s i next n = some r → r.1.sz = s.sz - 1 := by
  refine eraseLoop.partial_correctness c (fun s _ _ _ r => r.1.sz = s.sz - 1) ?_
  intro f hf s i next n r h
  have hput : ∀ {s t : Fhm α} {i : Nat} {x : Cell α}, put s i x = some t → t.sz = s.sz := by
    intro s t i x h
    unfold put at h
    split at h
    · cases h; rfl
    · cases h
  simp only [Option.bind_eq_bind, Option.bind_eq_some_iff] at h
  obtain ⟨x, _, h⟩ := h
  split at h
  · simp only [putHash, Option.bind_eq_bind, Option.bind_eq_some_iff] at h
    obtain ⟨s1, ⟨_, _, h1⟩, h2⟩ := h
    cases h2
    rw [← hput h1]
    simp only [sizeMinus]
    split <;> omega
  · simp only [Option.bind_eq_some_iff] at h
    obtain ⟨s1, h1, h2⟩ := h
    rw [hf _ _ _ _ _ h2]
    unfold swap at h1
    split at h1
    · cases h1; rfl
    · simp only [Option.bind_eq_bind, Option.bind_eq_some_iff] at h1
      obtain ⟨_, _, s1, h1, _, _, s2, h2, _, _, h3⟩ := h1
      rw [hput h3, hput h2, hput h1]

theorem erase_used {s : Fhm α} {i : Nat} (hu : 3 ≤ s.sz) : Sat (erase c s i) (fun p => Used p.1) := by
  intro r hr
  unfold erase putHash put at hr
  simp only [Option.bind_eq_bind, Option.bind_eq_some_iff] at hr
  obtain ⟨s1, ⟨_, _, h1⟩, h2⟩ := hr
  split at h1
  · cases h1
    have := eraseLoop_sz _ _ _ _ _ h2
    intro _
    rw [this]
    show 2 ≤ s.sz - 1
    omega
  · cases h1

theorem swaps_used {s : Fhm α} {e : FEnt} {x : α} (hu : Used s) : Sat (swaps c s e x) (fun p => Used p.1) := by
  unfold swaps
  refine Sat.bind (fun i _ => Sat.bind (fun y _ => Sat.ite (fun _ => ?_) (fun _ => ?_)))
  · exact Sat.bind (fun t ht => Sat.pure (sizePlus_used (put_used ht hu)))
  · exact Sat.bind (fun t ht => Sat.bind (fun p hp => Sat.pure (insertAt_used (put_used ht hu) p hp)))

/-- An occupied slot means that there are three in use. -/
def Full (s : Fhm α) : Prop := ∀ i, 2 ≤ i → i < s.cap → (s.mem i).hash ≠ 0 → 3 ≤ s.sz

/-- What is known of an entry. -/
def Held (s : Fhm α) (e : Ent) : Prop := ∀ i, e.e = some i → Stat.has e.stats Stat.occupied = true → 3 ≤ s.sz

theorem find_held {s : Fhm α} {k : κ} {r : Nat} {e : Ent} {m : Nat} (hn : Close c s k r) (hf : Full s)
    (h : find c s k (filter c k) = some (e, m)) : Held s e := by
  intro i hi ho
  obtain ⟨k1, k2, k3, k4, k5⟩ := (find_post hn h).2 i hi
  exact hf i k2 k3 (k5 ho)

theorem entry_used {s : Fhm α} {k : κ} {ans : AllocAns α} {r : Nat}
    (hr : ∀ p, maybeResize c s ans = some p → Close c p.1 k r ∧ Used p.1 ∧ Full p.1) {g : Fhm α × FEnt → Option β} {Q : β → Prop}
    (hg : ∀ p, Used p.1 → Held p.1 p.2.ent → Sat (g p) Q) : Sat (entry c s k ans >>= g) Q := by
  refine Sat.bind (fun p hp => ?_)
  unfold entry at hp
  simp only [Option.bind_eq_bind, Option.bind_eq_some_iff] at hp
  obtain ⟨⟨s1, re⟩, e1, ⟨e, m⟩, e2, e3⟩ := hp
  cases e3
  obtain ⟨h1, h2, h3⟩ := hr _ e1
  refine hg _ h2 ?_
  intro i hi ho
  refine find_held h1 h3 e2 i hi ?_
  simp only at ho
  split at ho
  · exact has_or _ ho
  · exact ho

theorem step_used_entry {s : Fhm α} {op : Op α κ} {k : κ} {ans : AllocAns α} (hop : looks (c := c) op = some (k, some ans)) {r : Nat}
    (hr : ∀ p, maybeResize c s ans = some p → Close c p.1 k r ∧ Used p.1 ∧ Full p.1) :
    Sat (step c s op) (fun p => Used p.1) := by
  cases op <;> simp only [looks, Option.some.injEq, Prod.mk.injEq, reduceCtorEq, and_false] at hop <;>
    (obtain ⟨rfl, rfl⟩ := hop) <;> simp only [step]
  · -- insert
    refine Sat.bind (fun a ha => Sat.pure ?_)
    refine (?_ : Sat (insert c s _ _) (fun p => Used p.1)) a ha
    refine entry_used hr (fun p hu hh => Sat.ite (fun _ => ?_) (fun _ => Sat.ite (fun _ => Sat.pure hu) (fun _ => ?_)))
    · exact Sat.bind (fun _ _ => Sat.bind (fun _ _ => Sat.bind (fun _ h1 => Sat.bind (fun _ h2 => Sat.bind (fun _ h3 =>
        Sat.pure (putHash_used h3 (put_used h2 (put_used h1 hu))))))))
    · exact Sat.bind (fun _ _ => Sat.bind (fun q hq => Sat.pure (insertAt_used hu q hq)))
  · -- tryInsert
    refine Sat.bind (fun a ha => Sat.pure ?_)
    refine (?_ : Sat (tryInsert c s _ _) (fun p => Used p.1)) a ha
    refine entry_used hr (fun p hu hh => Sat.ite (fun _ => Sat.pure hu) (fun _ => Sat.ite (fun _ => Sat.pure hu) (fun _ => ?_)))
    exact Sat.bind (fun _ _ => Sat.bind (fun q hq => Sat.pure (insertAt_used hu q hq)))
  · -- insertOrAssign
    refine Sat.bind (fun a ha => Sat.pure ?_)
    refine (?_ : Sat (insertOrAssign c s _ _) (fun p => Used p.1)) a ha
    refine entry_used hr (fun p hu hh => Sat.ite (fun _ => ?_) (fun _ => Sat.ite (fun _ => Sat.pure hu) (fun _ => ?_)))
    · exact Sat.bind (fun _ _ => Sat.bind (fun _ h1 => Sat.pure (put_used h1 hu)))
    · exact Sat.bind (fun _ _ => Sat.bind (fun q hq => Sat.pure (insertAt_used hu q hq)))
  · -- orInsert
    refine entry_used hr (fun p hu hh => Sat.bind (fun a ha => ?_))
    have : Used a.1 := by
      refine (?_ : Sat (orInsert c p.1 p.2 _) (fun p => Used p.1)) a ha
      refine Sat.ite (fun _ => Sat.pure hu) (fun _ => Sat.ite (fun _ => Sat.pure hu) (fun _ => ?_))
      exact Sat.bind (fun _ _ => Sat.bind (fun q hq => Sat.pure (insertAt_used hu q hq)))
    exact Sat.bind (fun t ht => Sat.pure (poke_used ht this))
  · -- insertEntry
    refine entry_used hr (fun p hu hh => Sat.bind (fun a ha => Sat.pure ?_))
    refine (?_ : Sat (insertEntry c p.1 p.2 _) (fun p => Used p.1)) a ha
    refine Sat.ite (fun _ => ?_) (fun _ => Sat.ite (fun _ => Sat.pure hu) (fun _ => ?_))
    · exact Sat.bind (fun _ _ => Sat.bind (fun _ h1 => Sat.pure (put_used h1 hu)))
    · exact Sat.bind (fun _ _ => Sat.bind (fun q hq => Sat.pure (insertAt_used hu q hq)))
  · -- removeEntry
    refine entry_used hr (fun p hu hh => Sat.bind (fun a ha => Sat.pure ?_))
    refine (?_ : Sat (removeEntry c p.1 p.2) (fun p => Used p.1)) a ha
    refine Sat.ite (fun _ => Sat.pure hu) (fun h => ?_)
    exact Sat.bind (fun i hi => Sat.bind (fun q hq => Sat.pure (erase_used (hh i hi (by rw [Decidable.not_not.1 h]; rfl)) q hq)))
  · -- andModify
    exact entry_used hr (fun p hu hh => Sat.bind (fun a ha => Sat.pure (andModify_used ha hu)))
  · exact entry_used hr (fun p hu hh => Sat.pure hu)
  · exact entry_used hr (fun p hu hh => Sat.pure hu)
  · -- orInsertW
    refine entry_used hr (fun p hu hh => Sat.bind (fun a ha => Sat.pure ?_))
    refine (?_ : Sat (orInsertW c p.1 p.2 _) (fun p => Used p.1)) a ha
    exact Sat.ite (fun _ => Sat.ite (fun _ => Sat.pure hu) (fun _ => swaps_used hu)) (fun _ => Sat.pure hu)
  · -- insertEntryW
    refine entry_used hr (fun p hu hh => Sat.bind (fun a ha => Sat.pure ?_))
    refine (?_ : Sat (insertEntryW c p.1 p.2 _) (fun p => Used p.1)) a ha
    refine Sat.ite (fun _ => Sat.ite (fun _ => ?_) (fun _ => swaps_used hu)) (fun _ => Sat.pure hu)
    exact Sat.bind (fun _ _ => Sat.bind (fun _ h1 => Sat.pure (put_used h1 hu)))
  · -- tryInsertW
    refine Sat.bind (fun a ha => Sat.pure ?_)
    refine (?_ : Sat (tryInsertW c s _ _ _) (fun p => Used p.1)) a ha
    refine entry_used hr (fun p hu hh => Sat.ite (fun _ => Sat.pure hu) (fun _ => ?_))
    exact Sat.bind (fun q hq => Sat.pure (swaps_used hu q hq))
  · -- insertOrAssignW
    refine Sat.bind (fun a ha => Sat.pure ?_)
    refine (?_ : Sat (insertOrAssignW c s _ _ _) (fun p => Used p.1)) a ha
    refine entry_used hr (fun p hu hh => Sat.ite (fun _ => ?_) (fun _ => Sat.ite (fun _ => Sat.pure hu) (fun _ => ?_)))
    · exact Sat.bind (fun _ _ => Sat.bind (fun _ h1 => Sat.pure (put_used h1 hu)))
    · exact Sat.bind (fun q hq => Sat.pure (swaps_used hu q hq))
  · -- contains
    refine Sat.bind (fun a ha => Sat.pure ?_)
    refine (?_ : Sat (contains c s _ _) (fun p => Used p.1)) a ha
    exact entry_used hr (fun p hu hh => Sat.pure hu)

/-- Lookup and removal keep the state, or the table in order. -/
theorem step_used_find {s : Fhm α} {op : Op α κ} {k : κ} (hop : looks (c := c) op = some (k, none)) {r : Nat} (hr : Close c s k r)
    (hf : Full s) : Sat (step c s op) (fun p => Used s → Used p.1) := by
  cases op <;> simp only [looks, Option.some.injEq, Prod.mk.injEq, reduceCtorEq, and_false, and_true] at hop <;>
    subst hop <;> simp only [step]
  · -- remove
    refine Sat.bind (fun a ha => Sat.pure (fun hu => ?_))
    refine (?_ : Sat (remove c s _) (fun p => Used p.1)) a ha
    refine Sat.bind (fun e he => Sat.ite (fun ho => ?_) (fun _ => Sat.pure hu))
    exact Sat.bind (fun i hi => Sat.bind (fun _ _ => Sat.bind (fun q hq => Sat.pure (erase_used (find_held hr hf he i hi ho) q hq))))
  · -- get
    exact Sat.bind (fun a ha => Sat.bind (fun t ht => Sat.pure (fun hu => poke_used ht hu)))

end CCC.Fhm
