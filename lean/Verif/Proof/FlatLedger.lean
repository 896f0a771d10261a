import Verif.Model.FlatLedger
/-
Relation between a program that records the calls of the allocation function and the program without them.
-/
namespace CCC
namespace Flat

/-- `mem_` is NULL exactly if the capacity is 0, and it is a block that was granted. -/
def Own (h : Mem) (c : Nat) : Prop := (h.mem = none ↔ c = 0) ∧ ∀ a, h.mem = some a → a < h.next

/-- `x` does what `y` does; `s` and `v` give the capacity before and after, and whether the allocation function can be called. -/
def Keeps {β : Type} (x : Fl β) (y : Option β) (s : Nat × Bool) (v : β → Nat × Bool) : Prop :=
  ∀ r, y = some r → (v r).2 = s.2 ∧ ∀ h, Own h s.1 → ∃ h' es, x h = some (r, h') ∧ h'.log = h.log ++ es ∧
    account (own h.mem s.1) es = some (own h'.mem (v r).1) ∧ Own h' (v r).1 ∧ (s.2 = false → h' = h)

theorem account_append (held : List (Nat × Nat)) (es es' : List Ev) :
    account held (es ++ es') = (account held es).bind (account · es') := by
  induction es generalizing held with
  | nil => rfl
  | cons e es ih =>
    cases e with
    | got old new size =>
      simp only [List.cons_append, account, Option.bind_eq_bind]
      cases back held old with
      | none => rfl
      | some l => simp only [Option.bind_some]; split <;> simp [ih]
    | refused old size =>
      simp only [List.cons_append, account, Option.bind_eq_bind]
      cases back held old with
      | none => rfl
      | some l => simp [ih]
    | freed old =>
      simp only [List.cons_append, account, Option.bind_eq_bind]
      cases back held old with
      | none => rfl
      | some l => simp [ih]

namespace Keeps
variable {β γ : Type}

theorem bind {x : Fl β} {y : Option β} {f : β → Fl γ} {g : β → Option γ} {s : Nat × Bool} {v : β → Nat × Bool}
    {w : γ → Nat × Bool} (hx : Keeps x y s v) (hf : ∀ a, y = some a → Keeps (f a) (g a) (v a) w) :
    Keeps (x >>= f) (y >>= g) s w := by
  intro r hr
  rcases hy : y with _ | a
  · rw [hy] at hr; cases hr
  · rw [hy] at hr
    obtain ⟨q1, h1⟩ := hx a hy
    obtain ⟨q2, h2⟩ := hf a hy r hr
    refine ⟨q2.trans q1, fun h ho => ?_⟩
    obtain ⟨h', es, e1, l1, a1, o1, z1⟩ := h1 h ho
    obtain ⟨h'', es', e2, l2, a2, o2, z2⟩ := h2 h' o1
    refine ⟨h'', es ++ es', ?_, by rw [l2, l1, List.append_assoc], ?_, o2, fun z => ?_⟩
    · show (x h >>= fun p => f p.1 p.2) = _
      rw [e1]; exact e2
    · rw [account_append, a1]; exact a2
    · rw [z2 (q1.trans z), z1 z]

theorem lift {y : Option β} {s : Nat × Bool} {v : β → Nat × Bool} (hv : ∀ r, y = some r → v r = s) :
    Keeps (liftM y) y s v := by
  intro r hr
  refine ⟨by rw [hv r hr], fun h ho => ⟨h, [], ?_, by simp, by rw [hv r hr]; rfl, by rwa [hv r hr], fun _ => rfl⟩⟩
  subst hr; rfl

theorem pure {a : β} {s : Nat × Bool} {v : β → Nat × Bool} (hv : v a = s) : Keeps (pure a) (some a) s v :=
  lift (y := some a) (by intro r hr; cases hr; exact hv)

theorem ite {p : Prop} [Decidable p] {x x' : Fl β} {y y' : Option β} {s : Nat × Bool} {v : β → Nat × Bool}
    (h1 : p → Keeps x y s v) (h2 : ¬ p → Keeps x' y' s v) :
    Keeps (if p then x else x') (if p then y else y') s v := by
  by_cases h : p
  · rw [if_pos h, if_pos h]; exact h1 h
  · rw [if_neg h, if_neg h]; exact h2 h

/-- The final answer is computed from the result. -/
theorem map {x : Fl β} {y : Option β} {f : β → γ} {s : Nat × Bool} {v : β → Nat × Bool}
    {w : γ → Nat × Bool} (hx : Keeps x y s v) (hw : ∀ a, w (f a) = v a) :
    Keeps (x >>= fun a => (Pure.pure (f a) : Fl γ)) (y.map f) s w := by
  have := hx.bind (f := fun a => (Pure.pure (f a) : Fl γ)) (g := fun a => some (f a)) (w := w)
    (fun a _ => Keeps.pure (hw a))
  cases y <;> exact this

theorem view {x : Fl β} {y : Option β} {s s' : Nat × Bool} {v v' : β → Nat × Bool} (hx : Keeps x y s v)
    (hs : s = s') (hv : ∀ r, y = some r → v r = v' r) : Keeps x y s' v' := by
  subst hs
  intro r hr
  rw [← hv r hr]; exact hx r hr

/-- `mem_` is overwritten and restored. -/
theorem restore {x : Fl β} {y : Option β} {s : Nat × Bool} {v : β → Nat × Bool} (q : Slot) (hx : Keeps x y s v) :
    Keeps (getMem >>= fun p => setMem q >>= fun _ => setMem p >>= fun _ => x) y s v := hx

end Keeps

/-- Whatever `y` returns has the shape `s`. -/
def Same {β : Type} (y : Option β) (s : Nat × Bool) (v : β → Nat × Bool) : Prop := ∀ r, y = some r → v r = s

namespace Same
variable {β γ : Type}

theorem some {a : β} {s : Nat × Bool} {v : β → Nat × Bool} (h : v a = s) : Same (some a) s v := by
  intro r hr; cases hr; exact h

theorem none {s : Nat × Bool} {v : β → Nat × Bool} : Same (none : Option β) s v := by intro r hr; cases hr

theorem skip {y : Option β} {g : β → Option γ} {s : Nat × Bool} {v : γ → Nat × Bool} (h : ∀ a, Same (g a) s v) :
    Same (y >>= g) s v := by
  intro r hr
  cases y with
  | none => cases hr
  | some a => exact h a r hr

theorem bind {y : Option β} {g : β → Option γ} {s t : Nat × Bool} {u : β → Nat × Bool} {v : γ → Nat × Bool}
    (hy : Same y t u) (h : ∀ a, u a = t → Same (g a) s v) : Same (y >>= g) s v := by
  intro r hr
  cases y with
  | none => cases hr
  | some a => exact h a (hy a rfl) r hr

theorem ite {p : Prop} [Decidable p] {y z : Option β} {s : Nat × Bool} {v : β → Nat × Bool}
    (h1 : p → Same y s v) (h2 : ¬ p → Same z s v) : Same (if p then y else z) s v := by
  by_cases h : p
  · rw [if_pos h]; exact h1 h
  · rw [if_neg h]; exact h2 h

theorem map {y : Option β} {f : β → γ} {s : Nat × Bool} {u : β → Nat × Bool} {v : γ → Nat × Bool}
    (hy : Same y s u) (h : ∀ a, v (f a) = u a) : Same (y.map f) s v := by
  intro r hr
  obtain ⟨a, h1, rfl⟩ := Option.map_eq_some_iff.1 hr
  rw [h]; exact hy a h1

end Same
end Flat

open Flat

namespace Buf
variable {α : Type}

/-- Capacity, and whether there is an allocation function. -/
def shape (b : Buf α) : Nat × Bool := (b.cap, b.hasAlloc)

theorem fn_isSome (b : Buf α) (ans : AllocAns α) : (b.fn ans).isSome = b.hasAlloc := by
  cases b with | mk m l s c a => cases a <;> rfl

theorem alloc_hasAlloc (b : Buf α) (n : Nat) (f : Option (AllocAns α)) : (b.alloc n f).1.hasAlloc = b.hasAlloc := by
  unfold alloc; split
  · rfl
  · split
    · rfl
    · split <;> rfl

theorem alloc_keeps (b : Buf α) (n : Nat) (f : Option (AllocAns α)) (y : Buf α × Res) (hy : y = b.alloc n f) :
    Keeps (b.allocM n f) (some y) (b.cap, f.isSome) (fun r => (r.1.cap, f.isSome)) := by
  subst hy
  cases f with
  | none => exact Keeps.pure rfl
  | some ans =>
    intro r hr
    cases hr
    refine ⟨rfl, fun h ho => ?_⟩
    by_cases hn : n = 0
    · subst hn
      refine ⟨{ h with mem := none, log := h.log ++ [.freed h.mem] }, [.freed h.mem], ?_, rfl, ?_, ?_, fun z => by cases z⟩
      · simp [allocM, StateT.bind, bind, getMem, request, setMem, StateT.pure, pure]
      · cases hm : h.mem <;> simp [account, own, Flat.back]
      · exact ⟨by simp [alloc], by simp⟩
    · cases ans with
      | none =>
        refine ⟨{ h with log := h.log ++ [.refused h.mem n] }, [.refused h.mem n], ?_, rfl, ?_, ?_, fun z => by cases z⟩
        · simp [allocM, StateT.bind, bind, getMem, request, hn, StateT.pure, pure]
        · cases hm : h.mem <;> simp [account, own, Flat.back, alloc, hn]
        · simp only [alloc, hn, if_false]; exact ho
      | some junk =>
        refine ⟨{ mem := some h.next, next := h.next + 1, log := h.log ++ [.got h.mem h.next n] },
          [.got h.mem h.next n], ?_, rfl, ?_, ?_, fun z => by cases z⟩
        · simp [allocM, StateT.bind, bind, getMem, request, setMem, hn, StateT.pure, pure]
        · cases hm : h.mem <;> simp [account, own, Flat.back, alloc, hn]
        · exact ⟨by simp [alloc, hn], by simp⟩

/-- Growth through the buffer's own allocation function. -/
theorem grow_keeps (b : Buf α) (n : Nat) (ans : AllocAns α) :
    Keeps (b.allocM n (b.fn ans)) (some (b.alloc n (b.fn ans))) b.shape (fun r => r.1.shape) := by
  refine (alloc_keeps b n (b.fn ans) _ rfl).view (by simp [shape, fn_isSome]) ?_
  intro r hr; cases hr
  simp [shape, fn_isSome, alloc_hasAlloc]

theorem allocBack_keeps (b : Buf α) (ans : AllocAns α) :
    Keeps (b.allocBackM ans) (some (b.allocBack ans)) b.shape (fun r => r.1.shape) := by
  unfold allocBackM allocBack
  by_cases h : b.sz = b.cap
  · rw [if_pos h, if_pos h]
    have key : ∀ m, Keeps (do
          let r ← b.allocM m (b.fn ans)
          if r.2 ≠ .ok then pure (r.1, none) else pure ({ r.1 with sz := r.1.sz + 1 }, some r.1.sz) : Fl (Buf α × Slot))
        (some (if (b.alloc m (b.fn ans)).2 ≠ .ok then ((b.alloc m (b.fn ans)).1, none)
          else ({ (b.alloc m (b.fn ans)).1 with sz := (b.alloc m (b.fn ans)).1.sz + 1 }, some (b.alloc m (b.fn ans)).1.sz)))
        b.shape (fun r => r.1.shape) := by
      intro m
      have := (grow_keeps b m ans).bind
        (f := fun r => if r.2 ≠ .ok then pure (r.1, none) else pure ({ r.1 with sz := r.1.sz + 1 }, some r.1.sz))
        (g := fun r => if r.2 ≠ .ok then some (r.1, none) else some ({ r.1 with sz := r.1.sz + 1 }, some r.1.sz))
        (w := fun r => r.1.shape)
        (fun r _ => by refine Keeps.ite (fun _ => ?_) (fun _ => ?_) <;> exact Keeps.pure rfl)
      rw [show (some (if (b.alloc m (b.fn ans)).2 ≠ .ok then _ else _) : Option (Buf α × Slot)) = _ from
        apply_ite some _ _ _]
      exact this
    by_cases hc : b.cap ≠ 0
    · simp only [if_pos hc]; exact key _
    · simp only [if_neg hc]; exact key _
  · rw [if_neg h, if_neg h]; exact Keeps.pure rfl

theorem store_shape {b b' : Buf α} {i : Nat} {x : α} (h : b.store i x = some b') : b'.shape = b.shape := by
  unfold store at h; split at h
  · cases h; rfl
  · cases h

theorem pushBack_keeps (b : Buf α) (x : α) (ans : AllocAns α) :
    Keeps (b.pushBackM x ans) (b.pushBack x ans) b.shape (fun r => r.1.shape) := by
  have := (allocBack_keeps b ans).bind (f := fun r => match r with
      | (b', none) => (pure (b', none) : Fl (Buf α × Slot))
      | (b', some i) => liftM ((b'.store i x).map fun b'' => (b'', some i)))
    (g := fun r => match r with
      | (b', none) => some (b', none)
      | (b', some i) => (b'.store i x).map fun b'' => (b'', some i)) (w := fun r => r.1.shape) (fun r _ => by
        obtain ⟨b', s⟩ := r
        cases s with
        | none => exact Keeps.pure rfl
        | some i =>
          refine Keeps.lift ?_
          intro r hr
          obtain ⟨b'', h1, h2⟩ := Option.map_eq_some_iff.1 hr
          subst h2; exact store_shape h1)
  exact this

/-- Can the call reach an allocation function? -/
def mayCall (b : Buf α) : Op α → Bool
  | .alloc _ f => f.isSome
  | _ => b.hasAlloc

theorem insert_keeps (b : Buf α) (i : Nat) (x : α) (ans : AllocAns α) :
    Keeps (b.insertM i x ans) (b.insert i x ans) b.shape (fun r => r.1.shape) := by
  unfold insertM insert
  refine Keeps.ite (fun _ => Keeps.pure rfl) fun h1 => ?_
  refine Keeps.ite (fun _ => pushBack_keeps b x ans) fun h2 => ?_
  rw [if_neg h1, if_neg h2]
  refine Keeps.lift ?_
  intro r hr
  split at hr
  · cases hr
  · cases hr; rfl

/-- The calls that ask for no memory. -/
def Quiet : Op α → Prop
  | .alloc .. | .pushBack .. | .allocBack .. | .insert .. | .emplaceBack .. => False
  | _ => True

theorem step_shape {b : Buf α} {op : Op α} {r : Buf α × Out} (hq : Quiet op) (h : b.step op = some r) :
    r.1.shape = b.shape := by
  cases op with
  | alloc | pushBack | allocBack | insert | emplaceBack => exact hq.elim
  | popBack => cases h; simp only [popBack, popBackN]; split <;> rfl
  | popBackN n => cases h; simp only [popBackN]; split <;> rfl
  | sizePlus n => cases h; simp only [sizePlus]; split <;> rfl
  | sizeMinus n => cases h; simp only [sizeMinus]; split <;> rfl
  | sizeSet n => cases h; simp only [sizeSet]; split <;> rfl
  | swap i j =>
    obtain ⟨q, h1, rfl⟩ := Option.map_eq_some_iff.1 h
    unfold swap at h1; split at h1
    · cases h1; rfl
    · simp only [Option.bind_eq_bind, Option.bind_eq_some_iff] at h1
      obtain ⟨_, _, _, _, b1, s1, b2, s2, h1⟩ := h1
      cases h1
      exact (store_shape s2).trans (store_shape s1)
  | copy d s =>
    obtain ⟨q, h1, rfl⟩ := Option.map_eq_some_iff.1 h
    unfold copy at h1; split at h1
    · cases h1; rfl
    · split at h1
      · cases h1; rfl
      · simp only [Option.bind_eq_bind, Option.bind_eq_some_iff] at h1
        obtain ⟨_, _, b1, s1, h1⟩ := h1
        cases h1
        exact store_shape s1
  | write i x =>
    obtain ⟨q, h1, rfl⟩ := Option.map_eq_some_iff.1 h
    unfold write at h1; split at h1
    · cases h1; rfl
    · split at h1
      · cases h1; rfl
      · obtain ⟨b1, s1, rfl⟩ := Option.map_eq_some_iff.1 h1
        exact store_shape s1
  | emplace i x =>
    obtain ⟨q, h1, rfl⟩ := Option.map_eq_some_iff.1 h
    unfold emplace at h1; split at h1
    · cases h1; rfl
    · obtain ⟨b1, s1, rfl⟩ := Option.map_eq_some_iff.1 h1
      exact store_shape s1
  | erase lax i =>
    obtain ⟨q, h1, rfl⟩ := Option.map_eq_some_iff.1 h
    unfold erase at h1
    split at h1
    · cases h1; rfl
    · split at h1
      · cases h1; rfl
      · split at h1
        · cases h1; rfl
        · simp only [] at h1
          split at h1
          · cases h1
          · split at h1
            · cases h1
            · cases h1; rfl

theorem step_keeps (b : Buf α) (op : Op α) :
    Keeps (b.stepM op) (b.step op) (b.cap, b.mayCall op) (fun r => (r.1.cap, b.mayCall op)) := by
  have fin : ∀ {x : Fl (Buf α × Out)}, b.mayCall op = b.hasAlloc → Keeps x (b.step op) b.shape (fun r => r.1.shape) →
      Keeps x (b.step op) (b.cap, b.mayCall op) (fun r => (r.1.cap, b.mayCall op)) := by
    intro x e k
    rw [e]
    refine k.view rfl ?_
    intro r hr
    have := (k r hr).1
    simp only [shape] at this ⊢
    rw [this]
  cases op with
  | alloc c f =>
    exact (alloc_keeps b c f _ rfl).map (f := fun r => (r.1, Out.res r.2)) (w := fun r => (r.1.cap, f.isSome)) (fun _ => rfl)
  | pushBack x ans => exact fin rfl ((pushBack_keeps b x ans).map (f := fun r : Buf α × Slot => (r.1, Out.slot r.2))
      (w := fun r : Buf α × Out => r.1.shape)      (fun _ => rfl))
  | allocBack ans => exact fin rfl ((allocBack_keeps b ans).map (f := fun r : Buf α × Slot => (r.1, Out.slot r.2))
      (w := fun r : Buf α × Out => r.1.shape)      (fun _ => rfl))
  | insert i x ans => exact fin rfl ((insert_keeps b i x ans).map (f := fun r : Buf α × Slot => (r.1, Out.slot r.2))
      (w := fun r : Buf α × Out => r.1.shape)      (fun _ => rfl))
  | emplaceBack x ans => exact fin rfl ((pushBack_keeps b x ans).map (f := fun r : Buf α × Slot => (r.1, Out.slot r.2))
      (w := fun r : Buf α × Out => r.1.shape)      (fun _ => rfl))
  | _ => exact fin rfl (Keeps.lift fun r hr => step_shape (by trivial) hr)

theorem sizeSet_shape (b : Buf α) (n : Nat) : (b.sizeSet n).1.shape = b.shape := by unfold sizeSet; split <;> rfl
theorem sizePlus_shape (b : Buf α) (n : Nat) : (b.sizePlus n).1.shape = b.shape := by unfold sizePlus; split <;> rfl
theorem sizeMinus_shape (b : Buf α) (n : Nat) : (b.sizeMinus n).1.shape = b.shape := by unfold sizeMinus; split <;> rfl
theorem popBack_shape (b : Buf α) : b.popBack.1.shape = b.shape := by unfold popBack popBackN; split <;> rfl

end Buf

namespace Fdeq
variable {α : Type}

/-- Capacity, and whether there is an allocation function. -/
abbrev shape (d : Fdeq α) : Nat × Bool := d.buf.shape

theorem maybeResize_keeps (d : Fdeq α) (n : Nat) (ans : AllocAns α) :
    Keeps (d.maybeResizeM n ans) (d.maybeResize n ans) d.shape (fun r => r.1.shape) := by
  unfold maybeResizeM maybeResize
  refine Keeps.ite (fun _ => Keeps.pure rfl) fun h1 => ?_
  refine Keeps.ite (fun _ => Keeps.pure rfl) fun h2 => ?_
  have h2 : d.buf.hasAlloc = true := by simpa using h2
  have hN : (if d.buf.cap ≠ 0 then (d.buf.cap + n) * 2 else 8) ≠ 0 := by split <;> omega
  generalize (if d.buf.cap ≠ 0 then (d.buf.cap + n) * 2 else 8) = N at hN
  cases ans with
  | none =>
    intro r hr
    cases hr
    refine ⟨rfl, fun h ho => ⟨{ h with log := h.log ++ [.refused none N] }, [.refused none N], ?_, rfl, rfl, ho, ?_⟩⟩
    · simp [StateT.bind, bind, request, hN, StateT.pure, pure]
    · intro z; rw [show d.shape.2 = d.buf.hasAlloc from rfl, h2] at z; cases z
  | some junk =>
    intro r hr
    simp only [Option.bind_eq_bind, Option.bind_eq_some_iff] at hr
    obtain ⟨g, hg, hr⟩ := hr
    cases hr
    refine ⟨rfl, fun h ho => ⟨{ mem := some h.next, next := h.next + 1, log := h.log ++ [.got none h.next N, .freed h.mem] },
      [.got none h.next N, .freed h.mem], ?_, rfl, ?_, ?_, ?_⟩⟩
    · simp only [bind, StateT.bind, request, hN, if_false, Option.isSome_some, if_true, Option.bind_some]
      rw [hg]
      simp [liftM, monadLift, MonadLift.monadLift, StateT.lift, StateT.bind, bind, Buf.allocM, Buf.fn, h2, getMem, setMem,
        request, pure, StateT.pure, Buf.alloc]
    · have hne : ∀ a, h.mem = some a → ¬ h.next = a := fun a e => by have := ho.2 a e; omega
      rcases hm : h.mem with _ | a
      · simp [account, own, Flat.back, Buf.shape]
      · have := hne a hm
        have h' : ¬ a = h.next := fun e => this e.symm
        simp [account, own, Flat.back, Buf.shape, this]
    · exact ⟨by simp [Buf.shape, hN], by simp⟩
    · intro z; rw [show d.shape.2 = d.buf.hasAlloc from rfl, h2] at z; cases z

theorem sizePlus_shape (d : Fdeq α) (n : Nat) : ({ d with buf := (d.buf.sizePlus n).1 } : Fdeq α).shape = d.shape :=
  Buf.sizePlus_shape _ _

theorem allocFront_keeps (d : Fdeq α) (ans : AllocAns α) :
    Keeps (d.allocFrontM ans) (d.allocFront ans) d.shape (fun r => r.1.shape) := by
  unfold allocFrontM allocFront
  refine (maybeResize_keeps d 0 ans).bind ?_
  rintro ⟨d', r⟩ _
  refine Keeps.ite (fun _ => Keeps.pure rfl) fun _ => ?_
  refine Keeps.ite (fun _ => Keeps.pure ?_) fun _ => Keeps.pure rfl
  exact Buf.sizePlus_shape _ _

theorem allocBack_keeps (d : Fdeq α) (ans : AllocAns α) :
    Keeps (d.allocBackM ans) (d.allocBack ans) d.shape (fun r => r.1.shape) := by
  unfold allocBackM allocBack
  refine (maybeResize_keeps d 0 ans).bind ?_
  rintro ⟨d', r⟩ _
  refine Keeps.ite (fun _ => Keeps.pure rfl) fun _ => ?_
  refine (Keeps.lift (v := fun _ => d'.shape) (fun _ _ => rfl)).bind fun k _ => ?_
  refine Keeps.ite (fun _ => Keeps.pure ?_) fun _ => Keeps.pure rfl
  exact Buf.sizePlus_shape _ _

theorem fill_same (d : Fdeq α) (s : Slot) (x : α) : Same (d.fill s x) d.shape (fun r => r.1.shape) := by
  unfold fill
  cases s with
  | none => exact Same.some rfl
  | some k =>
    refine Same.map (u := fun b => b.shape) ?_ fun _ => rfl
    exact fun b hb => Buf.store_shape hb

theorem pushBack_keeps (d : Fdeq α) (x : α) (ans : AllocAns α) :
    Keeps (d.pushBackM x ans) (d.pushBack x ans) d.shape (fun r => r.1.shape) :=
  (allocBack_keeps d ans).bind fun r _ => Keeps.lift (fill_same r.1 r.2 x)

theorem pushFront_keeps (d : Fdeq α) (x : α) (ans : AllocAns α) :
    Keeps (d.pushFrontM x ans) (d.pushFront x ans) d.shape (fun r => r.1.shape) :=
  (allocFront_keeps d ans).bind fun r _ => Keeps.lift (fill_same r.1 r.2 x)

theorem putRange_same (b : Buf α) (a : Nat) (xs : List α) : Same (putRange b a xs) b.shape Buf.shape := by
  unfold putRange
  exact Same.ite (fun _ => Same.some rfl) (fun _ => Same.none)

theorem moveRange_same (b : Buf α) (a c n : Nat) : Same (moveRange b a c n) b.shape Buf.shape := by
  unfold moveRange
  exact Same.ite (fun _ => Same.some rfl) (fun _ => Same.none)

theorem pushBackRange_keeps (d : Fdeq α) (xs : List α) (ans : AllocAns α) :
    Keeps (d.pushBackRangeM xs ans) (d.pushBackRange xs ans) d.shape (fun r => r.1.shape) := by
  unfold pushBackRangeM pushBackRange
  refine (maybeResize_keeps d xs.length ans).bind ?_
  rintro ⟨d', r⟩ _
  refine Keeps.lift ?_
  refine Same.ite (fun _ => Same.some rfl) fun _ => ?_
  refine Same.ite (fun _ => ?_) fun _ => ?_
  · refine Same.bind (putRange_same _ _ _) fun b hb => Same.some ?_
    exact (Buf.sizeSet_shape _ _).trans hb
  · refine Same.skip fun k => ?_
    refine Same.bind (putRange_same _ _ _) fun b hb => ?_
    refine Same.bind (t := b.shape) (u := Buf.shape) (Same.ite (fun _ => putRange_same _ _ _) fun _ => Same.some rfl)
      fun b' hb' => Same.some ?_
    exact ((Buf.sizeSet_shape _ _).trans hb').trans hb

theorem pushFrontRange_keeps (d : Fdeq α) (xs : List α) (ans : AllocAns α) :
    Keeps (d.pushFrontRangeM xs ans) (d.pushFrontRange xs ans) d.shape (fun r => r.1.shape) := by
  unfold pushFrontRangeM pushFrontRange
  refine (maybeResize_keeps d xs.length ans).bind ?_
  rintro ⟨d', r⟩ _
  refine Keeps.lift ?_
  refine Same.ite (fun _ => Same.some rfl) fun _ => ?_
  refine Same.ite (fun _ => ?_) fun _ => ?_
  · refine Same.bind (putRange_same _ _ _) fun b hb => Same.some ?_
    exact (Buf.sizeSet_shape _ _).trans hb
  · refine Same.bind (putRange_same _ _ _) fun b hb => ?_
    refine Same.bind (t := b.shape) (u := Buf.shape) (Same.ite (fun _ => putRange_same _ _ _) fun _ => Same.some rfl)
      fun b' hb' => Same.some ?_
    exact ((Buf.sizeSet_shape _ _).trans hb').trans hb

theorem pushRange_keeps (d : Fdeq α) (pos : Nat) (xs : List α) (ans : AllocAns α) :
    Keeps (d.pushRangeM pos xs ans) (d.pushRange pos xs ans) d.shape (fun r => r.1.shape) := by
  unfold pushRangeM pushRange
  refine (maybeResize_keeps d xs.length ans).bind ?_
  rintro ⟨d', r⟩ _
  refine Keeps.lift ?_
  refine Same.ite (fun _ => Same.some rfl) fun _ => ?_
  refine Same.ite (fun _ => ?_) fun _ => ?_
  · refine Same.bind (putRange_same _ _ _) fun b hb => Same.some ?_
    exact (Buf.sizeSet_shape _ _).trans hb
  · refine Same.ite (fun _ => Same.none) fun _ => ?_
    refine Same.skip fun k => Same.skip fun bk => ?_
    refine Same.bind (moveRange_same _ _ _ _) fun b hb => ?_
    refine Same.bind (t := b.shape) (u := Buf.shape) (Same.ite (fun _ => moveRange_same _ _ _ _) fun _ => Same.some rfl)
      fun b' hb' => ?_
    refine Same.bind (putRange_same _ _ _) fun b2 hb2 => ?_
    refine Same.bind (t := b2.shape) (u := Buf.shape) (Same.ite (fun _ => putRange_same _ _ _) fun _ => Same.some rfl)
      fun b3 hb3 => Same.some ?_
    exact ((((Buf.sizeSet_shape _ _).trans hb3).trans hb2).trans hb').trans hb

theorem insertRange_keeps (d : Fdeq α) (pos : Slot) (xs : List α) (ans : AllocAns α) :
    Keeps (d.insertRangeM pos xs ans) (d.insertRange pos xs ans) d.shape (fun r => r.1.shape) := by
  unfold insertRangeM insertRange
  refine Keeps.ite (fun _ => Keeps.pure rfl) fun _ => ?_
  refine Keeps.ite (fun _ => ?_) fun _ => ?_
  · refine (pushFrontRange_keeps d xs ans).bind ?_
    rintro ⟨d', r⟩ _
    refine Keeps.lift ?_
    exact Same.ite (fun _ => Same.some rfl) fun _ => Same.skip fun _ => Same.some rfl
  · cases pos with
    | none =>
      refine (pushBackRange_keeps d xs ans).bind ?_
      rintro ⟨d', r⟩ _
      refine Keeps.lift ?_
      exact Same.ite (fun _ => Same.some rfl) fun _ => Same.skip fun _ => Same.some rfl
    | some k => exact pushRange_keeps d k xs ans

theorem copy_keeps (dst src : Fdeq α) (p : Slot) (fn : Option (AllocAns α)) :
    Keeps (dst.copyM src p fn) (dst.copy src fn) (dst.buf.cap, fn.isSome) (fun r => (r.1.buf.cap, fn.isSome)) := by
  unfold copyM
  have hcopy : dst.copy src fn = dst.copy src fn := rfl
  conv at hcopy => rhs; unfold copy
  by_cases h0 : dst.buf.cap < src.buf.cap ∧ fn = none
  · rw [if_pos h0] at hcopy ⊢; rw [hcopy]; exact Keeps.pure rfl
  rw [if_neg h0] at hcopy ⊢
  refine Keeps.restore p ?_
  by_cases h1 : src.buf.cap = 0
  · simp only [if_pos h1] at hcopy ⊢; rw [hcopy]; exact Keeps.pure rfl
  simp only [if_neg h1] at hcopy ⊢
  by_cases h2 : dst.buf.cap > src.buf.cap
  · simp only [if_pos h2] at hcopy ⊢
    refine Keeps.lift ?_
    rw [hcopy]
    refine Same.skip fun g => ?_
    exact Same.ite (fun _ => Same.none) (fun _ => Same.some rfl)
  simp only [if_neg h2] at hcopy ⊢
  rw [hcopy]
  have := (show Keeps (if dst.buf.cap < src.buf.cap then Buf.allocM { dst.buf with sz := src.buf.sz } src.buf.cap fn
      else pure ({ dst.buf with sz := src.buf.sz }, .ok))
      (some (if dst.buf.cap < src.buf.cap then Buf.alloc { dst.buf with sz := src.buf.sz } src.buf.cap fn
      else ({ dst.buf with sz := src.buf.sz }, .ok))) (dst.buf.cap, fn.isSome) (fun r => (r.1.cap, fn.isSome)) by
    rw [apply_ite some]
    exact Keeps.ite (fun _ => Buf.alloc_keeps _ _ _ _ rfl) fun _ => Keeps.pure rfl).bind
      (f := fun r => if r.2 ≠ .ok then (pure ({ buf := r.1, front := src.front }, r.2) : Fl (Fdeq α × Res))
        else liftM (if src.buf.cap > r.1.len ∨ src.buf.cap > src.buf.len then none
          else some ({ buf := { r.1 with mem := blockWrite r.1.mem 0 src.buf.mem 0 src.buf.cap }, front := src.front },
            Res.ok) : Option (Fdeq α × Res)))
      (g := fun r => if r.2 ≠ .ok then some ({ buf := r.1, front := src.front }, r.2)
        else if src.buf.cap > r.1.len ∨ src.buf.cap > src.buf.len then none
          else some ({ buf := { r.1 with mem := blockWrite r.1.mem 0 src.buf.mem 0 src.buf.cap }, front := src.front },
            Res.ok)) (w := fun r => (r.1.buf.cap, fn.isSome)) (fun r _ => by
        refine Keeps.ite (fun _ => Keeps.pure rfl) fun _ => Keeps.lift ?_
        exact Same.ite (fun _ => Same.none) (fun _ => Same.some rfl))
  by_cases h3 : dst.buf.cap < src.buf.cap
  · simp only [if_pos h3] at this ⊢; exact this
  · simp only [if_neg h3] at this ⊢; exact this

theorem clearAndFree_keeps (d : Fdeq α) (destructor : Bool) :
    Keeps (d.clearAndFreeM destructor) (d.clearAndFree destructor) d.shape (fun r => r.1.shape) := by
  unfold clearAndFreeM clearAndFree
  refine Keeps.ite (fun _ => ?_) fun _ => ?_
  · have := (Buf.grow_keeps { d.buf with sz := 0 } 0 none).bind
      (f := fun r => (pure ({ buf := r.1, front := 0 }, r.2, []) : Fl (Fdeq α × Res × List Slot)))
      (g := fun r => some ({ buf := r.1, front := 0 }, r.2, [])) (w := fun r => r.1.shape) fun r _ => Keeps.pure rfl
    exact this
  · refine (Keeps.lift (v := fun _ => d.shape) (fun _ _ => rfl)).bind fun k _ => ?_
    refine (Keeps.lift (v := fun _ => d.shape) (fun _ _ => rfl)).bind fun l _ => ?_
    have := (Buf.grow_keeps d.buf 0 none).bind
      (f := fun r => (pure ({ d with buf := r.1 }, r.2, l) : Fl (Fdeq α × Res × List Slot)))
      (g := fun r => some ({ d with buf := r.1 }, r.2, l)) (w := fun r => r.1.shape) fun r _ => Keeps.pure rfl
    exact this

end Fdeq

namespace Fpq
variable {α : Type}

/-- Capacity, and whether there is an allocation function. -/
abbrev shape (q : Fpq α) : Nat × Bool := q.buf.shape

theorem swap_same (q : Fpq α) (t : Slot) (i j : Nat) : Same (q.swap t i j) q.shape shape := by
  unfold swap
  cases t with
  | none => exact Same.none
  | some t =>
    refine Same.ite (fun _ => Same.none) fun _ => ?_
    refine Same.skip fun x => ?_
    refine Same.bind (u := Buf.shape) (fun b hb => Buf.store_shape hb) fun b hb => ?_
    refine Same.skip fun y => ?_
    refine Same.bind (u := Buf.shape) (fun b hb => Buf.store_shape hb) fun b' hb' => ?_
    refine Same.skip fun x' => ?_
    refine Same.bind (u := Buf.shape) (fun b hb => Buf.store_shape hb) fun b'' hb'' => Same.some ?_
    exact (hb''.trans hb').trans hb

theorem bubbleUp_same (t : Slot) (q : Fpq α) (i : Nat) : Same (q.bubbleUp t i) q.shape (fun r => r.1.shape) := by
  intro r hr
  exact bubbleUp.partial_correctness t (fun q _ r => r.1.shape = q.shape) (by
    intro f ih q i r hr
    revert r
    show Same _ q.shape (fun r : Fpq α × Nat => r.1.shape)
    refine Same.ite (fun _ => Same.some rfl) fun _ => ?_
    refine Same.skip fun x => Same.skip fun y => ?_
    refine Same.ite (fun _ => ?_) fun _ => Same.some rfl
    refine Same.bind (swap_same q t _ _) fun q' hq' => ?_
    intro r hr
    exact (ih _ _ _ hr).trans hq') q i r hr

theorem bubbleDown_same (t : Slot) (q : Fpq α) (i : Nat) : Same (q.bubbleDown t i) q.shape (fun r => r.1.shape) := by
  intro r hr
  exact bubbleDown.partial_correctness t (fun q _ r => r.1.shape = q.shape) (by
    intro f ih q i r hr
    revert r
    show Same _ q.shape (fun r : Fpq α × Nat => r.1.shape)
    refine Same.ite (fun _ => ?_) fun _ => Same.some rfl
    refine Same.skip fun k => Same.skip fun x => Same.skip fun y => ?_
    refine Same.ite (fun _ => ?_) fun _ => Same.some rfl
    refine Same.bind (swap_same q t _ _) fun q' hq' => ?_
    intro r hr
    exact (ih _ _ _ hr).trans hq') q i r hr

theorem heapifyLoop_same (t : Slot) (i : Nat) (q : Fpq α) : Same (q.heapifyLoop t i) q.shape shape := by
  induction i generalizing q with
  | zero => exact Same.some rfl
  | succ i ih =>
    refine Same.bind (bubbleDown_same t q i) ?_
    rintro ⟨q', _⟩ hq'
    intro r hr
    exact (ih q' r hr).trans hq'

theorem heapify_keeps (q : Fpq α) (xs : List α) (ans : AllocAns α) :
    Keeps (q.heapifyM xs ans) (q.heapify xs ans) q.shape (fun r => r.1.shape) := by
  unfold heapifyM heapify
  have key : ∀ b : Buf α, Same (if xs.length > (b.sizeSet xs.length).1.len then none else
      (heapifyLoop { q with buf := { (b.sizeSet xs.length).1 with mem := fun j => match xs[j]? with
        | some x => x | none => (b.sizeSet xs.length).1.mem j } }
        (Buf.at_ { (b.sizeSet xs.length).1 with mem := fun j => match xs[j]? with
        | some x => x | none => (b.sizeSet xs.length).1.mem j } xs.length) (xs.length / 2 + 1)).map fun q => (q, Res.ok))
      b.shape (fun r : Fpq α × Res => r.1.shape) := by
    intro b
    refine Same.ite (fun _ => Same.none) fun _ => ?_
    refine Same.map (u := shape) ?_ fun _ => rfl
    intro r hr
    exact (heapifyLoop_same _ _ _ r hr).trans (Buf.sizeSet_shape b xs.length)
  refine Keeps.ite (fun _ => ?_) fun _ => Keeps.lift (key _)
  exact (Buf.grow_keeps q.buf (xs.length + 1) ans).bind
    (g := fun r => if r.2 ≠ .ok then some ({ q with buf := r.1 }, r.2) else _)
    fun r _ => Keeps.ite (fun _ => Keeps.pure rfl) fun _ => Keeps.lift (key _)

theorem pushRoom_keeps (q : Fpq α) (x : α) (ans : AllocAns α) :
    Keeps (q.pushRoomM x ans) (q.pushRoom x ans) q.shape (fun r => r.1.shape) := by
  unfold pushRoomM pushRoom
  have := (Buf.allocBack_keeps q.buf ans).bind (g := fun r => match r with
    | (b, none) => some ({ q with buf := b }, none)
    | (b, some k) => do
      let b ← b.store k x
      let q := { q with buf := b }
      if b.sz > 1 then
        let (q, i) ← q.bubbleUp (b.at_ b.sz) (b.sz - 1)
        pure (q, q.buf.at_ i)
      else pure (q, b.at_ 0)) (f := fun r => match r with
    | (b, none) => (pure ({ q with buf := b }, none) : Fl (Fpq α × Slot))
    | (b, some k) => liftM (do
      let b ← b.store k x
      let q := { q with buf := b }
      if b.sz > 1 then
        let (q, i) ← q.bubbleUp (b.at_ b.sz) (b.sz - 1)
        pure (q, q.buf.at_ i)
      else pure (q, b.at_ 0) : Option (Fpq α × Slot))) (w := fun r => r.1.shape) (by
      rintro ⟨b, s⟩ _
      cases s with
      | none => exact Keeps.pure rfl
      | some k =>
        refine Keeps.lift ?_
        refine Same.bind (u := Buf.shape) (fun b hb => Buf.store_shape hb) fun b' hb' => ?_
        refine Same.ite (fun _ => ?_) fun _ => Same.some hb'
        refine Same.bind (bubbleUp_same _ _ _) ?_
        rintro ⟨q', i⟩ hq'
        exact Same.some (hq'.trans hb'))
  exact this

theorem push_keeps (q : Fpq α) (x : α) (ans ans' : AllocAns α) :
    Keeps (q.pushM x ans ans') (q.push x ans ans') q.shape (fun r => r.1.shape) := by
  unfold pushM push
  refine Keeps.ite (fun _ => ?_) fun _ => pushRoom_keeps q x ans'
  exact (Buf.grow_keeps q.buf (q.buf.cap * 2) ans).bind
    (g := fun r => if r.2 ≠ .ok then some ({ q with buf := r.1 }, none) else pushRoom { q with buf := r.1 } x ans')
    fun r _ => Keeps.ite (fun _ => Keeps.pure rfl) fun _ => pushRoom_keeps _ x ans'

theorem clearAndFree_keeps (q : Fpq α) :
    Keeps q.clearAndFreeM (some q.clearAndFree) q.shape (fun r => r.1.shape) := by
  have := (Buf.grow_keeps q.buf 0 none).bind (f := fun r => (pure ({ q with buf := r.1 }, r.2) : Fl (Fpq α × Res)))
    (g := fun r => some ({ q with buf := r.1 }, r.2)) (w := fun r => r.1.shape) fun r _ => Keeps.pure rfl
  exact this

theorem copy_keeps (dst src : Fpq α) (p : Slot) (fn : Option (AllocAns α)) :
    Keeps (dst.copyM src p fn) (dst.copy src fn) (dst.buf.cap, fn.isSome) (fun r => (r.1.buf.cap, fn.isSome)) := by
  unfold copyM copy
  refine Keeps.ite (fun _ => Keeps.pure rfl) fun _ => ?_
  refine Keeps.restore p ?_
  have := (show Keeps (if dst.buf.cap < src.buf.cap then Buf.allocM { dst.buf with sz := src.buf.sz } src.buf.cap fn
      else pure ({ dst.buf with sz := src.buf.sz }, .ok))
      (some (if dst.buf.cap < src.buf.cap then Buf.alloc { dst.buf with sz := src.buf.sz } src.buf.cap fn
      else ({ dst.buf with sz := src.buf.sz }, .ok))) (dst.buf.cap, fn.isSome) (fun r => (r.1.cap, fn.isSome)) by
    rw [apply_ite some]
    exact Keeps.ite (fun _ => Buf.alloc_keeps _ _ _ _ rfl) fun _ => Keeps.pure rfl).bind
      (f := fun r => if r.2 ≠ .ok then (pure ({ src with buf := r.1 }, r.2) : Fl (Fpq α × Res))
        else liftM (if src.buf.cap > r.1.len ∨ src.buf.cap > src.buf.len then none
          else some ({ src with buf := { r.1 with mem := blockWrite r.1.mem 0 src.buf.mem 0 src.buf.cap } },
            Res.ok) : Option (Fpq α × Res)))
      (g := fun r => if r.2 ≠ .ok then some ({ src with buf := r.1 }, r.2)
        else if src.buf.cap > r.1.len ∨ src.buf.cap > src.buf.len then none
          else some ({ src with buf := { r.1 with mem := blockWrite r.1.mem 0 src.buf.mem 0 src.buf.cap } },
            Res.ok)) (w := fun r => (r.1.buf.cap, fn.isSome)) (fun r _ => by
        refine Keeps.ite (fun _ => Keeps.pure rfl) fun _ => Keeps.lift ?_
        exact Same.ite (fun _ => Same.none) (fun _ => Same.some rfl))
  by_cases h3 : dst.buf.cap < src.buf.cap
  · simp only [if_pos h3] at this ⊢; exact this
  · simp only [if_neg h3] at this ⊢; exact this

theorem emplace_keeps (q : Fpq α) (x : α) (ans ans' : AllocAns α) :
    Keeps (q.emplaceM x ans ans') (q.emplace x ans ans') q.shape (fun r => r.1.shape) := by
  unfold emplaceM emplace
  have fin : ∀ r' : Buf α × Slot, Keeps (match r'.2 with
        | none => (pure ({ q with buf := r'.1 }, none) : Fl (Fpq α × Slot))
        | some k => liftM (do
          let b ← r'.1.store k x
          let q := { q with buf := b }
          if b.sz > 1 then
            let (q, i) ← q.bubbleUp (b.at_ b.sz) (b.sz - 1)
            pure (q, q.buf.at_ i)
          else pure (q, b.at_ 0) : Option (Fpq α × Slot)))
      (match r'.2 with
        | none => some ({ q with buf := r'.1 }, none)
        | some k => (do
          let b ← r'.1.store k x
          let q := { q with buf := b }
          if b.sz > 1 then
            let (q, i) ← q.bubbleUp (b.at_ b.sz) (b.sz - 1)
            pure (q, q.buf.at_ i)
          else pure (q, b.at_ 0) : Option (Fpq α × Slot))) r'.1.shape (fun r => r.1.shape) := by
    rintro ⟨b, s⟩
    cases s with
    | none => exact Keeps.pure rfl
    | some k =>
      refine Keeps.lift ?_
      refine Same.bind (u := Buf.shape) (fun b hb => Buf.store_shape hb) fun b' hb' => ?_
      refine Same.ite (fun _ => ?_) fun _ => Same.some hb'
      refine Same.bind (bubbleUp_same _ _ _) ?_
      rintro ⟨q', i⟩ hq'
      exact Same.some (hq'.trans hb')
  refine Keeps.bind (y := some (q.buf.allocBack ans)) (v := fun r => r.1.shape) (g := fun r =>
    (fun r' : Buf α × Slot => match r'.2 with
        | none => some ({ q with buf := r'.1 }, none)
        | some k => (do
          let b ← r'.1.store k x
          let q := { q with buf := b }
          if b.sz > 1 then
            let (q, i) ← q.bubbleUp (b.at_ b.sz) (b.sz - 1)
            pure (q, q.buf.at_ i)
          else pure (q, b.at_ 0) : Option (Fpq α × Slot)))
      (if r.1.sz = r.1.cap then
        let a := r.1.alloc (r.1.cap * 2) (r.1.fn ans')
        if a.2 = .ok then (a.1, a.1.back) else (a.1, none)
      else r)) (Buf.allocBack_keeps q.buf ans) ?_
  intro r _
  by_cases h : r.1.sz = r.1.cap
  · simp only [if_pos h]
    refine Keeps.bind (y := some (r.1.alloc (r.1.cap * 2) (r.1.fn ans'))) (v := fun r => r.1.shape) (g := fun a =>
      (fun r' : Buf α × Slot => match r'.2 with
        | none => some ({ q with buf := r'.1 }, none)
        | some k => (do
          let b ← r'.1.store k x
          let q := { q with buf := b }
          if b.sz > 1 then
            let (q, i) ← q.bubbleUp (b.at_ b.sz) (b.sz - 1)
            pure (q, q.buf.at_ i)
          else pure (q, b.at_ 0) : Option (Fpq α × Slot)))
      (if a.2 = .ok then (a.1, a.1.back) else (a.1, none))) (Buf.grow_keeps r.1 (r.1.cap * 2) ans') ?_
    intro a _
    by_cases h' : a.2 = .ok
    · simp only [if_pos h']; exact fin (a.1, a.1.back)
    · simp only [if_neg h']; exact fin (a.1, none)
  · simp only [if_neg h]; exact fin r

end Fpq
end CCC
