import Verif.Spec.ListLedger
import Verif.Proof.Lists
import Mathlib.Tactic.Tauto
import Mathlib.Data.List.TakeWhile
/-
The calls of the allocation function every call of a linked list must make keep the allocator's book in order.
-/
namespace CCC
namespace Seq

variable {lists : List Nat} {alloc : Nat → Bool} {seq seq' : Nat → List Nat} {held : List Nat}

theorem mem_without {a : Nat} {X t : List Nat} : a ∈ without X t ↔ a ∈ t ∧ a ∉ X := by simp [without]

theorem mem_split {a e : Nat} {t : List Nat} : a ∈ upto e t ∨ a ∈ onward e t ↔ a ∈ t := by
  have := List.takeWhile_append_dropWhile (p := (· != e)) (l := t)
  unfold upto onward
  rw [← List.mem_append, this]

theorem mem_putBefore {a p : Nat} {X t : List Nat} : a ∈ putBefore p X t ↔ a ∈ X ∨ a ∈ t := by
  rw [putBefore, List.mem_append, List.mem_append, ← mem_split (e := p) (t := t)]
  constructor
  · rintro ((h | h) | h)
    · exact .inr (.inl h)
    · exact .inl h
    · exact .inr (.inr h)
  · rintro (h | h | h)
    · exact .inl (.inr h)
    · exact .inl (.inl h)
    · exact .inr h

theorem onward_head {p : Nat} {t : List Nat} (hp : p ∈ t) : onward p t = p :: (onward p t).tail := by
  induction t with
  | nil => cases hp
  | cons x t ih =>
    by_cases h : x = p
    · subst h; simp [onward]
    · have hp' : p ∈ t := by rcases List.mem_cons.1 hp with h' | h'; exact absurd h'.symm h; exact h'
      have : onward p (x :: t) = onward p t := by simp [onward, h]
      rw [this]; exact ih hp'

theorem mem_putAfter {a p : Nat} {X t : List Nat} (hp : p ∈ t) : a ∈ putAfter p X t ↔ a ∈ X ∨ a ∈ t := by
  have := mem_split (a := a) (e := p) (t := t)
  rw [onward_head hp] at this
  rw [putAfter, ← this]
  simp only [List.mem_append, List.mem_cons]
  tauto

theorem between_sub {b e a : Nat} {t : List Nat} (h : a ∈ between b e t) : a ∈ t :=
  mem_split.1 (.inr (mem_split.1 (.inl h)))

theorem between_nodup {b e : Nat} {t : List Nat} (h : t.Nodup) : (between b e t).Nodup :=
  h.sublist ((List.takeWhile_sublist _).trans (List.dropWhile_sublist _))

theorem not_mem_upto {e : Nat} {t : List Nat} : e ∉ upto e t := by
  intro h
  have := List.mem_takeWhile_imp h
  simp at this

theorem through_sub {b e a : Nat} {t : List Nat} (he : e ∈ onward b t) (h : a ∈ through b e t) : a ∈ t := by
  rcases List.mem_append.1 h with h | h
  · exact between_sub h
  · simp at h; subst h; exact mem_split.1 (.inr he)

theorem through_nodup {b e : Nat} {t : List Nat} (h : t.Nodup) : (through b e t).Nodup := by
  refine List.nodup_append.2 ⟨between_nodup h, by simp, fun a ha c hc => ?_⟩
  simp at hc; subst hc
  exact fun h' => not_mem_upto (h' ▸ ha)

/-- The blocks that are out are the elements of the allocating lists, each once. -/
def Owned (lists : List Nat) (alloc : Nat → Bool) (seq : Nat → List Nat) (held : List Nat) : Prop :=
  held.Nodup ∧ ∀ a, a ∈ held ↔ ∃ l ∈ lists, alloc l = true ∧ a ∈ seq l

theorem settle_freed : ∀ {X held : List Nat}, held.Nodup → X.Nodup → (∀ a ∈ X, a ∈ held) →
    ∃ h', settle held (X.map .freed) = some h' ∧ h'.Nodup ∧ ∀ a, a ∈ h' ↔ a ∈ held ∧ a ∉ X
  | [], held, h, _, _ => ⟨held, rfl, h, fun a => by simp⟩
  | x :: X, held, h, nd, hs => by
    have nd' := List.nodup_cons.1 nd
    obtain ⟨h', a1, a2, a3⟩ := settle_freed (h.erase x) nd'.2 (fun a ha => by
      rw [h.mem_erase_iff]
      exact ⟨fun e => nd'.1 (e ▸ ha), hs a (by simp [ha])⟩)
    refine ⟨h', ?_, a2, fun a => ?_⟩
    · simp only [List.map_cons, settle, if_pos (hs x (by simp)), a1]
    · rw [a3, h.mem_erase_iff, List.mem_cons, not_or]; tauto

/-- The book after a call. -/
def Kept (lists : List Nat) (alloc : Nat → Bool) (seq' : Nat → List Nat) (held : List Nat) (es : List Ev) (user : List Nat) : Prop :=
  ∃ held', settleWith held es user = some held' ∧ Owned lists alloc seq' held'

theorem without_nil' (t : List Nat) : without [] t = t := by simp [without]

/-- No calls, and the same elements. -/
theorem Owned.same (h : Owned lists alloc seq held) (hs : ∀ a, (∃ l ∈ lists, alloc l = true ∧ a ∈ seq' l) ↔ ∃ l ∈ lists, alloc l = true ∧ a ∈ seq l) :
    Kept lists alloc seq' held [] [] :=
  ⟨held, by simp [settleWith, settle, without_nil'], h.1, fun a => by rw [h.2, hs]⟩

theorem Owned.refused (h : Owned lists alloc seq held) : Kept lists alloc seq held [.refused] [] :=
  ⟨held, by simp [settleWith, settle, without_nil'], h⟩

/-- A list without allocation changes. -/
theorem Owned.other (h : Owned lists alloc seq held) {l : Nat} (hl : alloc l = false) (t : List Nat) :
    Kept lists alloc (upd seq l t) held [] [] := by
  refine h.same fun a => ?_
  constructor <;> rintro ⟨k, h1, h2, h3⟩ <;> refine ⟨k, h1, h2, ?_⟩ <;>
    have hk : k ≠ l := (by rintro rfl; rw [hl] at h2; cases h2)
  · rwa [upd_ne _ _ hk] at h3
  · rwa [upd_ne _ _ hk]

/-- A new block. -/
theorem Owned.got (h : Owned lists alloc seq held) {l n : Nat} (hm : l ∈ lists) (hl : alloc l = true) {t : List Nat}
    (hn : ∀ k ∈ lists, n ∉ seq k) (ht : ∀ a, a ∈ t ↔ a = n ∨ a ∈ seq l) : Kept lists alloc (upd seq l t) held [.got n] [] := by
  have hn' : n ∉ held := by
    rw [h.2]; rintro ⟨k, h1, _, h3⟩; exact hn k h1 h3
  refine ⟨n :: held, by simp [settleWith, settle, without_nil', hn'], List.nodup_cons.2 ⟨hn', h.1⟩, fun a => ?_⟩
  rw [List.mem_cons, h.2]
  constructor
  · rintro (rfl | ⟨k, h1, h2, h3⟩)
    · exact ⟨l, hm, hl, by rw [upd_same, ht]; exact .inl rfl⟩
    · refine ⟨k, h1, h2, ?_⟩
      by_cases e : k = l
      · subst e; rw [upd_same, ht]; exact .inr h3
      · rwa [upd_ne _ _ e]
  · rintro ⟨k, h1, h2, h3⟩
    by_cases e : k = l
    · subst e; rw [upd_same, ht] at h3
      rcases h3 with h3 | h3
      · exact .inl h3
      · exact .inr ⟨k, h1, h2, h3⟩
    · rw [upd_ne _ _ e] at h3; exact .inr ⟨k, h1, h2, h3⟩

theorem Owned.cut (h : Owned lists alloc seq held) (hsh : Shape lists seq) {l : Nat} (hm : l ∈ lists) (hl : alloc l = true) {X t : List Nat}
    (hX : ∀ a ∈ X, a ∈ seq l) (ht : ∀ a, a ∈ t ↔ a ∈ seq l ∧ a ∉ X) (a : Nat) :
    (a ∈ held ∧ a ∉ X) ↔ ∃ k ∈ lists, alloc k = true ∧ a ∈ upd seq l t k := by
  rw [h.2]
  constructor
  · rintro ⟨⟨k, h1, h2, h3⟩, h4⟩
    refine ⟨k, h1, h2, ?_⟩
    by_cases e : k = l
    · subst e; rw [upd_same, ht]; exact ⟨h3, h4⟩
    · rwa [upd_ne _ _ e]
  · rintro ⟨k, h1, h2, h3⟩
    by_cases e : k = l
    · subst e; rw [upd_same, ht] at h3; exact ⟨⟨k, h1, h2, h3.1⟩, h3.2⟩
    · rw [upd_ne _ _ e] at h3
      exact ⟨⟨k, h1, h2, h3⟩, fun hx => e (hsh.disj k h1 l hm a h3 (hX a hx))⟩

/-- Elements given back. -/
theorem Owned.freed (h : Owned lists alloc seq held) (hsh : Shape lists seq) {l : Nat} (hm : l ∈ lists) (hl : alloc l = true) {X t : List Nat}
    (hX : ∀ a ∈ X, a ∈ seq l) (nd : X.Nodup) (ht : ∀ a, a ∈ t ↔ a ∈ seq l ∧ a ∉ X) : Kept lists alloc (upd seq l t) held (X.map .freed) [] := by
  obtain ⟨h', a1, a2, a3⟩ := settle_freed h.1 nd (fun a ha => (h.2 a).2 ⟨l, hm, hl, hX a ha⟩)
  exact ⟨h', by simp [settleWith, a1, without_nil'], a2, fun a => by rw [a3, h.cut hsh hm hl hX ht]⟩

/-- Elements handed to the user. -/
theorem Owned.handed (h : Owned lists alloc seq held) (hsh : Shape lists seq) {l : Nat} (hm : l ∈ lists) (hl : alloc l = true) {X t : List Nat}
    (hX : ∀ a ∈ X, a ∈ seq l) (ht : ∀ a, a ∈ t ↔ a ∈ seq l ∧ a ∉ X) : Kept lists alloc (upd seq l t) held [] X :=
  ⟨without X held, by simp [settleWith, settle], h.1.filter _, fun a => by rw [mem_without, h.cut hsh hm hl hX ht]⟩

/-- Elements moved between lists of the same kind. -/
theorem Owned.moved (h : Owned lists alloc seq held) {l m : Nat} (hl : l ∈ lists) (hm : m ∈ lists) (hal : alloc l = alloc m) {X t : List Nat}
    (hX : ∀ a ∈ X, a ∈ seq m) (ht : ∀ a, a ∈ t ↔ a ∈ X ∨ a ∈ upd seq m (without X (seq m)) l) :
    Kept lists alloc (upd (upd seq m (without X (seq m))) l t) held [] [] := by
  refine h.same fun a => ?_
  constructor
  · rintro ⟨k, h1, h2, h3⟩
    by_cases e : k = l
    · subst e
      rw [upd_same, ht] at h3
      rcases h3 with h3 | h3
      · exact ⟨m, hm, by rw [← hal, h2], hX a h3⟩
      · by_cases e' : k = m
        · subst e'; rw [upd_same, mem_without] at h3; exact ⟨k, h1, h2, h3.1⟩
        · rw [upd_ne _ _ e'] at h3; exact ⟨k, h1, h2, h3⟩
    · rw [upd_ne _ _ e] at h3
      by_cases e' : k = m
      · subst e'; rw [upd_same, mem_without] at h3; exact ⟨k, h1, h2, h3.1⟩
      · rw [upd_ne _ _ e'] at h3; exact ⟨k, h1, h2, h3⟩
  · rintro ⟨k, h1, h2, h3⟩
    by_cases hx : a ∈ X ∧ k = m
    · obtain ⟨hx, rfl⟩ := hx
      exact ⟨l, hl, by rw [hal, h2], by rw [upd_same, ht]; exact .inl hx⟩
    · have h4 : a ∈ upd seq m (without X (seq m)) k := by
        by_cases e' : k = m
        · subst e'; rw [upd_same, mem_without]; exact ⟨h3, fun h => hx ⟨h, rfl⟩⟩
        · rwa [upd_ne _ _ e']
      refine ⟨k, h1, h2, ?_⟩
      by_cases e : k = l
      · subst e; rw [upd_same, ht]; exact .inr h4
      · rwa [upd_ne _ _ e]

theorem release_seq {α : Type} (st : St α) (b : Bool) (X : List Nat) : (st.release b X).seq = st.seq := by
  unfold St.release; split <;> rfl

end Seq

namespace SllSpec
open Seq

variable {α : Type} {lists : List Nat} {alloc : Nat → Bool} {st : St α} {held : List Nat}

theorem mem_putAt {l pos a : Nat} {X t : List Nat} (hp : pos = l ∨ pos ∈ t) : a ∈ putAt l pos X t ↔ a ∈ X ∨ a ∈ t := by
  unfold putAt
  split
  · rw [List.mem_append]
  · exact mem_putAfter (hp.resolve_left ‹_›)

theorem move_kept (h : Owned lists alloc st.seq held) {l pos m : Nat} (hl : l ∈ lists) (hm : m ∈ lists) (hal : alloc l = alloc m)
    (hp : pos = l ∨ pos ∈ st.seq l) {X : List Nat} (hX : ∀ a ∈ X, a ∈ st.seq m) :
    Kept lists alloc (SllSpec.St.move st l pos m X).seq held [] [] := by
  unfold SllSpec.St.move
  split
  · exact h.same fun _ => Iff.rfl
  · refine h.moved hl hm hal hX (fun a => mem_putAt ?_)
    rcases hp with hp | hp
    · exact .inl hp
    · right
      show pos ∈ upd st.seq m _ l
      by_cases e : l = m
      · subst e; rw [upd_same, mem_without]; exact ⟨hp, ‹_›⟩
      · rwa [upd_ne _ _ e]

theorem step_kept (h : Owned lists alloc st.seq held) (hsh : Shape lists st.seq) (hown : ∀ l ∈ lists, ∀ a ∈ st.seq l, st.val a ≠ none)
    (op : Op α) (hok : okOp lists alloc st op) (hf : Fair alloc op) :
    Kept lists alloc (specStep alloc st op).1.seq held (calls alloc st op) (handed alloc st op) := by
  have same : Kept lists alloc st.seq held [] [] := h.same fun _ => Iff.rfl
  cases op with
  | pushFront l e ans =>
    obtain ⟨hl, hv, ho⟩ := hok
    simp only [specStep, calls, handed]
    cases ha : alloc l with
    | false => exact h.other ha _
    | true =>
      simp only [ha, if_true] at ho ⊢
      cases ans with
      | none => exact h.refused
      | some n => exact h.got hl ha (fun k hk hn => hown k hk n hn (ho n rfl).2) (fun a => by simp)
  | popFront l =>
    simp only [specStep, calls, handed]
    cases hs : st.seq l with
    | nil => simpa using same
    | cons e t =>
      simp only [release_seq]
      cases ha : alloc l with
      | false => exact h.other ha _
      | true =>
        have nd := hsh.nd l hok
        rw [hs] at nd
        refine h.freed (X := [e]) hsh hok ha (by simp [hs]) (by simp) (fun a => ?_)
        rw [hs]
        have := (List.nodup_cons.1 nd).1
        constructor
        · intro hat; exact ⟨by simp [hat], fun h => this (by simp at h; exact h ▸ hat)⟩
        · rintro ⟨h1, h2⟩; rcases List.mem_cons.1 h1 with h1 | h1
          · exact absurd (by simp [h1]) h2
          · exact h1
  | splice l pos m e =>
    obtain ⟨hl, hm, hp, he⟩ := hok
    exact move_kept h hl hm hf hp (by simpa using he)
  | spliceRange l pos m b e =>
    obtain ⟨hl, hm, hp, hr, _⟩ := hok
    exact move_kept h hl hm hf hp (fun a ha => through_sub hr.2 ha)
  | erase l e =>
    obtain ⟨hl, he⟩ := hok
    simp only [specStep, calls, handed, release_seq]
    cases ha : alloc l with
    | false => exact h.other ha _
    | true => exact h.freed (X := [e]) hsh hl ha (by simpa using he) (by simp) (fun a => mem_without)
  | eraseRange l b e =>
    obtain ⟨hl, hr⟩ := hok
    simp only [specStep, calls, handed, release_seq]
    cases ha : alloc l with
    | false => exact h.other ha _
    | true => exact h.freed hsh hl ha (fun a ha => through_sub hr.2 ha) (through_nodup (hsh.nd l hl)) (fun a => mem_without)
  | extract l e =>
    obtain ⟨hl, he⟩ := hok
    simp only [specStep, calls, handed]
    cases ha : alloc l with
    | false => exact h.other ha _
    | true => exact h.handed (X := [e]) hsh hl ha (by simpa using he) (fun a => mem_without)
  | extractRange l b e =>
    obtain ⟨hl, hr⟩ := hok
    simp only [specStep, calls, handed]
    cases ha : alloc l with
    | false => exact h.other ha _
    | true => exact h.handed hsh hl ha (fun a ha => through_sub hr.2 ha) (fun a => mem_without)
  | clear l d =>
    simp only [specStep, calls, handed, release_seq]
    cases ha : alloc l with
    | false => exact h.other ha _
    | true => exact h.freed hsh hok ha (fun a ha => ha) (hsh.nd l hok) (fun a => by simp)
  | _ => exact same

end SllSpec

namespace DllSpec
open Seq

variable {α : Type} {lists : List Nat} {alloc : Nat → Bool} {st : St α} {held : List Nat}

theorem move_kept (h : Owned lists alloc st.seq held) {l pos m : Nat} (hl : l ∈ lists) (hm : m ∈ lists) (hal : alloc l = alloc m)
    {X : List Nat} (hX : ∀ a ∈ X, a ∈ st.seq m) : Kept lists alloc (DllSpec.St.move st l pos m X).seq held [] [] := by
  unfold DllSpec.St.move
  split
  · exact h.same fun _ => Iff.rfl
  · exact h.moved hl hm hal hX (fun a => mem_putBefore)

theorem insert_kept (h : Owned lists alloc st.seq held) (hown : ∀ l ∈ lists, ∀ a ∈ st.seq l, st.val a ≠ none) {l e : Nat} {ans : Slot}
    (hl : l ∈ lists) (ho : if alloc l then Fresh lists st ans else Loose lists st e) {put : Nat → List Nat}
    (hput : ∀ n a, a ∈ put n ↔ a = n ∨ a ∈ st.seq l) :
    Kept lists alloc (DllSpec.St.insert alloc st l e ans put).1.seq held (if alloc l then [Ev.ofAns ans] else []) [] := by
  unfold DllSpec.St.insert
  cases ha : alloc l with
  | false => exact h.other ha _
  | true =>
    simp only [ha, if_true] at ho ⊢
    cases ans with
    | none => exact h.refused
    | some n => exact h.got hl ha (fun k hk hn => hown k hk n hn (ho n rfl).2) (hput n)

theorem emplace_kept (h : Owned lists alloc st.seq held) (hown : ∀ l ∈ lists, ∀ a ∈ st.seq l, st.val a ≠ none) {l : Nat} {x : α} {ans : Slot}
    (hl : l ∈ lists) (ho : alloc l = true → Fresh lists st ans) {put : Nat → List Nat} (hput : ∀ n a, a ∈ put n ↔ a = n ∨ a ∈ st.seq l) :
    Kept lists alloc (DllSpec.St.emplace alloc st l x ans put).1.seq held (if alloc l then [Ev.ofAns ans] else []) [] := by
  unfold DllSpec.St.emplace
  cases ha : alloc l with
  | false => exact h.same fun _ => Iff.rfl
  | true =>
    simp only [if_true]
    cases ans with
    | none => exact h.refused
    | some n => exact h.got hl ha (fun k hk hn => hown k hk n hn (ho ha n rfl).2) (hput n)

theorem step_kept (h : Owned lists alloc st.seq held) (hsh : Shape lists st.seq) (hown : ∀ l ∈ lists, ∀ a ∈ st.seq l, st.val a ≠ none)
    (op : Op α) (hok : okOp lists alloc st op) (hf : Fair alloc op) :
    Kept lists alloc (specStep alloc st op).1.seq held (calls alloc st op) (handed alloc st op) := by
  have same : Kept lists alloc st.seq held [] [] := h.same fun _ => Iff.rfl
  cases op with
  | pushFront l e ans => exact insert_kept h hown hok.1 hok.2.2 (fun n a => by simp)
  | pushBack l e ans => exact insert_kept h hown hok.1 hok.2.2 (fun n a => by simp [or_comm])
  | insert l pos e ans => exact insert_kept h hown hok.1 hok.2.2.2 (fun n a => by simp [mem_putBefore])
  | emplaceFront l x n p ans => exact emplace_kept h hown hok.1 hok.2 (fun n a => by simp)
  | emplaceBack l x n p ans => exact emplace_kept h hown hok.1 hok.2 (fun n a => by simp [or_comm])
  | popFront l =>
    simp only [specStep, calls, handed]
    cases hs : st.seq l with
    | nil => simpa using same
    | cons e t =>
      simp only [release_seq]
      cases ha : alloc l with
      | false => exact h.other ha _
      | true =>
        have nd := hsh.nd l hok
        rw [hs] at nd
        refine h.freed (X := [e]) hsh hok ha (by simp [hs]) (by simp) (fun a => ?_)
        rw [hs]
        have := (List.nodup_cons.1 nd).1
        constructor
        · intro hat; exact ⟨by simp [hat], fun h => this (by simp at h; exact h ▸ hat)⟩
        · rintro ⟨h1, h2⟩; rcases List.mem_cons.1 h1 with h1 | h1
          · exact absurd (by simp [h1]) h2
          · exact h1
  | popBack l =>
    simp only [specStep, calls, handed]
    rcases List.eq_nil_or_concat (st.seq l) with hs | ⟨A, e, hs⟩
    · rw [hs]; simpa using same
    · rw [List.concat_eq_append] at hs
      rw [hs]
      simp only [List.getLast?_concat, release_seq, List.dropLast_concat]
      cases ha : alloc l with
      | false => exact h.other ha _
      | true =>
        have nd := hsh.nd l hok
        rw [hs] at nd
        refine h.freed (X := [e]) hsh hok ha (by simp [hs]) (by simp) (fun a => ?_)
        rw [hs]
        constructor
        · intro hat
          refine ⟨by simp [hat], fun h => ?_⟩
          exact (List.nodup_append.1 nd).2.2 a hat e (by simp) (by simpa using h)
        · rintro ⟨h1, h2⟩; rcases List.mem_append.1 h1 with h1 | h1
          · exact h1
          · exact absurd h1 h2
  | splice l pos m e =>
    obtain ⟨hl, hm, hp, he⟩ := hok
    exact move_kept h hl hm hf (by simpa using he)
  | spliceRange l pos m b e =>
    obtain ⟨hl, hm, hp, hr, _⟩ := hok
    exact move_kept h hl hm hf (fun a ha => between_sub ha)
  | erase l e =>
    obtain ⟨hl, he⟩ := hok
    simp only [specStep, calls, handed, release_seq]
    cases ha : alloc l with
    | false => exact h.other ha _
    | true => exact h.freed (X := [e]) hsh hl ha (by simpa using he) (by simp) (fun a => mem_without)
  | eraseRange l b e =>
    obtain ⟨hl, hr⟩ := hok
    simp only [specStep, calls, handed]
    by_cases hbe : b = e
    · subst hbe
      simp only [if_true, release_seq]
      cases ha : alloc l with
      | false => exact h.other ha _
      | true => exact h.freed (X := [b]) hsh hl ha (by simpa using hr.1) (by simp) (fun a => mem_without)
    · simp only [if_neg hbe, release_seq]
      cases ha : alloc l with
      | false => exact h.other ha _
      | true => exact h.freed hsh hl ha (fun a ha => between_sub ha) (between_nodup (hsh.nd l hl)) (fun a => mem_without)
  | extract l e =>
    obtain ⟨hl, he⟩ := hok
    simp only [specStep, calls, handed]
    cases ha : alloc l with
    | false => exact h.other ha _
    | true => exact h.handed (X := [e]) hsh hl ha (by simpa using he) (fun a => mem_without)
  | extractRange l b e =>
    obtain ⟨hl, hr⟩ := hok
    simp only [specStep, calls, handed]
    by_cases hbe : b = e
    · subst hbe
      simp only [if_true]
      cases ha : alloc l with
      | false => exact h.other ha _
      | true => exact h.handed (X := [b]) hsh hl ha (by simpa using hr.1) (fun a => mem_without)
    · simp only [if_neg hbe]
      cases ha : alloc l with
      | false => exact h.other ha _
      | true => exact h.handed hsh hl ha (fun a ha => between_sub ha) (fun a => mem_without)
  | clear l d =>
    simp only [specStep, calls, handed, release_seq]
    cases ha : alloc l with
    | false => exact h.other ha _
    | true => exact h.freed hsh hok ha (fun a ha => ha) (hsh.nd l hok) (fun a => by simp)
  | _ => exact same

end DllSpec
end CCC
