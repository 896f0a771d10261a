import Verif.Spec.Ledger
import Verif.Proof.Mono
import Mathlib.Data.List.Perm.Basic
/-
The calls of the allocation function every call must make keep the allocator's book in order.
-/
namespace CCC.PtrMap
open CCC MapSpec

variable {α κ : Type} {cmp : κ → κ → Cmp} {key : α → κ} {l : List (Nat × α)}

theorem place_perm (hc : LawfulCmp cmp) {e : Nat × α} (h : lookup cmp (ekey key) (key e.2) l = none) :
    (place cmp (ekey key) e l).Perm (e :: l) := by
  unfold place
  refine List.perm_middle.trans (List.Perm.cons e ?_)
  have : l.filter (fun x => cmp (ekey key e) (ekey key x) == .les) =
      l.filter (fun x => !(cmp (ekey key e) (ekey key x) == .grt)) := by
    refine List.filter_congr ?_
    intro x hx
    have h1 := List.find?_eq_none.1 h x hx
    have h2 := hc.noErr (ekey key e) (ekey key x)
    change ¬ (cmp (ekey key e) (ekey key x) == .eql) = true at h1
    cases hh : cmp (ekey key e) (ekey key x) <;> simp_all
  rw [this]
  exact List.filter_append_perm _ _

theorem erase_perm (hc : LawfulCmp cmp) (hs : Sorted cmp (ekey key) l) {k : κ} {e : Nat × α}
    (h : lookup cmp (ekey key) k l = some e) : l.Perm (e :: erase cmp (ekey key) k l) := by
  induction l with
  | nil => cases h
  | cons a l ih =>
    rw [Sorted, List.pairwise_cons] at hs
    unfold lookup at h
    rw [List.find?_cons] at h
    unfold erase
    rw [List.filter_cons]
    cases hh : (cmp k (ekey key a) == .eql) with
    | true =>
      rw [hh] at h
      simp only [Option.some.injEq] at h
      subst h
      have hk : cmp k (ekey key a) = .eql := by simpa using hh
      rw [if_neg (by simp [hk])]
      refine List.Perm.cons a (List.Perm.of_eq (List.filter_eq_self.2 ?_).symm)
      intro x hx
      have := hs.1 x hx
      rw [← hc.eql_congr_left hk] at this
      simp [this]
    | false =>
      rw [hh] at h
      rw [if_pos (by simpa using hh)]
      exact ((ih hs.2 h).cons a).trans (List.Perm.swap _ _ _)

theorem assign_fst (hc : LawfulCmp cmp) (hs : Sorted cmp (ekey key) l) {k : κ} {a : Nat} {v x : α}
    (h : lookup cmp (ekey key) k l = some (a, v)) (hk : cmp k (key x) = .eql) :
    (assign cmp (ekey key) (a, x) l).map Prod.fst = l.map Prod.fst := by
  have hkx := hc.symm hk
  have key' : ∀ y, cmp (ekey key (a, x)) y = cmp k y := fun y => hc.eql_congr_left hkx y
  unfold assign
  rw [List.map_map]
  refine List.map_congr_left ?_
  intro y hy
  simp only [Function.comp]
  split
  · rename_i he
    rw [key'] at he
    have he' : cmp k (ekey key y) = .eql := by simpa using he
    have hm : (a, v) ∈ l := List.mem_of_find?_eq_some h
    have ha : cmp k (ekey key (a, v)) = .eql := by simpa using List.find?_some h
    by_contra hne
    have hxy : y ≠ (a, v) := by intro hh; subst hh; exact hne rfl
    have h3 : ∀ p q : Nat × α, cmp k (ekey key p) = .eql → cmp k (ekey key q) = .eql →
        cmp (ekey key p) (ekey key q) ≠ .les := by
      intro p q hp hq hle
      rw [← hc.eql_congr_left hp, hq] at hle
      cases hle
    have hp : ∀ {l : List (Nat × α)}, l.Pairwise (fun a b => cmp (ekey key a) (ekey key b) = .les) →
        ∀ p ∈ l, ∀ q ∈ l, p ≠ q → cmp (ekey key p) (ekey key q) = .les ∨ cmp (ekey key q) (ekey key p) = .les := by
      intro l hl
      induction l with
      | nil => intro p hp; cases hp
      | cons b l ih =>
        rw [List.pairwise_cons] at hl
        intro p hp q hq hpq
        rcases List.mem_cons.1 hp with rfl | hp' <;> rcases List.mem_cons.1 hq with rfl | hq'
        · exact absurd rfl hpq
        · exact Or.inl (hl.1 _ hq')
        · exact Or.inr (hl.1 _ hp')
        · exact ih hl.2 p hp' q hq' hpq
    rcases hp hs y hy _ hm hxy with h | h
    · exact h3 _ _ he' ha h
    · exact h3 _ _ ha he' h
  · rfl

theorem settle_all {d : List Nat} : ∀ {held : List Nat}, held.Perm d → settle held (d.map .freed) = some [] := by
  induction d with
  | nil => intro held h; rw [h.eq_nil]; rfl
  | cons a d ih =>
    intro held h
    have hm : a ∈ held := h.symm.subset (by simp)
    simp only [List.map_cons, settle]
    rw [if_pos hm]
    refine ih ?_
    have := h.erase a
    simpa using this

theorem settle_append (es es' : List Ev) : ∀ {held : List Nat},
    settle held (es ++ es') = (settle held es).bind (fun h => settle h es') := by
  induction es with
  | nil => intro held; rfl
  | cons e es ih =>
    intro held
    cases e with
    | got a =>
      simp only [List.cons_append, settle]
      split
      · rfl
      · exact ih
    | refused => exact ih
    | freed a =>
      simp only [List.cons_append, settle]
      split
      · exact ih
      · rfl

/-- One call keeps the book in order: afterwards exactly the blocks of the stored elements are out. -/
theorem settle_calls (hc : LawfulCmp cmp) (hs : Sorted cmp (ekey key) l) {op : Op α κ} (ok : okOp cmp key true l op)
    {es : List Ev} (h : Calls cmp key true l op es) {held : List Nat} (hp : held.Perm (l.map Prod.fst)) :
    ∃ held', settle held es = some held' ∧ held'.Perm ((specStep cmp key true l op).1.map Prod.fst) := by
  have add : ∀ {k : κ} {x : α} {ans : Option Nat} {w : Nat}, goodAns l ans w → cmp k (key x) = .eql →
      lookup cmp (ekey key) k l = none →
      ∃ held', settle held [Ev.ofAns ans] = some held' ∧ held'.Perm ((match ans with
        | none => l
        | some n => place cmp (ekey key) (n, x) l).map Prod.fst) := by
    intro k x ans w ga hk hlk
    cases ans with
    | none => exact ⟨held, rfl, hp⟩
    | some n =>
      have hf := (ga n rfl).1
      have hn : n ∉ held := by
        intro hh
        obtain ⟨e, he, rfl⟩ := List.mem_map.1 (hp.subset hh)
        exact hf.2 e he rfl
      refine ⟨n :: held, by simp [Ev.ofAns, settle, hn], ?_⟩
      have hlk' : lookup cmp (ekey key) (key x) l = none := by
        rw [← hlk]; unfold lookup; congr 1; funext y; rw [hc.eql_congr_left hk]
      exact (hp.cons n).trans ((place_perm hc (e := (n, x)) hlk').map Prod.fst).symm
  have sub : ∀ {k : κ} {e : Nat × α}, lookup cmp (ekey key) k l = some e →
      ∃ held', settle held [.freed e.1] = some held' ∧ held'.Perm ((erase cmp (ekey key) k l).map Prod.fst) := by
    intro k e hlk
    have hp' := hp.trans ((erase_perm hc hs hlk).map Prod.fst)
    have hm : e.1 ∈ held := hp'.symm.subset (by simp)
    refine ⟨held.erase e.1, by simp [settle, hm], ?_⟩
    have := hp'.erase e.1
    simpa using this
  have same : ∀ {k : κ} {x : α} {a : Nat} {v : α}, lookup cmp (ekey key) k l = some (a, v) → cmp k (key x) = .eql →
      ∃ held', settle held [] = some held' ∧ held'.Perm ((assign cmp (ekey key) (a, x) l).map Prod.fst) := by
    intro k x a v hlk hk
    exact ⟨held, rfl, by rw [assign_fst hc hs hlk hk]; exact hp⟩
  have stay : ∃ held', settle held [] = some held' ∧ held'.Perm (l.map Prod.fst) := ⟨held, rfl, hp⟩
  cases op with
  | insert h' x tmp y ans =>
    simp only [Calls, true_and] at h
    subst h
    cases hlk : lookup cmp (ekey key) (key x) l with
    | some e => simp only [specStep, hlk, reduceCtorEq, if_false]; exact same hlk (hc.refl _)
    | none =>
      have := add (x := x) ok.2.2.2.1 (hc.refl _) hlk
      cases ans <;> simpa only [specStep, hlk, addAt, if_true] using this
  | tryInsert h' x ans =>
    simp only [Calls, true_and] at h
    subst h
    cases hlk : lookup cmp (ekey key) (key x) l with
    | some e => simp only [specStep, hlk, reduceCtorEq, if_false]; exact stay
    | none =>
      have := add (x := x) ok.2 (hc.refl _) hlk
      cases ans <;> simpa only [specStep, hlk, addAt, if_true] using this
  | insertOrAssign h' x ans =>
    simp only [Calls, true_and] at h
    subst h
    cases hlk : lookup cmp (ekey key) (key x) l with
    | some e => simp only [specStep, hlk, reduceCtorEq, if_false]; exact same hlk (hc.refl _)
    | none =>
      have := add (x := x) ok.2 (hc.refl _) hlk
      cases ans <;> simpa only [specStep, hlk, addAt, if_true] using this
  | remove h' x =>
    simp only [Calls, if_true] at h
    subst h
    cases hlk : lookup cmp (ekey key) (key x) l with
    | some e => simp only [specStep, hlk]; exact sub hlk
    | none => simp only [specStep, hlk]; exact stay
  | orInsert k h' x ans =>
    simp only [Calls, true_and] at h
    subst h
    cases hlk : lookup cmp (ekey key) k l with
    | some e => simp only [specStep, hlk, reduceCtorEq, if_false]; exact stay
    | none =>
      have := add (x := x) ok.2.1 ok.2.2 hlk
      cases ans <;> simpa only [specStep, hlk, addAt, if_true] using this
  | insertEntry k h' x ans =>
    simp only [Calls, true_and] at h
    subst h
    cases hlk : lookup cmp (ekey key) k l with
    | some e => simp only [specStep, hlk, reduceCtorEq, if_false]; exact same hlk ok.2.2
    | none =>
      have := add (x := x) ok.2.1 ok.2.2 hlk
      cases ans <;> simpa only [specStep, hlk, addAt, if_true] using this
  | removeEntry k =>
    simp only [Calls, if_true] at h
    subst h
    cases hlk : lookup cmp (ekey key) k l with
    | some e => simp only [specStep, hlk]; exact sub hlk
    | none => simp only [specStep, hlk]; exact stay
  | orInsertW k x ans =>
    simp only [Calls, true_and] at h
    subst h
    cases hlk : lookup cmp (ekey key) k l with
    | some e => simp only [specStep, hlk, reduceCtorEq, if_false]; exact stay
    | none =>
      have := add (x := x) ok.1 ok.2 hlk
      cases ans <;> simpa only [specStep, hlk, addAt, if_true] using this
  | insertEntryW k x ans =>
    simp only [Calls, true_and] at h
    subst h
    cases hlk : lookup cmp (ekey key) k l with
    | some e => simp only [specStep, hlk, reduceCtorEq, if_false]; exact same hlk ok.2
    | none =>
      have := add (x := x) ok.1 ok.2 hlk
      cases ans <;> simpa only [specStep, hlk, addAt, if_true] using this
  | tryInsertW k x ans =>
    simp only [Calls, true_and] at h
    subst h
    cases hlk : lookup cmp (ekey key) k l with
    | some e => simp only [specStep, hlk, reduceCtorEq, if_false]; exact stay
    | none =>
      have := add (x := x) ok.1 ok.2 hlk
      cases ans <;> simpa only [specStep, hlk, addAt, if_true] using this
  | insertOrAssignW k x ans =>
    simp only [Calls, true_and] at h
    subst h
    cases hlk : lookup cmp (ekey key) k l with
    | some e => simp only [specStep, hlk, reduceCtorEq, if_false]; exact same hlk ok.2
    | none =>
      have := add (x := x) ok.1 ok.2 hlk
      cases ans <;> simpa only [specStep, hlk, addAt, if_true] using this
  | andModify k f =>
    simp only [Calls] at h
    subst h
    cases hlk : lookup cmp (ekey key) k l with
    | some e =>
      simp only [specStep, hlk]
      refine ⟨held, rfl, ?_⟩
      rw [List.map_map]
      have : (Prod.fst ∘ fun e' : Nat × α => if e'.1 = e.1 then (e.1, f e'.2) else e') = Prod.fst := by
        funext y; simp only [Function.comp]; split
        · rename_i hy; exact hy.symm
        · rfl
      rw [this]; exact hp
    | none => simp only [specStep, hlk]; exact stay
  | clear =>
    simp only [Calls, if_true] at h
    obtain ⟨d, hd, rfl⟩ := h
    exact ⟨[], settle_all (hp.trans hd.symm), by simp [specStep]⟩
  | occupied k => cases h; exact stay
  | contains k => cases h; exact stay
  | get k => cases h; exact stay
  | begin => cases h; exact stay
  | rbegin => cases h; exact stay
  | next a => cases h; exact stay
  | rnext a => cases h; exact stay
  | equalRange b e => cases h; exact stay
  | equalRrange b e => cases h; exact stay
  | size => cases h; exact stay
  | isEmpty => cases h; exact stay
  | validate => cases h; exact stay

/-- Without an allocation function none is called. -/
theorem calls_none {op : Op α κ} {es : List Ev} (h : Calls cmp key false l op es) : es = [] := by
  cases op <;> simpa [Calls] using h

end CCC.PtrMap
