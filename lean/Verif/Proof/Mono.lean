import Verif.Spec.Map
/-
A sought key compared with a sorted list of elements.
-/
namespace CCC
open CCC

theorem LawfulCmp.refl {κ : Type} {cmp : κ → κ → Cmp} (h : LawfulCmp cmp) (a : κ) : cmp a a = .eql := by
  cases e : cmp a a with
  | les => have := (h.flip a a).1 e; rw [e] at this; cases this
  | grt => have := (h.flip a a).2 e; rw [e] at this; cases this
  | err => exact absurd e (h.noErr a a)
  | eql => rfl

theorem LawfulCmp.symm {κ : Type} {cmp : κ → κ → Cmp} (h : LawfulCmp cmp) {a b : κ} (e : cmp a b = .eql) :
    cmp b a = .eql := by
  cases e' : cmp b a with
  | les => rw [(h.flip b a).1 e'] at e; cases e
  | grt => rw [(h.flip a b).2 e'] at e; cases e
  | err => exact absurd e' (h.noErr b a)
  | eql => rfl

theorem LawfulCmp.grt_iff {κ : Type} {cmp : κ → κ → Cmp} (h : LawfulCmp cmp) {a b : κ} :
    cmp a b = .grt ↔ cmp b a = .les := (h.flip b a).symm

/-- `a ≤ b < c → a < c`. -/
theorem LawfulCmp.le_lt {κ : Type} {cmp : κ → κ → Cmp} (h : LawfulCmp cmp) {a b c : κ}
    (h1 : cmp a b ≠ .grt) (h2 : cmp b c = .les) : cmp a c = .les := by
  cases e : cmp a c with
  | les => rfl
  | err => exact absurd e (h.noErr _ _)
  | eql =>
    exfalso
    have := h.trans c a b (by rw [h.symm e]; simp) h1
    exact this ((h.flip _ _).1 h2)
  | grt =>
    exfalso
    have := h.trans c a b (by rw [h.grt_iff.1 e]; simp) h1
    exact this ((h.flip _ _).1 h2)

/-- `a < b ≤ c → a < c`. -/
theorem LawfulCmp.lt_le {κ : Type} {cmp : κ → κ → Cmp} (h : LawfulCmp cmp) {a b c : κ}
    (h1 : cmp a b = .les) (h2 : cmp b c ≠ .grt) : cmp a c = .les := by
  cases e : cmp a c with
  | les => rfl
  | err => exact absurd e (h.noErr _ _)
  | eql =>
    exfalso
    have := h.trans b c a h2 (by rw [h.symm e]; simp)
    exact this ((h.flip _ _).1 h1)
  | grt =>
    exfalso
    have := h.trans b c a h2 (by rw [h.grt_iff.1 e]; simp)
    exact this ((h.flip _ _).1 h1)

/-- Equal keys compare alike. -/
theorem LawfulCmp.eql_congr {κ : Type} {cmp : κ → κ → Cmp} (h : LawfulCmp cmp) {a b : κ} (e : cmp a b = .eql)
    (c : κ) : cmp c a = cmp c b := by
  have e' := h.symm e
  cases h1 : cmp c b with
  | err => exact absurd h1 (h.noErr _ _)
  | les => exact h.lt_le h1 (by rw [e']; simp)
  | grt => rw [h.grt_iff] at h1 ⊢; exact h.le_lt (by rw [e]; simp) h1
  | eql =>
    cases h2 : cmp c a with
    | err => exact absurd h2 (h.noErr _ _)
    | les => rw [h.lt_le h2 (by rw [e]; simp)] at h1; cases h1
    | grt =>
      rw [h.grt_iff] at h2
      have := h.le_lt (a := b) (by rw [e']; simp) h2
      rw [← h.grt_iff, h1] at this; cases this
    | eql => rfl

theorem LawfulCmp.eql_congr_left {κ : Type} {cmp : κ → κ → Cmp} (h : LawfulCmp cmp) {a b : κ} (e : cmp a b = .eql)
    (c : κ) : cmp a c = cmp b c := by
  have := h.eql_congr e c
  cases h1 : cmp b c with
  | err => exact absurd h1 (h.noErr _ _)
  | les => rw [h.flip] at h1 ⊢; rw [this]; exact h1
  | grt => rw [h.grt_iff] at h1 ⊢; rw [this]; exact h1
  | eql => exact h.symm (this.trans (h.symm h1))

/-- Comparing one fixed key with the elements of a list gives first `grt`s, then at most one `eql`, then
`les`s. -/
structure Mono {A : Type} (c : A → Cmp) (l : List A) : Prop where
  noErr : ∀ a ∈ l, c a ≠ .err
  ord : l.Pairwise (fun a b => (c b ≠ .les → c a = .grt) ∧ (c a ≠ .grt → c b = .les))

theorem Mono.of_sorted {κ E A : Type} {cmp : κ → κ → Cmp} (h : LawfulCmp cmp) {key : E → κ} {f : A → E} {l : List A}
    (hs : MapSpec.Sorted cmp key (l.map f)) (k : κ) : Mono (fun a => cmp k (key (f a))) l := by
  refine ⟨fun a _ => h.noErr _ _, ?_⟩
  unfold MapSpec.Sorted at hs
  rw [List.pairwise_map] at hs
  refine hs.imp ?_
  intro a b hab
  constructor
  · intro hb
    rw [h.grt_iff]
    exact h.lt_le hab (fun hh => hb (h.grt_iff.1 hh))
  · intro ha
    exact h.le_lt ha hab

theorem Mono.sub {A : Type} {c : A → Cmp} {l m : List A} (h : Mono c l) (hs : m.Sublist l) : Mono c m :=
  ⟨fun a ha => h.noErr a (hs.subset ha), h.ord.sublist hs⟩

/-- Splitting at an element of equal key. -/
theorem Mono.split_eql {A : Type} {c : A → Cmp} {pre post : List A} {x : A} (h : Mono c (pre ++ x :: post))
    (hx : c x = .eql) : (∀ a ∈ pre, c a = .grt) ∧ (∀ a ∈ post, c a = .les) := by
  have := h.ord
  rw [List.pairwise_append, List.pairwise_cons] at this
  refine ⟨fun a ha => (this.2.2 a ha x (by simp)).1 (by rw [hx]; simp), fun a ha => ?_⟩
  exact (this.2.1.1 a ha).2 (by rw [hx]; simp)

namespace MapSpec
variable {E κ : Type} {cmp : κ → κ → Cmp} {key : E → κ}

theorem lookup_split {k : κ} {pre post : List E} {x : E} (h1 : ∀ a ∈ pre, cmp k (key a) = .grt)
    (hx : cmp k (key x) = .eql) : lookup cmp key k (pre ++ x :: post) = some x := by
  unfold lookup
  rw [List.find?_append]
  have : pre.find? (fun x => cmp k (key x) == .eql) = none := by
    rw [List.find?_eq_none]; intro a ha; simp [h1 a ha]
  simp [this, hx]

theorem lookup_none {k : κ} {pre post : List E} (h1 : ∀ a ∈ pre, cmp k (key a) = .grt)
    (h2 : ∀ a ∈ post, cmp k (key a) = .les) : lookup cmp key k (pre ++ post) = none := by
  unfold lookup
  rw [List.find?_eq_none]
  intro a ha
  rcases List.mem_append.1 ha with ha | ha
  · simp [h1 a ha]
  · simp [h2 a ha]

theorem place_split {e : E} {pre post : List E} (h1 : ∀ a ∈ pre, cmp (key e) (key a) = .grt)
    (h2 : ∀ a ∈ post, cmp (key e) (key a) = .les) : place cmp key e (pre ++ post) = pre ++ e :: post := by
  unfold place
  rw [List.filter_append, List.filter_append]
  have e1 : pre.filter (fun x => cmp (key e) (key x) == .grt) = pre :=
    List.filter_eq_self.2 (fun a ha => by simp [h1 a ha])
  have e2 : post.filter (fun x => cmp (key e) (key x) == .grt) = [] :=
    List.filter_eq_nil_iff.2 (fun a ha => by simp [h2 a ha])
  have e3 : pre.filter (fun x => cmp (key e) (key x) == .les) = [] :=
    List.filter_eq_nil_iff.2 (fun a ha => by simp [h1 a ha])
  have e4 : post.filter (fun x => cmp (key e) (key x) == .les) = post :=
    List.filter_eq_self.2 (fun a ha => by simp [h2 a ha])
  rw [e1, e2, e3, e4]; simp

theorem erase_split {k : κ} {pre post : List E} {x : E} (h1 : ∀ a ∈ pre, cmp k (key a) = .grt)
    (hx : cmp k (key x) = .eql) (h2 : ∀ a ∈ post, cmp k (key a) = .les) :
    erase cmp key k (pre ++ x :: post) = pre ++ post := by
  unfold erase
  rw [List.filter_append, List.filter_cons]
  have e1 : pre.filter (fun x => cmp k (key x) != .eql) = pre :=
    List.filter_eq_self.2 (fun a ha => by simp [h1 a ha])
  have e2 : post.filter (fun x => cmp k (key x) != .eql) = post :=
    List.filter_eq_self.2 (fun a ha => by simp [h2 a ha])
  rw [e1, e2]; simp [hx]

theorem erase_none {k : κ} {pre post : List E} (h1 : ∀ a ∈ pre, cmp k (key a) = .grt)
    (h2 : ∀ a ∈ post, cmp k (key a) = .les) : erase cmp key k (pre ++ post) = pre ++ post := by
  unfold erase
  refine List.filter_eq_self.2 (fun a ha => ?_)
  rcases List.mem_append.1 ha with ha | ha
  · simp [h1 a ha]
  · simp [h2 a ha]

theorem assign_split {e : E} {pre post : List E} {x : E} (h1 : ∀ a ∈ pre, cmp (key e) (key a) = .grt)
    (hx : cmp (key e) (key x) = .eql) (h2 : ∀ a ∈ post, cmp (key e) (key a) = .les) :
    assign cmp key e (pre ++ x :: post) = pre ++ e :: post := by
  unfold assign
  rw [List.map_append, List.map_cons]
  have e1 : pre.map (fun x => if cmp (key e) (key x) == .eql then e else x) = pre := by
    conv => rhs; rw [← List.map_id pre]
    exact List.map_congr_left (fun a ha => by simp [h1 a ha])
  have e2 : post.map (fun x => if cmp (key e) (key x) == .eql then e else x) = post := by
    conv => rhs; rw [← List.map_id post]
    exact List.map_congr_left (fun a ha => by simp [h2 a ha])
  rw [e1, e2]; simp [hx]

theorem Sorted.place {pre post : List E} {e : E} (h : LawfulCmp cmp) (hs : Sorted cmp key (pre ++ post))
    (h1 : ∀ a ∈ pre, cmp (key e) (key a) = .grt) (h2 : ∀ a ∈ post, cmp (key e) (key a) = .les) :
    Sorted cmp key (pre ++ e :: post) := by
  unfold Sorted at *
  rw [List.pairwise_append] at hs ⊢
  refine ⟨hs.1, List.pairwise_cons.2 ⟨h2, hs.2.1⟩, ?_⟩
  intro a ha b hb
  rcases List.mem_cons.1 hb with rfl | hb
  · exact h.grt_iff.1 (h1 a ha)
  · exact hs.2.2 a ha b hb

theorem Sorted.erase {pre post : List E} {x : E} (hs : Sorted cmp key (pre ++ x :: post)) :
    Sorted cmp key (pre ++ post) := by
  unfold Sorted at *
  exact hs.sublist (List.Sublist.append (List.Sublist.refl _) (List.sublist_cons_self _ _))

theorem Sorted.replace {pre post : List E} {x e : E} (h : LawfulCmp cmp) (hs : Sorted cmp key (pre ++ x :: post))
    (hx : cmp (key e) (key x) = .eql) : Sorted cmp key (pre ++ e :: post) := by
  unfold Sorted at *
  rw [List.pairwise_append, List.pairwise_cons] at hs ⊢
  refine ⟨hs.1, ⟨fun a ha => ?_, hs.2.1.2⟩, ?_⟩
  · rw [h.eql_congr_left hx]; exact hs.2.1.1 a ha
  · intro a ha b hb
    rcases List.mem_cons.1 hb with rfl | hb
    · rw [h.eql_congr hx]; exact hs.2.2 a ha x (by simp)
    · exact hs.2.2 a ha b (by simp [hb])

end MapSpec
end CCC
