import Verif.Spec.Dictionary
import Verif.Proof.Mono
import Verif.Proof.Iter
/-
The lists of the specifications as dictionaries.
-/
namespace CCC.Dictionary
open CCC MapSpec

variable {α κ : Type} {cmp : κ → κ → Cmp} {key : α → κ}

/-- A list of user data as a dictionary. -/
def abs (cmp : κ → κ → Cmp) (key : α → κ) (vs : List α) : Dict κ α :=
  ⟨fun k => lookup cmp key k vs, vs.length⟩

theorem Dict.ext' {d d' : Dict κ α} (h : ∀ k, d.get k = d'.get k) (hn : d.n = d'.n) : d = d' := by
  cases d; cases d'
  simp only [Dict.mk.injEq]
  exact ⟨funext h, hn⟩

theorem abs_congr (hc : LawfulCmp cmp) {k k' : κ} (h : cmp k k' = .eql) (vs : List α) :
    (abs cmp key vs).get k = (abs cmp key vs).get k' := by
  simp only [abs, lookup]
  congr 1
  funext x
  rw [hc.eql_congr_left h]

theorem set_self (hc : LawfulCmp cmp) {k : κ} {v : α} {vs : List α} (h : lookup cmp key k vs = some v) :
    (abs cmp key vs).set cmp k v = abs cmp key vs := by
  refine Dict.ext' ?_ rfl
  intro k'
  simp only [Dict.set]
  split
  · next he => rw [abs_congr hc he]; exact h.symm
  · rfl

theorem lookup_prop {k : κ} {v : α} {vs : List α} (h : lookup cmp key k vs = some v) :
    v ∈ vs ∧ cmp k (key v) = .eql := by
  refine ⟨List.mem_of_find?_eq_some h, ?_⟩
  have := List.find?_some h
  simpa using this

/-- Overwriting what is stored under a key. -/
theorem abs_set (hc : LawfulCmp cmp) {k : κ} {v x : α} {vs : List α} (h : lookup cmp key k vs = some v)
    (hx : cmp k (key x) = .eql) :
    abs cmp key (vs.map (fun y => if cmp k (key y) = .eql then x else y)) = (abs cmp key vs).set cmp k x := by
  refine Dict.ext' ?_ (by simp [abs, Dict.set])
  intro k'
  simp only [abs, Dict.set, lookup, List.find?_map, Function.comp_def]
  by_cases he : cmp k' k = .eql
  · rw [if_pos he]
    have : ∀ y : α, (cmp k' (key (if cmp k (key y) = .eql then x else y)) == .eql) = (cmp k (key y) == .eql) := by
      intro y
      rw [hc.eql_congr_left he]
      split
      · next h1 => rw [hx, h1]
      · rfl
    simp only [this]
    rw [show vs.find? (fun y => cmp k (key y) == .eql) = some v from h]
    simp [(lookup_prop h).2]
  · rw [if_neg he]
    have hn : ∀ y : α, cmp k (key y) = .eql → cmp k' (key y) ≠ .eql := by
      intro y h1 h2
      refine he ?_
      rw [hc.eql_congr h1]
      exact h2
    have : ∀ y : α, (cmp k' (key (if cmp k (key y) = .eql then x else y)) == .eql) = (cmp k' (key y) == .eql) := by
      intro y
      split
      · next h1 => rw [beq_eq_false_iff_ne.mpr (hn x hx), beq_eq_false_iff_ne.mpr (hn y h1)]
      · rfl
    simp only [this]
    cases hf : vs.find? (fun y => cmp k' (key y) == .eql) with
    | none => rfl
    | some y =>
      have := List.find?_some hf
      simp only [beq_iff_eq] at this
      simp only [Option.map_some]
      rw [if_neg (fun h1 => hn y h1 this)]

theorem erase_len (hc : LawfulCmp cmp) {k : κ} {v : α} : ∀ {vs : List α}, Sorted cmp key vs →
    lookup cmp key k vs = some v → (erase cmp key k vs).length = vs.length - 1
  | [], _, h => by simp [lookup] at h
  | y :: vs, hs, h => by
    obtain ⟨h1, h2⟩ := List.pairwise_cons.mp hs
    by_cases hy : cmp k (key y) = .eql
    · have : erase cmp key k vs = vs := by
        refine List.filter_eq_self.mpr ?_
        intro a ha
        have := h1 a ha
        rw [← hc.eql_congr_left hy] at this
        simp [this]
      have e : erase cmp key k (y :: vs) = erase cmp key k vs := by
        simp [erase, hy]
      rw [e, this]; simp
    · have e : erase cmp key k (y :: vs) = y :: erase cmp key k vs := by
        simp [erase, hy]
      have hl : lookup cmp key k vs = some v := by
        simpa [lookup, hy] using h
      have hp : 0 < vs.length := List.length_pos_of_mem (lookup_prop hl).1
      rw [e, List.length_cons, List.length_cons, erase_len hc h2 hl]
      omega

theorem abs_del (hc : LawfulCmp cmp) {k : κ} {v : α} {vs : List α} (hs : Sorted cmp key vs)
    (h : lookup cmp key k vs = some v) : abs cmp key (erase cmp key k vs) = (abs cmp key vs).del cmp k := by
  refine Dict.ext' ?_ (erase_len hc hs h)
  intro k'
  simp only [abs, Dict.del, lookup, erase, List.find?_filter]
  by_cases he : cmp k' k = .eql
  · rw [if_pos he, List.find?_eq_none]
    intro y _
    rw [hc.eql_congr_left he]
    cases cmp k (key y) <;> simp
  · rw [if_neg he]
    congr 1
    funext y
    cases hy : cmp k (key y) == .eql with
    | false =>
      have h1 : cmp k (key y) ≠ .eql := beq_eq_false_iff_ne.mp hy
      cases h2 : cmp k' (key y) <;> simp [h1]
    | true =>
      have h1 : cmp k (key y) = .eql := by simpa using hy
      have : cmp k' (key y) ≠ .eql := fun h2 => he (by rw [hc.eql_congr h1]; exact h2)
      simp [h1, this]

theorem abs_place (hc : LawfulCmp cmp) {k : κ} {x : α} {vs : List α} (h : lookup cmp key k vs = none)
    (hk : cmp k (key x) = .eql) : abs cmp key (place cmp key x vs) = (abs cmp key vs).put cmp k x := by
  have hx : lookup cmp key (key x) vs = none := by
    rw [← h]
    exact abs_congr hc (hc.symm hk) vs
  refine Dict.ext' ?_ (place_length hc hx)
  intro k'
  simp only [abs, Dict.put, lookup, place, List.find?_append, List.find?_filter, List.find?_cons]
  have hcg : ∀ y : α, cmp k' (key y) = .eql → cmp (key x) (key y) = cmp (key x) k' := by
    intro y hy; rw [hc.eql_congr (hc.symm hy)]
  by_cases he : cmp k' k = .eql
  · have h1 : cmp k' (key x) = .eql := by rw [hc.eql_congr_left he]; exact hk
    rw [if_pos he, h1, List.find?_eq_none.mpr]
    · rfl
    · intro y _
      have : cmp k' (key y) = cmp (key x) (key y) := hc.eql_congr_left h1 _
      rw [this]
      cases cmp (key x) (key y) <;> simp
  · have h1 : cmp k' (key x) ≠ .eql := fun h2 => he (by rw [hc.eql_congr hk]; exact h2)
    rw [if_neg he, beq_eq_false_iff_ne.mpr h1]
    have key1 : ∀ c : Cmp, (fun y => decide ((cmp (key x) (key y) == c) = true ∧ (cmp k' (key y) == .eql) = true)) =
        (fun y => (cmp (key x) k' == c) && (cmp k' (key y) == .eql)) := by
      intro c; funext y
      by_cases hy : cmp k' (key y) = .eql
      · rw [hcg y hy, hy]; cases cmp (key x) k' == c <;> simp
      · simp [hy]
    rw [key1, key1]
    have hne : cmp (key x) k' ≠ .eql := fun h2 => h1 (hc.symm h2)
    have herr := hc.noErr (key x) k'
    have fls : vs.find? (fun _ => false) = none := List.find?_eq_none.mpr (by simp)
    cases hcase : cmp (key x) k' with
    | les => simp [fls, show (Cmp.les == Cmp.grt) = false from rfl]
    | grt => simp [fls, show (Cmp.grt == Cmp.les) = false from rfl]
    | eql => exact absurd hcase hne
    | err => exact absurd hcase herr

/-! ### Elements with addresses or slots -/

theorem lookup_snd {k : κ} {l : List (Nat × α)} :
    lookup cmp key k (l.map Prod.snd) = (lookup cmp (ekey key) k l).map Prod.snd := by
  simp only [lookup, List.find?_map]; rfl

theorem erase_snd {k : κ} {l : List (Nat × α)} :
    (erase cmp (ekey key) k l).map Prod.snd = erase cmp key k (l.map Prod.snd) := by
  simp only [erase, List.filter_map]; rfl

theorem place_snd {n : Nat} {x : α} {l : List (Nat × α)} :
    (place cmp (ekey key) (n, x) l).map Prod.snd = place cmp key x (l.map Prod.snd) := by
  simp only [place, List.map_append, List.map_cons, List.filter_map]; rfl

theorem sorted_snd {l : List (Nat × α)} (h : Sorted cmp (ekey key) l) : Sorted cmp key (l.map Prod.snd) :=
  List.pairwise_map.mpr h

theorem assign_snd (hc : LawfulCmp cmp) {k : κ} {a : Nat} {x : α} {l : List (Nat × α)} (hk : cmp k (key x) = .eql) :
    (assign cmp (ekey key) (a, x) l).map Prod.snd =
      (l.map Prod.snd).map (fun y => if cmp k (key y) = .eql then x else y) := by
  simp only [assign, List.map_map]
  refine List.map_congr_left ?_
  intro e _
  simp only [Function.comp, ekey, hc.eql_congr_left hk, beq_iff_eq]
  split <;> rfl

theorem by_addr {l : List (Nat × α)} {e e' : Nat × α} (hd : (l.map Prod.fst).Nodup) (h : e ∈ l) (h' : e' ∈ l)
    (he : e.1 = e'.1) : e = e' := by
  induction l with
  | nil => cases h
  | cons y l ih =>
    obtain ⟨h1, h2⟩ := List.nodup_cons.mp hd
    rcases List.mem_cons.mp h with rfl | h3 <;> rcases List.mem_cons.mp h' with rfl | h4
    · rfl
    · exact absurd (by rw [he]; exact List.mem_map_of_mem h4) h1
    · exact absurd (by rw [← he]; exact List.mem_map_of_mem h3) h1
    · exact ih h2 h3 h4

/-- The element of a key is the only one with its address, and with its key. -/
theorem only {k : κ} {a : Nat} {v : α} {l : List (Nat × α)} (hc : LawfulCmp cmp) (hs : Sorted cmp (ekey key) l)
    (hd : (l.map Prod.fst).Nodup) (h : lookup cmp (ekey key) k l = some (a, v)) :
    ∀ e ∈ l, e.1 = a ↔ cmp k (key e.2) = .eql := by
  have hm := List.mem_of_find?_eq_some h
  have hk : cmp k (key v) = .eql := by simpa [ekey] using List.find?_some h
  intro e he
  constructor
  · intro h1
    have : e = (a, v) := by_addr hd he hm h1
    rw [this]; exact hk
  · intro h1
    obtain ⟨A, B, rfl⟩ := List.append_of_mem hm
    have hp := List.pairwise_append.mp hs
    have hq := List.pairwise_cons.mp hp.2.1
    have hev : cmp (key e.2) (key v) = .eql := by rw [hc.eql_congr_left (hc.symm h1)]; exact hk
    rcases List.mem_append.mp he with h2 | h2
    · have := hp.2.2 e h2 (a, v) (by simp)
      simp only [ekey] at this
      rw [hev] at this; cases this
    · rcases List.mem_cons.mp h2 with rfl | h3
      · rfl
      · have := hq.1 e h3
        simp only [ekey] at this
        rw [hc.symm hev] at this; cases this

theorem write_snd (hc : LawfulCmp cmp) {k : κ} {a : Nat} {v x : α} {l : List (Nat × α)} (hs : Sorted cmp (ekey key) l)
    (hd : (l.map Prod.fst).Nodup) (h : lookup cmp (ekey key) k l = some (a, v)) :
    (FlatMap.write a x l).map Prod.snd = (l.map Prod.snd).map (fun y => if cmp k (key y) = .eql then x else y) := by
  simp only [FlatMap.write, List.map_map]
  refine List.map_congr_left ?_
  intro e he
  have := only hc hs hd h e he
  simp only [Function.comp]
  by_cases h1 : e.1 = a
  · rw [if_pos h1, if_pos (this.mp h1)]
  · rw [if_neg h1, if_neg (fun h2 => h1 (this.mpr h2))]

theorem modify_snd (hc : LawfulCmp cmp) {k : κ} {a : Nat} {v : α} {f : α → α} {l : List (Nat × α)}
    (hs : Sorted cmp (ekey key) l) (hd : (l.map Prod.fst).Nodup) (h : lookup cmp (ekey key) k l = some (a, v)) :
    (l.map (fun e => if e.1 = a then (a, f e.2) else e)).map Prod.snd =
      (l.map Prod.snd).map (fun y => if cmp k (key y) = .eql then f v else y) := by
  rw [← write_snd hc hs hd h]
  congr 1
  refine List.map_congr_left ?_
  intro e he
  split
  · next h1 =>
    have hm := List.mem_of_find?_eq_some h
    have : e = (a, v) := by_addr hd he hm h1
    rw [this]
  · rfl

theorem drop_snd {k : κ} {r : Nat} {l : List (Nat × α)} :
    (FlatMap.drop cmp key k r l).map Prod.snd = erase cmp key k (l.map Prod.snd) := by
  rw [← erase_snd]
  simp only [FlatMap.drop, List.map_map]
  refine List.map_congr_left ?_
  intro e _
  simp only [Function.comp]
  split <;> rfl

/-! ### The ends of an order -/

theorem abs_get_mem {k : κ} {x : α} {vs : List α} (h : (abs cmp key vs).get k = some x) : x ∈ vs := (lookup_prop h).1

theorem get_self (hc : LawfulCmp cmp) {x : α} {vs : List α} (hs : Sorted cmp key vs) (hx : x ∈ vs) :
    (abs cmp key vs).get (key x) = some x := by
  obtain ⟨A, B, rfl⟩ := List.append_of_mem hx
  have hp := List.pairwise_append.mp hs
  refine lookup_split ?_ (hc.refl _)
  intro a ha
  exact hc.grt_iff.mpr (hp.2.2 a ha x (by simp))

theorem least_find (hc : LawfulCmp cmp) {vs : List α} (hs : Sorted cmp key vs) (p : α → Bool) :
    (abs cmp key vs).Least cmp key (fun x => p x = true) (vs.find? p) := by
  cases h : vs.find? p with
  | none =>
    intro k x hx
    exact List.find?_eq_none.mp h x (abs_get_mem hx)
  | some x =>
    have hp := List.find?_some h
    refine ⟨get_self hc hs (List.mem_of_find?_eq_some h), hp, ?_⟩
    intro k y hy hpy
    obtain ⟨_, A, B, rfl, hA⟩ := List.find?_eq_some_iff_append.mp h
    rcases List.mem_append.mp (abs_get_mem hy) with h1 | h1
    · have := hA y h1; rw [hpy] at this; cases this
    · rcases List.mem_cons.mp h1 with rfl | h2
      · rw [hc.refl]; simp
      · have := (List.pairwise_cons.mp (List.pairwise_append.mp hs).2.1).1 y h2
        rw [this]; simp

theorem greatest_find (hc : LawfulCmp cmp) {vs : List α} (hs : Sorted cmp key vs) (p : α → Bool) :
    (abs cmp key vs).Greatest cmp key (fun x => p x = true) (vs.reverse.find? p) := by
  cases h : vs.reverse.find? p with
  | none =>
    intro k x hx
    exact List.find?_eq_none.mp h x (List.mem_reverse.mpr (abs_get_mem hx))
  | some x =>
    have hp := List.find?_some h
    refine ⟨get_self hc hs (List.mem_reverse.mp (List.mem_of_find?_eq_some h)), hp, ?_⟩
    intro k y hy hpy
    obtain ⟨_, A, B, he, hA⟩ := List.find?_eq_some_iff_append.mp h
    have hm : y ∈ vs.reverse := List.mem_reverse.mpr (abs_get_mem hy)
    have hr : (A ++ x :: B).Pairwise (fun a b => cmp (key b) (key a) = .les) := by
      rw [← he]; exact List.pairwise_reverse.mpr hs
    rw [he] at hm
    rcases List.mem_append.mp hm with h1 | h1
    · have := hA y h1; rw [hpy] at this; cases this
    · rcases List.mem_cons.mp h1 with rfl | h2
      · rw [hc.refl]; simp
      · have := (List.pairwise_cons.mp (List.pairwise_append.mp hr).2.1).1 y h2
        rw [hc.grt_iff.mpr this]; simp

theorem Dict.Least.imp {d : Dict κ α} {P Q : α → Prop} {v : Option α} (h : d.Least cmp key P v) (he : ∀ x, P x ↔ Q x) :
    d.Least cmp key Q v := by
  have : P = Q := funext fun x => propext (he x)
  rw [← this]; exact h

theorem Dict.Greatest.imp {d : Dict κ α} {P Q : α → Prop} {v : Option α} (h : d.Greatest cmp key P v)
    (he : ∀ x, P x ↔ Q x) : d.Greatest cmp key Q v := by
  have : P = Q := funext fun x => propext (he x)
  rw [← this]; exact h

theorem find_snd {p : α → Bool} {l : List (Nat × α)} :
    (l.find? (fun e => p e.2)).map Prod.snd = (l.map Prod.snd).find? p := by
  simp only [List.find?_map]; rfl

section Ends
variable (hc : LawfulCmp cmp) {l : List (Nat × α)} (hs : Sorted cmp (ekey key) l)
include hc hs

theorem first_abs : (abs cmp key (l.map Prod.snd)).Least cmp key (fun _ => True) (l.head?.map Prod.snd) := by
  have := least_find hc (sorted_snd hs) (fun _ => true)
  rw [← find_snd, show l.find? (fun _ => true) = l.head? by cases l <;> simp] at this
  exact this.imp (by simp)

theorem last_abs : (abs cmp key (l.map Prod.snd)).Greatest cmp key (fun _ => True) (l.getLast?.map Prod.snd) := by
  have := greatest_find hc (sorted_snd hs) (fun _ => true)
  rw [← List.map_reverse, ← find_snd, show l.reverse.find? (fun _ => true) = l.getLast? by
    rw [← List.head?_reverse]; cases l.reverse <;> simp] at this
  exact this.imp (by simp)

theorem notLess_abs (b : κ) : (abs cmp key (l.map Prod.snd)).Least cmp key (fun x => cmp b (key x) ≠ .grt)
    ((firstNotLess cmp (ekey key) b l).map Prod.snd) := by
  have := least_find hc (sorted_snd hs) (fun x => cmp b (key x) != .grt)
  rw [← find_snd] at this
  exact this.imp (by simp)

theorem greater_abs (b : κ) : (abs cmp key (l.map Prod.snd)).Least cmp key (fun x => cmp b (key x) = .les)
    ((firstGreater cmp (ekey key) b l).map Prod.snd) := by
  have := least_find hc (sorted_snd hs) (fun x => cmp b (key x) == .les)
  rw [← find_snd] at this
  exact this.imp (by simp)

theorem notGreater_abs (b : κ) : (abs cmp key (l.map Prod.snd)).Greatest cmp key (fun x => cmp b (key x) ≠ .les)
    ((lastNotGreater cmp (ekey key) b l).map Prod.snd) := by
  have := greatest_find hc (sorted_snd hs) (fun x => cmp b (key x) != .les)
  rw [← List.map_reverse, ← find_snd] at this
  exact this.imp (by simp)

theorem less_abs (b : κ) : (abs cmp key (l.map Prod.snd)).Greatest cmp key (fun x => cmp b (key x) = .grt)
    ((lastLess cmp (ekey key) b l).map Prod.snd) := by
  have := greatest_find hc (sorted_snd hs) (fun x => cmp b (key x) == .grt)
  rw [← List.map_reverse, ← find_snd] at this
  exact this.imp (by simp)

end Ends

end CCC.Dictionary
