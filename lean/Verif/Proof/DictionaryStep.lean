import Verif.Proof.Dictionary
import Verif.Proof.FlatHashMapStep
/-
Each call of the specifications of the maps is a call on a dictionary.
-/
namespace CCC.Dictionary
open CCC MapSpec

variable {α κ : Type} {cmp : κ → κ → Cmp} {key : α → κ}

/-! ### Pointer based ordered maps -/

section Ptr
open PtrMap

theorem ptr_step (hc : LawfulCmp cmp) {al : Bool} {l : List (Nat × α)} (hs : Sorted cmp (ekey key) l)
    (hd : (l.map Prod.fst).Nodup) (op : PtrMap.Op α κ) (ok : okOp cmp key al l op) :
    Step cmp key (abs cmp key (l.map Prod.snd)) (ofPtr op) (ptrOut op (PtrMap.specStep cmp key al l op).2)
      (abs cmp key ((PtrMap.specStep cmp key al l op).1.map Prod.snd)) := by
  have get : ∀ k, (abs cmp key (l.map Prod.snd)).get k = (lookup cmp (ekey key) k l).map Prod.snd :=
    fun k => lookup_snd
  have get' : ∀ {k a v}, lookup cmp (ekey key) k l = some (a, v) → lookup cmp key k (l.map Prod.snd) = some v := by
    intro k a v h; rw [lookup_snd, h]; rfl
  have getn : ∀ {k}, lookup cmp (ekey key) k l = none → lookup cmp key k (l.map Prod.snd) = none := by
    intro k h; rw [lookup_snd, h]; rfl
  have put : ∀ {k n x}, lookup cmp (ekey key) k l = none → cmp k (key x) = .eql →
      abs cmp key ((place cmp (ekey key) (n, x) l).map Prod.snd) = (abs cmp key (l.map Prod.snd)).put cmp k x := by
    intro k n x h hk; rw [place_snd]; exact abs_place hc (getn h) hk
  have set : ∀ {k a v x}, lookup cmp (ekey key) k l = some (a, v) → cmp k (key x) = .eql →
      abs cmp key ((assign cmp (ekey key) (a, x) l).map Prod.snd) = (abs cmp key (l.map Prod.snd)).set cmp k x := by
    intro k a v x h hk; rw [assign_snd hc hk]; exact abs_set hc (get' h) hk
  have del : ∀ {k a v}, lookup cmp (ekey key) k l = some (a, v) →
      abs cmp key ((erase cmp (ekey key) k l).map Prod.snd) = (abs cmp key (l.map Prod.snd)).del cmp k := by
    intro k a v h; rw [erase_snd]; exact abs_del hc (sorted_snd hs) (get' h)
  cases op with
  | insert h x tmp y ans =>
    simp only [ofPtr, ptrOut, Step, PtrMap.specStep, get]
    cases hl : lookup cmp (ekey key) (key x) l with
    | some e => exact ⟨rfl, set hl (hc.refl _)⟩
    | none =>
      cases ha : addAt al (some h) ans with
      | some n => exact .inl ⟨rfl, put hl (hc.refl _)⟩
      | none => exact .inr ⟨rfl, rfl⟩
  | tryInsert h x ans =>
    simp only [ofPtr, ptrOut, Step, PtrMap.specStep, get]
    cases hl : lookup cmp (ekey key) (key x) l with
    | some e => exact ⟨rfl, rfl⟩
    | none =>
      cases ha : addAt al (some h) ans with
      | some n => exact .inl ⟨rfl, put hl (hc.refl _)⟩
      | none => exact .inr ⟨rfl, rfl⟩
  | insertOrAssign h x ans =>
    simp only [ofPtr, ptrOut, Step, PtrMap.specStep, get]
    cases hl : lookup cmp (ekey key) (key x) l with
    | some e => exact ⟨rfl, set hl (hc.refl _)⟩
    | none =>
      cases ha : addAt al (some h) ans with
      | some n => exact .inl ⟨rfl, put hl (hc.refl _)⟩
      | none => exact .inr ⟨rfl, rfl⟩
  | remove h x =>
    simp only [ofPtr, ptrOut, Step, PtrMap.specStep, get]
    cases hl : lookup cmp (ekey key) (key x) l with
    | some e => exact ⟨rfl, del hl⟩
    | none => exact ⟨rfl, rfl⟩
  | orInsert k h x ans =>
    simp only [ofPtr, ptrOut, Step, PtrMap.specStep, get]
    cases hl : lookup cmp (ekey key) k l with
    | some e => exact ⟨rfl, (set_self hc (get' hl)).symm⟩
    | none =>
      cases ha : addAt al (some h) ans with
      | some n => exact .inl ⟨rfl, put hl ok.2.2⟩
      | none => exact .inr ⟨rfl, rfl⟩
  | insertEntry k h x ans =>
    simp only [ofPtr, ptrOut, Step, PtrMap.specStep, get]
    cases hl : lookup cmp (ekey key) k l with
    | some e => exact ⟨rfl, set hl ok.2.2⟩
    | none =>
      cases ha : addAt al (some h) ans with
      | some n => exact .inl ⟨rfl, put hl ok.2.2⟩
      | none => exact .inr ⟨rfl, rfl⟩
  | removeEntry k =>
    simp only [ofPtr, ptrOut, Step, PtrMap.specStep, get]
    cases hl : lookup cmp (ekey key) k l with
    | some e => exact ⟨rfl, del hl⟩
    | none => exact ⟨rfl, rfl⟩
  | andModify k f =>
    simp only [ofPtr, ptrOut, Step, PtrMap.specStep, get]
    cases hl : lookup cmp (ekey key) k l with
    | some e =>
      have hm := lookup_prop (get' hl)
      have hk : cmp k (key (f e.2)) = .eql := by
        have := ok e (List.mem_of_find?_eq_some hl) hm.2
        rw [hc.eql_congr this]; exact hm.2
      refine ⟨rfl, ?_⟩
      show abs cmp key ((l.map (fun e' => if e'.1 = e.1 then (e.1, f e'.2) else e')).map Prod.snd) = _
      rw [modify_snd hc hs hd hl]
      exact abs_set hc (get' hl) hk
    | none => exact ⟨rfl, rfl⟩
  | occupied k | contains k =>
    simp only [ofPtr, ptrOut, Step, PtrMap.specStep, get]
    exact ⟨by simp, trivial⟩
  | get k =>
    simp only [ofPtr, ptrOut, Step, PtrMap.specStep, get]
    cases hl : lookup cmp (ekey key) k l with
    | some e => exact ⟨rfl, (set_self hc (get' hl)).symm⟩
    | none => exact ⟨rfl, trivial⟩
  | orInsertW k x ans | tryInsertW k x ans =>
    simp only [ofPtr, ptrOut, Step, PtrMap.specStep, get]
    cases hl : lookup cmp (ekey key) k l with
    | some e => exact ⟨rfl, (set_self hc (get' hl)).symm⟩
    | none =>
      cases ha : addAt al none ans with
      | some n => exact .inl ⟨rfl, put hl ok.2⟩
      | none => exact .inr ⟨rfl, rfl⟩
  | insertEntryW k x ans | insertOrAssignW k x ans =>
    simp only [ofPtr, ptrOut, Step, PtrMap.specStep, get]
    cases hl : lookup cmp (ekey key) k l with
    | some e => exact ⟨rfl, set hl ok.2⟩
    | none =>
      cases ha : addAt al none ans with
      | some n => exact .inl ⟨rfl, put hl ok.2⟩
      | none => exact .inr ⟨rfl, rfl⟩
  | begin => exact ⟨⟨_, rfl, first_abs hc hs⟩, rfl⟩
  | rbegin => exact ⟨⟨_, rfl, last_abs hc hs⟩, rfl⟩
  | next a | rnext a | validate => exact ⟨rfl, rfl⟩
  | equalRange b e => exact ⟨⟨_, _, rfl, notLess_abs hc hs b, greater_abs hc hs e⟩, rfl⟩
  | equalRrange b e => exact ⟨⟨_, _, rfl, notGreater_abs hc hs b, less_abs hc hs e⟩, rfl⟩
  | size => exact ⟨by simp [ptrOut, ofPtr, PtrMap.specStep, abs], rfl⟩
  | isEmpty =>
    refine ⟨?_, rfl⟩
    cases l <;> simp [ptrOut, ofPtr, PtrMap.specStep, abs]
  | clear => exact ⟨rfl, rfl⟩

end Ptr

/-! ### Flat ordered maps -/

section Flat
open FlatMap
variable {J : Type}

theorem add_some {al ok : Bool} {s s' : St α} {x : α} {n : Nat} (h : add cmp key al ok s x = (s', some n)) :
    s'.l = place cmp (ekey key) (n, x) s.l := by
  unfold FlatMap.add at h
  split at h
  · cases h
  · cases h; rfl

theorem room_list {al ok : Bool} {s : St α} : (room al ok s).1.l = s.l := by
  unfold FlatMap.room
  split <;> split
  · rfl
  · rfl
  · rfl
  · split <;> rfl

theorem add_none {al ok : Bool} {s s' : St α} {x : α} (h : add cmp key al ok s x = (s', none)) : s'.l = s.l := by
  unfold FlatMap.add at h
  split at h
  · next s1 hr =>
    have e : s1 = s' := (Prod.mk.inj h).1
    have := room_list (al := al) (ok := ok) (s := s)
    rw [hr] at this
    rw [← e]; exact this
  · cases h

theorem look_val {d : View α} (hd : viewVal d = none) (o : Option (Nat × α)) : viewVal (look d o) = o.map Prod.snd := by
  cases o with
  | none => exact hd
  | some e => rfl

theorem fin_val (s : St α) : viewVal s.fin = none := by
  unfold St.fin; split <;> rfl

theorem flat_step (hc : LawfulCmp cmp) {al : Bool} {s : St α} (hs : Sorted cmp (ekey key) s.l)
    (hd : (s.l.map Prod.fst).Nodup) (op : FlatMap.Op α κ J) (ok : okOpS cmp key s op) :
    Step cmp key (abs cmp key (s.l.map Prod.snd)) (ofFlat op) (flatOut op (FlatMap.specStep cmp key al s op).2)
      (abs cmp key ((FlatMap.specStep cmp key al s op).1.l.map Prod.snd)) := by
  have get : ∀ k, (abs cmp key (s.l.map Prod.snd)).get k = (lookup cmp (ekey key) k s.l).map Prod.snd :=
    fun k => lookup_snd
  have get' : ∀ {k a v}, lookup cmp (ekey key) k s.l = some (a, v) → lookup cmp key k (s.l.map Prod.snd) = some v := by
    intro k a v h; rw [lookup_snd, h]; rfl
  have getn : ∀ {k}, lookup cmp (ekey key) k s.l = none → lookup cmp key k (s.l.map Prod.snd) = none := by
    intro k h; rw [lookup_snd, h]; rfl
  have put : ∀ {k n x} {s' : St α} {ok : Bool}, lookup cmp (ekey key) k s.l = none → cmp k (key x) = .eql →
      add cmp key al ok s x = (s', some n) →
      abs cmp key (s'.l.map Prod.snd) = (abs cmp key (s.l.map Prod.snd)).put cmp k x := by
    intro k n x s' ok h hk ha; rw [add_some ha, place_snd]; exact abs_place hc (getn h) hk
  have set : ∀ {k a v x}, lookup cmp (ekey key) k s.l = some (a, v) → cmp k (key x) = .eql →
      abs cmp key ((write a x s.l).map Prod.snd) = (abs cmp key (s.l.map Prod.snd)).set cmp k x := by
    intro k a v x h hk; rw [write_snd hc hs hd h]; exact abs_set hc (get' h) hk
  have del : ∀ {k a v r}, lookup cmp (ekey key) k s.l = some (a, v) →
      abs cmp key ((drop cmp key k r s.l).map Prod.snd) = (abs cmp key (s.l.map Prod.snd)).del cmp k := by
    intro k a v r h; rw [drop_snd]; exact abs_del hc (sorted_snd hs) (get' h)
  cases op with
  | insert x ans =>
    simp only [ofFlat, flatOut, Step, FlatMap.specStep, get]
    cases hl : lookup cmp (ekey key) (key x) s.l with
    | some e => exact ⟨rfl, set hl (hc.refl _)⟩
    | none =>
      cases ha : add cmp key al ans.isSome s x with
      | mk s' n =>
        cases n with
        | some n => exact .inl ⟨rfl, put hl (hc.refl _) ha⟩
        | none => exact .inr ⟨rfl, by simp only; rw [add_none ha]⟩
  | tryInsert x ans =>
    simp only [ofFlat, flatOut, Step, FlatMap.specStep, get]
    cases hl : lookup cmp (ekey key) (key x) s.l with
    | some e => exact ⟨rfl, rfl⟩
    | none =>
      cases ha : add cmp key al ans.isSome s x with
      | mk s' n =>
        cases n with
        | some n => exact .inl ⟨rfl, put hl (hc.refl _) ha⟩
        | none => exact .inr ⟨rfl, by simp only; rw [add_none ha]⟩
  | insertOrAssign x ans =>
    simp only [ofFlat, flatOut, Step, FlatMap.specStep, get]
    cases hl : lookup cmp (ekey key) (key x) s.l with
    | some e => exact ⟨rfl, set hl (hc.refl _)⟩
    | none =>
      cases ha : add cmp key al ans.isSome s x with
      | mk s' n =>
        cases n with
        | some n => exact .inl ⟨rfl, put hl (hc.refl _) ha⟩
        | none => exact .inr ⟨rfl, by simp only; rw [add_none ha]⟩
  | remove x =>
    simp only [ofFlat, flatOut, Step, FlatMap.specStep, get]
    cases hl : lookup cmp (ekey key) (key x) s.l with
    | some e => exact ⟨rfl, del hl⟩
    | none => exact ⟨rfl, rfl⟩
  | orInsert k x ans | orInsertW k x ans | tryInsertW k x ans =>
    simp only [ofFlat, flatOut, Step, FlatMap.specStep, get]
    cases hl : lookup cmp (ekey key) k s.l with
    | some e => exact ⟨rfl, (set_self hc (get' hl)).symm⟩
    | none =>
      cases ha : add cmp key al ans.isSome s x with
      | mk s' n =>
        cases n with
        | some n => exact .inl ⟨rfl, put hl ok ha⟩
        | none => exact .inr ⟨rfl, by simp only; rw [add_none ha]⟩
  | insertEntry k x ans | insertEntryW k x ans | insertOrAssignW k x ans =>
    simp only [ofFlat, flatOut, Step, FlatMap.specStep, get]
    cases hl : lookup cmp (ekey key) k s.l with
    | some e => exact ⟨rfl, set hl ok⟩
    | none =>
      cases ha : add cmp key al ans.isSome s x with
      | mk s' n =>
        cases n with
        | some n => exact .inl ⟨rfl, put hl ok ha⟩
        | none => exact .inr ⟨rfl, by simp only; rw [add_none ha]⟩
  | removeEntry k =>
    simp only [ofFlat, flatOut, Step, FlatMap.specStep, get]
    cases hl : lookup cmp (ekey key) k s.l with
    | some e => exact ⟨rfl, del hl⟩
    | none => exact ⟨rfl, rfl⟩
  | andModify k f =>
    simp only [ofFlat, flatOut, Step, FlatMap.specStep, get]
    cases hl : lookup cmp (ekey key) k s.l with
    | some e =>
      have hm := lookup_prop (get' hl)
      have hk : cmp k (key (f e.2)) = .eql := by
        have := ok e (List.mem_of_find?_eq_some hl) hm.2
        rw [hc.eql_congr this]; exact hm.2
      exact ⟨rfl, set hl hk⟩
    | none => exact ⟨rfl, rfl⟩
  | occupied k | contains k =>
    simp only [ofFlat, flatOut, Step, FlatMap.specStep, get]
    exact ⟨by simp, trivial⟩
  | get k =>
    simp only [ofFlat, flatOut, Step, FlatMap.specStep, get]
    cases hl : lookup cmp (ekey key) k s.l with
    | some e => exact ⟨rfl, (set_self hc (get' hl)).symm⟩
    | none => exact ⟨rfl, trivial⟩
  | begin =>
    refine ⟨⟨_, rfl, ?_⟩, rfl⟩
    rw [look_val (fin_val s)]; exact first_abs hc hs
  | rbegin =>
    refine ⟨⟨_, rfl, ?_⟩, rfl⟩
    rw [look_val (fin_val s)]; exact last_abs hc hs
  | next a | rnext a | validate | end_ | capacity => exact ⟨rfl, rfl⟩
  | equalRange b e =>
    have h1 := notLess_abs hc hs b
    have h2 := greater_abs hc hs e
    by_cases hn : s.l.isEmpty = true
    · simp only [ofFlat, flatOut, Step, FlatMap.specStep, if_pos hn]
      have hn : s.l = [] := List.isEmpty_iff.mp hn
      rw [hn] at h1 h2
      exact ⟨⟨_, _, rfl, by rw [hn]; exact h1, by rw [hn]; exact h2⟩, trivial⟩
    · simp only [ofFlat, flatOut, Step, FlatMap.specStep, if_neg hn]
      refine ⟨⟨_, _, rfl, ?_, ?_⟩, trivial⟩ <;> rw [look_val rfl]
      · exact h1
      · exact h2
  | equalRrange b e =>
    have h1 := notGreater_abs hc hs b
    have h2 := less_abs hc hs e
    by_cases hn : s.l.isEmpty = true
    · simp only [ofFlat, flatOut, Step, FlatMap.specStep, if_pos hn]
      have hn : s.l = [] := List.isEmpty_iff.mp hn
      rw [hn] at h1 h2
      exact ⟨⟨_, _, rfl, by rw [hn]; exact h1, by rw [hn]; exact h2⟩, trivial⟩
    · simp only [ofFlat, flatOut, Step, FlatMap.specStep, if_neg hn]
      refine ⟨⟨_, _, rfl, ?_, ?_⟩, trivial⟩ <;> rw [look_val rfl]
      · exact h1
      · exact h2
  | size => exact ⟨by simp [flatOut, ofFlat, FlatMap.specStep, abs], rfl⟩
  | isEmpty =>
    refine ⟨?_, rfl⟩
    cases hl : s.l <;> simp [flatOut, ofFlat, FlatMap.specStep, abs, hl]
  | clear => exact ⟨rfl, rfl⟩

theorem flat_stepS (hc : LawfulCmp cmp) {al : Bool} {s : St α} (hs : Sorted cmp (ekey key) s.l)
    (hd : (s.l.map Prod.fst).Nodup) (op : FlatMap.Op α κ J) (ok : okOpS cmp key s op) :
    Step cmp key (abs cmp key (s.l.map Prod.snd)) (ofFlat op) (flatOut op (FlatMap.specStepS cmp key al s op).2)
      (abs cmp key ((FlatMap.specStepS cmp key al s op).1.l.map Prod.snd)) := by
  have h := flat_step hc (al := al) hs hd op ok
  cases op with
  | remove x =>
    simp only [ofFlat, flatOut, Step, FlatMap.specStep, FlatMap.specStepS] at h ⊢
    cases hl : lookup cmp (ekey key) (key x) s.l with
    | some e => simp only [hl] at h ⊢; exact h
    | none => simp only [hl] at h ⊢; exact h
  | clear => exact ⟨rfl, rfl⟩
  | _ => exact h

end Flat

/-! ### Flat hash map -/

section Hash
open HashMap
variable {c : HashMap.Cfg κ α}

theorem hash_lookup (he : ∀ a b, c.eq a b = (cmp a b == .eql)) (hk : c.key = key) (k : κ) (l : List α) :
    HashMap.lookup c k l = MapSpec.lookup cmp key k l := by
  simp only [HashMap.lookup, MapSpec.lookup, he, hk]

theorem without_len (hl : Lawful c) {k : κ} {v : α} {l : List α} (hu : Fhm.Uniq c l) (h : HashMap.lookup c k l = some v) :
    (without c k l).length = l.length - 1 := by
  obtain ⟨h1, h2⟩ := Fhm.lookup_mem h
  obtain ⟨A, B, rfl, hA, hB⟩ := hu.split hl h1 h2
  have e1 : A.filter (fun x => !c.eq k (c.key x)) = A := List.filter_eq_self.mpr (fun x hx => by simp [hA x hx])
  have e2 : B.filter (fun x => !c.eq k (c.key x)) = B := List.filter_eq_self.mpr (fun x hx => by simp [hB x hx])
  simp [without, h2, e1, e2]

theorem hash_step (hc : LawfulCmp cmp) (hl : Lawful c) (he : ∀ a b, c.eq a b = (cmp a b == .eql)) (hk : c.key = key)
    {al : Bool} {s : St α} (hu : Fhm.Uniq c s.l) (op : HashMap.Op α κ) (ok : okOp c s op) :
    Step cmp key (abs cmp key s.l) (ofHash op) (hashOut op (HashMap.specStep c al s op).2)
      (abs cmp key (HashMap.specStep c al s op).1.l) := by
  have hq : ∀ {a b}, c.eq a b = true ↔ cmp a b = .eql := by intro a b; rw [he]; exact beq_iff_eq
  have get : ∀ k, (abs cmp key s.l).get k = HashMap.lookup c k s.l := fun k => (hash_lookup he hk k s.l).symm
  have put : ∀ {k x}, HashMap.lookup c k s.l = none → c.eq k (key x) = true →
      abs cmp key (x :: s.l) = (abs cmp key s.l).put cmp k x := by
    intro k x h hx
    refine Dict.ext' ?_ rfl
    intro k'
    simp only [abs, Dict.put, MapSpec.lookup, List.find?_cons]
    by_cases h1 : cmp k' k = .eql
    · rw [if_pos h1, show cmp k' (key x) = .eql by rw [hc.eql_congr_left h1]; exact hq.mp hx]
      rfl
    · rw [if_neg h1, beq_eq_false_iff_ne.mpr (fun h2 => h1 (by rw [hc.eql_congr (hq.mp hx)]; exact h2))]
  have set : ∀ {k v x}, HashMap.lookup c k s.l = some v → c.eq k (key x) = true →
      abs cmp key (HashMap.assign c k x s.l) = (abs cmp key s.l).set cmp k x := by
    intro k v x h hx
    rw [← abs_set hc ((hash_lookup he hk k s.l).symm.trans h) (hq.mp hx)]
    simp only [HashMap.assign, hq, hk]
  have del : ∀ {k v}, HashMap.lookup c k s.l = some v →
      abs cmp key (without c k s.l) = (abs cmp key s.l).del cmp k := by
    intro k v h
    refine Dict.ext' ?_ (without_len hl hu h)
    intro k'
    have e1 : (without c k s.l) = MapSpec.erase cmp key k s.l := by
      simp only [without, MapSpec.erase, he, hk]; rfl
    simp only [abs, Dict.del, MapSpec.lookup, e1, MapSpec.erase, List.find?_filter]
    by_cases he : cmp k' k = .eql
    · rw [if_pos he, List.find?_eq_none]
      intro y _
      rw [hc.eql_congr_left he]
      cases cmp k (key y) <;> simp
    · rw [if_neg he]
      congr 1
      funext y
      by_cases hy : cmp k (key y) = .eql
      · have : cmp k' (key y) ≠ .eql := fun h2 => he (by rw [hc.eql_congr hy]; exact h2)
        simp [hy, this]
      · cases h2 : cmp k' (key y) <;> simp [hy]
  have self : ∀ {k v}, HashMap.lookup c k s.l = some v → abs cmp key s.l = (abs cmp key s.l).set cmp k v :=
    fun h => (set_self hc ((hash_lookup he hk _ s.l).symm.trans h)).symm
  have refl : ∀ a, c.eq a a = true := hl.refl
  subst hk
  cases op with
  | insert x ans =>
    simp only [ofHash, hashOut, Step, HashMap.specStep, get]
    cases hv : HashMap.lookup c (c.key x) s.l with
    | some v => exact ⟨rfl, set hv (refl _)⟩
    | none =>
      cases hr : (room al ans.isSome s).2 with
      | true => exact .inl ⟨rfl, put hv (refl _)⟩
      | false => exact .inr ⟨rfl, by simp only; rw [Fhm.room_l]⟩
  | tryInsert x ans =>
    simp only [ofHash, hashOut, Step, HashMap.specStep, get]
    cases hv : HashMap.lookup c (c.key x) s.l with
    | some v => exact ⟨rfl, by simp only; rw [Fhm.room_l]⟩
    | none =>
      cases hr : (room al ans.isSome s).2 with
      | true => exact .inl ⟨rfl, put hv (refl _)⟩
      | false => exact .inr ⟨rfl, by simp only; rw [Fhm.room_l]⟩
  | insertOrAssign x ans =>
    simp only [ofHash, hashOut, Step, HashMap.specStep, get]
    cases hv : HashMap.lookup c (c.key x) s.l with
    | some v => exact ⟨rfl, set hv (refl _)⟩
    | none =>
      cases hr : (room al ans.isSome s).2 with
      | true => exact .inl ⟨rfl, put hv (refl _)⟩
      | false => exact .inr ⟨rfl, by simp only; rw [Fhm.room_l]⟩
  | remove x =>
    simp only [ofHash, hashOut, Step, HashMap.specStep, get]
    cases hv : HashMap.lookup c (c.key x) s.l with
    | some v => exact ⟨rfl, del hv⟩
    | none => exact ⟨rfl, rfl⟩
  | orInsert k x f ans =>
    simp only [ofHash, hashOut, Step, HashMap.specStep, get]
    cases hv : HashMap.lookup c k s.l with
    | some v => exact ⟨rfl, set hv (ok.2.2 v (Fhm.lookup_mem hv).1 (Fhm.lookup_mem hv).2)⟩
    | none =>
      cases hr : (room al ans.isSome s).2 with
      | true => exact .inl ⟨rfl, put hv ok.2.1⟩
      | false => exact .inr ⟨rfl, by simp only; rw [Fhm.room_l]⟩
  | orInsertW k x ans | tryInsertW k x ans =>
    simp only [ofHash, hashOut, Step, HashMap.specStep, get]
    cases hv : HashMap.lookup c k s.l with
    | some v => exact ⟨rfl, by simp only; rw [Fhm.room_l]; exact self hv⟩
    | none =>
      cases hr : (room al ans.isSome s).2 with
      | true => exact .inl ⟨rfl, put hv ok⟩
      | false => exact .inr ⟨rfl, by simp only; rw [Fhm.room_l]⟩
  | insertEntry k x ans | insertEntryW k x ans | insertOrAssignW k x ans =>
    simp only [ofHash, hashOut, Step, HashMap.specStep, get]
    cases hv : HashMap.lookup c k s.l with
    | some v => exact ⟨rfl, set hv ok⟩
    | none =>
      cases hr : (room al ans.isSome s).2 with
      | true => exact .inl ⟨rfl, put hv ok⟩
      | false => exact .inr ⟨rfl, by simp only; rw [Fhm.room_l]⟩
  | removeEntry k ans =>
    simp only [ofHash, hashOut, Step, HashMap.specStep, get]
    cases hv : HashMap.lookup c k s.l with
    | some v => exact ⟨rfl, del hv⟩
    | none => exact ⟨rfl, by simp only; rw [Fhm.room_l]⟩
  | andModify k f ans =>
    simp only [ofHash, hashOut, Step, HashMap.specStep, get]
    cases hv : HashMap.lookup c k s.l with
    | some v => exact ⟨rfl, set hv (ok v (Fhm.lookup_mem hv).1 (Fhm.lookup_mem hv).2)⟩
    | none => exact ⟨rfl, by simp only; rw [Fhm.room_l]⟩
  | get k f =>
    simp only [ofHash, hashOut, Step, HashMap.specStep, get]
    cases hv : HashMap.lookup c k s.l with
    | some v => exact ⟨rfl, set hv (ok v (Fhm.lookup_mem hv).1 (Fhm.lookup_mem hv).2)⟩
    | none => exact ⟨rfl, rfl⟩
  | occupied k ans | contains k ans =>
    simp only [ofHash, hashOut, Step, HashMap.specStep, get]
    exact ⟨trivial, by rw [Fhm.room_l]⟩
  | insertError k ans => exact ⟨rfl, by simp only [HashMap.specStep]; rw [Fhm.room_l]⟩
  | capacity | validate => exact ⟨rfl, rfl⟩
  | size => exact ⟨rfl, rfl⟩
  | isEmpty =>
    refine ⟨?_, rfl⟩
    cases hv : s.l <;> simp [hashOut, ofHash, HashMap.specStep, abs, hv]
  | clear => exact ⟨rfl, rfl⟩

end Hash

/-! ### Histories answer in one way -/

/-- Equal keys have the same element. -/
def Congr (cmp : κ → κ → Cmp) (d : Dict κ α) : Prop := ∀ a b, cmp a b = .eql → d.get a = d.get b

theorem Congr.upd (hc : LawfulCmp cmp) {d : Dict κ α} (h : Congr cmp d) (k : κ) (v : Option α) (n : Nat) :
    Congr cmp (⟨fun k' => if cmp k' k = .eql then v else d.get k', n⟩ : Dict κ α) := by
  intro a b e
  simp only [hc.eql_congr_left e, h a b e]

theorem Step.congr (hc : LawfulCmp cmp) {d d' : Dict κ α} {op : Op α κ} {out : Out α} (s : Step cmp key d op out d')
    (h : Congr cmp d) : Congr cmp d' := by
  have adds : ∀ {k x a out}, Adds cmp d k x a out d' → Congr cmp d' := by
    intro k x a out hh
    rcases hh with ⟨_, rfl⟩ | ⟨_, rfl⟩
    · exact h.upd hc k (some x) (d.n + 1)
    · exact h
  cases op <;> simp only [Step] at s
  case has => exact s.2 ▸ h
  case first => exact s.2 ▸ h
  case last => exact s.2 ▸ h
  case range => exact s.2 ▸ h
  case rrange => exact s.2 ▸ h
  case size => exact s.2 ▸ h
  case isEmpty => exact s.2 ▸ h
  case look => exact s.2 ▸ h
  case clear => rw [s.2]; intro a b _; rfl
  all_goals
    split at s
    · first
      | (rw [s.2]; exact h)
      | (rw [s.2]; exact h.upd hc _ _ _)
    · first
      | exact adds s
      | (rw [s.2]; exact h)

theorem least_one (hc : LawfulCmp cmp) {d : Dict κ α} (h : Congr cmp d) {P : α → Prop} : ∀ {v w : Option α},
    d.Least cmp key P v → d.Least cmp key P w → v = w
  | none, none, _, _ => rfl
  | none, some x, h1, h2 => absurd h2.2.1 (h1 _ _ h2.1)
  | some x, none, h1, h2 => absurd h1.2.1 (h2 _ _ h1.1)
  | some x, some y, h1, h2 => by
    have a := h1.2.2 _ _ h2.1 h2.2.1
    have b := h2.2.2 _ _ h1.1 h1.2.1
    have e : cmp (key x) (key y) = .eql := by
      cases hh : cmp (key x) (key y) with
      | eql => rfl
      | grt => exact absurd hh a
      | les => exact absurd (hc.grt_iff.mpr hh) b
      | err => exact absurd hh (hc.noErr _ _)
    rw [← h1.1, ← h2.1, h _ _ e]

theorem greatest_one (hc : LawfulCmp cmp) {d : Dict κ α} (h : Congr cmp d) {P : α → Prop} : ∀ {v w : Option α},
    d.Greatest cmp key P v → d.Greatest cmp key P w → v = w
  | none, none, _, _ => rfl
  | none, some x, h1, h2 => absurd h2.2.1 (h1 _ _ h2.1)
  | some x, none, h1, h2 => absurd h1.2.1 (h2 _ _ h1.1)
  | some x, some y, h1, h2 => by
    have a := h1.2.2 _ _ h2.1 h2.2.1
    have b := h2.2.2 _ _ h1.1 h1.2.1
    have e : cmp (key x) (key y) = .eql := by
      cases hh : cmp (key x) (key y) with
      | eql => rfl
      | les => exact absurd hh a
      | grt => exact absurd (hc.grt_iff.mp hh) b
      | err => exact absurd hh (hc.noErr _ _)
    rw [← h1.1, ← h2.1, h _ _ e]

theorem Adds.one {d d1 d2 : Dict κ α} {k : κ} {x : α} {a o1 o2 : Out α} (h1 : Adds cmp d k x a o1 d1)
    (h2 : Adds cmp d k x a o2 d2) (r1 : o1 ≠ .refused) (r2 : o2 ≠ .refused) : o1 = o2 ∧ d1 = d2 := by
  rcases h1 with ⟨rfl, rfl⟩ | ⟨rfl, rfl⟩
  · rcases h2 with ⟨rfl, rfl⟩ | ⟨rfl, rfl⟩
    · exact ⟨rfl, rfl⟩
    · exact absurd rfl r2
  · exact absurd rfl r1

theorem Step.one (hc : LawfulCmp cmp) {d d1 d2 : Dict κ α} {op : Op α κ} {o1 o2 : Out α} (h : Congr cmp d)
    (s1 : Step cmp key d op o1 d1) (s2 : Step cmp key d op o2 d2) (r1 : o1 ≠ .refused) (r2 : o2 ≠ .refused) :
    o1 = o2 ∧ d1 = d2 := by
  cases op <;> simp only [Step] at s1 s2
  case first =>
    obtain ⟨⟨v, rfl, hv⟩, rfl⟩ := s1
    obtain ⟨⟨w, rfl, hw⟩, rfl⟩ := s2
    exact ⟨by rw [least_one hc h hv hw], rfl⟩
  case last =>
    obtain ⟨⟨v, rfl, hv⟩, rfl⟩ := s1
    obtain ⟨⟨w, rfl, hw⟩, rfl⟩ := s2
    exact ⟨by rw [greatest_one hc h hv hw], rfl⟩
  case range =>
    obtain ⟨⟨v, w, rfl, hv, hw⟩, rfl⟩ := s1
    obtain ⟨⟨v', w', rfl, hv', hw'⟩, rfl⟩ := s2
    exact ⟨by rw [least_one hc h hv hv', least_one hc h hw hw'], rfl⟩
  case rrange =>
    obtain ⟨⟨v, w, rfl, hv, hw⟩, rfl⟩ := s1
    obtain ⟨⟨v', w', rfl, hv', hw'⟩, rfl⟩ := s2
    exact ⟨by rw [greatest_one hc h hv hv', greatest_one hc h hw hw'], rfl⟩
  case has => exact ⟨s1.1.trans s2.1.symm, s1.2.trans s2.2.symm⟩
  case size => exact ⟨s1.1.trans s2.1.symm, s1.2.trans s2.2.symm⟩
  case isEmpty => exact ⟨s1.1.trans s2.1.symm, s1.2.trans s2.2.symm⟩
  case clear => exact ⟨s1.1.trans s2.1.symm, s1.2.trans s2.2.symm⟩
  case look => exact ⟨s1.1.trans s2.1.symm, s1.2.trans s2.2.symm⟩
  all_goals
    split at s1
    · next hv =>
      simp only [hv] at s2
      exact ⟨s1.1.trans s2.1.symm, s1.2.trans s2.2.symm⟩
    · next hv =>
      simp only [hv] at s2
      first
      | exact s1.one s2 r1 r2
      | exact ⟨s1.1.trans s2.1.symm, s1.2.trans s2.2.symm⟩

theorem Trace.one (hc : LawfulCmp cmp) {d : Dict κ α} {ops : List (Op α κ)} {o1 o2 : List (Out α)} (h : Congr cmp d)
    (t1 : Trace cmp key d ops o1) (t2 : Trace cmp key d ops o2) (r1 : Out.refused ∉ o1) (r2 : Out.refused ∉ o2) :
    o1 = o2 := by
  induction t1 generalizing o2 with
  | nil d => cases t2; rfl
  | cons d op out d' ops outs s1 t1 ih =>
    cases t2 with
    | cons _ _ out2 d2 _ outs2 s2 t2 =>
      obtain ⟨rfl, rfl⟩ := Step.one hc h s1 s2 (fun e => r1 (by rw [e]; simp)) (fun e => r2 (by rw [e]; simp))
      rw [ih (s1.congr hc h) t2 (fun e => r1 (List.mem_cons_of_mem _ e)) (fun e => r2 (List.mem_cons_of_mem _ e))]

end CCC.Dictionary
