import Verif.Model.OrderedMapLedger
import Verif.Proof.Ledger
import Verif.Proof.OrderedMapStep
/-
The calls of the allocation function the ordered map makes.
-/
namespace CCC.Om
open CCC Links Tree Wavl Splay MapSpec PtrMap
open _root_.CCC.Rom (put view toSlot elems mem_elems elems_append occ_occ put_comm_val)

variable {α κ : Type} {cmp : κ → κ → Cmp} {key : α → κ} {s : Om α} {l : List (Nat × α)} {T : Tree}

/-- The call for memory when an element is added. -/
def asks (al : Bool) (ans : Option Nat) : List Ev := if al then [Ev.ofAns ans] else []

theorem allocInsert_log (hc : LawfulCmp cmp) (o : Ok cmp key s l T) {h : Nat} {ans : Option Nat}
    (hk : lookup cmp (ekey key) (key (s.val h)) l = none) :
    Log (allocInsertL cmp key s h ans) (allocInsert cmp key s h ans) (asks s.alloc ans) := by
  unfold allocInsertL allocInsert
  refine .liftBind ?_
  rintro ⟨s1, rc⟩ h1
  have hs : rc ≠ .eql ∧ s1.alloc = s.alloc := by
    by_cases hne : T = nil
    · rw [o.empty_iff.2 hne] at h1
      cases h1
      exact ⟨by simp, rfl⟩
    · obtain ⟨t, i, m, A, B, _, o', hr, hi, hA, hB, hlv, run⟩ := o.splay hc hne (key (s.val h))
      rw [o.not_empty hne] at h1
      simp only [Bool.not_false, if_true, run] at h1
      cases h1
      refine ⟨?_, rfl⟩
      intro hh
      have := (lookup_after o'.list hc hA hB).1 hh
      rw [hk] at this; cases this
  simp only
  rw [if_neg hs.1, if_neg hs.1, ← hs.2]
  have key : ∀ n : Option Nat, Log (match n with
      | none => (pure (s1, none) : Led (Om α × Slot))
      | some n => do
        let v := if s1.alloc then upd s1.val n (s1.val h) else s1.val
        let t ← liftM (Splay.initNode { s1.t with live := upd s1.t.live n true } n)
        if empty s1 then pure ({ s1 with t := t.setRoot n, sz := 1, val := v }, some n)
        else do
          let _ ← liftM (req (rc != .err))
          let t ← liftM (connectNewRoot t n rc)
          pure ({ s1 with t := t, sz := s1.sz + 1, val := v }, some n)) (match n with
      | none => some (s1, none)
      | some n => do
        let v := if s1.alloc then upd s1.val n (s1.val h) else s1.val
        let t ← Splay.initNode { s1.t with live := upd s1.t.live n true } n
        if empty s1 then some ({ s1 with t := t.setRoot n, sz := 1, val := v }, some n)
        else do
          req (rc != .err)
          let t ← connectNewRoot t n rc
          some ({ s1 with t := t, sz := s1.sz + 1, val := v }, some n)) [] := by
    intro n
    cases n with
    | none => exact .pure _
    | some n =>
      simp only
      refine .liftBind (fun t _ => .ite (fun _ => .pure _) (fun _ => .liftBind (fun _ _ => .liftBind (fun t _ => .pure _))))
  cases hal : s1.alloc with
  | true =>
    rw [asks, if_pos rfl]
    simp only [if_true]
    have := key ans
    rw [hal] at this
    exact .askBind this
  | false =>
    rw [asks, if_neg (by simp)]
    simp only [Bool.false_eq_true, if_false]
    have := key (some h)
    rw [hal] at this
    exact this

theorem newMem_log (s : Om α) (ans : Option Nat) : Log (newMemL s ans) (some (newMem s ans)) (asks s.alloc ans) := by
  unfold newMemL newMem asks
  cases s.alloc with
  | true => exact .ask _
  | false => exact .pure _

theorem newMemBind {β : Type} {s : Om α} {ans : Option Nat} {f : Option Nat → Led β} {g : Option Nat → Option β}
    (h : ∀ n, Log (f n) (g n) []) : Log (newMemL s ans >>= f) (g (newMem s ans)) (asks s.alloc ans) :=
  (newMem_log s ans).outBind (g := g) (fun n _ => h n)

theorem insertAndCopyKey_log (s : Om α) (x : α) (ans : Option Nat) :
    Log (insertAndCopyKeyL cmp key s x ans) (insertAndCopyKey cmp key s x ans) (asks s.alloc ans) := by
  refine newMemBind (g := fun n => match n with
    | none => some (s, (⟨none, Stat.insertError⟩ : Ent))
    | some n => do
      let (s, _) ← insertNode cmp key { s with val := upd s.val n x } n
      some (s, (⟨some n, Stat.insertError⟩ : Ent))) ?_
  intro n
  cases n with
  | none => exact .pure _
  | some n => exact .liftBind (fun _ _ => .pure _)

theorem asks_eq {al : Bool} {k : κ} {ans : Option Nat} (h : lookup cmp (ekey key) k l = none) :
    asks al ans = if al ∧ lookup cmp (ekey key) k l = none then [Ev.ofAns ans] else [] := by
  cases al <;> simp [asks, h]
theorem asks_not {al : Bool} {k : κ} {ans : Option Nat} {e : Nat × α} (h : lookup cmp (ekey key) k l = some e) :
    [] = if al ∧ lookup cmp (ekey key) k l = none then [Ev.ofAns ans] else [] := by
  cases al <;> simp [h]

theorem clearLoop_log (hc : LawfulCmp cmp) (n : Nat) : ∀ {s : Om α} {l : List (Nat × α)} {T : Tree}
    (acc : List (Nat × α)), Ok cmp key s l T → l.length = n →
    ∃ d : List Nat, d.Perm (l.map Prod.fst) ∧
      Log (clearLoopL cmp key s acc) (clearLoop cmp key s acc) (if s.alloc then d.map .freed else []) := by
  induction n with
  | zero =>
    intro s l T acc o hl
    have hl' : l = [] := List.eq_nil_of_length_eq_zero hl
    have hT := o.nil_iff.1 hl'
    subst hl'; subst hT
    refine ⟨[], .refl _, ?_⟩
    have he : isEmpty s = true := o.empty_iff.2 rfl
    rw [clearLoopL, clearLoop, if_pos he, if_pos he]
    simpa using Log.pure (s, acc)
  | succ n ih =>
    intro s l T acc o hl
    have hne : T ≠ nil := by intro h; rw [o.nil_iff.2 h] at hl; simp at hl
    have hr : s.t.root ∈ T.ids := by
      rw [o.root]; cases T with
      | nil => exact absurd rfl hne
      | node i m a b => simp [ids]
    have he : ¬ isEmpty s = true := by rw [isEmpty, o.not_empty hne]; simp
    rcases erase_spec o hc (key (s.val s.t.root)) with ⟨pre, x, post, s1, T1, e, hx, h1, h2, hf, o1, i1, v1, a1, hlk⟩ |
      ⟨t, T1, hf, o1, hlk⟩
    · have hl1 : (elems s.val (pre ++ post)).length = n := by
        have := hl
        rw [o.list, e] at this
        simp [elems] at this ⊢
        omega
      obtain ⟨d, hd, hlog⟩ := ih (acc ++ [(x, s1.val x)]) o1 hl1
      refine ⟨x :: d, ?_, ?_⟩
      · rw [o.list, e]
        refine (List.Perm.cons x hd).trans ?_
        simp only [elems, List.map_map, List.map_append, List.map_cons, Function.comp_def]
        exact (List.perm_middle (a := x) (l₁ := pre.map fun a => a) (l₂ := post.map fun a => a)).symm
      · rw [clearLoopL, clearLoop, if_neg he, if_neg he]
        refine .liftBind ?_
        rintro ⟨s2, p⟩ h3
        rw [hf] at h3
        cases h3
        refine .liftBind ?_
        rintro r h4
        cases h4
        rw [a1] at hlog
        simp only [a1]
        cases hal : s.alloc with
        | true =>
          rw [hal] at hlog
          simp only [if_true, List.map_cons] at hlog ⊢
          exact .freeBind hlog
        | false =>
          rw [hal] at hlog
          simpa using hlog
    · have : lookup cmp (ekey key) (key (s.val s.t.root)) l ≠ none := by
        intro hh
        have hm : (s.t.root, s.val s.t.root) ∈ l := by rw [o.list, mem_elems]; exact ⟨hr, rfl⟩
        unfold lookup at hh
        have := List.find?_eq_none.1 hh _ hm
        simp [ekey, hc.refl] at this
      exact absurd hlk this

/-- Every call makes the calls of the allocation function it must make. -/
theorem step_ledger (hc : LawfulCmp cmp) (o : Ok cmp key s l T) (op : Op α κ) (ok : okOp cmp key s.alloc l op) :
    ∃ es, Log (stepL cmp key s op) (step cmp key s op) es ∧ Calls cmp key s.alloc l op es := by
  cases op with
  | insert h x tmp y ans =>
    obtain ⟨fh, ft, hne, ga, hant⟩ := ok
    have o1 : Ok cmp key (put (put s tmp y) h x) l T := (o.put (o.fresh.1 ft).2).put (o.fresh.1 fh).2
    have hx : (put (put s tmp y) h x).val h = x := by simp [put]
    rcases o1.find hc (key x) with ⟨t, a, m, A, B, hf, o2, hr, _, _, _, _, hlk⟩ | ⟨t, T', hf, o2, hi, hlv, hlk⟩
    · refine ⟨_, .out (.liftBind ?_) _, asks_not hlk⟩
      rintro ⟨s1, f⟩ h1
      rw [hx, hf] at h1
      cases h1
      exact .liftBind (fun _ _ => .pure _)
    · refine ⟨_, .out (.liftBind ?_) _, asks_eq hlk⟩
      rintro ⟨s1, f⟩ h1
      rw [hx, hf] at h1
      cases h1
      refine (allocInsert_log hc o2 (h := h) (by simpa [hx] using hlk)).outBind ?_
      rintro ⟨s2, i⟩ _
      cases i <;> exact .pure _
  | tryInsert h x ans =>
    obtain ⟨fh, ga⟩ := ok
    have o1 : Ok cmp key (put s h x) l T := o.put (o.fresh.1 fh).2
    have hx : (put s h x).val h = x := by simp [put]
    rcases o1.find hc (key x) with ⟨t, a, m, A, B, hf, o2, hr, _, _, _, _, hlk⟩ | ⟨t, T', hf, o2, hi, hlv, hlk⟩
    · refine ⟨_, .out (.liftBind ?_) _, asks_not hlk⟩
      rintro ⟨s1, f⟩ h1
      rw [hx, hf] at h1
      cases h1
      exact .liftBind (fun _ _ => .pure _)
    · refine ⟨_, .out (.liftBind ?_) _, asks_eq hlk⟩
      rintro ⟨s1, f⟩ h1
      rw [hx, hf] at h1
      cases h1
      refine (allocInsert_log hc o2 (h := h) (by simpa [hx] using hlk)).outBind ?_
      rintro ⟨s2, i⟩ _
      cases i <;> exact .pure _
  | insertOrAssign h x ans =>
    obtain ⟨fh, ga⟩ := ok
    have o1 : Ok cmp key (put s h x) l T := o.put (o.fresh.1 fh).2
    have hx : (put s h x).val h = x := by simp [put]
    rcases o1.find hc (key x) with ⟨t, a, m, A, B, hf, o2, hr, _, _, _, _, hlk⟩ | ⟨t, T', hf, o2, hi, hlv, hlk⟩
    · refine ⟨_, .out (.liftBind ?_) _, asks_not hlk⟩
      rintro ⟨s1, f⟩ h1
      rw [hx, hf] at h1
      cases h1
      exact .liftBind (fun _ _ => .pure _)
    · refine ⟨_, .out (.liftBind ?_) _, asks_eq hlk⟩
      rintro ⟨s1, f⟩ h1
      rw [hx, hf] at h1
      cases h1
      refine (allocInsert_log hc o2 (h := h) (by simpa [hx] using hlk)).outBind ?_
      rintro ⟨s2, i⟩ _
      cases i <;> exact .pure _
  | remove h x =>
    have o1 : Ok cmp key (put s h x) l T := by
      rcases ok with fh | ⟨_, hm⟩
      · exact o.put (o.fresh.1 fh).2
      · rw [o.list, mem_elems] at hm
        have hp : put s h x = s := by
          simp only [put]
          have : upd s.val h x = s.val := by
            funext b; by_cases hb : b = h
            · rw [hb, upd_same]; exact hm.2
            · exact upd_ne _ _ hb
          rw [this]
        rw [hp]; exact o
    have hx : (put s h x).val h = x := by simp [put]
    rcases erase_spec o1 hc (key x) with ⟨pre, b, post, s1, T1, e, hb, h1, h2, hf, o2, i1, v1, a1, hlk⟩ |
      ⟨t, T1, hf, o2, hlk⟩
    · refine ⟨if s.alloc then [.freed b] else [], .out (.liftBind ?_) _, by simp only [Calls, hlk]⟩
      rintro ⟨s2, n⟩ h3
      rw [hx, hf] at h3
      cases h3
      have a1' : s1.alloc = s.alloc := a1
      simp only [a1']
      cases hal : s.alloc with
      | true =>
        simp only [if_true]
        exact .freeBind (.pure _)
      | false => exact .pure _
    · refine ⟨[], .out (.liftBind ?_) _, by simp only [Calls, hlk]; split <;> rfl⟩
      rintro ⟨s2, n⟩ h3
      rw [hx, hf] at h3
      cases h3
      exact .pure _
  | orInsert k h x ans =>
    obtain ⟨fh, ga, hk⟩ := ok
    have o1 : Ok cmp key (put s h x) l T := o.put (o.fresh.1 fh).2
    have hx : (put s h x).val h = x := by simp [put]
    rcases o1.entry hc k with ⟨t, a, m, A, B, hf, o2, hr, _, _, _, _, hlk⟩ | ⟨t, T', hf, o2, hi, hlv, hlk⟩
    · refine ⟨_, .liftBind ?_, asks_not hlk⟩
      rintro ⟨s1, f⟩ h1
      rw [hf] at h1
      cases h1
      refine .out ?_ _
      rw [orInsertL, orInsert, if_pos occ_occ, if_pos occ_occ]
      exact .pure _
    · refine ⟨_, .liftBind ?_, asks_eq hlk⟩
      rintro ⟨s1, f⟩ h1
      rw [hf] at h1
      cases h1
      refine .out ?_ _
      rw [orInsertL, orInsert, if_neg (by rw [isVac_not_occ]; simp), if_neg (by rw [isVac_not_occ]; simp)]
      refine allocInsert_log hc o2 ?_
      show lookup cmp (ekey key) (key ((put s h x).val h)) l = none
      rw [hx, ← Rom.lookup_congr hc hk]; exact hlk
  | insertEntry k h x ans =>
    obtain ⟨fh, ga, hk⟩ := ok
    have o1 : Ok cmp key (put s h x) l T := o.put (o.fresh.1 fh).2
    have hx : (put s h x).val h = x := by simp [put]
    rcases o1.entry hc k with ⟨t, a, m, A, B, hf, o2, hr, _, _, _, _, hlk⟩ | ⟨t, T', hf, o2, hi, hlv, hlk⟩
    · refine ⟨_, .liftBind ?_, asks_not hlk⟩
      rintro ⟨s1, f⟩ h1
      rw [hf] at h1
      cases h1
      refine .out ?_ _
      rw [insertEntryL, insertEntry, if_pos rfl, if_pos rfl]
      exact .liftBind (fun _ _ => .pure _)
    · refine ⟨_, .liftBind ?_, asks_eq hlk⟩
      rintro ⟨s1, f⟩ h1
      rw [hf] at h1
      cases h1
      refine .out ?_ _
      rw [insertEntryL, insertEntry, if_neg isVac_ne_occ, if_neg isVac_ne_occ]
      refine allocInsert_log hc o2 ?_
      show lookup cmp (ekey key) (key ((put s h x).val h)) l = none
      rw [hx, ← Rom.lookup_congr hc hk]; exact hlk
  | removeEntry k =>
    rcases o.entry hc k with ⟨t, a, m, A, B, hf, o2, hr, _, hka, _, _, hlk⟩ | ⟨t, T', hf, o2, hi, hlv, hlk⟩
    · refine ⟨if s.alloc then [.freed a] else [], .liftBind ?_, by simp only [Calls, hlk]⟩
      rintro ⟨s1, f⟩ h1
      rw [hf] at h1
      cases h1
      refine .out ?_ _
      rw [removeEntryL, removeEntry, if_pos rfl, if_pos rfl]
      refine .liftBind ?_
      intro b hb
      cases hb
      refine .liftBind ?_
      rintro ⟨s2, p⟩ h2
      refine .liftBind ?_
      rintro n h3
      cases h3
      have hm : (a, s.val a) ∈ l := List.mem_of_find?_eq_some hlk
      rcases erase_spec o2 hc (key (s.val a)) with ⟨pre, b, post, s3, T3, e, hb, g1, g2, hg, o', i', v', a', hlk'⟩ |
        ⟨t', T3, hg, o', hlk'⟩
      · rw [hg] at h2
        cases h2
        have hb' : n = a := by
          rw [← Rom.lookup_congr hc hka, hlk] at hlk'
          cases hlk'; rfl
        subst hb'
        have a1' : s2.alloc = s.alloc := a'
        simp only [a1']
        cases hal : s.alloc with
        | true =>
          simp only [if_true]
          exact .freeBind (.pure _)
        | false => exact .pure _
      · exfalso
        have := List.find?_eq_none.1 hlk' _ hm
        simp [ekey, hc.refl] at this
    · refine ⟨[], .liftBind ?_, by simp only [Calls, hlk]; split <;> rfl⟩
      rintro ⟨s1, f⟩ h1
      rw [hf] at h1
      cases h1
      exact .out (.pure _) _
  | orInsertW k x ans =>
    rcases o.entry hc k with ⟨t, a, m, A, B, hf, o2, hr, _, _, _, _, hlk⟩ | ⟨t, T', hf, o2, hi, hlv, hlk⟩
    · refine ⟨_, .liftBind ?_, asks_not hlk⟩
      rintro ⟨s1, f⟩ h1
      rw [hf] at h1
      cases h1
      exact .out (.pure _) _
    · refine ⟨_, .liftBind ?_, asks_eq hlk⟩
      rintro ⟨s1, f⟩ h1
      rw [hf] at h1
      cases h1
      exact .out (newMemBind (s := { s with t := t }) (g := fun n => insertKeyVal cmp key { s with t := t } n x)
        (fun n => .lift _)) _
  | insertEntryW k x ans =>
    rcases o.entry hc k with ⟨t, a, m, A, B, hf, o2, hr, _, _, _, _, hlk⟩ | ⟨t, T', hf, o2, hi, hlv, hlk⟩
    · refine ⟨_, .liftBind ?_, asks_not hlk⟩
      rintro ⟨s1, f⟩ h1
      rw [hf] at h1
      cases h1
      refine .out ?_ _
      have hh : ¬ (!Stat.has Stat.occupied Stat.occupied) = true := by rw [occ_occ]; simp
      rw [insertEntryWL, insertEntryW, if_neg hh, if_neg hh, if_pos rfl, if_pos rfl]
      exact .liftBind (fun _ _ => .pure _)
    · refine ⟨_, .liftBind ?_, asks_eq hlk⟩
      rintro ⟨s1, f⟩ h1
      rw [hf] at h1
      cases h1
      exact .out (newMemBind (s := { s with t := t }) (g := fun n => insertKeyVal cmp key { s with t := t } n x)
        (fun n => .lift _)) _
  | tryInsertW k x ans =>
    rcases o.entry hc k with ⟨t, a, m, A, B, hf, o2, hr, _, _, _, _, hlk⟩ | ⟨t, T', hf, o2, hi, hlv, hlk⟩
    · refine ⟨_, .out (.liftBind ?_) _, asks_not hlk⟩
      rintro ⟨s1, f⟩ h1
      rw [hf] at h1
      cases h1
      have hh : ¬ (!Stat.has Stat.occupied Stat.occupied) = true := by rw [occ_occ]; simp
      simp only
      rw [if_neg hh, if_neg hh]
      exact .pure _
    · refine ⟨_, .out (.liftBind ?_) _, asks_eq hlk⟩
      rintro ⟨s1, f⟩ h1
      rw [hf] at h1
      cases h1
      exact insertAndCopyKey_log _ _ _
  | insertOrAssignW k x ans =>
    rcases o.entry hc k with ⟨t, a, m, A, B, hf, o2, hr, _, _, _, _, hlk⟩ | ⟨t, T', hf, o2, hi, hlv, hlk⟩
    · refine ⟨_, .out (.liftBind ?_) _, asks_not hlk⟩
      rintro ⟨s1, f⟩ h1
      rw [hf] at h1
      cases h1
      have hh : ¬ (!Stat.has Stat.occupied Stat.occupied) = true := by rw [occ_occ]; simp
      simp only
      rw [if_neg hh, if_neg hh]
      exact .liftBind (fun _ _ => .pure _)
    · refine ⟨_, .out (.liftBind ?_) _, asks_eq hlk⟩
      rintro ⟨s1, f⟩ h1
      rw [hf] at h1
      cases h1
      exact insertAndCopyKey_log _ _ _
  | clear =>
    obtain ⟨d, hd, hlog⟩ := clearLoop_log hc l.length [] o rfl
    refine ⟨_, .out (.out hlog _) _, ?_⟩
    simp only [Calls]
    split
    · exact ⟨d, hd, rfl⟩
    · rfl
  | andModify k f => exact ⟨_, .lift _, rfl⟩
  | occupied k => exact ⟨_, .lift _, rfl⟩
  | contains k => exact ⟨_, .lift _, rfl⟩
  | get k => exact ⟨_, .lift _, rfl⟩
  | begin => exact ⟨_, .lift _, rfl⟩
  | rbegin => exact ⟨_, .lift _, rfl⟩
  | next a => exact ⟨_, .lift _, rfl⟩
  | rnext a => exact ⟨_, .lift _, rfl⟩
  | equalRange b e => exact ⟨_, .lift _, rfl⟩
  | equalRrange b e => exact ⟨_, .lift _, rfl⟩
  | size => exact ⟨_, .lift _, rfl⟩
  | isEmpty => exact ⟨_, .lift _, rfl⟩
  | validate => exact ⟨_, .lift _, rfl⟩

end CCC.Om
