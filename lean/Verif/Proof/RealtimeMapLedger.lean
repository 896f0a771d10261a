import Verif.Model.RealtimeMapLedger
import Verif.Proof.Ledger
import Verif.Proof.RealtimeMapStep
/-
The calls of the allocation function the realtime ordered map makes.
-/
namespace CCC.Rom
open CCC Links Tree Wavl MapSpec PtrMap

variable {α κ : Type} {cmp : κ → κ → Cmp} {key : α → κ} {s : Rom α} {l : List (Nat × α)} {T : Tree}

/-- The call for memory when an element is added. -/
def asks (al : Bool) (ans : Option Nat) : List Ev := if al then [Ev.ofAns ans] else []

theorem maybeAllocInsert_log (s : Rom α) (p : Nat) (last : Cmp) (h : Nat) (ans : Option Nat) :
    Log (maybeAllocInsertL s p last h ans) (maybeAllocInsert s p last h ans) (asks s.alloc ans) := by
  unfold maybeAllocInsertL maybeAllocInsert asks
  cases hal : s.alloc with
  | true =>
    simp only [if_true]
    refine .askBind ?_
    cases ans with
    | none => exact .pure _
    | some n =>
      simp only [hal]
      exact .liftBind (fun _ _ => .pure _)
  | false =>
    simp only [Bool.false_eq_true, if_false]
    exact .liftBind (fun _ _ => .pure _)

theorem newMem_log (s : Rom α) (ans : Option Nat) : Log (newMemL s ans) (some (newMem s ans)) (asks s.alloc ans) := by
  unfold newMemL newMem asks
  cases s.alloc with
  | true => exact .ask _
  | false => exact .pure _

theorem newMemBind {β : Type} {s : Rom α} {ans : Option Nat} {f : Option Nat → Led β} {g : Option Nat → Option β}
    (h : ∀ n, Log (f n) (g n) []) : Log (newMemL s ans >>= f) (g (newMem s ans)) (asks s.alloc ans) :=
  (newMem_log s ans).outBind (g := g) (fun n _ => h n)

theorem insertAndCopyKey_log (s : Rom α) (e : REnt) (x : α) (ans : Option Nat) :
    Log (insertAndCopyKeyL s e x ans) (insertAndCopyKey s e x ans) (asks s.alloc ans) := by
  refine newMemBind (g := fun n => match n with
    | none => some (s, (⟨none, Stat.insertError⟩ : Ent))
    | some n => do
      let s ← insertNode { s with val := upd s.val n x } e.e e.last n
      some (s, (⟨some n, Stat.insertError⟩ : Ent))) ?_
  intro n
  cases n with
  | none => exact .pure _
  | some n => exact .liftBind (fun _ _ => .pure _)

theorem asks_eq {al : Bool} {k : κ} {ans : Option Nat} (h : lookup cmp (ekey key) k l = none) :
    asks al ans = if al ∧ lookup cmp (ekey key) k l = none then [Ev.ofAns ans] else [] := by
  cases al <;> simp [asks, h]
theorem asks_not {al : Bool} {k : κ} {ans : Option Nat} {e : Nat × α} (h : lookup cmp (ekey key) k l = some e) :
    [] = if al ∧ lookup cmp (ekey key) k l = none then [Ev.ofAns ans] else [] := by
  cases al <;> simp [h]

theorem clearLoop_log (n : Nat) : ∀ {s : Rom α} {l : List (Nat × α)} {T : Tree}
    (acc : List (Nat × α)), Ok cmp key s l T → l.length = n →
    ∃ d : List Nat, d.Perm (l.map Prod.fst) ∧
      Log (clearLoopL s acc) (clearLoop s acc) (if s.alloc then d.map .freed else []) := by
  induction n with
  | zero =>
    intro s l T acc o hl
    have hl' : l = [] := List.eq_nil_of_length_eq_zero hl
    subst hl'
    refine ⟨[], .refl _, ?_⟩
    have he : s.sz = 0 := o.size
    rw [clearLoopL, clearLoop, if_pos he, if_pos he]
    simpa using Log.pure (s, acc)
  | succ n ih =>
    intro s l T acc o hl
    cases T with
    | nil => rw [o.list] at hl; simp [elems, ids] at hl
    | node i k a b =>
      have hroot : s.t.root = i := o.wv.whole.ctx
      obtain ⟨s1, T1, run, o1, i1, v1, a1⟩ := removeFixup_spec o (pre := a.ids) (post := b.ids) (x := i) rfl
      have hl1 : (elems s.val (a.ids ++ b.ids)).length = n := by
        have := hl
        rw [o.list] at this
        simp [elems, ids] at this ⊢
        omega
      have he : ¬ s.sz = 0 := by rw [o.size, hl]; simp
      obtain ⟨d, hd, hlog⟩ := ih (acc ++ [(i, s1.val i)]) o1 hl1
      refine ⟨i :: d, ?_, ?_⟩
      · rw [o.list, show (node i k a b).ids = a.ids ++ i :: b.ids from rfl]
        refine (List.Perm.cons i hd).trans ?_
        simp only [elems, List.map_map, List.map_append, List.map_cons, Function.comp_def]
        exact (List.perm_middle (a := i) (l₁ := a.ids.map fun a => a) (l₂ := b.ids.map fun a => a)).symm
      · rw [clearLoopL, clearLoop, if_neg he, if_neg he]
        refine .liftBind (fun _ _ => .liftBind (fun _ _ => .liftBind ?_))
        intro s2 h3
        rw [hroot, run] at h3
        cases h3
        rw [a1] at hlog
        simp only [a1, hroot]
        cases hal : s.alloc with
        | true =>
          rw [hal] at hlog
          simp only [if_true, List.map_cons] at hlog ⊢
          exact .freeBind hlog
        | false =>
          rw [hal] at hlog
          simpa using hlog

/-- Every call makes the calls of the allocation function it must make. -/
theorem step_ledger (hc : LawfulCmp cmp) (o : Ok cmp key s l T) (op : Op α κ) (ok : okOp cmp key s.alloc l op) :
    ∃ es, Log (stepL cmp key s op) (step cmp key s op) es ∧ Calls cmp key s.alloc l op es := by
  cases op with
  | insert h x tmp y ans =>
    obtain ⟨fh, ft, hne, ga, hant⟩ := ok
    have o1 : Ok cmp key (put (put s tmp y) h x) l T := (o.put (o.fresh.1 ft).2).put (o.fresh.1 fh).2
    have hx : (put (put s tmp y) h x).val h = x := by simp [put]
    rcases o1.find hc (key x) with ⟨pre, a, post, e, ha, h1, h2, hf, hlk⟩ | ⟨q, hf, hq, g, hlk⟩
    · refine ⟨_, .out (.liftBind ?_) _, asks_not hlk⟩
      intro q hq
      rw [hx, hf] at hq
      cases hq
      exact .pure _
    · refine ⟨_, .out (.liftBind ?_) _, asks_eq hlk⟩
      intro q' hq'
      rw [hx, hf] at hq'
      cases hq'
      rw [if_neg hq, if_neg hq]
      refine (maybeAllocInsert_log _ _ _ _ _).outBind ?_
      rintro ⟨s2, i⟩ _
      cases i <;> exact .pure _
  | tryInsert h x ans =>
    obtain ⟨fh, ga⟩ := ok
    have o1 : Ok cmp key (put s h x) l T := o.put (o.fresh.1 fh).2
    have hx : (put s h x).val h = x := by simp [put]
    rcases o1.find hc (key x) with ⟨pre, a, post, e, ha, h1, h2, hf, hlk⟩ | ⟨q, hf, hq, g, hlk⟩
    · refine ⟨_, .out (.liftBind ?_) _, asks_not hlk⟩
      intro q hq
      rw [hx, hf] at hq
      cases hq
      exact .pure _
    · refine ⟨_, .out (.liftBind ?_) _, asks_eq hlk⟩
      intro q' hq'
      rw [hx, hf] at hq'
      cases hq'
      rw [if_neg hq, if_neg hq]
      refine (maybeAllocInsert_log _ _ _ _ _).outBind ?_
      rintro ⟨s2, i⟩ _
      cases i <;> exact .pure _
  | insertOrAssign h x ans =>
    obtain ⟨fh, ga⟩ := ok
    have o1 : Ok cmp key (put s h x) l T := o.put (o.fresh.1 fh).2
    have hx : (put s h x).val h = x := by simp [put]
    rcases o1.find hc (key x) with ⟨pre, a, post, e, ha, h1, h2, hf, hlk⟩ | ⟨q, hf, hq, g, hlk⟩
    · refine ⟨_, .out (.liftBind ?_) _, asks_not hlk⟩
      intro q hq
      rw [hx, hf] at hq
      cases hq
      exact .pure _
    · refine ⟨_, .out (.liftBind ?_) _, asks_eq hlk⟩
      intro q' hq'
      rw [hx, hf] at hq'
      cases hq'
      rw [if_neg hq, if_neg hq]
      refine (maybeAllocInsert_log _ _ _ _ _).outBind ?_
      rintro ⟨s2, i⟩ _
      cases i <;> exact .pure _
  | remove h x =>
    have o1 : Ok cmp key (put s h x) l T := by
      rcases ok with fh | ⟨_, hm⟩
      · exact o.put (o.fresh.1 fh).2
      · rw [o.list, mem_elems] at hm
        have hp : put s h x = s := by
          simp only [put]
          have : upd s.val h x = s.val := by
            funext b; by_cases hb : b = h
            · rw [hb, upd_same]; exact hm.2
            · exact upd_ne _ _ hb
          rw [this]
        rw [hp]; exact o
    have hx : (put s h x).val h = x := by simp [put]
    rcases o1.find hc (key x) with ⟨pre, a, post, e, ha, h1, h2, hf, hlk⟩ | ⟨q, hf, hq, g, hlk⟩
    · obtain ⟨s1, T1, run, o2, i1, v1, a1⟩ := removeFixup_spec o1 e
      refine ⟨if s.alloc then [.freed a] else [], .out (.liftBind ?_) _, by simp only [Calls, hlk]⟩
      intro q hq
      rw [hx, hf] at hq
      cases hq
      rw [if_neg (by simp), if_neg (by simp)]
      refine .liftBind ?_
      intro s2 h3
      rw [run] at h3
      cases h3
      have a1' : s1.alloc = s.alloc := a1
      simp only [a1']
      cases hal : s.alloc with
      | true =>
        simp only [if_true]
        exact .freeBind (.pure _)
      | false => exact .pure _
    · refine ⟨[], .out (.liftBind ?_) _, by simp only [Calls, hlk]; split <;> rfl⟩
      intro q' hq'
      rw [hx, hf] at hq'
      cases hq'
      rw [if_pos hq, if_pos hq]
      exact .pure _
  | orInsert k h x ans =>
    obtain ⟨fh, ga, hk⟩ := ok
    have o1 : Ok cmp key (put s h x) l T := o.put (o.fresh.1 fh).2
    rcases o1.find hc k with ⟨pre, a, post, e, ha, h1, h2, hf, hlk⟩ | ⟨q, hf, hq, g, hlk⟩
    · refine ⟨_, .liftBind ?_, asks_not hlk⟩
      intro q hq
      rw [entry_eq hf] at hq
      cases hq
      refine .out ?_ _
      rw [orInsertL, orInsert, if_pos (by simp), if_pos (by simp)]
      exact .pure _
    · refine ⟨_, .liftBind ?_, asks_eq hlk⟩
      intro q' hq'
      rw [entry_eq hf, if_neg hq] at hq'
      cases hq'
      refine .out ?_ _
      rw [orInsertL, orInsert, if_neg vac_ne_occ, if_neg vac_ne_occ]
      exact maybeAllocInsert_log _ _ _ _ _
  | insertEntry k h x ans =>
    obtain ⟨fh, ga, hk⟩ := ok
    have o1 : Ok cmp key (put s h x) l T := o.put (o.fresh.1 fh).2
    rcases o1.find hc k with ⟨pre, a, post, e, ha, h1, h2, hf, hlk⟩ | ⟨q, hf, hq, g, hlk⟩
    · refine ⟨_, .liftBind ?_, asks_not hlk⟩
      intro q hq
      rw [entry_eq hf] at hq
      cases hq
      refine .out ?_ _
      rw [insertEntryL, insertEntry, if_pos (by simp), if_pos (by simp)]
      exact .pure _
    · refine ⟨_, .liftBind ?_, asks_eq hlk⟩
      intro q' hq'
      rw [entry_eq hf, if_neg hq] at hq'
      cases hq'
      refine .out ?_ _
      rw [insertEntryL, insertEntry, if_neg vac_ne_occ, if_neg vac_ne_occ]
      exact maybeAllocInsert_log _ _ _ _ _
  | removeEntry k =>
    rcases o.find hc k with ⟨pre, a, post, e, ha, h1, h2, hf, hlk⟩ | ⟨q, hf, hq, g, hlk⟩
    · refine ⟨if s.alloc then [.freed a] else [], .liftBind ?_, by simp only [Calls, hlk]⟩
      intro q hq
      rw [entry_eq hf] at hq
      cases hq
      obtain ⟨s1, T1, run, o2, i1, v1, a1⟩ := removeFixup_spec o e
      refine .out ?_ _
      rw [removeEntryL, removeEntry, if_pos (by simp), if_pos (by simp)]
      refine .liftBind ?_
      intro s2 h3
      rw [run] at h3
      cases h3
      simp only [a1]
      cases hal : s.alloc with
      | true =>
        simp only [if_true]
        exact .freeBind (.pure _)
      | false => exact .pure _
    · refine ⟨[], .liftBind ?_, by simp only [Calls, hlk]; split <;> rfl⟩
      intro q' hq'
      rw [entry_eq hf, if_neg hq] at hq'
      cases hq'
      refine .out ?_ _
      rw [removeEntryL, removeEntry, if_neg vac_ne_occ, if_neg vac_ne_occ]
      exact .pure _
  | orInsertW k x ans =>
    rcases o.find hc k with ⟨pre, a, post, e, ha, h1, h2, hf, hlk⟩ | ⟨q, hf, hq, g, hlk⟩
    · refine ⟨_, .liftBind ?_, asks_not hlk⟩
      intro q hq
      rw [entry_eq hf] at hq
      cases hq
      refine .out ?_ _
      rw [orInsertWL, orInsertW, if_pos (by simp), if_pos (by simp)]
      exact .pure _
    · refine ⟨_, .liftBind ?_, asks_eq hlk⟩
      intro q' hq'
      rw [entry_eq hf, if_neg hq] at hq'
      cases hq'
      refine .out ?_ _
      rw [orInsertWL, orInsertW, if_neg vac_ne_occ, if_neg vac_ne_occ]
      exact newMemBind (g := fun n => insertKeyVal s _ n x) (fun n => .lift _)
  | insertEntryW k x ans =>
    rcases o.find hc k with ⟨pre, a, post, e, ha, h1, h2, hf, hlk⟩ | ⟨q, hf, hq, g, hlk⟩
    · refine ⟨_, .liftBind ?_, asks_not hlk⟩
      intro q hq
      rw [entry_eq hf] at hq
      cases hq
      have hh : ¬ (!Stat.has Stat.occupied Stat.occupied) = true := by rw [occ_occ]; simp
      refine .out ?_ _
      simp only [if_true]
      rw [insertEntryWL, insertEntryW, if_neg hh, if_neg hh, if_pos rfl, if_pos rfl]
      exact .pure _
    · refine ⟨_, .liftBind ?_, asks_eq hlk⟩
      intro q' hq'
      rw [entry_eq hf, if_neg hq] at hq'
      cases hq'
      have hv : (!Stat.has (Stat.vacant ||| Stat.noUnwrap) Stat.occupied) = true := by rw [vac_not_occ]; rfl
      refine .out ?_ _
      rw [insertEntryWL, insertEntryW, if_pos hv, if_pos hv]
      exact newMemBind (g := fun n => insertKeyVal s _ n x) (fun n => .lift _)
  | tryInsertW k x ans =>
    rcases o.find hc k with ⟨pre, a, post, e, ha, h1, h2, hf, hlk⟩ | ⟨q, hf, hq, g, hlk⟩
    · refine ⟨_, .out (.liftBind ?_) _, asks_not hlk⟩
      intro q hq
      rw [entry_eq hf] at hq
      cases hq
      have hh : ¬ (!Stat.has Stat.occupied Stat.occupied) = true := by rw [occ_occ]; simp
      simp only [if_true]
      rw [if_neg hh, if_neg hh]
      exact .pure _
    · refine ⟨_, .out (.liftBind ?_) _, asks_eq hlk⟩
      intro q' hq'
      rw [entry_eq hf, if_neg hq] at hq'
      cases hq'
      have hv : (!Stat.has (Stat.vacant ||| Stat.noUnwrap) Stat.occupied) = true := by rw [vac_not_occ]; rfl
      simp only
      rw [if_pos hv, if_pos hv]
      exact insertAndCopyKey_log _ _ _ _
  | insertOrAssignW k x ans =>
    rcases o.find hc k with ⟨pre, a, post, e, ha, h1, h2, hf, hlk⟩ | ⟨q, hf, hq, g, hlk⟩
    · refine ⟨_, .out (.liftBind ?_) _, asks_not hlk⟩
      intro q hq
      rw [entry_eq hf] at hq
      cases hq
      have hh : ¬ (!Stat.has Stat.occupied Stat.occupied) = true := by rw [occ_occ]; simp
      simp only [if_true]
      rw [if_neg hh, if_neg hh]
      exact .pure _
    · refine ⟨_, .out (.liftBind ?_) _, asks_eq hlk⟩
      intro q' hq'
      rw [entry_eq hf, if_neg hq] at hq'
      cases hq'
      have hv : (!Stat.has (Stat.vacant ||| Stat.noUnwrap) Stat.occupied) = true := by rw [vac_not_occ]; rfl
      simp only
      rw [if_pos hv, if_pos hv]
      exact insertAndCopyKey_log _ _ _ _
  | clear =>
    obtain ⟨d, hd, hlog⟩ := clearLoop_log l.length [] o rfl
    refine ⟨_, .out (.out hlog _) _, ?_⟩
    simp only [Calls]
    split
    · exact ⟨d, hd, rfl⟩
    · rfl
  | andModify k f => exact ⟨_, .lift _, rfl⟩
  | occupied k => exact ⟨_, .lift _, rfl⟩
  | contains k => exact ⟨_, .lift _, rfl⟩
  | get k => exact ⟨_, .lift _, rfl⟩
  | begin => exact ⟨_, .lift _, rfl⟩
  | rbegin => exact ⟨_, .lift _, rfl⟩
  | next a => exact ⟨_, .lift _, rfl⟩
  | rnext a => exact ⟨_, .lift _, rfl⟩
  | equalRange b e => exact ⟨_, .lift _, rfl⟩
  | equalRrange b e => exact ⟨_, .lift _, rfl⟩
  | size => exact ⟨_, .lift _, rfl⟩
  | isEmpty => exact ⟨_, .lift _, rfl⟩
  | validate => exact ⟨_, .lift _, rfl⟩

end CCC.Rom
