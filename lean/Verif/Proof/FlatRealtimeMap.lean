import Verif.Model.FlatRealtimeMap
import Verif.Proof.RealtimeMapStep
import Verif.Proof.Move
/-
The flat realtime ordered map represents a sorted list of elements.
-/
namespace CCC.Frm
open CCC Links Tree Wavl MapSpec FlatMap
open CCC.Rom (elems Gap mem_elems elems_append elems_congr elems_upd)

variable {α κ : Type} {cmp : κ → κ → Cmp} {key : α → κ}

/-- A map that took its slot 0, storing `l` in a tree of shape `T`. -/
structure Started (cmp : κ → κ → Cmp) (key : α → κ) (s : Frm α) (l : List (Nat × α)) (T : Tree) : Prop where
  ok : Rom.Ok cmp key (asRom s) l T
  live : s.t.live = inUse s.sz s.cap
  sz : s.sz = l.length + 1
  le : s.sz ≤ s.cap
  slots : ∀ a, 1 ≤ a → a ≤ l.length → a ∈ T.ids

/-- A map nothing was inserted into yet. -/
structure Fresh (s : Frm α) : Prop where
  live : s.t.live = inUse s.sz s.cap
  sz : s.sz = 0
  root : s.t.root = 0

/-- `s` represents the specification state `st`. -/
def Ok (cmp : κ → κ → Cmp) (key : α → κ) (s : Frm α) (st : St α) (T : Tree) : Prop :=
  s.cap = st.cap ∧ ((st.started = true ∧ Started cmp key s st.l T) ∨
    (st.started = false ∧ st.l = [] ∧ T = nil ∧ Fresh s))

variable {s : Frm α} {st : St α} {l : List (Nat × α)} {T : Tree}

theorem Started.toOk (h : Started cmp key s l T) {st : St α} (hc : s.cap = st.cap) (hs : st.started = true) (hl : st.l = l) :
    Ok cmp key s st T := ⟨hc, Or.inl ⟨hs, hl ▸ h⟩⟩

theorem inUse_lt {sz cap a : Nat} (h : sz ≤ cap) : inUse sz cap a = true ↔ a < sz := by
  simp only [inUse, Bool.and_eq_true, decide_eq_true_eq]; omega

theorem Started.live_iff (h : Started cmp key s l T) {a : Nat} : s.t.live a = true ↔ a ≤ l.length := by
  rw [h.live, inUse_lt h.le, h.sz]; omega

theorem Started.mem_iff (h : Started cmp key s l T) {a : Nat} : a ∈ T.ids ↔ 1 ≤ a ∧ a ≤ l.length := by
  constructor
  · intro ha
    have h0 := h.ok.ne_zero ha
    have h1 : s.t.live a = true := h.ok.wv.whole.tree.live a ha
    rw [h.live_iff] at h1
    omega
  · rintro ⟨h1, h2⟩; exact h.slots a h1 h2

/-- What a search answers. -/
theorem Ok.find (o : Ok cmp key s st T) (hc : LawfulCmp cmp) (k : κ) :
    (∃ pre x post, st.started = true ∧ Started cmp key s st.l T ∧ T.ids = pre ++ x :: post ∧
      cmp k (key (s.val x)) = .eql ∧
      (∀ e ∈ elems s.val pre, cmp k (ekey key e) = .grt) ∧ (∀ e ∈ elems s.val post, cmp k (ekey key e) = .les) ∧
      find cmp key s k = some (.eql, x) ∧ lookup cmp (ekey key) k st.l = some (x, s.val x)) ∨
    (∃ q, find cmp key s k = some q ∧ q.1 ≠ .eql ∧ Gap T (Rom.at_ cmp key (asRom s) k) q ∧
      lookup cmp (ekey key) k st.l = none) := by
  obtain ⟨_, ⟨hs, h⟩ | ⟨hs, hl, rfl, h⟩⟩ := o
  · rcases h.ok.find hc k with ⟨pre, x, post, e, hx, h1, h2, hf, hlk⟩ | h'
    · exact Or.inl ⟨pre, x, post, hs, h, e, hx, h1, h2, hf, hlk⟩
    · exact Or.inr h'
  · refine Or.inr ⟨(.err, 0), ?_, by simp, Or.inl rfl, by rw [hl]; rfl⟩
    rw [Frm.find, Wavl.find, findLoop, h.root]; rfl

/-! ### Allocation -/

/-- The slots below `n` have the same contents. -/
def Same (n : Nat) (s s' : Frm α) : Prop := ∀ a, a < n →
  s'.t.br a = s.t.br a ∧ s'.t.par a = s.t.par a ∧ s'.t.parity a = s.t.parity a ∧ s'.val a = s.val a

theorem bufAllocBack_spec (s : Frm α) (hle : s.sz ≤ s.cap) (ans : Option (Junk α)) :
    (grow s.hasAlloc ans.isSome s.cap s.sz = none ∧ bufAllocBack s ans = (s, none)) ∨
    (∃ c s', grow s.hasAlloc ans.isSome s.cap s.sz = some c ∧ bufAllocBack s ans = (s', some s.sz) ∧
      s'.sz = s.sz + 1 ∧ s'.cap = c ∧ s'.sz ≤ c ∧ s'.hasAlloc = s.hasAlloc ∧ s'.t.live = inUse s'.sz s'.cap ∧
      s'.t.root = s.t.root ∧ Same s.sz s s') := by
  by_cases hlt : s.sz < s.cap
  · right
    refine ⟨s.cap, setSize s (s.sz + 1), ?_, ?_, rfl, rfl, ?_, rfl, rfl, rfl, fun a _ => ⟨rfl, rfl, rfl, rfl⟩⟩
    · rw [grow, if_pos hlt]
    · rw [bufAllocBack, if_neg (by omega)]
    · show s.sz + 1 ≤ s.cap; omega
  · have he : s.sz = s.cap := by omega
    cases hal : s.hasAlloc with
    | false => left; exact ⟨by simp [grow, hlt], by simp [bufAllocBack, he, hal]⟩
    | true =>
      cases ans with
      | none => left; exact ⟨by simp [grow, hlt], by simp [bufAllocBack, he]⟩
      | some j =>
        right
        have hcc : (if s.cap ≠ 0 then s.cap * 2 else Buf.startCapacity) = if s.cap = 0 then 8 else s.cap * 2 := by
          by_cases h0 : s.cap = 0 <;> simp [h0, Buf.startCapacity]
        let c := if s.cap = 0 then 8 else s.cap * 2
        refine ⟨c, setSize (growTo s c j) (s.sz + 1), ?_, ?_, rfl, rfl, ?_, hal, rfl, rfl, ?_⟩
        · simp [grow, hlt, c]
        · rw [bufAllocBack, if_pos he, if_pos hal]
          simp only [hcc]
          rfl
        · show s.sz + 1 ≤ c
          simp only [c]
          split <;> omega
        · intro a ha
          have : a < s.cap := by omega
          refine ⟨?_, ?_, ?_, ?_⟩ <;> simp [setSize, growTo, this]

theorem Started.transfer (h : Started cmp key s l T) {s' : Frm α} (hr : s'.t.root = s.t.root) (hs : Same s.sz s s')
    {lv : Nat → Bool} (hl : lv = inUse s.sz s'.cap) (hc : s.sz ≤ s'.cap) {al : Bool} :
    Rom.Ok cmp key { t := { s'.t with live := lv }, sz := l.length, val := s'.val, alloc := al } l T := by
  have hm : ∀ a ∈ T.ids, a < s.sz := fun a ha => by have := (h.mem_iff.1 ha).2; rw [h.sz]; omega
  have h0 : 0 < s.sz := by rw [h.sz]; omega
  have hlv : ∀ a, a < s.sz → lv a = true := fun a ha => by rw [hl, inUse_lt hc]; exact ha
  have w := h.ok.wv
  refine ⟨⟨⟨?_, ?_, w.whole.nodup, hlv 0 h0⟩, ?_, trivial, ?_⟩, h.ok.valid, ?_, h.ok.sorted, rfl⟩
  · exact hr.trans w.whole.ctx
  · refine w.whole.tree.congr (fun a ha => ?_) (fun a ha => (hs a (hm a ha)).1) (fun a ha => (hs a (hm a ha)).2.1)
    rw [w.whole.tree.live a ha]; exact hlv a (hm a ha)
  · exact w.rp.congr (fun a ha => (hs a (hm a ha)).2.2.1)
  · exact (hs 0 h0).2.2.1.trans w.par0
  · rw [h.ok.list]
    exact (elems_congr (fun a ha => (hs a (hm a ha)).2.2.2)).symm

/-- The map without its last slot, as the pointer based map sees it. -/
abbrev shrink (s : Frm α) (n : Nat) : Rom.Rom α :=
  ⟨{ s.t with live := inUse (n + 1) s.cap }, n, s.val, false⟩

/-- After a slot for a new element was obtained. -/
structure Alloced (cmp : κ → κ → Cmp) (key : α → κ) (s : Frm α) (l : List (Nat × α)) (T : Tree) : Prop where
  sz : s.sz = l.length + 2
  le : s.sz ≤ s.cap
  live : s.t.live = inUse s.sz s.cap
  ok : Rom.Ok cmp key (shrink s l.length) l T
  slots : ∀ a, a ∈ T.ids ↔ 1 ≤ a ∧ a ≤ l.length

theorem allocBack_spec (o : Ok cmp key s st T) (ans : Option (Junk α)) :
    ((room s.hasAlloc ans.isSome st).2 = false ∧ ∃ s', allocBack s ans = some (s', none) ∧
      Ok cmp key s' (room s.hasAlloc ans.isSome st).1 T ∧ s'.hasAlloc = s.hasAlloc) ∨
    ((room s.hasAlloc ans.isSome st).2 = true ∧ ∃ s', allocBack s ans = some (s', some (st.l.length + 1)) ∧
      s'.cap = (room s.hasAlloc ans.isSome st).1.cap ∧ (room s.hasAlloc ans.isSome st).1.started = true ∧
      Alloced cmp key s' st.l T ∧ s'.hasAlloc = s.hasAlloc ∧ ∀ a ∈ T.ids, s'.val a = s.val a) := by
  obtain ⟨hcap, ⟨hs, h⟩ | ⟨hs, hl, rfl, h⟩⟩ := o
  · have hsz0 : s.sz ≠ 0 := by rw [h.sz]; omega
    rcases bufAllocBack_spec s h.le ans with ⟨g, e⟩ | ⟨c, s', g, e, e1, e2, e3, e4, e5, e6, e7⟩
    · left
      rw [hcap, h.sz] at g
      have hr : room s.hasAlloc ans.isSome st = (st, false) := by simp [room, hs, g]
      rw [hr]
      exact ⟨rfl, s, by rw [allocBack, if_neg hsz0, e], ⟨hcap, Or.inl ⟨hs, h⟩⟩, rfl⟩
    · right
      rw [hcap, h.sz] at g
      have hr : room s.hasAlloc ans.isSome st = ({ st with cap := c }, true) := by simp [room, hs, g]
      rw [hr]
      refine ⟨rfl, s', by rw [allocBack, if_neg hsz0, e, h.sz], e2, hs, ⟨?_, by rw [e2]; exact e3, e5, ?_, fun a => h.mem_iff⟩, e4, ?_⟩
      · rw [e1, h.sz]
      · exact h.transfer e6 e7 (by rw [h.sz]) (by rw [e2]; omega)
      · intro a ha; exact (e7 a (by have := (h.mem_iff.1 ha).2; rw [h.sz]; omega)).2.2.2
  · rcases bufAllocBack_spec s (by rw [h.sz]; omega) ans with ⟨g, e⟩ | ⟨c, s', g, e, e1, e2, e3, e4, e5, e6, e7⟩
    · left
      rw [hcap, h.sz] at g
      have hr : room s.hasAlloc ans.isSome st = (st, false) := by simp [room, hs, g]
      rw [hr]
      refine ⟨rfl, s, by rw [allocBack, if_pos h.sz, e], ⟨hcap, Or.inr ⟨hs, hl, rfl, h⟩⟩, rfl⟩
    · rw [hcap, h.sz] at g
      rw [h.sz] at e e1
      have l0 : s'.t.live 0 = true := by rw [e5, inUse_lt (by rw [e2]; exact e3), e1]; omega
      have hset : s'.t.setParity 0 true = some { s'.t with parity := upd s'.t.parity 0 true } := setParity_live l0
      let s1 : Frm α := { s' with t := { s'.t with parity := upd s'.t.parity 0 true } }
      have hrun : allocBack s ans = some (bufAllocBack s1 ans) := by
        rw [allocBack, if_pos h.sz, e]
        simp only [hset, Option.bind_eq_bind, Option.bind_some]
        rfl
      have st1 : Started cmp key s1 [] nil := by
        refine ⟨⟨⟨⟨?_, trivial, by simp [ids], l0⟩, trivial, trivial, ?_⟩, trivial, rfl, List.Pairwise.nil, ?_⟩, e5, e1,
          by show s'.sz ≤ s'.cap; rw [e2]; exact e3, ?_⟩
        · exact e6.trans h.root
        · show upd s'.t.parity 0 true 0 = true; simp
        · show s'.sz - 1 = 0; rw [e1]
        · intro a h1 h2; simp at h2; omega
      have hal : s1.hasAlloc = s.hasAlloc := e4
      have hsz1 : s1.sz = 1 := e1
      have hc1 : s1.cap = c := e2
      rcases bufAllocBack_spec s1 st1.le ans with ⟨g', e'⟩ | ⟨c', s2, g', e', f1, f2, f3, f4, f5, f6, f7⟩
      · left
        rw [hal, hsz1, hc1] at g'
        have hr : room s.hasAlloc ans.isSome st = ({ st with cap := c, started := true }, false) := by
          simp [room, hs, g, g']
        rw [hr]
        exact ⟨rfl, s1, by rw [hrun, e'], st1.toOk e2 rfl hl, hal⟩
      · right
        rw [hal, hsz1, hc1] at g'
        have hr : room s.hasAlloc ans.isSome st = ({ st with cap := c', started := true }, true) := by
          simp [room, hs, g, g']
        rw [hr, hl]
        refine ⟨rfl, s2, by rw [hrun, e', hsz1]; rfl, f2, rfl, ⟨by rw [f1, hsz1]; rfl, by rw [f2]; exact f3, f5, ?_, fun a => st1.mem_iff⟩,
          by rw [f4, hal], by simp [ids]⟩
        exact st1.transfer f6 f7 (by rw [hsz1]; rfl) (by rw [f2]; omega)

theorem insertNode_eq {s : Frm α} {l : List (Nat × α)} (hsz : s.sz = l.length + 2) (hle : s.sz ≤ s.cap)
    (hlive : s.t.live = inUse s.sz s.cap) (p : Nat) (c : Cmp) :
    insertNode s p c (l.length + 1) =
      (Rom.insertNode (shrink s l.length) p c (l.length + 1)).bind (fun r => some { s with t := r.t }) := by
  have hu : upd (inUse (l.length + 1) s.cap) (l.length + 1) true = s.t.live := by
    rw [hlive]
    funext a
    simp only [upd, inUse]
    by_cases ha : a = l.length + 1
    · subst ha; simp [hsz]; omega
    · simp only [ha, if_false]
      have : decide (a < l.length + 1) = decide (a < s.sz) := by
        rw [decide_eq_decide]; omega
      rw [this]
  have h2 : (s.sz = 2) ↔ l.length = 0 := by omega
  rw [insertNode, Rom.insertNode]
  simp only [hu]
  cases initNode s.t (l.length + 1) with
  | none => rfl
  | some t =>
    simp only [Option.bind_eq_bind, Option.bind_some, h2]
    by_cases h0 : l.length = 0
    · simp only [h0, if_true]; rfl
    · simp only [h0, if_false]
      cases insertBelow t p c (l.length + 1) <;> rfl

theorem maybeAllocInsert_spec (o : Ok cmp key s st T) (hc : LawfulCmp cmp) {k : κ} {q : Query}
    (g : Gap T (Rom.at_ cmp key (asRom s) k) q) {x : α} (hk : cmp k (key x) = .eql) (ans : Option (Junk α)) :
    ∃ s' T', maybeAllocInsert s q.2 q.1 x ans = some (s', (add cmp key s.hasAlloc ans.isSome st x).2) ∧
      Ok cmp key s' (add cmp key s.hasAlloc ans.isSome st x).1 T' ∧ s'.hasAlloc = s.hasAlloc ∧
      (∀ n, (add cmp key s.hasAlloc ans.isSome st x).2 = some n → n ≠ 0 ∧ s'.val n = x) := by
  rcases allocBack_spec o ans with ⟨hr, s', run, o', a'⟩ | ⟨hr, s', run, hcap, hst, al, a', hval⟩
  · have hadd : add cmp key s.hasAlloc ans.isSome st x = ((room s.hasAlloc ans.isSome st).1, none) := by
      rw [add]
      cases h : room s.hasAlloc ans.isSome st with
      | mk s1 b => rw [h] at hr; simp only at hr; subst hr; rfl
    rw [hadd]
    refine ⟨s', T, ?_, o', a', by simp⟩
    simp only [maybeAllocInsert, run, Option.bind_eq_bind, Option.bind_some]
  · have hadd : add cmp key s.hasAlloc ans.isSome st x = ({ (room s.hasAlloc ans.isSome st).1 with
        l := place cmp (ekey key) (st.l.length + 1, x) st.l }, some (st.l.length + 1)) := by
      rw [add]
      cases h : room s.hasAlloc ans.isSome st with
      | mk s1 b => rw [h] at hr; simp only at hr; subst hr; rfl
    rw [hadd]
    let n := st.l.length + 1
    have hn : s'.sz - 1 = n := by rw [al.sz]; rfl
    have nl : s'.t.live n = true := by rw [al.live, inUse_lt al.le, al.sz]; omega
    have nT : n ∉ T.ids := by rw [al.slots]; omega
    have hset : setVal s' n x = some { s' with val := upd s'.val n x } := by rw [setVal, if_pos nl]
    have ok1 := al.ok.put (h := n) (x := x) nT
    obtain ⟨r, T', run', okr, vr, _, lr, pr⟩ := Rom.insertNode_spec' ok1 hc g (e := n) (by omega) nT (by
      intro a ha
      have ha' : a ≠ n := fun hh => nT (hh ▸ ha)
      show cmp k (key (s.val a)) = cmp (key (upd s'.val n x n)) (key (upd s'.val n x a))
      rw [upd_same, upd_ne _ _ ha', hval a ha]
      exact hc.eql_congr_left hk _)
    have hvn : (Rom.put (shrink s' st.l.length) n x).val n = x := by simp [Rom.put]
    rw [hvn] at okr
    have hlive : r.t.live = inUse s'.sz s'.cap := by
      rw [lr]
      show upd (inUse (st.l.length + 1) s'.cap) n true = inUse s'.sz s'.cap
      funext a
      simp only [upd, inUse]
      have hle := al.le
      have hsz := al.sz
      by_cases ha : a = n
      · subst ha; simp [n]; omega
      · simp only [ha, if_false]
        have : decide (a < st.l.length + 1) = decide (a < s'.sz) := by
          rw [decide_eq_decide]; omega
        rw [this]
    let sf : Frm α := { s' with val := upd s'.val n x, t := r.t }
    have hlen : (place cmp (ekey key) (n, x) st.l).length = st.l.length + 1 := by
      rw [← okr.size]
      have h1 := okr.size
      have h2 : T'.ids.length = T.ids.length + 1 := by rw [pr.length_eq]; rfl
      have h3 : (place cmp (ekey key) (n, x) st.l).length = T'.ids.length := by rw [okr.list]; simp [elems]
      have h4 : st.l.length = T.ids.length := by
        have := congrArg List.length al.ok.list
        simpa [elems] using this
      omega
    refine ⟨sf, T', ?_, Started.toOk (l := place cmp (ekey key) (n, x) st.l) (s := sf) ?_ hcap hst rfl, a', ?_⟩
    · simp only [maybeAllocInsert, run, Option.bind_eq_bind, Option.bind_some, hn, hset]
      rw [insertNode_eq (s := { s' with val := upd s'.val n x }) (l := st.l) al.sz al.le al.live]
      have run2 : Rom.insertNode (shrink { s' with val := upd s'.val n x } st.l.length) q.2 q.1 (st.l.length + 1) =
        some r := run'
      rw [run2]
      rfl
    · refine ⟨⟨okr.wv, okr.valid, ?_, okr.sorted, ?_⟩, hlive, ?_, al.le, ?_⟩
      · rw [okr.list, vr]; rfl
      · show s'.sz - 1 = _; rw [hn, hlen]
      · show s'.sz = _; rw [hlen, al.sz]
      · intro a h1 h2
        rw [hlen] at h2
        rw [pr.mem_iff, List.mem_cons, al.slots]
        omega
    · intro m hm
      simp only [Option.some.injEq] at hm
      subst hm
      exact ⟨by omega, by show upd s'.val n x n = x; simp⟩

/-! ### Removal -/

/-- Slot `n` becomes slot `r`. -/
def ren (n r a : Nat) : Nat := if a = n then r else a

theorem copySlot_live {s : Frm α} {d a : Nat} (hd : s.t.live d = true) (ha : s.t.live a = true) :
    copySlot s d a = some { s with
      t := { s.t with
        br := fun b e => if b = d then s.t.br a e else s.t.br b e
        par := upd s.t.par d (s.t.par a)
        parity := upd s.t.parity d (s.t.parity a) }
      val := upd s.val d (s.val a) } := by
  simp [copySlot, copyLinks, hd, ha, setVal]

theorem swap_links {h : Links} {c : Ctx} {n r k : Nat} {L R : Tree} (w : Whole h c (node n k L R)) :
    ∃ h2, (if n = h.root then some (h.setRoot r) else do
        let p ← h.getPar n
        let b ← h.getBr p true
        h.setBr p (b == n) r) = some h2 ∧ RepC h2 c r ∧ h2.live = h.live ∧ h2.par = h.par ∧ h2.parity = h.parity ∧
      (∀ a, a ∉ cids c → h2.br a = h.br a) := by
  obtain ⟨n0, nl, _, _, np, _, _⟩ := w.tree
  have nc : n ∉ cids c := w.disj (by simp [ids])
  have wc : RepC h c n := w.ctx
  obtain ⟨h2, e, r2⟩ := relink_spec (x := r) wc n0 nc w.cids_nodup
  refine ⟨h2, ?_, r2⟩
  rw [← e, relink]
  by_cases hc : c = []
  · rw [if_pos (wc.root_eq nc |>.2 hc), if_pos (by rw [hc]; rfl)]
  · rw [if_neg (fun hh => hc ((wc.root_eq nc).1 hh)), if_neg (fun hh => hc (wc.pid_eq_zero.1 hh))]
    simp only [getPar_live nl, np, Option.bind_eq_bind, Option.bind_some]

theorem swapAndPop_spec {s : Frm α} {n r : Nat} (hsz : s.sz = n + 1) (hle : s.sz ≤ s.cap)
    (hlive : s.t.live = inUse s.sz s.cap) (w : Wv s.t [] T) (v : Valid T) (hr : 1 ≤ r ∧ r ≤ n) (rt : r ∉ T.ids)
    (hm : ∀ a, 1 ≤ a → a ≤ n → a ≠ r → a ∈ T.ids) :
    ∃ s' T', swapAndPop s r = some s' ∧ Wv s'.t [] T' ∧ Valid T' ∧ T'.ids = T.ids.map (ren n r) ∧ s'.sz = n ∧
      s'.cap = s.cap ∧ s'.hasAlloc = s.hasAlloc ∧ s'.t.live = inUse n s.cap ∧ s'.val n = s.val r ∧
      (∀ a ∈ T.ids, s'.val (ren n r a) = s.val a) := by
  have hx : s.sz - 1 = n := by omega
  have hlt : ∀ a ∈ T.ids, a ≤ n := by
    intro a ha
    have := w.whole.tree.live a ha
    rw [hlive, inUse_lt hle] at this
    omega
  have h0 : ∀ a ∈ T.ids, a ≠ 0 := fun a ha hh => w.whole.tree.ne_zero (hh ▸ ha)
  have lv : ∀ a, a ≤ n → s.t.live a = true := by
    intro a ha; rw [hlive, inUse_lt hle]; omega
  have lv' : ∀ a, a < n → inUse n s.cap a = true := by
    intro a ha; rw [inUse_lt (by omega)]; exact ha
  by_cases hrn : r = n
  · subst hrn
    have hT : ∀ a ∈ T.ids, a ≠ r := fun a ha hh => rt (hh ▸ ha)
    have hlt' : ∀ a ∈ T.ids, a < r := fun a ha => by have := hlt a ha; have := hT a ha; omega
    refine ⟨setSize s r, T, ?_, ⟨⟨w.whole.ctx, ?_, w.whole.nodup, lv' 0 (by omega)⟩, w.rp.congr (fun _ _ => rfl), trivial, w.par0⟩, v, ?_,
      rfl, rfl, rfl, rfl, rfl, ?_⟩
    · rw [swapAndPop]; simp [hx]
    · refine w.whole.tree.congr (fun a ha => ?_) (fun _ _ => rfl) (fun _ _ => rfl)
      rw [w.whole.tree.live a ha]; exact lv' a (hlt' a ha)
    · symm
      rw [List.map_congr_left (g := id) (fun a ha => by simp [ren, hT a ha])]
      simp
    · intro a ha; simp [ren, hT a ha, setSize]
  · have hnT : n ∈ T.ids := hm n (by omega) (Nat.le_refl _) (fun hh => hrn hh.symm)
    obtain ⟨c, k, L, R, rfl⟩ := mem_split hnT
    have wc := Wv.plug.2 w
    have hmem : ∀ a, a ∈ (plug c (node n k L R)).ids ↔ (a = n ∨ a ∈ L.ids ∨ a ∈ R.ids) ∨ a ∈ cids c := by
      intro a
      rw [(plug_ids_perm _ _).mem_iff, List.mem_append]
      change a ∈ (nd false n k L R).ids ∨ _ ↔ _
      rw [mem_nd]
    have rt' : r ∉ (node n k L R).ids := by
      intro hh; apply rt; rw [(plug_ids_perm _ _).mem_iff]; exact List.mem_append_left _ hh
    have rc : r ∉ cids c := fun hh => rt ((hmem r).2 (Or.inr hh))
    obtain ⟨n0, nl, nb0, nb1, np, repL, repR⟩ := wc.whole.tree
    have wn := wc.whole.ids_nodup
    change (nd false n k L R).ids.Nodup at wn
    rw [nd_nodup] at wn
    obtain ⟨nL, nR, ndL, ndR, LR⟩ := wn
    have nc : n ∉ cids c := wc.whole.disj (by simp [ids])
    obtain ⟨t2, e2, c2, l2, p2, q2, b2⟩ := swap_links wc.whole (r := r)
    have lv2 : ∀ a, a ≤ n → t2.live a = true := by rw [l2]; exact lv
    have Lr : L.rootId ≤ n := by
      rcases rootId_mem_or L with h | h
      · rw [h]; omega
      · exact hlt _ ((hmem _).2 (Or.inl (Or.inr (Or.inl h))))
    have Rr : R.rootId ≤ n := by
      rcases rootId_mem_or R with h | h
      · rw [h]; omega
      · exact hlt _ ((hmem _).2 (Or.inl (Or.inr (Or.inr h))))
    have rootne : ∀ t : Tree, n ∉ t.ids → r ∉ t.ids → n ≠ t.rootId ∧ r ≠ t.rootId := by
      intro t h1 h2
      exact ⟨Ne.symm (rootId_ne_of_not_mem n0 h1), Ne.symm (rootId_ne_of_not_mem (by omega) h2)⟩
    have rL : r ∉ L.ids := fun hh => rt ((hmem r).2 (Or.inl (Or.inr (Or.inl hh))))
    have rR : r ∉ R.ids := fun hh => rt ((hmem r).2 (Or.inl (Or.inr (Or.inr hh))))
    obtain ⟨nLr, rLr⟩ := rootne L nL rL
    obtain ⟨nRr, rRr⟩ := rootne R nR rR
    have nr : n ≠ r := Ne.symm hrn
    have r0 : r ≠ 0 := by omega
    have br1 : t2.br n true = R.rootId := by rw [b2 n nc]; exact nb1
    have br0 : t2.br n false = L.rootId := by rw [b2 n nc]; exact nb0
    let par2 := upd (upd t2.par R.rootId r) L.rootId r
    let t3 : Links := { t2 with
      br := fun b e => if b = n ∧ e = false then 0 else if b = n ∧ e = true then 0 else
        if b = n then (if b = 0 then 0 else t2.br r e) else if b = r then t2.br n e else if b = 0 then t2.br r e
          else t2.br b e
      par := upd (upd (upd (upd par2 0 (par2 r)) r (par2 n)) n (par2 r)) n 0
      parity := upd (upd (upd (upd (upd t2.parity 0 (t2.parity r)) r (t2.parity n)) n (t2.parity r)) 0 true) n false }
    let val3 := upd (upd (upd s.val 0 (s.val r)) r (s.val n)) n (s.val r)
    have run : swapAndPop s r = some (setSize { s with t := t3, val := val3 } n) := by
      have ra : (r != 0) = true := bne_zero r0
      have na : (n != 0) = true := bne_zero n0
      rw [swapAndPop]
      simp only [hx, hrn, if_false, req, ra, na, if_true, Option.bind_eq_bind, Option.bind_some]
      have e2' := e2
      simp only [Option.bind_eq_bind] at e2'
      rw [e2']
      simp only [Option.bind_some, getBr_live (lv2 n (Nat.le_refl _)), br1, setPar_live (lv2 _ Rr)]
      rw [getBr_live (by exact lv2 n (Nat.le_refl _))]
      simp only [Option.bind_some, br0]
      rw [setPar_live (by exact lv2 _ Lr)]
      simp only [Option.bind_some]
      rw [copySlot_live (by exact lv2 0 (by omega)) (by exact lv2 r hr.2)]
      simp only [Option.bind_some]
      rw [copySlot_live (by exact lv2 r hr.2) (by exact lv2 n (Nat.le_refl _))]
      simp only [Option.bind_some]
      rw [copySlot_live (by exact lv2 n (Nat.le_refl _)) (by exact lv2 0 (by omega))]
      simp only [Option.bind_some]
      rw [setParity_live (by exact lv2 0 (by omega))]
      simp only [Option.bind_some]
      rw [setParity_live (by exact lv2 n (Nat.le_refl _))]
      simp only [Option.bind_some]
      rw [setPar_live (by exact lv2 n (Nat.le_refl _))]
      simp only [Option.bind_some]
      rw [setBr_live (by exact lv2 n (Nat.le_refl _))]
      simp only [Option.bind_some]
      rw [setBr_live (by exact lv2 n (Nat.le_refl _))]
      simp only [Option.bind_some]
      congr 1
      congr 1
      simp only [t3, par2, upd_same, upd_ne _ _ n0, upd_ne _ _ (Ne.symm r0), Ne.symm r0, if_true, if_false,
        n0]
      simp only [Frm.mk.injEq, Links.mk.injEq, and_true]
      refine ⟨?_, rfl⟩
      funext b e
      by_cases hb : b = n
      · subst hb; cases e <;> simp
      · simp [hb]
    have fbr : ∀ a, a ≠ 0 → a ≠ r → a ≠ n → t3.br a = t2.br a := by
      intro a h1 h2 h3; funext e; simp [t3, h1, h2, h3]
    have fpar : ∀ a, a ≠ 0 → a ≠ r → a ≠ n → t3.par a = if a = L.rootId ∨ a = R.rootId then r else t2.par a := by
      intro a h1 h2 h3
      simp only [t3, par2, upd_ne _ _ h1, upd_ne _ _ h2, upd_ne _ _ h3]
      by_cases c1 : a = L.rootId
      · simp [c1]
      · by_cases c2 : a = R.rootId
        · subst c2; simp [upd_ne _ _ c1]
        · simp [upd_ne _ _ c1, upd_ne _ _ c2, c1, c2]
    have w3 := move_spec (h3 := { t3 with live := inUse n s.cap }) wc.whole r0 rt' rc c2 b2 p2 rfl (by
        intro a ha
        apply lv'
        rcases ha with ha | ha | ha | rfl | rfl
        · have h1 := hlt a ((hmem a).2 (Or.inr ha))
          have : a ≠ n := fun hh => nc (hh ▸ ha)
          omega
        · have h1 := hlt a ((hmem a).2 (Or.inl (Or.inr (Or.inl ha))))
          have : a ≠ n := fun hh => nL (hh ▸ ha)
          omega
        · have h1 := hlt a ((hmem a).2 (Or.inl (Or.inr (Or.inr ha))))
          have : a ≠ n := fun hh => nR (hh ▸ ha)
          omega
        · omega
        · omega) fbr (by funext e; simp [t3, hrn]) fpar (by
        simp [t3, par2, upd_ne _ _ hrn, upd_ne _ _ nLr, upd_ne _ _ nRr])
    have fpy : ∀ a, a ≠ 0 → a ≠ r → a ≠ n → t3.parity a = s.t.parity a := by
      intro a h1 h2 h3
      simp only [t3, upd_ne _ _ h1, upd_ne _ _ h2, upd_ne _ _ h3, q2]
    have hne : ∀ a, (a ∈ L.ids ∨ a ∈ R.ids ∨ a ∈ cids c) → a ≠ 0 ∧ a ≠ r ∧ a ≠ n := by
      intro a ha
      have hmm : a ∈ (plug c (node n k L R)).ids := by
        rw [hmem]; rcases ha with ha | ha | ha <;> simp [ha]
      refine ⟨h0 a hmm, fun hh => rt (hh ▸ hmm), ?_⟩
      rintro rfl
      rcases ha with ha | ha | ha
      · exact nL ha
      · exact nR ha
      · exact nc ha
    have rp := wc.rp
    have W3 : Wv { t3 with live := inUse n s.cap } c (node r k L R) := by
      refine ⟨w3, ⟨?_, ?_, ?_⟩, ?_, ?_⟩
      · simp only [t3, upd_ne _ _ hrn, upd_ne _ _ r0, upd_same, q2]
        exact rp.1
      · exact rp.2.1.congr (fun a ha => by obtain ⟨h1, h2, h3⟩ := hne a (Or.inl ha); exact fpy a h1 h2 h3)
      · exact rp.2.2.congr (fun a ha => by obtain ⟨h1, h2, h3⟩ := hne a (Or.inr (Or.inl ha)); exact fpy a h1 h2 h3)
      · exact wc.rpc.congr (fun a ha => by obtain ⟨h1, h2, h3⟩ := hne a (Or.inr (Or.inr ha)); exact fpy a h1 h2 h3)
      · simp [t3, upd, Ne.symm n0]
    refine ⟨_, plug c (node r k L R), run, Wv.plug.1 W3, ?_, ?_, rfl, rfl, rfl, rfl, ?_, ?_⟩
    · rw [Valid_plug] at v ⊢; exact v
    · rw [plug_ids, plug_ids]
      have hid : ∀ is : List Nat, (∀ a ∈ is, a ≠ n) → is.map (ren n r) = is := by
        intro is h
        rw [List.map_congr_left (g := id) (fun a ha => by simp [ren, h a ha])]; simp
      have hbf : ∀ a ∈ before c, a ≠ n := by
        intro a ha hh
        subst hh
        have h1 := w.whole.nodup
        simp only [cids_nil, List.append_nil] at h1
        rw [plug_ids] at h1
        simp only [ids, List.append_assoc, List.cons_append] at h1
        rw [List.nodup_append] at h1
        exact h1.2.2 a ha a (by simp) rfl
      have haf : ∀ a ∈ after c, a ≠ n := by
        intro a ha hh
        subst hh
        have h1 := w.whole.nodup
        simp only [cids_nil, List.append_nil] at h1
        rw [plug_ids] at h1
        rw [List.nodup_append] at h1
        exact h1.2.2 a (by simp [ids]) a ha rfl
      simp only [ids, List.map_append, List.map_cons, hid _ hbf, hid _ haf, hid _ (fun a ha hh => nL (hh ▸ ha)),
        hid _ (fun a ha hh => nR (hh ▸ ha))]
      simp [ren]
    · show upd (upd (upd s.val 0 (s.val r)) r (s.val n)) n (s.val r) n = s.val r
      simp
    · intro a ha
      show upd (upd (upd s.val 0 (s.val r)) r (s.val n)) n (s.val r) (ren n r a) = s.val a
      have a0 := h0 a ha
      have ar : a ≠ r := fun hh => rt (hh ▸ ha)
      by_cases han : a = n
      · subst han; simp [ren, upd_ne _ _ hrn]
      · simp only [ren, han, if_false]
        rw [upd_ne _ _ han, upd_ne _ _ ar, upd_ne _ _ a0]

theorem removeFixup_spec (h : Started cmp key s l T) {pre post : List Nat} {r : Nat} (e : T.ids = pre ++ r :: post) :
    ∃ s' T', removeFixup s r = some (s', l.length) ∧
      Started cmp key s' ((elems s.val (pre ++ post)).map (fun e => if e.1 = l.length then (r, e.2) else e)) T' ∧
      s'.cap = s.cap ∧ s'.hasAlloc = s.hasAlloc ∧ s'.val l.length = s.val r := by
  have hr : r ∈ T.ids := by rw [e]; simp
  have hrr := h.mem_iff.1 hr
  have hn := h.ok.nodup
  obtain ⟨c, k, L, R, hT⟩ := mem_split hr
  subst hT
  have wc := Wv.plug.2 h.ok.wv
  have e2 := plug_ids c (node r k L R)
  rw [e, show (node r k L R).ids = L.ids ++ r :: R.ids from rfl,
    show before c ++ (L.ids ++ r :: R.ids) ++ after c = (before c ++ L.ids) ++ r :: (R.ids ++ after c) by simp] at e2
  rw [e] at hn
  obtain ⟨rfl, rfl⟩ := split_unique hn e2
  obtain ⟨t', T', run, w', v', i', l'⟩ := removeLinks_spec wc h.ok.valid
  have hi : T'.ids = (before c ++ L.ids) ++ (R.ids ++ after c) := by rw [i']; simp
  have hrT : r ∉ T'.ids := by
    rw [hi]
    rw [List.nodup_append, List.nodup_cons] at hn
    simp only [List.mem_append (s := before c ++ L.ids), not_or]
    exact ⟨fun hh => hn.2.2 r hh r (by simp) rfl, hn.2.1.1⟩
  have l'' : t'.live = s.t.live := l'
  have hmT : ∀ a, 1 ≤ a → a ≤ l.length → a ≠ r → a ∈ T'.ids := by
    intro a h1 h2 h3
    have := h.slots a h1 h2
    rw [e] at this
    rw [hi]
    simp only [List.mem_append (s := before c ++ L.ids), List.mem_cons] at this ⊢
    rcases this with h | h | h
    · exact Or.inl h
    · exact absurd h h3
    · exact Or.inr h
  obtain ⟨s', T2, run2, w2, v2, i2, z2, c2, a2, l2, y2, x2⟩ := swapAndPop_spec (s := { s with t := t' }) (n := l.length)
    (r := r) h.sz h.le (l''.trans h.live) w' v' hrr hrT hmT
  have hlist : (elems s.val ((before c ++ L.ids) ++ (R.ids ++ after c))).map
      (fun e => if e.1 = l.length then (r, e.2) else e) = elems s'.val T2.ids := by
    rw [i2, ← hi]
    simp only [elems, List.map_map]
    refine List.map_congr_left (fun a ha => ?_)
    have := x2 a ha
    simp only [Function.comp, this]
    by_cases hh : a = l.length <;> simp [ren, hh]
  have hl : l = elems s.val (before c ++ L.ids) ++ (r, s.val r) :: elems s.val (R.ids ++ after c) := by
    rw [h.ok.list, e]; exact elems_append _ _ _
  have hlen : (elems s'.val T2.ids).length + 1 = l.length := by
    rw [← hlist, List.length_map, elems_append, hl]; simp; omega
  have hsrt : Sorted cmp (ekey key) (elems s'.val T2.ids) := by
    rw [← hlist]
    have h1 := h.ok.sorted
    rw [hl] at h1
    have h2 := h1.erase
    rw [← elems_append] at h2
    unfold Sorted at *
    rw [List.pairwise_map]
    refine h2.imp (fun {a b} hab => ?_)
    have : ∀ a : Nat × α, ekey key (if a.1 = l.length then (r, a.2) else a) = ekey key a := by
      intro a; by_cases hh : a.1 = l.length <;> simp [hh, ekey]
    rw [this, this]; exact hab
  refine ⟨s', T2, ?_, ⟨⟨w2, v2, hlist, hlist ▸ hsrt, ?_⟩, ?_, ?_, ?_, ?_⟩, c2, a2, y2⟩
  · have run' : removeLinks s.t r = some t' := run
    simp only [removeFixup, run', run2, Option.bind_eq_bind, Option.bind_some, z2]
  · show s'.sz - 1 = _
    rw [hlist, z2]; omega
  · rw [l2, z2, c2]
  · rw [hlist, z2]; exact hlen.symm
  · rw [z2, c2]; have := h.sz; have := h.le; show _ ≤ s.cap; omega
  · intro a h1 h2
    rw [hlist] at h2
    rw [i2, List.mem_map]
    by_cases har : a = r
    · subst har
      exact ⟨l.length, hmT _ (by omega) (Nat.le_refl _) (by omega), by simp [ren]⟩
    · exact ⟨a, hmT a h1 (by omega) har, by simp [ren]; omega⟩

end CCC.Frm
