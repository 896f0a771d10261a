import Verif.Proof.Maze
/-
The main loop of the maze sample: the open squares always form a tree, and the loop ends when all rooms belong to it.
-/
namespace CCC.Maze
open CCC MapSpec PtrMap

variable {R C : Int} {m : St} {st : PrioQ.St Cell} {l : List (Nat × Cell)} {rand : Rand}

theorem Store.push (h : Store R C m st l) {b : Nat} {x : Cell} (hb : (b, x) ∈ l) (hq : b ∉ st.q) (g : Grid) :
    ∃ q' st' r, Pq.push cfg m.cells b none = some (q', r) ∧ Store R C { m with grid := g, cells := q' } st' l ∧ st'.q = b :: st.q := by
  obtain ⟨s', h1, h2, _, _⟩ := Pq.C19_pq_step_partial cfg_lawful h.pq (.push b)
    ⟨hq, by have := h.val _ hb; simp only at this; rw [this]; simp⟩ trivial
  simp only [Pq.step, Option.bind_eq_bind, Option.bind_eq_some_iff, Option.some.injEq, Prod.mk.injEq] at h1
  obtain ⟨⟨q', r⟩, h1, rfl, _⟩ := h1
  refine ⟨q', _, r, h1, ⟨h.om, h.al, h2, h.len, h.addr, h.room, h.val, h.cost, ?_, h.cap⟩, rfl⟩
  intro a ha
  simp only [PrioQ.specStep, List.mem_cons] at ha
  rcases ha with rfl | ha
  · exact ⟨x, hb⟩
  · exact h.queue a ha

theorem Store.pop (h : Store R C m st l) {a : Nat} (ha : Pq.front m.cells = some a) :
    ∃ q' st' r, Pq.pop cfg m.cells = some (q', r) ∧ Store R C { m with cells := q' } st' l ∧ st'.q = st.q.erase a := by
  have hf : st.front = some a := by rw [← ha]; exact ((h.pq.sim cfg_lawful).root).symm
  obtain ⟨s', h1, h2, _, _⟩ := Pq.C19_pq_step_partial cfg_lawful h.pq .pop trivial trivial
  simp only [Pq.step, Option.bind_eq_bind, Option.bind_eq_some_iff, Option.some.injEq, Prod.mk.injEq] at h1
  obtain ⟨⟨q', r⟩, h1, rfl, _⟩ := h1
  simp only [PrioQ.specStep, hf] at h2
  refine ⟨q', _, r, h1, ⟨h.om, h.al, h2, h.len, h.addr, h.room, h.val, h.cost, ?_, h.cap⟩, rfl⟩
  intro b hb
  exact h.queue b (List.mem_of_mem_erase hb)

/-- The shape of the open squares. -/
structure Halls (R C : Int) (O : Pos → Prop) : Prop where
  inner : ∀ p, O p → 0 < p.1 ∧ p.1 < R - 1 ∧ 0 < p.2 ∧ p.2 < C - 1
  odd : ∀ p, O p → p.1 % 2 = 1 ∨ p.2 % 2 = 1
  vert : ∀ p, O p → p.1 % 2 = 0 → O (p.1 - 1, p.2) ∧ O (p.1 + 1, p.2)
  horz : ∀ p, O p → p.2 % 2 = 0 → O (p.1, p.2 - 1) ∧ O (p.1, p.2 + 1)
  ways : OneWay O

/-- The square between two rooms. -/
theorem between_dir {c n d : Pos} (hd : d ∈ dirs) (hn : n = (c.1 + d.1, c.2 + d.2)) :
    (between c n).1 * 2 = c.1 + n.1 ∧ (between c n).2 * 2 = c.2 + n.2 ∧
      ((c.1 = n.1 ∧ (n.2 = c.2 + 2 ∨ n.2 = c.2 - 2)) ∨ (c.2 = n.2 ∧ (n.1 = c.1 + 2 ∨ n.1 = c.1 - 2))) := by
  simp only [dirs, List.mem_cons, List.not_mem_nil, or_false] at hd
  subst hn
  unfold between
  rcases hd with rfl | rfl | rfl | rfl <;> simp only
  · rw [if_pos (by omega)]; refine ⟨?_, ?_, ?_⟩ <;> first | omega | (simp; done) | (simp; omega)
  · rw [if_neg (by omega), if_neg (by omega), if_neg (by omega), if_pos (by omega)]; refine ⟨?_, ?_, ?_⟩ <;> first | omega | (simp; done) | (simp; omega)
  · rw [if_neg (by omega), if_pos (by omega)]; refine ⟨?_, ?_, ?_⟩ <;> first | omega | (simp; done) | (simp; omega)
  · rw [if_neg (by omega), if_neg (by omega), if_pos (by omega)]; refine ⟨?_, ?_, ?_⟩ <;> first | omega | (simp; done) | (simp; omega)

/-- A new room and the square on the way to it. -/
theorem Halls.grow {O : Pos → Prop} (h : Halls R C O) {c n w : Pos} (rc : Room R C c) (hc : O c) (rn : Room R C n) (hn : ¬ O n)
    (w1 : w.1 * 2 = c.1 + n.1) (w2 : w.2 * 2 = c.2 + n.2)
    (hd : (c.1 = n.1 ∧ (n.2 = c.2 + 2 ∨ n.2 = c.2 - 2)) ∨ (c.2 = n.2 ∧ (n.1 = c.1 + 2 ∨ n.1 = c.1 - 2))) :
    Halls R C (fun p => (O p ∨ p = w) ∨ p = n) := by
  obtain ⟨c1, c2, c3, c4, c5, c6⟩ := rc
  obtain ⟨n1, n2, n3, n4, n5, n6⟩ := rn
  have eqn : ∀ p : Pos, p.1 = n.1 → p.2 = n.2 → p = n := fun p h1 h2 => Prod.ext h1 h2
  have eqc : ∀ p : Pos, p.1 = c.1 → p.2 = c.2 → p = c := fun p h1 h2 => Prod.ext h1 h2
  have on : ∀ p : Pos, O p → p.1 = n.1 → p.2 = n.2 → False := fun p hp h1 h2 => hn (eqn p h1 h2 ▸ hp)
  have hw : ¬ O w := by
    intro hw
    rcases hd with ⟨e, hd⟩ | ⟨e, hd⟩
    · obtain ⟨a, b⟩ := h.horz w hw (by omega)
      rcases hd with hd | hd
      · exact on _ b (by simp only; omega) (by simp only; omega)
      · exact on _ a (by simp only; omega) (by simp only; omega)
    · obtain ⟨a, b⟩ := h.vert w hw (by omega)
      rcases hd with hd | hd
      · exact on _ b (by simp only; omega) (by simp only; omega)
      · exact on _ a (by simp only; omega) (by simp only; omega)
  have near : ∀ z, O z → Adj n z → False := by
    intro z hz ha
    rcases ha with ⟨e, ha | ha⟩ | ⟨e, ha | ha⟩
    · exact on _ (h.horz z hz (by omega)).2 (by simp only; omega) (by simp only; omega)
    · exact on _ (h.horz z hz (by omega)).1 (by simp only; omega) (by simp only; omega)
    · exact on _ (h.vert z hz (by omega)).2 (by simp only; omega) (by simp only; omega)
    · exact on _ (h.vert z hz (by omega)).1 (by simp only; omega) (by simp only; omega)
  have wn : n ≠ w := by rintro rfl; omega
  refine ⟨?_, ?_, ?_, ?_, ?_⟩
  · rintro p ((hp | rfl) | rfl)
    · exact h.inner p hp
    · omega
    · omega
  · rintro p ((hp | rfl) | rfl)
    · exact h.odd p hp
    · omega
    · omega
  · rintro p ((hp | rfl) | rfl) e
    · exact ⟨.inl (.inl (h.vert p hp e).1), .inl (.inl (h.vert p hp e).2)⟩
    · have hd2 : c.2 = n.2 ∧ (n.1 = c.1 + 2 ∨ n.1 = c.1 - 2) := by omega
      rcases hd2.2 with hd | hd
      · exact ⟨.inl (.inl (eqc (p.1 - 1, p.2) (by simp only; omega) (by simp only; omega) ▸ hc)),
          .inr (eqn _ (by simp only; omega) (by simp only; omega))⟩
      · exact ⟨.inr (eqn _ (by simp only; omega) (by simp only; omega)),
          .inl (.inl (eqc (p.1 + 1, p.2) (by simp only; omega) (by simp only; omega) ▸ hc))⟩
    · omega
  · rintro p ((hp | rfl) | rfl) e
    · exact ⟨.inl (.inl (h.horz p hp e).1), .inl (.inl (h.horz p hp e).2)⟩
    · have hd2 : c.1 = n.1 ∧ (n.2 = c.2 + 2 ∨ n.2 = c.2 - 2) := by omega
      rcases hd2.2 with hd | hd
      · exact ⟨.inl (.inl (eqc (p.1, p.2 - 1) (by simp only; omega) (by simp only; omega) ▸ hc)),
          .inr (eqn _ (by simp only; omega) (by simp only; omega))⟩
      · exact ⟨.inr (eqn _ (by simp only; omega) (by simp only; omega)),
          .inl (.inl (eqc (p.1, p.2 + 1) (by simp only; omega) (by simp only; omega) ▸ hc))⟩
    · omega
  · refine (h.ways.leaf hw hc (x := w) ?_ ?_).leaf ?_ (.inr rfl) ?_ ?_
    · unfold Adj; omega
    · intro z hz ha
      have ho := h.odd z hz
      have : ¬ (z.1 = n.1 ∧ z.2 = n.2) := fun e => on z hz e.1 e.2
      apply eqc <;> (unfold Adj at ha; omega)
    · rintro (hx | hx)
      · exact hn hx
      · exact wn hx
    · unfold Adj; omega
    · rintro z (hz | hz) ha
      · exact (near z hz ha).elim
      · exact hz

/-- Where the main loop stands: the squares of `O` are open. -/
structure Inv (R C : Int) (m : St) (st : PrioQ.St Cell) (l : List (Nat × Cell)) (O : Pos → Prop) : Prop where
  store : Store R C m st l
  fits : m.grid.Fits
  rows : m.grid.rows = R
  cols : m.grid.cols = C
  qO : ∀ a x, a ∈ st.q → (a, x) ∈ l → O x.cell
  fin : ∀ p, Room R C p → O p → (∃ a x, a ∈ st.q ∧ (a, x) ∈ l ∧ x.cell = p) ∨
    ∀ d ∈ dirs, Room R C (p.1 + d.1, p.2 + d.2) → O (p.1 + d.1, p.2 + d.2)
  start : ∃ s, Room R C s ∧ Room R C (s.1 - 2, s.2) ∧ O s
  path : ∀ p, m.grid.In p → (m.grid.bit p).path = true → O p
  opened : ∀ p, O p → (m.grid.bit p).path = true ∨ ∀ p', O p' → p' = p
  seen : ∀ p, O p → (m.grid.bit p).cached = true ∨ ∀ p', O p' → p' = p
  cached : ∀ p, Room R C p → (m.grid.bit p).cached = true → O p
  halls : Halls R C O

theorem Room.in_ {g : Grid} (hr : g.rows = R) (hc : g.cols = C) {p : Pos} (h : Room R C p) : g.In p := by
  obtain ⟨h1, h2, h3, h4, h5, h6⟩ := h
  unfold Grid.In
  omega

/-- The rooms still to be reached. -/
noncomputable def todo (R C : Int) (O : Pos → Prop) : Nat := by
  classical exact ((rooms R C).filter (fun p => ¬ O p)).card

theorem todo_lt {O O' : Pos → Prop} (h : ∀ p, O p → O' p) {n : Pos} (hn : n ∈ rooms R C) (h1 : ¬ O n) (h2 : O' n) :
    todo R C O' < todo R C O := by
  classical
  unfold todo
  apply Finset.card_lt_card
  rw [Finset.ssubset_iff_of_subset]
  · exact ⟨n, by rw [Finset.mem_filter]; exact ⟨hn, h1⟩, by rw [Finset.mem_filter]; exact fun h => h.2 h2⟩
  · intro p hp
    rw [Finset.mem_filter] at hp ⊢
    exact ⟨hp.1, fun hO => hp.2 (h p hO)⟩

theorem loop_spec (hr : rand.Ok) (hR : R % 2 = 1 ∧ 7 ≤ R) (hC : C % 2 = 1 ∧ 7 ≤ C) : ∀ (N : Nat) (m : St) (st : PrioQ.St Cell)
    (l : List (Nat × Cell)) (O : Pos → Prop), Inv R C m st l O → 2 * todo R C O + st.q.length = N →
    ∃ m' st' l' O', loop rand m = some m' ∧ Inv R C m' st' l' O' ∧ st'.q = [] := by
  intro N
  induction N using Nat.strongRecOn with
  | ind N ih =>
  intro m st l O h hN
  have hsz := Pq.C19_pq_size_partial cfg_lawful h.store.pq
  have hfront := Pq.C18_pq_front_partial cfg_lawful h.store.pq
  rw [loop]
  by_cases he : st.q = []
  · rw [hsz.2.1, he]
    exact ⟨m, st, l, O, rfl, h, he⟩
  · have hne : ¬ Pq.isEmpty m.cells = true := by
      rw [hsz.2.1]
      simp [he]
    rw [if_neg hne]
    cases hf : Pq.front m.cells with
    | none => exact (he (hfront.1.1 hf)).elim
    | some a =>
      obtain ⟨haq, _⟩ := hfront.2 a hf
      obtain ⟨x, hax⟩ := h.store.queue a haq
      obtain ⟨e, hea, hev⟩ := h.store.mem hax
      have rc : Room R C x.cell := h.store.room _ hax
      have hc : O x.cell := h.qO a x haq hax
      have inc : m.grid.In x.cell := rc.in_ h.rows h.cols
      obtain ⟨g1, hg1, gr1⟩ := wr_cached h.fits inc
      have r1 : g1.rows = R := gr1.rows.trans h.rows
      have c1 : g1.cols = C := gr1.cols.trans h.cols
      have inO : ∀ p, O p → m.grid.In p := by
        intro p hp
        have := h.halls.inner p hp
        unfold Grid.In
        rw [h.rows, h.cols]
        omega
      have seen1 : ∀ p, O p → (g1.bit p).cached = true := by
        intro p hp
        rw [gr1.cached p (inO p hp)]
        rcases h.seen p hp with hs | hs
        · exact .inl hs
        · exact .inr (hs _ hc).symm
      have cached1 : ∀ p, Room R C p → (g1.bit p).cached = true → O p := by
        intro p hp hcd
        rw [gr1.cached p (hp.in_ h.rows h.cols)] at hcd
        rcases hcd with hcd | rfl
        · exact h.cached p hp hcd
        · exact hc
      have store1 : Store R C { m with grid := g1 } st l := ⟨h.store.om, h.store.al, h.store.pq, h.store.len, h.store.addr,
        h.store.room, h.store.val, h.store.cost, h.store.queue, h.store.cap⟩
      obtain ⟨m2, st2, l2, best, s1, s2, s3, s4, s5, s6, s7, s8⟩ := scan_spec hr hR hC rc g1 (gr1.fits h.fits) r1 c1 dirs
        (fun _ hd => hd) { m with grid := g1 } st l intMax none store1 rfl (fun _ => rfl) (by simp)
      have qO2 : ∀ a x, a ∈ st2.q → (a, x) ∈ l2 → O x.cell := by
        intro b y hb hy
        rw [s4] at hb
        obtain ⟨z, hz⟩ := h.store.queue b hb
        rw [s2.uniq hy (s6 _ hz)]
        exact h.qO b z hb hz
      simp only [Option.bind_eq_bind, Option.bind_some, hea, hev, hg1, s1]
      cases best with
      | none =>
        obtain ⟨q', st', r, k1, k2, k3⟩ := s2.pop (a := a) (by rw [s5]; exact hf)
        simp only [k1, Option.bind_some]
        have hlen : st'.q.length < st.q.length := by
          rw [k3, s4, List.length_erase_of_mem haq]
          have := List.length_pos_of_mem haq
          omega
        refine ih (2 * todo R C O + st'.q.length) (by omega) _ st' l2 O ⟨k2, ?_, ?_, ?_, ?_, ?_, h.start, ?_, ?_, ?_, ?_, h.halls⟩ rfl
        · simp only [s3]; exact gr1.fits h.fits
        · simp only [s3]; exact r1
        · simp only [s3]; exact c1
        · intro b y hb hy
          rw [k3] at hb
          exact qO2 b y (List.mem_of_mem_erase hb) hy
        · intro p hp hO
          rcases h.fin p hp hO with ⟨b, y, hb, hy, hyp⟩ | hfin
          · by_cases hba : b = a
            · subst hba
              right
              intro d hd hroom
              rw [h.store.uniq hy hax] at hyp
              rw [← hyp] at hroom ⊢
              exact cached1 _ hroom ((s7 rfl).2 d hd hroom)
            · left
              refine ⟨b, y, ?_, s6 _ hy, hyp⟩
              rw [k3, s4]
              exact (List.mem_erase_of_ne hba).2 hb
          · exact .inr hfin
        · simp only [s3]
          intro p hp hpath
          rw [gr1.path p (gr1.in_.1 hp)] at hpath
          exact h.path p (gr1.in_.1 hp) (hpath.resolve_right id)
        · simp only [s3]
          intro p hp
          rcases h.opened p hp with ho | ho
          · left; rw [gr1.path p (inO p hp)]; exact .inl ho
          · exact .inr ho
        · simp only [s3]
          intro p hp
          exact .inl (seen1 p hp)
        · simp only [s3]
          exact cached1
      | some b =>
        obtain ⟨y, hby, ry, hyc, d, hd, hyd⟩ := s8 b rfl
        obtain ⟨eb, heb, hebv⟩ := s2.mem hby
        have nO : ¬ O y.cell := by
          intro hO
          rw [seen1 _ hO] at hyc
          cases hyc
        obtain ⟨w1, w2, hdir⟩ := between_dir hd hyd
        have inw : g1.In (between x.cell y.cell) := by
          obtain ⟨_, _, a3, a4, a5, a6⟩ := rc
          obtain ⟨_, _, b3, b4, b5, b6⟩ := ry
          unfold Grid.In
          rw [r1, c1]
          omega
        obtain ⟨g3, hg3, gr3⟩ := join_spec (gr1.fits h.fits) (gr1.in_.2 inc) inw (ry.in_ r1 c1)
        have hbq : b ∉ st2.q := fun hb => nO (qO2 b y hb hby)
        obtain ⟨q', st', r, k1, k2, k3⟩ := s2.push hby hbq g3
        simp only [heb, hebv, s3, hg3, k1, Option.bind_some]
        have hlt := todo_lt (O := O) (O' := fun p => (O p ∨ p = between x.cell y.cell) ∨ p = y.cell) (R := R) (C := C)
          (fun p hp => .inl (.inl hp)) (mem_rooms hR.1 hC.1 ry) nO (.inr rfl)
        have hlen : st'.q.length = st.q.length + 1 := by rw [k3, s4]; rfl
        refine ih (2 * todo R C (fun p => (O p ∨ p = between x.cell y.cell) ∨ p = y.cell) + st'.q.length) (by omega) _ st' l2 _
          ⟨k2, gr3.fits (gr1.fits h.fits), gr3.rows.trans r1, gr3.cols.trans c1, ?_, ?_, ?_, ?_, ?_, ?_, ?_,
            h.halls.grow rc hc ry nO w1 w2 hdir⟩ rfl
        · intro a' x' ha' hx'
          rw [k3] at ha'
          rcases List.mem_cons.1 ha' with rfl | ha'
          · rw [s2.uniq hx' hby]; exact .inr rfl
          · exact .inl (.inl (qO2 a' x' ha' hx'))
        · rintro p hp ((hO | rfl) | rfl)
          · rcases h.fin p hp hO with ⟨b', y', hb', hy', hyp⟩ | hfin
            · exact .inl ⟨b', y', by rw [k3, s4]; exact List.mem_cons_of_mem _ hb', s6 _ hy', hyp⟩
            · exact .inr fun d hd hroom => .inl (.inl (hfin d hd hroom))
          · exfalso
            have a1 := hp.1
            have a2 := hp.2.1
            have a3 := rc.1
            have a4 := rc.2.1
            omega
          · exact .inl ⟨b, y, by rw [k3]; exact List.mem_cons_self .., hby, rfl⟩
        · obtain ⟨s, i1, i2, i3⟩ := h.start
          exact ⟨s, i1, i2, .inl (.inl i3)⟩
        · intro p hp hpath
          have hp1 := gr3.in_.1 hp
          have hp0 := gr1.in_.1 hp1
          rw [gr3.path p hp1, gr1.path p hp0] at hpath
          rcases hpath with (hpath | hF) | rfl | rfl | rfl
          · exact .inl (.inl (h.path p hp0 hpath))
          · exact hF.elim
          · exact .inl (.inl hc)
          · exact .inl (.inr rfl)
          · exact .inr rfl
        · rintro p ((hO | rfl) | rfl)
          · left
            rw [gr3.path p (gr1.in_.2 (inO p hO)), gr1.path p (inO p hO)]
            rcases h.opened p hO with ho | ho
            · exact .inl (.inl ho)
            · exact .inr (.inl (ho _ hc).symm)
          · left; rw [gr3.path _ inw]; exact .inr (.inr (.inl rfl))
          · left; rw [gr3.path _ (ry.in_ r1 c1)]; exact .inr (.inr (.inr rfl))
        · rintro p ((hO | rfl) | rfl)
          · left
            rw [gr3.cached p (gr1.in_.2 (inO p hO))]
            exact .inl (seen1 p hO)
          · left; rw [gr3.cached _ inw]; exact .inr (.inr (.inl rfl))
          · left; rw [gr3.cached _ (ry.in_ r1 c1)]; exact .inr (.inr (.inr rfl))
        · intro p hp hcd
          rw [gr3.cached p (hp.in_ r1 c1)] at hcd
          rcases hcd with hcd | rfl | rfl | rfl
          · exact .inl (.inl (cached1 p hp hcd))
          · exact .inl (.inl hc)
          · exact .inl (.inr rfl)
          · exact .inr rfl

/-- A set of rooms that contains one and all neighbours of its members contains all rooms. -/
theorem all_rooms {O : Pos → Prop} {s : Pos} (rs : Room R C s) (hs : O s)
    (hcl : ∀ p, Room R C p → O p → ∀ d ∈ dirs, Room R C (p.1 + d.1, p.2 + d.2) → O (p.1 + d.1, p.2 + d.2)) :
    ∀ (k : Nat) (p : Pos), Room R C p → (p.1 - s.1).natAbs + (p.2 - s.2).natAbs = k → O p := by
  intro k
  induction k using Nat.strongRecOn with
  | ind k ih =>
  intro p rp hk
  have step : ∀ d ∈ dirs, Room R C (p.1 - d.1, p.2 - d.2) → ((p.1 - d.1 - s.1).natAbs + (p.2 - d.2 - s.2).natAbs < k) → O p := by
    intro d hd hroom hlt
    have h1 := ih _ hlt _ hroom rfl
    have h2 := hcl _ hroom h1 d hd
    have e : ((p.1 - d.1 + d.1, p.2 - d.2 + d.2) : Pos) = p := by
      refine Prod.ext ?_ ?_ <;> simp only <;> omega
    simp only [e] at h2
    exact h2 rp
  obtain ⟨s1, s2, s3, s4, s5, s6⟩ := rs
  obtain ⟨p1, p2, p3, p4, p5, p6⟩ := rp
  by_cases h1 : p.1 < s.1
  · exact step (-2, 0) (by simp [dirs]) ⟨by simp only; omega, by simp only; omega, by simp only; omega, by simp only; omega,
      by simp only; omega, by simp only; omega⟩ (by simp only; omega)
  · by_cases h2 : s.1 < p.1
    · exact step (2, 0) (by simp [dirs]) ⟨by simp only; omega, by simp only; omega, by simp only; omega, by simp only; omega,
        by simp only; omega, by simp only; omega⟩ (by simp only; omega)
    · by_cases h3 : p.2 < s.2
      · exact step (0, -2) (by simp [dirs]) ⟨by simp only; omega, by simp only; omega, by simp only; omega, by simp only; omega,
          by simp only; omega, by simp only; omega⟩ (by simp only; omega)
      · by_cases h4 : s.2 < p.2
        · exact step (0, 2) (by simp [dirs]) ⟨by simp only; omega, by simp only; omega, by simp only; omega, by simp only; omega,
            by simp only; omega, by simp only; omega⟩ (by simp only; omega)
        · have : p = s := Prod.ext (by omega) (by omega)
          rw [this]; exact hs

/-- When the queue is empty the maze is done. -/
theorem Inv.perfect {O : Pos → Prop} (h : Inv R C m st l O) (hq : st.q = []) : Perfect R C m.grid.opened := by
  obtain ⟨s, rs, rn, hs⟩ := h.start
  have all : ∀ p, Room R C p → O p := fun p hp => all_rooms rs hs (fun p hp hO d hd hroom => by
    rcases h.fin p hp hO with ⟨a, x, ha, _⟩ | hfin
    · rw [hq] at ha; cases ha
    · exact hfin d hd hroom) _ p hp rfl
  have hO : ∀ p, O p ↔ m.grid.opened p := by
    intro p
    constructor
    · intro hp
      have hi := h.halls.inner p hp
      have hpath : (m.grid.bit p).path = true := by
        rcases h.opened p hp with ho | ho
        · exact ho
        · have e1 := ho _ hs
          have e2 := ho _ (all _ rn)
          rw [← e1] at e2
          have := congrArg Prod.fst e2
          simp only at this
          omega
      exact ⟨by omega, by rw [h.rows]; omega, by omega, by rw [h.cols]; omega, hpath⟩
    · rintro ⟨h1, h2, h3, h4, h5⟩
      exact h.path p ⟨h1, h2, h3, h4⟩ h5
  have e : O = m.grid.opened := funext fun p => propext (hO p)
  rw [← e]
  exact ⟨all, h.halls.inner, h.halls.odd, h.halls.ways⟩

end CCC.Maze
