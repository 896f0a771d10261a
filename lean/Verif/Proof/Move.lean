import Verif.Proof.Rotate
/-
Moving the last slot of a flat tree to another slot.
-/
namespace CCC
open Links Tree Wavl

theorem RepC.root_mem {h : Links} {c : Ctx} : ∀ {f : Frame} {x : Nat}, RepC h (f :: c) x → h.root ∈ cids (f :: c) := by
  induction c with
  | nil => intro f x hr; have := hr.2.2.2.2.2.2; simp only [RepC] at this; simp [this]
  | cons g c ih =>
    intro f x hr
    have := ih hr.2.2.2.2.2.2
    rw [cids_cons]
    exact List.mem_cons_of_mem _ (List.mem_append_right _ this)

theorem RepC.root_eq {h : Links} {c : Ctx} {x : Nat} (hr : RepC h c x) (hx : x ∉ cids c) : x = h.root ↔ c = [] := by
  constructor
  · intro e
    cases c with
    | nil => rfl
    | cons f c => exact absurd (e ▸ hr.root_mem) hx
  · rintro rfl; exact hr.symm

/-- The node at `x` is now found at `r`. -/
theorem move_spec {h h2 h3 : Links} {c : Ctx} {x r k : Nat} {L R : Tree} (w : Whole h c (node x k L R)) (r0 : r ≠ 0)
    (rt : r ∉ (node x k L R).ids) (rc : r ∉ cids c) (c2 : RepC h2 c r) (b2 : ∀ a, a ∉ cids c → h2.br a = h.br a)
    (p2 : h2.par = h.par) (root3 : h3.root = h2.root)
    (live3 : ∀ a, a ∈ cids c ∨ a ∈ L.ids ∨ a ∈ R.ids ∨ a = r ∨ a = 0 → h3.live a = true)
    (br3 : ∀ a, a ≠ 0 → a ≠ r → a ≠ x → h3.br a = h2.br a) (brr : h3.br r = h2.br x)
    (par3 : ∀ a, a ≠ 0 → a ≠ r → a ≠ x → h3.par a = if a = L.rootId ∨ a = R.rootId then r else h2.par a)
    (parr : h3.par r = h2.par x) : Whole h3 c (node r k L R) := by
  have wd := fun a => w.disj (a := a)
  have wn := w.ids_nodup
  change (nd false x k L R).ids.Nodup at wn
  rw [nd_nodup] at wn
  obtain ⟨xL, xR, nL, nR, LR⟩ := wn
  obtain ⟨x0, xl, xb0, xb1, xp, repL, repR⟩ := w.tree
  change r ∉ (nd false x k L R).ids at rt
  simp only [mem_nd, not_or] at rt
  obtain ⟨rx, rL, rR⟩ := rt
  have xc : x ∉ cids c := wd x (by simp [ids])
  have Lc : ∀ a ∈ L.ids, a ∉ cids c := fun a ha => wd a (by simp [ids, ha])
  have Rc : ∀ a ∈ R.ids, a ∉ cids c := fun a ha => wd a (by simp [ids, ha])
  have hc : ∀ a ∈ cids c, a ≠ 0 ∧ a ≠ r ∧ a ≠ x ∧ a ≠ L.rootId ∧ a ≠ R.rootId := by
    intro a ha
    have a0 : a ≠ 0 := fun hh => c2.ne_zero (hh ▸ ha)
    refine ⟨a0, fun hh => rc (hh ▸ ha), fun hh => xc (hh ▸ ha), ?_, ?_⟩
    · intro hh
      rcases rootId_mem_or L with h3 | h3
      · exact a0 (hh.trans h3)
      · exact Lc _ h3 (hh ▸ ha)
    · intro hh
      rcases rootId_mem_or R with h3 | h3
      · exact a0 (hh.trans h3)
      · exact Rc _ h3 (hh ▸ ha)
  have hL : ∀ a ∈ L.ids, a ≠ 0 ∧ a ≠ r ∧ a ≠ x ∧ a ≠ R.rootId := by
    intro a ha
    have a0 : a ≠ 0 := fun hh => repL.ne_zero (hh ▸ ha)
    refine ⟨a0, fun hh => rL (hh ▸ ha), fun hh => xL (hh ▸ ha), ?_⟩
    intro hh
    rcases rootId_mem_or R with h3 | h3
    · exact a0 (hh.trans h3)
    · exact LR a ha (hh ▸ h3)
  have hR : ∀ a ∈ R.ids, a ≠ 0 ∧ a ≠ r ∧ a ≠ x ∧ a ≠ L.rootId := by
    intro a ha
    have a0 : a ≠ 0 := fun hh => repR.ne_zero (hh ▸ ha)
    refine ⟨a0, fun hh => rR (hh ▸ ha), fun hh => xR (hh ▸ ha), ?_⟩
    intro hh
    rcases rootId_mem_or L with h3 | h3
    · exact a0 (hh.trans h3)
    · exact LR a (hh ▸ h3) ha
  refine ⟨?_, ⟨r0, live3 r (by simp), ?_, ?_, ?_, ?_, ?_⟩, ?_, live3 0 (by simp)⟩
  · refine c2.congr root3 (fun a ha => ?_) (fun a ha => ?_) (fun a ha => ?_)
    · rw [live3 a (Or.inl ha), c2.live a ha]
    · obtain ⟨h1, h2, h3, _, _⟩ := hc a ha
      exact br3 a h1 h2 h3
    · obtain ⟨h1, h2, h3, h4, h5⟩ := hc a ha
      rw [par3 a h1 h2 h3]; simp [h4, h5]
  · rw [brr, b2 x xc]; exact xb0
  · rw [brr, b2 x xc]; exact xb1
  · rw [parr, p2]; exact xp
  · refine repL.move nL (fun a ha => ?_) (fun a ha => ?_) (fun a ha hne => ?_) (fun hm => ?_)
    · rw [live3 a (by simp [ha]), repL.live a ha]
    · obtain ⟨h1, h2, h3, h4⟩ := hL a ha
      rw [br3 a h1 h2 h3, b2 a (Lc a ha)]
    · obtain ⟨h1, h2, h3, h4⟩ := hL a ha
      rw [par3 a h1 h2 h3, p2]; simp [h4, hne]
    · obtain ⟨h1, h2, h3, h4⟩ := hL _ hm
      rw [par3 _ h1 h2 h3]; simp
  · refine repR.move nR (fun a ha => ?_) (fun a ha => ?_) (fun a ha hne => ?_) (fun hm => ?_)
    · rw [live3 a (by simp [ha]), repR.live a ha]
    · obtain ⟨h1, h2, h3, h4⟩ := hR a ha
      rw [br3 a h1 h2 h3, b2 a (Rc a ha)]
    · obtain ⟨h1, h2, h3, h4⟩ := hR a ha
      rw [par3 a h1 h2 h3, p2]; simp [h4, hne]
    · obtain ⟨h1, h2, h3, h4⟩ := hR _ hm
      rw [par3 _ h1 h2 h3]; simp
  · have := w.nodup
    have hp : ∀ j, ((node j k L R).ids ++ cids c).Perm (j :: (L.ids ++ R.ids ++ cids c)) := by
      intro j
      exact (nd_ids_perm false j k L R).append_right _
    rw [(hp x).nodup_iff, List.nodup_cons] at this
    rw [(hp r).nodup_iff, List.nodup_cons]
    refine ⟨?_, this.2⟩
    simp only [List.mem_append, not_or]
    exact ⟨⟨rL, rR⟩, rc⟩

end CCC
