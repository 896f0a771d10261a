import Verif.Proof.SplaySplit
import Verif.Proof.WavlFind
/-
Top-down splaying on represented trees.
-/
namespace CCC.Splay
open CCC Links Tree Wavl

set_option linter.unusedSimpArgs false

theorem link_live {t : Links} {p x : Nat} {d : Bool} (hp : t.live p = true) (hx : t.live x = true) :
    link t p d x = some { t with
      br := fun b e => if b = p ∧ e = d then x else t.br b e
      par := upd t.par x p } := by
  simp [link, setBr, hp, setPar, hx]

/-- One of the two helper trees under construction: a spine going in direction `d` that hangs below the sentinel
and whose innermost branch is still open. -/
def SpC (h : Links) (d : Bool) : Ctx → Prop
  | [] => True
  | f :: c => f.dir = d ∧ f.id ≠ 0 ∧ h.live f.id = true ∧ h.br (pid c) d = f.id ∧ h.br f.id (!d) = f.sib.rootId ∧
      h.par f.id = pid c ∧ Rep h f.id f.sib ∧ SpC h d c

theorem SpC.ne_zero {h : Links} {d : Bool} {c : Ctx} (hr : SpC h d c) : 0 ∉ cids c := by
  induction c with
  | nil => simp
  | cons f c ih =>
    obtain ⟨_, h0, _, _, _, _, h1, h2⟩ := hr
    simp only [cids_cons, List.mem_append, List.mem_cons, not_or]
    exact ⟨fun h => h0 h.symm, h1.ne_zero, ih h2⟩

theorem SpC.live {h : Links} {d : Bool} {c : Ctx} (hr : SpC h d c) : ∀ a ∈ cids c, h.live a = true := by
  induction c with
  | nil => simp
  | cons f c ih =>
    obtain ⟨_, _, hl, _, _, _, h1, h2⟩ := hr
    intro a ha
    simp only [cids_cons, List.mem_append, List.mem_cons] at ha
    rcases ha with rfl | ha | ha
    · exact hl
    · exact h1.live a ha
    · exact ih h2 a ha

theorem SpC.pid_live {h : Links} {d : Bool} {c : Ctx} (hr : SpC h d c) (h0 : h.live 0 = true) :
    h.live (pid c) = true := by
  rcases pid_mem_or c with rfl | h1
  · exact h0
  · exact hr.live _ h1

theorem SpC.allDir {h : Links} {d : Bool} {c : Ctx} (hr : SpC h d c) : AllDir d c := by
  induction c with
  | nil => intro f hf; simp at hf
  | cons f c ih =>
    intro g hg
    rcases List.mem_cons.1 hg with rfl | hg
    · exact hr.1
    · exact ih hr.2.2.2.2.2.2.2 g hg

theorem SpC.congr {h h' : Links} {d : Bool} {c : Ctx} (hr : SpC h d c)
    (hl : ∀ a ∈ cids c, h'.live a = h.live a) (hz : h'.br 0 d = h.br 0 d)
    (hb : ∀ a ∈ cids c, h'.br a = h.br a)
    (hp : ∀ a ∈ cids c, h'.par a = h.par a) : SpC h' d c := by
  induction c with
  | nil => trivial
  | cons f c ih =>
    obtain ⟨hd, h0, hlv, hb0, hb1, hpar, h1, h2⟩ := hr
    have mi : f.id ∈ cids (f :: c) := by simp
    have ml : ∀ a ∈ f.sib.ids, a ∈ cids (f :: c) := by intro a ha; simp [ha]
    have mr : ∀ a ∈ cids c, a ∈ cids (f :: c) := by intro a ha; simp [ha]
    refine ⟨hd, h0, by rw [hl _ mi]; exact hlv, ?_, by rw [hb _ mi]; exact hb1, by rw [hp _ mi]; exact hpar, ?_, ?_⟩
    · rcases pid_mem_or c with rfl | hm
      · simp only [pid_nil] at hb0 ⊢; rw [hz]; exact hb0
      · rw [hb _ (mr _ hm)]; exact hb0
    · exact h1.congr (fun a ha => hl a (ml a ha)) (fun a ha => hb a (ml a ha)) (fun a ha => hp a (ml a ha))
    · exact ih h2 (fun a ha => hl a (mr a ha)) (fun a ha => hb a (mr a ha)) (fun a ha => hp a (mr a ha))

/-- A spine is untouched by a write to its open branch. -/
theorem SpC.open {h h' : Links} {d : Bool} {c : Ctx} (hr : SpC h d c) (hn : (cids c).Nodup)
    (hl : ∀ a ∈ cids c, h'.live a = h.live a)
    (hb : ∀ a e, (a = 0 ∨ a ∈ cids c) → ¬ (a = pid c ∧ e = d) → (a = 0 → e = d) → h'.br a e = h.br a e)
    (hp : ∀ a ∈ cids c, h'.par a = h.par a) : SpC h' d c := by
  cases c with
  | nil => trivial
  | cons f c =>
    obtain ⟨hd, h0, hlv, hb0, hb1, hpar, h1, h2⟩ := hr
    simp only [cids_cons, List.nodup_cons, List.mem_append, not_or, List.nodup_append] at hn
    obtain ⟨⟨n1, n2⟩, n3, n4, n5⟩ := hn
    have mi : f.id ∈ cids (f :: c) := by simp
    have ml : ∀ a ∈ f.sib.ids, a ∈ cids (f :: c) := by intro a ha; simp [ha]
    have mr : ∀ a ∈ cids c, a ∈ cids (f :: c) := by intro a ha; simp [ha]
    have z1 := h1.ne_zero
    have z2 := h2.ne_zero
    have hz : h'.br 0 d = h.br 0 d := hb 0 d (Or.inl rfl) (fun hh => h0 hh.1.symm) (fun _ => rfl)
    have hc : ∀ a ∈ cids c, h'.br a = h.br a := by
      intro a ha
      funext e
      refine hb a e (Or.inr (mr a ha)) ?_ ?_
      · rintro ⟨rfl, _⟩; exact n2 ha
      · rintro rfl; exact absurd ha z2
    refine ⟨hd, h0, by rw [hl _ mi]; exact hlv, ?_, ?_, by rw [hp _ mi]; exact hpar, ?_, ?_⟩
    · rcases pid_mem_or c with rfl | hm
      · simp only [pid_nil] at hb0 ⊢; rw [hz]; exact hb0
      · rw [hc _ hm]; exact hb0
    · rw [hb f.id (!d) (Or.inr mi) (by simp) (fun hh => absurd hh h0)]; exact hb1
    · refine h1.congr (fun a ha => hl a (ml a ha)) ?_ (fun a ha => hp a (ml a ha))
      intro a ha
      funext e
      refine hb a e (Or.inr (ml a ha)) ?_ ?_
      · rintro ⟨rfl, _⟩; exact n1 ha
      · rintro rfl; exact absurd ha z1
    · exact h2.congr (fun a ha => hl a (mr a ha)) hz hc (fun a ha => hp a (mr a ha))

/-- A finished spine. -/
theorem SpC.close {h : Links} {d : Bool} {c : Ctx} : ∀ {t : Tree}, SpC h d c → h.br (pid c) d = t.rootId →
    Rep h (pid c) t → Rep h 0 (plug c t) ∧ h.br 0 d = (plug c t).rootId := by
  induction c with
  | nil => intro t _ h1 h2; exact ⟨h2, h1⟩
  | cons f c ih =>
    intro t hs h1 h2
    obtain ⟨hd, h0, hlv, hb0, hb1, hpar, hr, hs⟩ := hs
    rw [plug_cons]
    subst hd
    refine ih hs (by simpa using hb0) ?_
    exact Rep_nd.2 ⟨h0, hlv, h1, hb1, hpar, h2, hr⟩

/-- Attach a subtree to the open branch of a spine. -/
theorem close_spec {h : Links} {d : Bool} {c : Ctx} {t : Tree} {p : Nat} (hs : SpC h d c) (ht : Rep h p t)
    (hn : (t.ids ++ cids c).Nodup) (h0 : h.live 0 = true) :
    ∃ h', link h (pid c) d t.rootId = some h' ∧ Rep h' 0 (plug c t) ∧ h'.br 0 d = (plug c t).rootId ∧
      h'.live = h.live ∧ h'.root = h.root ∧ h'.br 0 (!d) = h.br 0 (!d) ∧
      (∀ a, a ∉ cids c → a ≠ 0 → h'.br a = h.br a) ∧
      (∀ a, a ∉ t.ids → a ≠ 0 → h'.par a = h.par a) := by
  obtain ⟨n1, n2, n3⟩ := List.nodup_append.1 hn
  have hpl := hs.pid_live h0
  have z1 := ht.ne_zero
  have z2 := hs.ne_zero
  have hpt : ∀ a ∈ t.ids, a ≠ pid c := by
    intro a ha hh
    rcases pid_mem_or c with rfl | hm
    · rw [hh] at ha; exact z1 ha
    · exact n3 a ha (pid c) hm hh
  have hrc : ∀ a ∈ cids c, a ≠ t.rootId := by
    intro a ha hh
    rcases rootId_mem_or t with hm | hm
    · rw [hh, hm] at ha; exact z2 ha
    · exact n3 _ hm a ha hh.symm
  rw [link_live hpl (ht.root_live h0)]
  refine ⟨_, rfl, ?_⟩
  have hS : SpC { h with br := fun b e => if b = pid c ∧ e = d then t.rootId else h.br b e
                         par := upd h.par t.rootId (pid c) } d c := by
    refine hs.open n2 (fun _ _ => rfl) ?_ ?_
    · intro a e _ hne _; simp [hne]
    · intro a ha; simp [upd, hrc a ha]
  have hR : Rep { h with br := fun b e => if b = pid c ∧ e = d then t.rootId else h.br b e
                         par := upd h.par t.rootId (pid c) } (pid c) t := by
    refine ht.move n1 (fun _ _ => rfl) ?_ ?_ ?_
    · intro a ha; funext e; simp [hpt a ha]
    · intro a ha hne; simp [upd, hne]
    · intro _; simp [upd]
  have := hS.close (by simp) hR
  refine ⟨this.1, this.2, rfl, rfl, ?_, ?_, ?_⟩
  · simp
  · intro a ha hne
    funext e
    have : a ≠ pid c := by
      rintro rfl
      rcases pid_mem_or c with rfl | hm
      · exact hne rfl
      · exact ha hm
    simp [this]
  · intro a ha hne
    have : a ≠ t.rootId := by
      rintro rfl
      rcases rootId_mem_or t with hm | hm
      · exact hne hm
      · exact ha hm
    simp [upd, this]

/-- The state of the loop: two spines and the tree still to be searched. -/
structure Inv (h : Links) (S : Bool → Ctx) (X : Tree) : Prop where
  sp : ∀ d, SpC h d (S d)
  tree : ∃ p, Rep h p X
  nodup : ∀ d, (X.ids ++ (cids (S d) ++ cids (S !d))).Nodup
  live0 : h.live 0 = true

/-- Nothing outside the listed addresses and the sentinel has changed. -/
structure Same (l : List Nat) (h h' : Links) : Prop where
  live : h'.live = h.live
  br : ∀ a, a ∉ l → a ≠ 0 → h'.br a = h.br a
  par : ∀ a, a ∉ l → a ≠ 0 → h'.par a = h.par a

theorem Same.refl (l : List Nat) (h : Links) : Same l h h := ⟨rfl, fun _ _ _ => rfl, fun _ _ _ => rfl⟩
theorem Same.trans {l : List Nat} {h1 h2 h3 : Links} (a : Same l h1 h2) (b : Same l h2 h3) : Same l h1 h3 :=
  ⟨b.live.trans a.live, fun x hx h0 => (b.br x hx h0).trans (a.br x hx h0),
   fun x hx h0 => (b.par x hx h0).trans (a.par x hx h0)⟩
theorem Same.mono {l m : List Nat} {h h' : Links} (a : Same l h h') (hs : ∀ x ∈ l, x ∈ m) : Same m h h' :=
  ⟨a.live, fun x hx h0 => a.br x (fun hh => hx (hs x hh)) h0, fun x hx h0 => a.par x (fun hh => hx (hs x hh)) h0⟩

def push (S : Bool → Ctx) (d : Bool) (f : Frame) : Bool → Ctx := fun e => if e = d then f :: S e else S e

theorem push_spec {h : Links} {S : Bool → Ctx} {d : Bool} {i k : Nat} {Y B : Tree} (w : Inv h S (nd d i k Y B)) :
    ∃ h', link h (pid (S d)) d i = some h' ∧ Inv h' (push S d ⟨d, i, k, B⟩) Y ∧ h'.br i d = Y.rootId ∧
      h'.live i = true ∧ Same ((nd d i k Y B).ids ++ (cids (S d) ++ cids (S !d))) h h' := by
  obtain ⟨p, hr⟩ := w.tree
  obtain ⟨i0, il, b1, b2, ip, rY, rB⟩ := Rep_nd.1 hr
  have hn := w.nodup d
  have hn2 : (i :: (Y.ids ++ B.ids) ++ (cids (S d) ++ cids (S !d))).Nodup :=
    (((nd_ids_perm d i k Y B).append_right _).nodup_iff).1 hn
  have hpl := (w.sp d).pid_live w.live0
  have zd := (w.sp d).ne_zero
  have ze := (w.sp !d).ne_zero
  have zY := rY.ne_zero
  have zB := rB.ne_zero
  simp only [List.cons_append, List.nodup_cons, List.mem_append, not_or, List.nodup_append] at hn2
  obtain ⟨⟨⟨iY, iB⟩, id, ie⟩, ⟨nY, nB, dYB⟩, ⟨nd', ne, dde⟩, dT⟩ := hn2
  have pid0 : pid (S d) = 0 ∨ pid (S d) ∈ cids (S d) := by
    rcases pid_mem_or (S d) with hh | hh
    · left; rw [hh]; rfl
    · exact Or.inr hh
  have out : ∀ a, a ≠ 0 → a ∉ cids (S d) → a ≠ pid (S d) := by
    rintro a h1 h2 rfl
    rcases pid0 with hh | hh
    · exact h1 hh
    · exact h2 hh
  have dY : ∀ a ∈ Y.ids, a ∉ cids (S d) := fun a ha hh => dT a (Or.inl ha) a (Or.inl hh) rfl
  have dB : ∀ a ∈ B.ids, a ∉ cids (S d) := fun a ha hh => dT a (Or.inr ha) a (Or.inl hh) rfl
  rw [link_live hpl il]
  refine ⟨_, rfl, ⟨?_, ?_, ?_, w.live0⟩, ?_, il, rfl, ?_, ?_⟩
  · intro e
    by_cases he : e = d
    · subst he
      simp only [push]
      refine ⟨rfl, i0, il, by simp, ?_, by simp [upd], ?_, ?_⟩
      · simp [b2]
      · refine rB.congr (fun _ _ => rfl) ?_ ?_
        · intro a ha; funext x
          have := out a (fun hh => zB (hh ▸ ha)) (dB a ha)
          simp [this]
        · intro a ha
          have : a ≠ i := by rintro rfl; exact iB ha
          simp [upd, this]
      · refine (w.sp e).open nd' (fun _ _ => rfl) ?_ ?_
        · intro a x _ hne _; simp [hne]
        · intro a ha
          have : a ≠ i := by rintro rfl; exact id ha
          simp [upd, this]
    · simp only [push, if_neg he]
      have hed : e = !d := by cases e <;> cases d <;> simp_all
      subst hed
      refine (w.sp _).congr (fun _ _ => rfl) ?_ ?_ ?_
      · simp
      · intro a ha; funext x
        have := out a (fun hh => ze (hh ▸ ha)) (fun hh => dde a hh a ha rfl)
        simp [this]
      · intro a ha
        have : a ≠ i := by rintro rfl; exact ie ha
        simp [upd, this]
  · refine ⟨i, rY.congr (fun _ _ => rfl) ?_ ?_⟩
    · intro a ha; funext x
      have := out a (fun hh => zY (hh ▸ ha)) (dY a ha)
      simp [this]
    · intro a ha
      have : a ≠ i := by rintro rfl; exact iY ha
      simp [upd, this]
  · intro e
    have key : (Y.ids ++ (cids (⟨d, i, k, B⟩ :: S d) ++ cids (S !d))).Nodup := by
      refine List.Perm.nodup ?_ hn
      refine ((nd_ids_perm d i k Y B).append_right _).trans ?_
      simp only [cids_cons, List.cons_append, List.append_assoc]
      exact List.perm_middle.symm
    by_cases he : e = d
    · subst he
      simpa [push] using key
    · have hed : e = !d := by cases e <;> cases d <;> simp_all
      subst hed
      simp only [push, Bool.not_not, if_neg he]
      refine List.Perm.nodup ?_ key
      exact (List.perm_append_comm).append_left _
  · have := out i i0 id
    simp [this, b1]
  · intro a ha h0
    funext x
    have := out a h0 (fun hh => ha (by simp [hh]))
    simp [this]
  · intro a ha h0
    have : a ≠ i := by rintro rfl; exact ha (by simp)
    simp [upd, this]

theorem nd_nd_ids (d : Bool) (i j k m : Nat) (Y B A : Tree) :
    (nd d j m Y (nd d i k B A)).ids = (nd d i k (nd d j m Y B) A).ids := by
  cases d <;> simp [ids]

theorem rot_spec {h : Links} {S : Bool → Ctx} {d : Bool} {i j k m : Nat} {Y B A : Tree}
    (w : Inv h S (nd d i k (nd d j m Y B) A)) :
    ∃ h1 h2, link h i d B.rootId = some h1 ∧ link h1 j (!d) i = some h2 ∧ Inv h2 S (nd d j m Y (nd d i k B A)) ∧
      h2.live j = true ∧ h2.br j d = Y.rootId ∧ Same (nd d i k (nd d j m Y B) A).ids h h2 := by
  obtain ⟨p, hr⟩ := w.tree
  obtain ⟨i0, il, b1, b2, ip, rJ, rA⟩ := Rep_nd.1 hr
  obtain ⟨j0, jl, c1, c2, jp, rY, rB⟩ := Rep_nd.1 rJ
  have hX : (nd d i k (nd d j m Y B) A).ids.Nodup := (List.nodup_append.1 (w.nodup d)).1
  have hn2 : (i :: ((j :: (Y.ids ++ B.ids)) ++ A.ids)).Nodup := by
    refine List.Perm.nodup ?_ hX
    exact (nd_ids_perm d i k _ A).trans (((nd_ids_perm d j m Y B).append_right _).cons i)
  simp only [List.cons_append, List.nodup_cons, List.mem_cons, List.mem_append, not_or, List.nodup_append] at hn2
  obtain ⟨⟨ij, ⟨iY, iB⟩, iA⟩, ⟨⟨jY, jB⟩, jA⟩, ⟨nY, nB, dYB⟩, nA, dA⟩ := hn2
  have disj : ∀ e a, a ∈ cids (S e) → a ∉ (nd d i k (nd d j m Y B) A).ids := by
    intro e a ha hh
    exact (List.nodup_append.1 (w.nodup e)).2.2 a hh a (by simp [ha]) rfl
  have zB := rB.ne_zero
  have rootB : ∀ a, a ≠ 0 → a ∉ B.ids → a ≠ B.rootId := by
    rintro a h1 h2 rfl
    rcases rootId_mem_or B with hh | hh
    · exact h1 hh
    · exact h2 hh
  have Bl := rB.root_live w.live0
  refine ⟨_, _, link_live il Bl, link_live jl il, ⟨?_, ⟨i, ?_⟩, ?_, w.live0⟩, jl, ?_, rfl, ?_, ?_⟩
  · intro e
    have zc := (w.sp e).ne_zero
    refine (w.sp e).congr (fun _ _ => rfl) ?_ ?_ ?_
    · simp [i0.symm, j0.symm]
    · intro a ha
      have := disj e a ha
      simp only [mem_nd, not_or] at this
      funext x; simp [this]
    · intro a ha
      have := disj e a ha
      simp only [mem_nd, not_or] at this
      have hB := rootB a (fun hh => zc (hh ▸ ha)) this.2.1.2.2
      simp [upd, this, hB]
  · have jB' := rootB j j0 jB
    have iB' := rootB i i0 iB
    refine Rep_nd.2 ⟨j0, jl, ?_, ?_, ?_, ?_, Rep_nd.2 ⟨i0, il, ?_, ?_, ?_, ?_, ?_⟩⟩
    · simp [c1, Ne.symm ij]
    · simp
    · simp [upd, Ne.symm ij, jB', jp]
    · refine rY.congr (fun _ _ => rfl) ?_ ?_
      · intro a ha
        have h1 : a ≠ i := by rintro rfl; exact iY ha
        have h2 : a ≠ j := by rintro rfl; exact jY ha
        funext x; simp [h1, h2]
      · intro a ha
        have h1 : a ≠ i := by rintro rfl; exact iY ha
        have h2 := rootB a (fun hh => rY.ne_zero (hh ▸ ha)) (fun hh => dYB a ha a hh rfl)
        simp [upd, h1, h2]
    · simp [ij]
    · simp [ij, b2]
    · simp [upd]
    · refine rB.move nB (fun _ _ => rfl) ?_ ?_ ?_
      · intro a ha
        have h1 : a ≠ i := by rintro rfl; exact iB ha
        have h2 : a ≠ j := by rintro rfl; exact jB ha
        funext x; simp [h1, h2]
      · intro a ha hne
        have h1 : a ≠ i := by rintro rfl; exact iB ha
        simp [upd, h1, hne]
      · intro hm
        simp [upd, Ne.symm iB']
    · refine rA.congr (fun _ _ => rfl) ?_ ?_
      · intro a ha
        have h1 : a ≠ i := by rintro rfl; exact iA ha
        have h2 : a ≠ j := by rintro rfl; exact jA ha
        funext x; simp [h1, h2]
      · intro a ha
        have h1 : a ≠ i := by rintro rfl; exact iA ha
        have h2 := rootB a (fun hh => rA.ne_zero (hh ▸ ha)) (fun hh => dA a (Or.inr hh) a ha rfl)
        simp [upd, h1, h2]
  · intro e
    rw [nd_nd_ids]; exact w.nodup e
  · simp [c1, Ne.symm ij]
  · intro a ha h0
    simp only [mem_nd, not_or] at ha
    funext x; simp [ha]
  · intro a ha h0
    simp only [mem_nd, not_or] at ha
    have := rootB a h0 ha.2.1.2.2
    simp [upd, ha, this]


/-- What the spines hold compares in the direction of the spine. -/
def Sides (c : Nat → Cmp) (S : Bool → Ctx) : Prop := ∀ d, ∀ a ∈ cids (S d), c a = if d then .grt else .les

/-- In-order addresses of the whole. -/
def all (S : Bool → Ctx) (m : List Nat) : List Nat := before (S true) ++ m ++ after (S false)

theorem all_push (S : Bool → Ctx) (d : Bool) (i k : Nat) (Y B : Tree) :
    all (push S d ⟨d, i, k, B⟩) Y.ids = all S (nd d i k Y B).ids := by
  cases d <;> simp [all, push, before, after, ids]

theorem mono_nd {c : Nat → Cmp} {d : Bool} {i k : Nat} {Y B : Tree} (hm : Mono c (nd d i k Y B).ids)
    (hi : c i = if d then .grt else .les) : ∀ a ∈ B.ids, c a = if d then .grt else .les := by
  have ho := hm.ord
  intro a ha
  cases d
  · simp only [nd_false, ids, List.pairwise_append, List.pairwise_cons] at ho
    exact (ho.2.1.1 a ha).2 (by rw [hi]; simp)
  · simp only [nd_true, ids, List.pairwise_append, List.pairwise_cons] at ho
    exact (ho.2.2 a ha i (by simp)).1 (by rw [hi]; simp)

theorem nd_sub (d : Bool) (i k : Nat) (Y B : Tree) : Y.ids.Sublist (nd d i k Y B).ids := by
  cases d <;> simp [ids]

theorem Sides.push {c : Nat → Cmp} {S : Bool → Ctx} (hS : Sides c S) {d : Bool} {i k : Nat} {Y B : Tree}
    (hm : Mono c (nd d i k Y B).ids) (hi : c i = if d then .grt else .les) :
    Sides c (push S d ⟨d, i, k, B⟩) := by
  intro e a ha
  by_cases he : e = d
  · subst he
    simp only [Splay.push, if_pos, cids_cons, List.mem_cons, List.mem_append] at ha
    rcases ha with rfl | ha | ha
    · exact hi
    · exact mono_nd hm hi a ha
    · exact hS e a ha
  · simp only [Splay.push, if_neg he] at ha
    exact hS e a ha

theorem dir_cmp {x : Cmp} (h1 : x ≠ .err) (h2 : x ≠ .eql) :
    x = if decide (x = .grt) then Cmp.grt else Cmp.les := by
  cases x <;> simp_all

theorem nd_of_node (d : Bool) (i k : Nat) (l r : Tree) :
    node i k l r = nd d i k (if d then r else l) (if d then l else r) := by cases d <;> rfl

theorem nd_length (d : Bool) (i k : Nat) (a b : Tree) :
    (nd d i k a b).ids.length = a.ids.length + b.ids.length + 1 := by
  rw [(nd_ids_perm d i k a b).length_eq]; simp

theorem rootId_ne {h : Links} {p : Nat} {t : Tree} (hr : Rep h p t) : t.rootId = 0 ↔ t = nil := by
  cases t with
  | nil => simp
  | node => simp [hr.1]

/-- The three ways in which the loop stops leave a root that separates what is less from what is greater. -/
theorem stop_sides {c : Nat → Cmp} {i k : Nat} {A B : Tree} (hm : Mono c (node i k A B).ids)
    (h : c i = .eql ∨ (c i = .grt ∧ B = nil) ∨ (c i = .les ∧ A = nil)) :
    (∀ a ∈ A.ids, c a = .grt) ∧ (∀ a ∈ B.ids, c a = .les) := by
  rcases h with h | ⟨h, rfl⟩ | ⟨h, rfl⟩
  · exact hm.split_eql h
  · exact ⟨mono_nd (d := true) (Y := nil) hm h, by simp [ids]⟩
  · exact ⟨by simp [ids], mono_nd (d := false) (Y := nil) hm h⟩

theorem stop_nd {c : Nat → Cmp} {d : Bool} {i k : Nat} {B : Tree} (hm : Mono c (nd d i k nil B).ids)
    (hi : c i = if d then .grt else .les) :
    ∃ A' B', nd d i k nil B = node i k A' B' ∧ (∀ a ∈ A'.ids, c a = .grt) ∧ (∀ a ∈ B'.ids, c a = .les) := by
  cases d
  · exact ⟨nil, B, rfl, stop_sides hm (Or.inr (Or.inr ⟨hi, rfl⟩))⟩
  · exact ⟨B, nil, rfl, stop_sides hm (Or.inr (Or.inl ⟨hi, rfl⟩))⟩

theorem stop_plug (S : Bool → Ctx) {d : Bool} {i k : Nat} {B A' B' : Tree} (e : nd d i k nil B = node i k A' B') :
    ∀ x, plug (S x) (if x then A' else B') = plug (S x) (setP (fun _ => nil) d B x) := by
  intro x
  cases d
  · simp only [nd_false, Tree.node.injEq, true_and] at e
    obtain ⟨rfl, rfl⟩ := e
    cases x <;> simp [setP]
  · simp only [nd_true, Tree.node.injEq, true_and] at e
    obtain ⟨rfl, rfl⟩ := e
    cases x <;> simp [setP]

/-- `c'` agrees with the comparisons `c` makes along the path it takes through the tree. -/
def Along (c : Nat → Option Cmp) (c' : Nat → Cmp) : Tree → Prop
  | nil => True
  | node i _ l r => c i = some (c' i) ∧ (c' i = .les → Along c c' l) ∧ (c' i = .grt → Along c c' r)

theorem Along.of_all {c : Nat → Option Cmp} {c' : Nat → Cmp} : ∀ {X : Tree}, (∀ a ∈ X.ids, c a = some (c' a)) →
    Along c c' X
  | nil, _ => trivial
  | node i _ l r, h => ⟨h i (by simp [ids]), fun _ => Along.of_all (fun a ha => h a (by simp [ids, ha])),
      fun _ => Along.of_all (fun a ha => h a (by simp [ids, ha]))⟩

theorem Along.down {c : Nat → Option Cmp} {c' : Nat → Cmp} {d : Bool} {i k : Nat} {Y A : Tree}
    (h : Along c c' (nd d i k Y A)) (hi : c' i = if d then .grt else .les) : Along c c' Y := by
  cases d
  · exact h.2.1 (by simpa using hi)
  · exact h.2.2 (by simpa using hi)

theorem loopN_spec {c : Nat → Option Cmp} {c' : Nat → Cmp} (n : Nat) : ∀ {h : Links} {S : Bool → Ctx} {X : Tree}
    {lr : Bool → Nat}, X.ids.length ≤ n → X ≠ nil → Inv h S X → (∀ b, lr b = pid (S !b)) → Sides c' S →
    Along c c' X → Mono c' X.ids →
    ∃ h' S' lr' i k A B P m, Costs (splayLoopN h c lr X.rootId) m (h', lr', i) ∧ Inv h' S' (node i k A B) ∧
      (∀ b, lr' b = pid (S' !b)) ∧ Sides c' S' ∧ all S' (node i k A B).ids = all S X.ids ∧
      Same (X.ids ++ (cids (S true) ++ cids (S false))) h h' ∧
      (∀ a ∈ A.ids, c' a = .grt) ∧ (∀ a ∈ B.ids, c' a = .les) ∧ Split c' X P i k m ∧
      (∀ d, plug (S' d) (if d then A else B) = plug (S d) (P d)) := by
  induction n with
  | zero =>
    intro h S X lr hn hne
    cases X with
    | nil => exact absurd rfl hne
    | node => simp [ids] at hn
  | succ n ih =>
    intro h S X lr hn hne w hlr hS hc hm
    cases X with
    | nil => exact absurd rfl hne
    | node i k l r =>
    have hci : c i = some (c' i) := hc.1
    simp only [Costs, splayLoopN_eq h c lr, node_rootId, hci]
    by_cases he : c' i = .eql
    · have sd := stop_sides hm (Or.inl he)
      exact ⟨h, S, lr, i, k, l, r, _, 1, by simp [he], w, hlr, hS, rfl, Same.refl _ _, sd.1, sd.2, .found he,
        fun d => by cases d <;> rfl⟩
    have hi := dir_cmp (hm.noErr i (by simp [ids])) he
    generalize hd : decide (c' i = .grt) = d at hi
    obtain ⟨p, hr⟩ := w.tree
    rw [nd_of_node d] at hr w hc hm hn ⊢
    generalize (if d then r else l) = Y at hr w hc hm hn ⊢
    generalize (if d then l else r) = A at hr w hc hm hn ⊢
    obtain ⟨i0, il, b1, b2, ip, rY, rA⟩ := Rep_nd.1 hr
    simp only [Option.bind_eq_bind, Option.bind_some, if_neg he, hd, getBr_live il, b1]
    by_cases hY : Y.rootId = 0
    · have hY' := (rootId_ne rY).1 hY
      subst hY'
      obtain ⟨A', B', e, s1, s2⟩ := stop_nd hm hi
      refine ⟨h, S, lr, i, k, A', B', _, 1, by simp, by rw [← e]; exact w, hlr, hS, by rw [e], Same.refl _ _, s1, s2,
        .last hi, stop_plug S e⟩
    simp only [if_neg hY]
    have hYn : Y ≠ nil := fun hh => hY (by rw [hh]; rfl)
    have hl : lr (!d) = pid (S d) := by rw [hlr, Bool.not_not]
    have dual : ∀ a, a ∈ cids (S d) ++ cids (S !d) → a ∈ cids (S true) ++ cids (S false) := by
      intro a ha
      cases d
      · simpa [or_comm] using ha
      · simpa using ha
    -- the common tail: push a node on its spine and go on
    have tail : ∀ (g : Links) (x kx : Nat) (Z C : Tree), Inv g S (nd d x kx Z C) → Z ≠ nil →
        (nd d x kx Z C).ids = (nd d i k Y A).ids → Z.ids.length ≤ n → c' x = (if d then .grt else .les) →
        Same (nd d i k Y A).ids h g → g.live x = true → Along c c' Z →
        (∀ P y ky m, Split c' Z P y ky m → Split c' (nd d i k Y A) (setP P d (nd d x kx (P d) C)) y ky (m + 2)) →
        ∃ h' S' lr' i' k' A' B' P m, (∀ q, (do
            let t ← link g (lr (!d)) d x
            let nx ← t.getBr x d
            splayLoopN t c (fun b => if b = !d then x else lr b) nx (q + 1 + 1)) = some ((h', lr', i'), q + m)) ∧
          Inv h' S' (node i' k' A' B') ∧
          (∀ b, lr' b = pid (S' !b)) ∧ Sides c' S' ∧ all S' (node i' k' A' B').ids = all S (nd d i k Y A).ids ∧
          Same ((nd d i k Y A).ids ++ (cids (S true) ++ cids (S false))) h h' ∧
          (∀ a ∈ A'.ids, c' a = .grt) ∧ (∀ a ∈ B'.ids, c' a = .les) ∧ Split c' (nd d i k Y A) P i' k' m ∧
          (∀ d, plug (S' d) (if d then A' else B') = plug (S d) (P d)) := by
      intro g x kx Z C wg hZ hids hZn hx hsame gl hal hsp
      obtain ⟨g', e1, w', e2, e3, s1⟩ := push_spec wg
      have hZs : Z.ids.Sublist (nd d i k Y A).ids := hids ▸ nd_sub d x kx Z C
      obtain ⟨h', S', lr', i', k', A', B', P, m, q1, q2, q3, q4, q5, q6, q7, q8, q9, q10⟩ :=
        ih (lr := fun b => if b = !d then x else lr b) hZn hZ w'
          (by
            intro b
            by_cases hb : b = !d
            · subst hb; simp [push]
            · have : (!b) ≠ d := by intro hh; apply hb; rw [← hh, Bool.not_not]
              simp [push, hb, this, hlr])
          (hS.push (by rw [hids]; exact hm) hx)
          hal (hm.sub hZs)
      refine ⟨h', S', lr', i', k', A', B', _, m + 2, ?_, q2, q3, q4, ?_, ?_, q7, q8, hsp P _ _ _ q9, ?_⟩
      · simp only [hl, e1, Option.bind_eq_bind, Option.bind_some, getBr_live e3, e2]
        intro q
        rw [show q + (m + 2) = q + 1 + 1 + m by omega]
        exact q1 _
      · rw [q5, all_push, hids]
      · refine (hsame.mono (fun a ha => by simp [ha])).trans ((s1.mono ?_).trans (q6.mono ?_))
        · intro a ha
          rw [hids] at ha
          rcases List.mem_append.1 ha with ha | ha
          · simp [ha]
          · exact List.mem_append_right _ (dual a ha)
        · have hC : x ∈ (nd d i k Y A).ids ∧ ∀ a ∈ C.ids, a ∈ (nd d i k Y A).ids := by
            rw [← hids]; exact ⟨mem_nd.2 (Or.inl rfl), fun a ha => mem_nd.2 (Or.inr (Or.inr ha))⟩
          have hP : ∀ e a, a ∈ cids (push S d ⟨d, x, kx, C⟩ e) →
              a ∈ (nd d i k Y A).ids ∨ a ∈ cids (S e) := by
            intro e a ha
            by_cases he : e = d
            · subst he
              simp only [push, if_pos, cids_cons, List.mem_cons, List.mem_append] at ha
              rcases ha with rfl | ha | ha
              · exact Or.inl hC.1
              · exact Or.inl (hC.2 a ha)
              · exact Or.inr ha
            · simp only [push, if_neg he] at ha; exact Or.inr ha
          intro a ha
          simp only [List.mem_append] at ha ⊢
          rcases ha with ha | ha | ha
          · exact Or.inl (hZs.subset ha)
          · rcases hP _ _ ha with h1 | h1
            · exact Or.inl h1
            · exact Or.inr (Or.inl h1)
          · rcases hP _ _ ha with h1 | h1
            · exact Or.inl h1
            · exact Or.inr (Or.inr h1)
      · intro e
        rw [q10]
        by_cases he : e = d
        · subst he; simp [push, setP, Frame.fill]
        · simp [push, setP, he]
    cases Y with
    | nil => exact absurd rfl hYn
    | node j m yl yr =>
    have hcY := hc.down hi
    have hcj : c j = some (c' j) := hcY.1
    simp only [node_rootId, hcj, Option.bind_some]
    by_cases hrot : c' j ≠ .eql ∧ d = decide (c' j = .grt)
    · simp only [if_pos hrot]
      have hj := dir_cmp (hm.noErr j (by simp [ids])) hrot.1
      rw [← hrot.2] at hj
      rw [nd_of_node d j] at rY w hm hcY hn tail ⊢
      generalize (if d then yr else yl) = Z at rY w hm hcY hn tail ⊢
      generalize (if d then yl else yr) = B at rY w hm hcY hn tail ⊢
      obtain ⟨j0, jl, d1, d2, jp, rZ, rB⟩ := Rep_nd.1 rY
      obtain ⟨h1, h2, e1, e2, w2, j2l, j2b, sm⟩ := rot_spec w
      simp only [getBr_live jl, d2, Option.bind_some, e1, e2, getBr_live j2l, j2b]
      obtain ⟨p2, hr2⟩ := w2.tree
      have rZ2 := (Rep_nd.1 hr2).2.2.2.2.2.1
      have hm2 : Mono c' (nd d j m Z (nd d i k B A)).ids := by rw [nd_nd_ids]; exact hm
      by_cases hZ : Z.rootId = 0
      · have hZ' := (rootId_ne rZ2).1 hZ
        subst hZ'
        obtain ⟨A', B', e, s1, s2⟩ := stop_nd hm2 hj
        refine ⟨h2, S, lr, j, m, A', B', _, 2, by simp, by rw [← e]; exact w2, hlr, hS, ?_, ?_, s1, s2, .zzLast hi hj,
          stop_plug S e⟩
        · rw [← e, nd_nd_ids]
        · exact sm.mono (fun a ha => by simp only [List.mem_append]; exact Or.inl ha)
      · simp only [if_neg hZ]
        have := tail h2 j m Z (nd d i k B A) w2 (fun hh => hZ (by rw [hh]; rfl)) (nd_nd_ids d i j k m Z B A)
          (by rw [nd_length, nd_length] at hn; omega) hj sm j2l (hcY.down hj)
          (fun P y ky m hs => .zz hi hj (fun hh => hZ (by rw [hh]; rfl)) hs)
        simpa [Option.bind_eq_bind, getBr_live j2l] using this
    · simp only [if_neg hrot]
      exact tail h i k (node j m yl yr) A w (by simp) rfl (by rw [nd_length] at hn; omega) hi (Same.refl _ _) il hcY
        (fun P y ky m hs => .zig hi (by simp) (by
          intro hh
          apply hrot
          rw [node_rootId] at hh
          rw [hh]
          cases d <;> simp [dirCmp]) hs)

theorem loop_spec {c : Nat → Option Cmp} {c' : Nat → Cmp} (n : Nat) {h : Links} {S : Bool → Ctx} {X : Tree}
    {lr : Bool → Nat} (hn : X.ids.length ≤ n) (hne : X ≠ nil) (w : Inv h S X) (hlr : ∀ b, lr b = pid (S !b))
    (hS : Sides c' S) (hc : Along c c' X) (hm : Mono c' X.ids) :
    ∃ h' S' lr' i k A B P m, splayLoop h c lr X.rootId = some (h', lr', i) ∧ Inv h' S' (node i k A B) ∧
      (∀ b, lr' b = pid (S' !b)) ∧ Sides c' S' ∧ all S' (node i k A B).ids = all S X.ids ∧
      Same (X.ids ++ (cids (S true) ++ cids (S false))) h h' ∧
      (∀ a ∈ A.ids, c' a = .grt) ∧ (∀ a ∈ B.ids, c' a = .les) ∧ Split c' X P i k m ∧
      (∀ d, plug (S' d) (if d then A else B) = plug (S d) (P d)) ∧
      Costs (splayLoopN h c lr X.rootId) m (h', lr', i) := by
  obtain ⟨h', S', lr', i, k, A, B, P, m, e, r⟩ := loopN_spec n hn hne w hlr hS hc hm
  obtain ⟨a1, a2, a3, a4, a5, a6, a7, a8, a9⟩ := r
  refine ⟨h', S', lr', i, k, A, B, P, m, ?_, a1, a2, a3, a4, a5, a6, a7, a8, a9, e⟩
  exact (splayLoopN_er _ _ _ _).eq e

/-- Splaying a non-empty tree (or subtree) for a key. -/
theorem splay_specA {h : Links} {p : Nat} {X : Tree} {c : Nat → Option Cmp} {c' : Nat → Cmp} (hr : Rep h p X)
    (hn : X.ids.Nodup) (h0 : h.live 0 = true) (hne : X ≠ nil) (hc : Along c c' X)
    (hm : Mono c' X.ids) :
    ∃ h' i k A B, splay h c X.rootId = some (h', i) ∧ Whole h' [] (node i k A B) ∧ (node i k A B).ids = X.ids ∧
      (∀ a ∈ A.ids, c' a = .grt) ∧ (∀ a ∈ B.ids, c' a = .les) ∧ Same X.ids h h' ∧
      ∃ P m, Split c' X P i k m ∧ A = P true ∧ B = P false ∧ Costs (splayN h c X.rootId) m (h', i) := by
  have zX := hr.ne_zero
  let h1 : Links := { h with br := fun b e => if b = 0 ∧ e = false then 0 else h.br b e }
  let h2 : Links := { h1 with br := fun b e => if b = 0 ∧ e = true then 0 else h1.br b e }
  let h3 : Links := { h2 with par := upd h2.par 0 0 }
  have e1 : h.setBr 0 false 0 = some h1 := setBr_live h0
  have e2 : h1.setBr 0 true 0 = some h2 := setBr_live h0
  have e3 : h2.setPar 0 0 = some h3 := setPar_live h0
  have s3 : Same X.ids h h3 := by
    refine ⟨rfl, ?_, ?_⟩
    · intro a _ ha; funext e; simp [h3, h2, h1, ha]
    · intro a _ ha; simp [h3, h2, h1, upd, ha]
  have w3 : Inv h3 (fun _ => []) X := by
    refine ⟨fun _ => trivial, ⟨p, hr.congr (fun _ _ => rfl) ?_ ?_⟩, by simpa using hn, h0⟩
    · intro a ha
      have : a ≠ 0 := fun hh => zX (hh ▸ ha)
      funext e; simp [h3, h2, h1, this]
    · intro a ha
      have : a ≠ 0 := fun hh => zX (hh ▸ ha)
      simp [h3, h2, h1, upd, this]
  obtain ⟨h4, S, lr, i, k, A, B, P, m, e4, w4, hlr, hS, hall, s4, hA, hB, hsplit, hplug, e4n⟩ :=
    loop_spec (c := c) (c' := c') X.ids.length (lr := fun _ => 0) Nat.le.refl hne w3 (fun _ => rfl)
      (by intro d a ha; simp at ha) hc hm
  simp only [cids_nil, List.append_nil] at s4
  obtain ⟨q, r4⟩ := w4.tree
  obtain ⟨i0, il, b1, b2, ip, rA, rB⟩ := r4
  have hnd := w4.nodup true
  simp only [ids, Bool.not_true, List.nodup_append, List.nodup_cons, List.mem_append, List.mem_cons] at hnd
  obtain ⟨⟨nA, ⟨iB, nB⟩, dAB⟩, ⟨nL, nR, dLR⟩, dT⟩ := hnd
  have iA : i ∉ A.ids := fun hh => dAB i hh i (Or.inl rfl) rfl
  have iL : i ∉ cids (S true) := fun hh => dT i (Or.inr (Or.inl rfl)) i (Or.inl hh) rfl
  have iR : i ∉ cids (S false) := fun hh => dT i (Or.inr (Or.inl rfl)) i (Or.inr hh) rfl
  have zA := rA.ne_zero
  have zB := rB.ne_zero
  have zL := (w4.sp true).ne_zero
  have zR := (w4.sp false).ne_zero
  -- close the left spine
  obtain ⟨h5, e5, r5, t5, l5, _, o5, b5, p5⟩ := close_spec (w4.sp true) rA
    (by rw [List.nodup_append]; exact ⟨nA, nL, fun a ha b hb => dT a (Or.inl ha) b (Or.inl hb)⟩) w4.live0
  have sp5 : SpC h5 false (S false) := by
    refine (w4.sp false).congr (fun a _ => by rw [l5]) (by simpa using o5) ?_ ?_
    · intro a ha; exact b5 a (fun hh => dLR a hh a ha rfl) (fun hh => zR (hh ▸ ha))
    · intro a ha; exact p5 a (fun hh => dT a (Or.inl hh) a (Or.inr ha) rfl) (fun hh => zR (hh ▸ ha))
  have rB5 : Rep h5 i B := by
    refine rB.congr (fun a _ => by rw [l5]) ?_ ?_
    · intro a ha; exact b5 a (fun hh => dT a (Or.inr (Or.inr ha)) a (Or.inl hh) rfl) (fun hh => zB (hh ▸ ha))
    · intro a ha; exact p5 a (fun hh => dAB a hh a (Or.inr ha) rfl) (fun hh => zB (hh ▸ ha))
  have il5 : h5.live i = true := by rw [l5]; exact il
  have b25 : h5.br i true = B.rootId := by rw [b5 i iL i0]; exact b2
  -- close the right spine
  obtain ⟨h6, e6, r6, t6, l6, _, o6, b6, p6⟩ := close_spec sp5 rB5
    (by rw [List.nodup_append]; exact ⟨nB, nR, fun a ha b hb => dT a (Or.inr (Or.inr ha)) b (Or.inr hb)⟩)
    (by rw [l5]; exact w4.live0)
  have lids : ∀ a, a ∈ (plug (S true) A).ids ↔ a ∈ A.ids ∨ a ∈ cids (S true) := by
    intro a; rw [(plug_ids_perm (S true) A).mem_iff]; simp
  have rids : ∀ a, a ∈ (plug (S false) B).ids ↔ a ∈ B.ids ∨ a ∈ cids (S false) := by
    intro a; rw [(plug_ids_perm (S false) B).mem_iff]; simp
  have dis : ∀ a, (a ∈ A.ids ∨ a ∈ cids (S true)) → ¬ (a ∈ B.ids ∨ a ∈ cids (S false)) := by
    intro a ha hb
    rcases ha with ha | ha <;> rcases hb with hb | hb
    · exact dAB a ha a (Or.inr hb) rfl
    · exact dT a (Or.inl ha) a (Or.inr hb) rfl
    · exact dT a (Or.inr (Or.inr hb)) a (Or.inl ha) rfl
    · exact dLR a ha a hb rfl
  have r6L : Rep h6 0 (plug (S true) A) := by
    refine r5.congr (fun a _ => by rw [l6]) ?_ ?_
    · intro a ha
      exact b6 a (fun hh => dis a ((lids a).1 ha) (Or.inr hh)) (fun hh => r5.ne_zero (hh ▸ ha))
    · intro a ha
      exact p6 a (fun hh => dis a ((lids a).1 ha) (Or.inl hh)) (fun hh => r5.ne_zero (hh ▸ ha))
  have t6L : h6.br 0 true = (plug (S true) A).rootId := by simp only [Bool.not_false] at o6; rw [o6]; exact t5
  have nPL : (plug (S true) A).ids.Nodup := by
    rw [(plug_ids_perm (S true) A).nodup_iff, List.nodup_append]
    exact ⟨nA, nL, fun a ha b hb => dT a (Or.inl ha) b (Or.inl hb)⟩
  have nPR : (plug (S false) B).ids.Nodup := by
    rw [(plug_ids_perm (S false) B).nodup_iff, List.nodup_append]
    exact ⟨nB, nR, fun a ha b hb => dT a (Or.inr (Or.inr ha)) b (Or.inr hb)⟩
  have iPL : i ∉ (plug (S true) A).ids := by rw [lids]; exact fun hh => hh.elim iA iL
  have iPR : i ∉ (plug (S false) B).ids := by rw [rids]; exact fun hh => hh.elim iB iR
  have dP : ∀ a ∈ (plug (S true) A).ids, a ∉ (plug (S false) B).ids := by
    intro a ha hb; exact dis a ((lids a).1 ha) ((rids a).1 hb)
  have hids : (node i k (plug (S true) A) (plug (S false) B)).ids = X.ids := by
    have : all S (node i k A B).ids = X.ids := by rw [hall]; simp [all, before, after]
    rw [← this]
    simp [ids, all, plug_ids, (w4.sp true).allDir.after, (w4.sp false).allDir.before]
  have gA : ∀ a ∈ (plug (S true) A).ids, c' a = .grt := by
    intro a ha
    rcases (lids a).1 ha with h' | h'
    · exact hA a h'
    · exact hS true a h'
  have gB : ∀ a ∈ (plug (S false) B).ids, c' a = .les := by
    intro a ha
    rcases (rids a).1 ha with h' | h'
    · exact hB a h'
    · exact hS false a h'
  generalize hL : plug (S true) A = TL at *
  generalize hR : plug (S false) B = TR at *
  have l60 : h6.live 0 = true := by rw [l6, l5]; exact w4.live0
  have l6i : h6.live i = true := by rw [l6]; exact il5
  -- hang both trees below the new root
  let h7 : Links := { h6 with
      br := fun b e => if b = i ∧ e = false then TL.rootId else h6.br b e
      par := upd h6.par TL.rootId i }
  have e7 : link h6 i false TL.rootId = some h7 := link_live l6i (r6L.root_live l60)
  let h8 : Links := { h7 with
      br := fun b e => if b = i ∧ e = true then TR.rootId else h7.br b e
      par := upd h7.par TR.rootId i }
  have e8 : link h7 i true TR.rootId = some h8 := link_live l6i (r6.root_live l60)
  let h9 : Links := { h8.setRoot i with
      br := fun b e => if b = 0 ∧ e = false then i else h8.br b e
      par := upd h8.par i 0 }
  have e9 : link (h8.setRoot i) 0 false i = some h9 := link_live l60 l6i
  have t7 : h7.br 0 false = TR.rootId := by simp [h7, i0.symm, t6]
  have ne : ∀ {T : Tree} {a : Nat}, a ≠ 0 → a ∉ T.ids → a ≠ T.rootId := by
    rintro T a h1 h2 rfl
    rcases rootId_mem_or T with hh | hh
    · exact h1 hh
    · exact h2 hh
  have zTL := r6L.ne_zero
  have zTR := r6.ne_zero
  have br9 : ∀ a, a ≠ 0 → a ≠ i → h9.br a = h6.br a := by
    intro a h1 h2; funext e; simp [h9, h8, h7, setRoot, h1, h2]
  have par9 : ∀ a, a ≠ i → a ≠ TL.rootId → a ≠ TR.rootId → h9.par a = h6.par a := by
    intro a h1 h2 h3; simp [h9, h8, h7, upd, h1, h2, h3]
  refine ⟨h9, i, k, TL, TR, ?_, ⟨?_, ?_, ?_, l60⟩, hids, gA, gB, ?_, P, m, hsplit, ?_, ?_, ?_⟩
  · simp only [splay, e1, e2, e3, Option.bind_eq_bind, Option.bind_some, e4, getBr_live il, b1, hlr, Bool.not_false,
      Bool.not_true, e5, getBr_live il5, b25, e6, getBr_live l60, t6L, e7, getBr_live (show h7.live 0 = true from l60),
      t7, e8, e9]
  · simp [RepC, h9, setRoot]
  · refine ⟨i0, l6i, ?_, ?_, by simp [h9, upd], ?_, ?_⟩
    · simp [h9, h8, h7, setRoot, i0]
    · simp [h9, h8, h7, setRoot, i0]
    · refine r6L.move nPL (fun _ _ => rfl) ?_ ?_ ?_
      · intro a ha; exact br9 a (fun hh => zTL (hh ▸ ha)) (fun hh => iPL (hh ▸ ha))
      · intro a ha hne'
        exact par9 a (fun hh => iPL (hh ▸ ha)) hne' (ne (fun hh => zTL (hh ▸ ha)) (dP a ha))
      · intro hm'
        have h1 : TL.rootId ≠ i := fun hh => iPL (hh ▸ hm')
        have h2 : TL.rootId ≠ TR.rootId := ne (fun hh => zTL (hh ▸ hm')) (dP _ hm')
        simp [h9, h8, h7, upd, h1, h2, setRoot]
    · refine r6.move nPR (fun _ _ => rfl) ?_ ?_ ?_
      · intro a ha; exact br9 a (fun hh => zTR (hh ▸ ha)) (fun hh => iPR (hh ▸ ha))
      · intro a ha hne'
        exact par9 a (fun hh => iPR (hh ▸ ha)) (ne (fun hh => zTR (hh ▸ ha)) (fun hh => dP a hh ha)) hne'
      · intro hm'
        have h1 : TR.rootId ≠ i := fun hh => iPR (hh ▸ hm')
        simp [h9, h8, h7, upd, h1, setRoot]
  · rw [cids_nil, List.append_nil, hids]; exact hn
  · refine s3.trans (s4.trans ⟨by simp only [h9, h8, h7, setRoot]; rw [l6, l5], ?_, ?_⟩)
    · intro a ha hz
      rw [← hids] at ha
      simp only [ids, List.mem_append, List.mem_cons, not_or] at ha
      obtain ⟨a1, a2, a3⟩ := ha
      rw [lids, not_or] at a1
      rw [rids, not_or] at a3
      rw [br9 a hz a2, b6 a a3.2 hz, b5 a a1.2 hz]
    · intro a ha hz
      rw [← hids] at ha
      simp only [ids, List.mem_append, List.mem_cons, not_or] at ha
      obtain ⟨a1, a2, a3⟩ := ha
      rw [par9 a a2 (ne hz a1) (ne hz a3)]
      rw [lids, not_or] at a1
      rw [rids, not_or] at a3
      rw [p6 a a3.1 hz, p5 a a1.1 hz]
  · have := hplug true
    rw [if_pos rfl, hL] at this
    simpa using this
  · have := hplug false
    rw [if_neg (by simp), hR] at this
    simpa using this
  · intro q
    simp only [splayN, Count.bind_run, Count.lift_run, Count.pure_run, e1, e2, e3, Option.map_some, Option.bind_some, e4n q,
      getBr_live il, b1, hlr, Bool.not_false, Bool.not_true, e5, getBr_live il5, b25, e6, getBr_live l60, t6L, e7,
      getBr_live (show h7.live 0 = true from l60), t7, e8, e9]

/-- As above, where `c` and `c'` agree everywhere. -/
theorem splay_specN {h : Links} {p : Nat} {X : Tree} {c : Nat → Option Cmp} {c' : Nat → Cmp} (hr : Rep h p X)
    (hn : X.ids.Nodup) (h0 : h.live 0 = true) (hne : X ≠ nil) (hc : ∀ a ∈ X.ids, c a = some (c' a))
    (hm : Mono c' X.ids) :
    ∃ h' i k A B, splay h c X.rootId = some (h', i) ∧ Whole h' [] (node i k A B) ∧ (node i k A B).ids = X.ids ∧
      (∀ a ∈ A.ids, c' a = .grt) ∧ (∀ a ∈ B.ids, c' a = .les) ∧ Same X.ids h h' ∧
      ∃ P m, Split c' X P i k m ∧ A = P true ∧ B = P false ∧ Costs (splayN h c X.rootId) m (h', i) :=
  splay_specA hr hn h0 hne (Along.of_all hc) hm

theorem splay_spec {h : Links} {p : Nat} {X : Tree} {c : Nat → Option Cmp} {c' : Nat → Cmp} (hr : Rep h p X)
    (hn : X.ids.Nodup) (h0 : h.live 0 = true) (hne : X ≠ nil) (hc : ∀ a ∈ X.ids, c a = some (c' a))
    (hm : Mono c' X.ids) :
    ∃ h' i k A B, splay h c X.rootId = some (h', i) ∧ Whole h' [] (node i k A B) ∧ (node i k A B).ids = X.ids ∧
      (∀ a ∈ A.ids, c' a = .grt) ∧ (∀ a ∈ B.ids, c' a = .les) ∧ Same X.ids h h' := by
  obtain ⟨h', i, k, A, B, e, w, hi, hA, hB, s, _⟩ := splay_specN hr hn h0 hne hc hm
  exact ⟨h', i, k, A, B, e, w, hi, hA, hB, s⟩

/-! ### Putting a new element on top of the splayed tree -/

theorem connect_spec {h : Links} {i k e : Nat} {Y C : Tree} {res : Cmp}
    (w : Whole h [] (nd (decide (res = .grt)) i k Y C)) (e0 : e ≠ 0) (el : h.live e = true)
    (he : e ∉ (nd (decide (res = .grt)) i k Y C).ids) :
    ∃ h', connectNewRoot h e res = some h' ∧
      Whole h' [] (nd (decide (res = .grt)) e 0 Y (nd (decide (res = .grt)) i k nil C)) ∧ h'.live = h.live := by
  unfold connectNewRoot
  generalize decide (res = .grt) = d at w he ⊢
  obtain ⟨i0, il, b1, b2, ip, rY, rC⟩ := Rep_nd.1 w.tree
  have hroot : h.root = i := by simpa [RepC] using w.ctx
  have hn := w.nodup
  simp only [cids_nil, List.append_nil] at hn
  rw [(nd_ids_perm d i k Y C).nodup_iff] at hn
  simp only [List.nodup_cons, List.mem_append, not_or, List.nodup_append] at hn
  obtain ⟨⟨iY, iC⟩, nY, nC, dYC⟩ := hn
  simp only [mem_nd, not_or] at he
  obtain ⟨ei, eY, eC⟩ := he
  have zY := rY.ne_zero
  have zC := rC.ne_zero
  have ne : ∀ {T : Tree} {a : Nat}, a ≠ 0 → a ∉ T.ids → a ≠ T.rootId := by
    rintro T a h1 h2 rfl
    rcases rootId_mem_or T with hh | hh
    · exact h1 hh
    · exact h2 hh
  have Yl := rY.root_live w.live0
  let h1 : Links := { h with br := fun b x => if b = e ∧ x = d then Y.rootId else h.br b x, par := upd h.par Y.rootId e }
  have e1 : link h e d Y.rootId = some h1 := link_live el Yl
  let h2 : Links := { h1 with br := fun b x => if b = e ∧ x = !d then i else h1.br b x, par := upd h1.par i e }
  have e2 : link h1 e (!d) i = some h2 := link_live el il
  let h3 : Links := { h2 with br := fun b x => if b = i ∧ x = d then 0 else h2.br b x }
  have e3 : h2.setBr i d 0 = some h3 := setBr_live il
  let h4 : Links := { h3.setRoot e with br := fun b x => if b = 0 ∧ x = false then e else h3.br b x,
                                        par := upd h3.par e 0 }
  have e4 : link (h3.setRoot e) 0 false e = some h4 := link_live w.live0 el
  have br4 : ∀ a, a ≠ 0 → a ≠ e → a ≠ i → h4.br a = h.br a := by
    intro a q1 q2 q3; funext x; simp [h4, h3, h2, h1, setRoot, q1, q2, q3]
  have par4 : ∀ a, a ≠ Y.rootId → a ≠ i → a ≠ e → h4.par a = h.par a := by
    intro a q1 q2 q3; simp [h4, h3, h2, h1, upd, q1, q2, q3, setRoot]
  have hr1 : h1.root = i := hroot
  have hr2 : h2.root = i := hroot
  refine ⟨h4, ?_, ⟨?_, ?_, ?_, w.live0⟩, rfl⟩
  · have hr4 : (h3.setRoot e).root = e := rfl
    simp only [hroot, getBr_live il, b1, Option.bind_eq_bind, Option.bind_some, e1, hr1, e2, hr2, e3, hr4, e4]
  · simp [RepC, h4, setRoot]
  · refine Rep_nd.2 ⟨e0, el, ?_, ?_, by simp [h4, upd], ?_, Rep_nd.2 ⟨i0, il, ?_, ?_, ?_, trivial, ?_⟩⟩
    · simp [h4, h3, h2, h1, setRoot, e0, ei]
    · simp [h4, h3, h2, h1, setRoot, e0]
    · refine rY.move nY (fun _ _ => rfl) ?_ ?_ ?_
      · intro a ha
        exact br4 a (fun hh => zY (hh ▸ ha)) (fun hh => eY (hh ▸ ha)) (fun hh => iY (hh ▸ ha))
      · intro a ha hne
        exact par4 a hne (fun hh => iY (hh ▸ ha)) (fun hh => eY (hh ▸ ha))
      · intro hm
        have q1 : Y.rootId ≠ i := fun hh => iY (hh ▸ hm)
        have q2 : Y.rootId ≠ e := fun hh => eY (hh ▸ hm)
        simp [h4, h3, h2, h1, upd, setRoot, q1, q2]
    · simp [h4, h3, h2, h1, setRoot, i0]
    · simp [h4, h3, h2, h1, setRoot, i0, Ne.symm ei, b2]
    · simp [h4, h3, h2, h1, upd, setRoot, Ne.symm ei]
    · refine rC.congr (fun _ _ => rfl) ?_ ?_
      · intro a ha
        exact br4 a (fun hh => zC (hh ▸ ha)) (fun hh => eC (hh ▸ ha)) (fun hh => iC (hh ▸ ha))
      · intro a ha
        exact par4 a (ne (fun hh => zC (hh ▸ ha)) (fun hh => dYC a hh a ha rfl)) (fun hh => iC (hh ▸ ha))
          (fun hh => eC (hh ▸ ha))
  · rw [cids_nil, List.append_nil, (nd_ids_perm d e 0 Y _).nodup_iff]
    simp only [List.nodup_cons, List.mem_append, mem_nd, not_or, List.nodup_append, (nd_ids_perm d i k nil C).nodup_iff]
    refine ⟨⟨eY, ei, by simp [ids], eC⟩, nY, ⟨by simp [ids, iC], by simpa [ids] using nC⟩, ?_⟩
    intro a ha b hb hab
    subst hab
    rcases hb with rfl | hb | hb
    · exact iY ha
    · simp [ids] at hb
    · exact dYC a ha a hb rfl

/-! ### Taking the root away -/

theorem remove_specN {h : Links} {i k : Nat} {A B : Tree} {c : Nat → Option Cmp} {c' : Nat → Cmp}
    (w : Whole h [] (node i k A B)) (hc : ∀ a ∈ A.ids, c a = some (c' a)) (hm : Mono c' A.ids)
    (hA : ∀ a ∈ A.ids, c' a = .grt) :
    ∃ h' T n, Costs (removeFromTreeN h c i) n h' ∧ Whole h' [] T ∧ T.ids = A.ids ++ B.ids ∧ h'.live = h.live ∧
      ((A = nil ∧ T = B ∧ n = 0) ∨ ∃ P j m, Split c' A P j m n ∧ P false = nil ∧ T = node j m (P true) B) := by
  obtain ⟨i0, il, b1, b2, ip, rA, rB⟩ := w.tree
  have hn := w.nodup
  simp only [cids_nil, List.append_nil, ids, List.nodup_append, List.nodup_cons, List.mem_cons] at hn
  obtain ⟨nA, ⟨iB, nB⟩, dAB⟩ := hn
  have iA : i ∉ A.ids := fun hh => dAB i hh i (Or.inl rfl) rfl
  have zA := rA.ne_zero
  have zB := rB.ne_zero
  by_cases hz : A = nil
  · subst hz
    have hl := rB.root_live w.live0
    have er : ∀ q, removeFromTreeN h c i q = (link (h.setRoot B.rootId) 0 false B.rootId).map (fun t => (t, q)) := by
      intro q
      simp only [removeFromTreeN, Count.bind_run, Count.lift_run, getBr_live il, b1, b2, nil_rootId, Option.map_some,
        Option.bind_some, if_true]
    rw [link_live (t := h.setRoot B.rootId) w.live0 hl] at er
    refine ⟨_, B, 0, er, ⟨?_, ?_, by simpa using nB, w.live0⟩, by simp [ids], ?_, Or.inl ⟨rfl, rfl, rfl⟩⟩
    · simp [RepC, setRoot]
    · refine rB.move nB (fun _ _ => rfl) ?_ ?_ ?_
      · intro a ha
        have : a ≠ 0 := fun hh => zB (hh ▸ ha)
        funext x; simp [setRoot, this]
      · intro a ha hne; simp [upd, setRoot, hne]
      · intro _; simp [upd]
    · rfl
  · obtain ⟨h1, j, m, A', B', _, w1, ids1, g1, g2, s1, P, n, hsp, pA, pB, e1⟩ := splay_specN rA nA w.live0 hz hc hm
    have hB' : B' = nil := by
      cases B' with
      | nil => rfl
      | node b m' bl br =>
        exfalso
        have hb : b ∈ (node b m' bl br).ids := by simp [ids]
        have h1 := g2 b hb
        have h2 := hA b (by rw [← ids1]; simp [ids])
        rw [h1] at h2; cases h2
    subst hB'
    have hAr : A.rootId ≠ 0 := fun hh => hz ((rootId_ne rA).1 hh)
    obtain ⟨j0, jl, c1, c2, jp, rA', _⟩ := w1.tree
    have jA : j ∈ A.ids := by rw [← ids1]; simp [ids]
    have A'A : ∀ a ∈ A'.ids, a ∈ A.ids := by intro a ha; rw [← ids1]; simp [ids, ha]
    have il1 : h1.live i = true := by rw [s1.live]; exact il
    have b21 : h1.br i true = B.rootId := by rw [s1.br i iA i0]; exact b2
    have dB : ∀ a ∈ B.ids, a ∉ A.ids := fun a ha hh => dAB a hh a (Or.inr ha) rfl
    have rB1 : Rep h1 i B := by
      refine rB.congr (fun a _ => by rw [s1.live]) ?_ ?_
      · intro a ha; exact s1.br a (dB a ha) (fun hh => zB (hh ▸ ha))
      · intro a ha; exact s1.par a (dB a ha) (fun hh => zB (hh ▸ ha))
    have hroot1 : h1.root = j := by simpa [RepC] using w1.ctx
    have ne : ∀ {T : Tree} {a : Nat}, a ≠ 0 → a ∉ T.ids → a ≠ T.rootId := by
      rintro T a h1 h2 rfl
      rcases rootId_mem_or T with hh | hh
      · exact h1 hh
      · exact h2 hh
    have jB : j ∉ B.ids := fun hh => dB j hh jA
    have hn1 := w1.nodup
    simp only [cids_nil, List.append_nil, ids, List.nodup_append, List.nodup_cons, List.mem_cons] at hn1
    have jA' : j ∉ A'.ids := fun hh => hn1.2.2 j hh j (Or.inl rfl) rfl
    have hl := rB1.root_live w1.live0
    have er : ∀ q, removeFromTreeN h c i q = (link (h1.setRoot j) j true B.rootId).map (fun t => (t, q + n)) := by
      intro q
      simp only [removeFromTreeN, Count.bind_run, Count.lift_run, getBr_live il, b1, Option.map_some, Option.bind_some,
        if_neg hAr, e1 q, getBr_live (show (h1.setRoot j).live i = true from il1),
        show (h1.setRoot j).br i true = B.rootId from b21]
    rw [link_live (t := h1.setRoot j) jl hl] at er
    refine ⟨_, node j m A' B, n, er, ⟨?_, ⟨j0, jl, ?_, ?_, ?_, ?_, ?_⟩, ?_, w1.live0⟩, ?_, s1.live,
      Or.inr ⟨P, j, m, hsp, pB.symm, by rw [pA]⟩⟩
    · simp [RepC, setRoot]
    · simp [setRoot, c1]
    · simp
    · simp [upd, setRoot, ne j0 jB]; simpa using jp
    · refine rA'.congr (fun _ _ => rfl) ?_ ?_
      · intro a ha
        have : a ≠ j := fun hh => jA' (hh ▸ ha)
        funext x; simp [setRoot, this]
      · intro a ha
        have := ne (T := B) (fun hh => rA'.ne_zero (hh ▸ ha)) (fun hh => dB a hh (A'A a ha))
        simp [upd, setRoot, this]
    · refine rB1.move nB (fun _ _ => rfl) ?_ ?_ ?_
      · intro a ha
        have : a ≠ j := fun hh => jB (hh ▸ ha)
        funext x; simp [setRoot, this]
      · intro a ha hne; simp [upd, setRoot, hne]
      · intro _; simp [upd]
    · have e : (node j m A' B).ids = A.ids ++ B.ids := by rw [← ids1]; simp [ids]
      rw [e, cids_nil, List.append_nil, List.nodup_append]
      exact ⟨nA, nB, fun a ha b hb => dAB a ha b (Or.inr hb)⟩
    · rw [← ids1]; simp [ids]

theorem remove_spec {h : Links} {i k : Nat} {A B : Tree} {c : Nat → Option Cmp} {c' : Nat → Cmp}
    (w : Whole h [] (node i k A B)) (hc : ∀ a ∈ A.ids, c a = some (c' a)) (hm : Mono c' A.ids)
    (hA : ∀ a ∈ A.ids, c' a = .grt) :
    ∃ h' T, removeFromTree h c i = some h' ∧ Whole h' [] T ∧ T.ids = A.ids ++ B.ids ∧ h'.live = h.live := by
  obtain ⟨h', T, n, e, w', hi, hl, _⟩ := remove_specN w hc hm hA
  exact ⟨h', T, (removeFromTreeN_er _ _ _).eq e, w', hi, hl⟩

/-! ### Ranges -/

theorem find?_split' {c : Nat → Cmp} {p : Cmp → Bool} {pre post : List Nat} (h1 : ∀ a ∈ pre, p (c a) = false) :
    (pre ++ post).find? (fun a => p (c a)) = post.find? (fun a => p (c a)) := by
  rw [List.find?_append]
  have : pre.find? (fun a => p (c a)) = none := by
    rw [List.find?_eq_none]; intro a ha; simp [h1 a ha]
  simp [this]

theorem bound_list {c : Nat → Cmp} {pre post : List Nat} {x : Nat} (h1 : ∀ a ∈ pre, c a = .grt)
    (h2 : ∀ a ∈ post, c a = .les) (hx : c x ≠ .err) (trav incl : Bool) :
    (if (if incl then c x = (if trav then Cmp.grt else Cmp.les) else c x ≠ (if trav then Cmp.les else Cmp.grt))
      then (if trav then post.headD 0 else pre.getLastD 0) else x) =
    (((if trav then pre ++ x :: post else (pre ++ x :: post).reverse).find? (fun a =>
        if incl then c a != (if trav then Cmp.grt else Cmp.les) else c a == (if trav then Cmp.les else Cmp.grt))).getD 0)
    := by
  have hlast : ∀ l : List Nat, l.reverse.headD 0 = l.getLastD 0 := by intro l; simp
  have fwd : ∀ P : Cmp → Bool, P .grt = false → P .les = true →
      ((pre ++ x :: post).find? (fun a => P (c a))).getD 0 = if P (c x) then x else post.headD 0 := by
    intro P p1 p2
    rw [find?_split' (c := c) (p := P) (fun a ha => by rw [h1 a ha]; exact p1)]
    by_cases hp : P (c x)
    · simp [hp]
    · simp only [List.find?_cons, hp, Bool.false_eq_true, if_false]
      have := find?_split (c := c) (p := P) (pre := []) (post := post) (by simp) (fun a ha => by rw [h2 a ha]; exact p2)
      simpa using this
  have bwd : ∀ P : Cmp → Bool, P .grt = true → P .les = false →
      ((pre ++ x :: post).reverse.find? (fun a => P (c a))).getD 0 = if P (c x) then x else pre.getLastD 0 := by
    intro P p1 p2
    rw [show (pre ++ x :: post).reverse = post.reverse ++ (x :: pre.reverse) by simp,
      find?_split' (c := c) (p := P) (fun a ha => by rw [h2 a (by simpa using ha)]; exact p2)]
    by_cases hp : P (c x)
    · simp [hp]
    · simp only [List.find?_cons, hp, Bool.false_eq_true, if_false]
      have := find?_split (c := c) (p := P) (pre := []) (post := pre.reverse) (by simp)
        (fun a ha => by rw [h1 a (by simpa using ha)]; exact p1)
      rw [← hlast]
      simpa using this
  cases trav <;> cases incl
  · have := bwd (fun c => c == .grt) rfl rfl
    simp only [Bool.false_eq_true, if_false] at this ⊢
    rw [this]; cases hcx : c x <;> simp_all
  · have := bwd (fun c => c != .les) rfl rfl
    simp only [Bool.false_eq_true, if_false, if_true] at this ⊢
    rw [this]; cases hcx : c x <;> simp_all
  · have := fwd (fun c => c == .les) rfl rfl
    simp only [Bool.false_eq_true, if_false, if_true] at this ⊢
    rw [this]; cases hcx : c x <;> simp_all
  · have := fwd (fun c => c != .grt) rfl rfl
    simp only [if_true] at this ⊢
    rw [this]; cases hcx : c x <;> simp_all

theorem equalRange_specN {h : Links} {T : Tree} (w : Whole h [] T) (hne : T ≠ nil) {cb ce : Nat → Option Cmp}
    {cb' ce' : Nat → Cmp} (hcb : ∀ a ∈ T.ids, cb a = some (cb' a)) (hce : ∀ a ∈ T.ids, ce a = some (ce' a))
    (hb : Mono cb' T.ids) (he : Mono ce' T.ids) (trav : Bool) :
    ∃ h' T' m n, Costs (equalRangeN h cb ce trav) (m + 1 + (n + 1)) (h',
      ((if trav then T.ids else T.ids.reverse).find? (fun a => cb' a != (if trav then Cmp.grt else Cmp.les))).getD 0,
      ((if trav then T.ids else T.ids.reverse).find? (fun a => ce' a == (if trav then Cmp.les else Cmp.grt))).getD 0) ∧
      Whole h' [] T' ∧ T'.ids = T.ids ∧ h'.live = h.live ∧
      ∃ P i k Q j o, Split cb' T P i k m ∧ Split ce' (node i k (P true) (P false)) Q j o n ∧
        T' = node j o (Q true) (Q false) := by
  have hn : T.ids.Nodup := by simpa using w.nodup
  have hroot : h.root = T.rootId := w.ctx
  obtain ⟨h1, i, k, A, B, _, w1, i1, a1, b1, s1, P, mm, hsp, pA, pB, e1⟩ := splay_specN w.tree hn w.live0 hne hcb hb
  have hroot1 : h1.root = (node i k A B).rootId := w1.ctx
  obtain ⟨h2, j, m, C, D, _, w2, i2, a2, b2, s2, Q, nn, hsq, qC, qD, e2⟩ := splay_specN (X := node i k A B) w1.tree (by rw [i1]; exact hn)
    w1.live0 (by simp) (by rw [i1]; exact hce) (by rw [i1]; exact he)
  have mi : i ∈ T.ids := by rw [← i1]; simp [ids]
  have mj : j ∈ T.ids := by rw [← i1, ← i2]; simp [ids]
  have n1 := next_whole w1 (pre := A.ids) (post := B.ids) (n := i) rfl trav
  have n2 := next_whole w2 (pre := C.ids) (post := D.ids) (n := j) rfl trav
  refine ⟨h2, node j m C D, mm, nn, ?_, w2, by rw [i2, i1], by rw [s2.live, s1.live], P, i, k, Q, j, m, hsp,
    by rw [← pA, ← pB]; exact hsq, by rw [← qC, ← qD]⟩
  have q1 := bound_list a1 b1 (hb.noErr i mi) trav true
  have q2 := bound_list a2 b2 (he.noErr j mj) trav false
  rw [show A.ids ++ i :: B.ids = T.ids from i1] at q1
  rw [show C.ids ++ j :: D.ids = T.ids from i2.trans i1] at q2
  simp only [if_true, Bool.false_eq_true, if_false] at q1 q2
  rw [← q1, ← q2]
  intro q
  have st : ∀ (P : Prop) [Decidable P] (x y : Nat),
      (if P then some x else some y) = some (if P then x else y) := by
    intro P _ x y; split <;> rfl
  simp only [equalRangeN, Count.bind_run, Count.cnt_run, Count.lift_run, Count.pure_run, hroot, e1 q, Option.bind_some,
    hcb i mi, n1, Option.map_some, st, hroot1, e2 _, hce j mj, n2]
  rw [show q + mm + 1 + nn + 1 = q + (mm + 1 + (nn + 1)) by omega]

theorem equalRange_spec {h : Links} {T : Tree} (w : Whole h [] T) (hne : T ≠ nil) {cb ce : Nat → Option Cmp}
    {cb' ce' : Nat → Cmp} (hcb : ∀ a ∈ T.ids, cb a = some (cb' a)) (hce : ∀ a ∈ T.ids, ce a = some (ce' a))
    (hb : Mono cb' T.ids) (he : Mono ce' T.ids) (trav : Bool) :
    ∃ h' T', equalRange h cb ce trav = some (h',
      ((if trav then T.ids else T.ids.reverse).find? (fun a => cb' a != (if trav then Cmp.grt else Cmp.les))).getD 0,
      ((if trav then T.ids else T.ids.reverse).find? (fun a => ce' a == (if trav then Cmp.les else Cmp.grt))).getD 0) ∧
      Whole h' [] T' ∧ T'.ids = T.ids ∧ h'.live = h.live := by
  obtain ⟨h', T', m, n, e, w', hi, hl, _⟩ := equalRange_specN w hne hcb hce hb he trav
  exact ⟨h', T', (equalRangeN_er _ _ _ _).eq e, w', hi, hl⟩

end CCC.Splay
