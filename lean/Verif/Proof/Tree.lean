import Verif.Model.Links
/-
Ghost trees and the predicate that a set of links represents one.
-/
namespace CCC
open Links

/-- A binary tree whose nodes carry their address and a rank (only used by the WAVL maps). -/
inductive Tree where
  | nil
  | node (id rk : Nat) (l r : Tree)
deriving Repr

namespace Tree

def ids : Tree → List Nat
  | nil => []
  | node i _ l r => l.ids ++ i :: r.ids

def rootId : Tree → Nat
  | nil => 0
  | node i _ _ _ => i

def rk : Tree → Nat
  | nil => 0
  | node _ k _ _ => k

def height : Tree → Nat
  | nil => 0
  | node _ _ l r => max l.height r.height + 1

/-- `nd d i k a b`: node whose child in direction `d` is `a` and in the other direction `b`. -/
def nd (d : Bool) (i k : Nat) (a b : Tree) : Tree := if d then node i k b a else node i k a b

@[simp] theorem nd_false (i k : Nat) (a b : Tree) : nd false i k a b = node i k a b := rfl
@[simp] theorem nd_true (i k : Nat) (a b : Tree) : nd true i k a b = node i k b a := rfl

@[simp] theorem node_rootId (i k : Nat) (l r : Tree) : (node i k l r).rootId = i := rfl
@[simp] theorem node_rk (i k : Nat) (l r : Tree) : (node i k l r).rk = k := rfl
@[simp] theorem nil_rootId : nil.rootId = 0 := rfl
@[simp] theorem nil_rk : nil.rk = 0 := rfl

theorem rootId_mem_or (t : Tree) : t.rootId = 0 ∨ t.rootId ∈ t.ids := by
  cases t <;> simp [rootId, ids]

end Tree
open Tree

/-- One step of the path from the root to a subtree: at node `id` go in direction `dir`; `sib` is the subtree on
the other side. -/
structure Frame where
  dir : Bool
  id : Nat
  rk : Nat
  sib : Tree

/-- A path, innermost step first. -/
abbrev Ctx := List Frame

def Frame.fill (f : Frame) (t : Tree) : Tree := nd f.dir f.id f.rk t f.sib

def plug : Ctx → Tree → Tree
  | [], t => t
  | f :: c, t => plug c (f.fill t)

@[simp] theorem plug_nil (t : Tree) : plug [] t = t := rfl
@[simp] theorem plug_cons (f : Frame) (c : Ctx) (t : Tree) : plug (f :: c) t = plug c (f.fill t) := rfl

def pid : Ctx → Nat
  | [] => 0
  | f :: _ => f.id

@[simp] theorem pid_nil : pid [] = 0 := rfl
@[simp] theorem pid_cons (f : Frame) (c : Ctx) : pid (f :: c) = f.id := rfl

def cids : Ctx → List Nat
  | [] => []
  | f :: c => f.id :: (f.sib.ids ++ cids c)

@[simp] theorem cids_nil : cids [] = [] := rfl
@[simp] theorem cids_cons (f : Frame) (c : Ctx) : cids (f :: c) = f.id :: (f.sib.ids ++ cids c) := rfl

theorem pid_mem_or (c : Ctx) : c = [] ∨ pid c ∈ cids c := by
  cases c <;> simp

theorem fill_ids_perm (f : Frame) (t : Tree) : (f.fill t).ids.Perm (t.ids ++ f.id :: f.sib.ids) := by
  obtain ⟨d, i, k, s⟩ := f
  cases d
  · simp [Frame.fill, ids]
  · simp only [Frame.fill, nd_true, ids]
    exact (List.perm_middle.trans ((List.perm_append_comm).cons i)).trans List.perm_middle.symm

theorem plug_ids_perm (c : Ctx) : ∀ t : Tree, (plug c t).ids.Perm (t.ids ++ cids c) := by
  induction c with
  | nil => intro t; simp
  | cons f c ih =>
    intro t
    refine (ih (f.fill t)).trans ?_
    refine ((fill_ids_perm f t).append_right _).trans ?_
    simp

/-- In-order identifiers before and after the hole. -/
def before : Ctx → List Nat
  | [] => []
  | f :: c => if f.dir then before c ++ f.sib.ids ++ [f.id] else before c

def after : Ctx → List Nat
  | [] => []
  | f :: c => if f.dir then after c else f.id :: f.sib.ids ++ after c

theorem plug_ids (c : Ctx) : ∀ t : Tree, (plug c t).ids = before c ++ t.ids ++ after c := by
  induction c with
  | nil => intro t; simp [before, after]
  | cons f c ih =>
    intro t
    obtain ⟨d, i, k, s⟩ := f
    rw [plug_cons, ih]
    cases d <;> simp [before, after, Frame.fill, ids]

theorem plug_append (a b : Ctx) (t : Tree) : plug (a ++ b) t = plug b (plug a t) := by
  induction a generalizing t with
  | nil => rfl
  | cons f a ih => simp [ih]

/-- The links represent `t` hanging below parent `p`. -/
def Rep (h : Links) : Nat → Tree → Prop
  | _, nil => True
  | p, node i _ l r => i ≠ 0 ∧ h.live i = true ∧ h.br i false = l.rootId ∧ h.br i true = r.rootId ∧
      h.par i = p ∧ Rep h i l ∧ Rep h i r

/-- The links represent the path `c` leading to address `hole`. -/
def RepC (h : Links) : Ctx → Nat → Prop
  | [], hole => h.root = hole
  | f :: c, hole => f.id ≠ 0 ∧ h.live f.id = true ∧ h.br f.id f.dir = hole ∧
      h.br f.id (!f.dir) = f.sib.rootId ∧ h.par f.id = pid c ∧ Rep h f.id f.sib ∧ RepC h c f.id

theorem Rep_nd {h : Links} {p i k : Nat} {d : Bool} {a b : Tree} :
    Rep h p (nd d i k a b) ↔ i ≠ 0 ∧ h.live i = true ∧ h.br i d = a.rootId ∧ h.br i (!d) = b.rootId ∧
      h.par i = p ∧ Rep h i a ∧ Rep h i b := by
  cases d
  · simp [Rep]
  · simp only [nd_true, Rep, Bool.not_true]
    constructor <;> (intro hh; obtain ⟨a, b, c, d, e, f, g⟩ := hh; exact ⟨a, b, d, c, e, g, f⟩)

@[simp] theorem nd_rootId (d : Bool) (i k : Nat) (a b : Tree) : (nd d i k a b).rootId = i := by cases d <;> rfl
@[simp] theorem nd_rk (d : Bool) (i k : Nat) (a b : Tree) : (nd d i k a b).rk = k := by cases d <;> rfl
theorem nd_ids_perm (d : Bool) (i k : Nat) (a b : Tree) : (nd d i k a b).ids.Perm (i :: (a.ids ++ b.ids)) := by
  cases d
  · simp [ids, List.perm_middle]
  · simp only [nd_true, ids]
    exact List.perm_middle.trans ((List.perm_append_comm).cons i)

@[simp] theorem mem_nd {d : Bool} {i k : Nat} {a b : Tree} {j : Nat} :
    j ∈ (nd d i k a b).ids ↔ j = i ∨ j ∈ a.ids ∨ j ∈ b.ids := by
  rw [(nd_ids_perm d i k a b).mem_iff]; simp

@[simp] theorem fill_rootId (f : Frame) (t : Tree) : (f.fill t).rootId = f.id := by simp [Frame.fill]

theorem Rep_plug {h : Links} (c : Ctx) : ∀ t : Tree,
    (Rep h 0 (plug c t) ∧ h.root = (plug c t).rootId) ↔ (RepC h c t.rootId ∧ Rep h (pid c) t) := by
  induction c with
  | nil => intro t; simp [RepC, and_comm]
  | cons f c ih =>
    intro t
    rw [plug_cons, ih]
    simp only [RepC, Frame.fill, Rep_nd, nd_rootId, pid_cons]
    constructor
    · rintro ⟨a, b, c, d, e, f, g, i⟩; exact ⟨⟨b, c, d, e, f, i, a⟩, g⟩
    · rintro ⟨⟨b, c, d, e, f, i, a⟩, g⟩; exact ⟨a, b, c, d, e, f, g, i⟩

theorem Rep.ne_zero {h : Links} {p : Nat} {t : Tree} (hr : Rep h p t) : 0 ∉ t.ids := by
  induction t generalizing p with
  | nil => simp [ids]
  | node i k l r il ir =>
    obtain ⟨h0, _, _, _, _, h1, h2⟩ := hr
    simp only [ids, List.mem_append, List.mem_cons, not_or]
    exact ⟨il h1, fun h => h0 h.symm, ir h2⟩

theorem Rep.live {h : Links} {p : Nat} {t : Tree} (hr : Rep h p t) : ∀ a ∈ t.ids, h.live a = true := by
  induction t generalizing p with
  | nil => simp [ids]
  | node i k l r il ir =>
    obtain ⟨h0, hl, _, _, _, h1, h2⟩ := hr
    intro a ha
    simp only [ids, List.mem_append, List.mem_cons] at ha
    rcases ha with ha | rfl | ha
    · exact il h1 a ha
    · exact hl
    · exact ir h2 a ha

theorem Rep.root_live {h : Links} {p : Nat} {t : Tree} (hr : Rep h p t) (h0 : h.live 0 = true) :
    h.live t.rootId = true := by
  rcases rootId_mem_or t with h1 | h1
  · rw [h1]; exact h0
  · exact hr.live _ h1

theorem RepC.ne_zero {h : Links} {c : Ctx} {x : Nat} (hr : RepC h c x) : 0 ∉ cids c := by
  induction c generalizing x with
  | nil => simp
  | cons f c ih =>
    obtain ⟨h0, _, _, _, _, h1, h2⟩ := hr
    simp only [cids_cons, List.mem_append, List.mem_cons, not_or]
    exact ⟨fun h => h0 h.symm, h1.ne_zero, ih h2⟩

theorem RepC.live {h : Links} {c : Ctx} {x : Nat} (hr : RepC h c x) : ∀ a ∈ cids c, h.live a = true := by
  induction c generalizing x with
  | nil => simp
  | cons f c ih =>
    obtain ⟨_, hl, _, _, _, h1, h2⟩ := hr
    intro a ha
    simp only [cids_cons, List.mem_append, List.mem_cons] at ha
    rcases ha with rfl | ha | ha
    · exact hl
    · exact h1.live a ha
    · exact ih h2 a ha

theorem RepC.pid_live {h : Links} {c : Ctx} {x : Nat} (hr : RepC h c x) (h0 : h.live 0 = true) :
    h.live (pid c) = true := by
  rcases pid_mem_or c with rfl | h1
  · exact h0
  · exact hr.live _ h1

theorem RepC.pid_eq_zero {h : Links} {c : Ctx} {x : Nat} (hr : RepC h c x) : pid c = 0 ↔ c = [] := by
  constructor
  · intro h1
    rcases pid_mem_or c with h2 | h2
    · exact h2
    · rw [h1] at h2; exact absurd h2 hr.ne_zero
  · rintro rfl; rfl

/-- A represented subtree stays represented, possibly below another parent, when nothing but the parent field of
its root is touched. -/
theorem Rep.move {h h' : Links} {p q : Nat} {t : Tree} (hr : Rep h p t) (hn : t.ids.Nodup)
    (hl : ∀ a ∈ t.ids, h'.live a = h.live a)
    (hb : ∀ a ∈ t.ids, h'.br a = h.br a)
    (hp : ∀ a ∈ t.ids, a ≠ t.rootId → h'.par a = h.par a)
    (hq : t.rootId ∈ t.ids → h'.par t.rootId = q) : Rep h' q t := by
  induction t generalizing p q with
  | nil => trivial
  | node i k l r il ir =>
    obtain ⟨h0, hlv, hb0, hb1, hpar, h1, h2⟩ := hr
    simp only [ids, List.nodup_append, List.nodup_cons, List.mem_cons] at hn
    obtain ⟨n1, ⟨n2, n3⟩, n4⟩ := hn
    have hil : i ∉ l.ids := fun hh => n4 i hh i (Or.inl rfl) rfl
    have mi : i ∈ (node i k l r).ids := by simp [ids]
    have ml : ∀ a ∈ l.ids, a ∈ (node i k l r).ids := by intro a ha; simp [ids, ha]
    have mr : ∀ a ∈ r.ids, a ∈ (node i k l r).ids := by intro a ha; simp [ids, ha]
    have nel : ∀ a ∈ l.ids, a ≠ i := fun a ha hh => hil (hh ▸ ha)
    have ner : ∀ a ∈ r.ids, a ≠ i := fun a ha hh => n2 (hh ▸ ha)
    refine ⟨h0, by rw [hl i mi]; exact hlv, by rw [hb i mi]; exact hb0, by rw [hb i mi]; exact hb1,
      hq mi, ?_, ?_⟩
    · refine il h1 n1 (fun a ha => hl a (ml a ha)) (fun a ha => hb a (ml a ha))
        (fun a ha _ => hp a (ml a ha) (nel a ha)) ?_
      intro hm
      rw [hp _ (ml _ hm) (nel _ hm)]
      cases l with
      | nil => simp [ids] at hm
      | node => exact h1.2.2.2.2.1
    · refine ir h2 n3 (fun a ha => hl a (mr a ha)) (fun a ha => hb a (mr a ha))
        (fun a ha _ => hp a (mr a ha) (ner a ha)) ?_
      intro hm
      rw [hp _ (mr _ hm) (ner _ hm)]
      cases r with
      | nil => simp [ids] at hm
      | node => exact h2.2.2.2.2.1

theorem Rep.root_par {h : Links} {p : Nat} {t : Tree} (hr : Rep h p t) (hm : t.rootId ∈ t.ids) :
    h.par t.rootId = p := by
  cases t with
  | nil => simp [ids] at hm
  | node => exact hr.2.2.2.2.1

/-- A represented subtree is untouched by writes elsewhere. -/
theorem Rep.congr {h h' : Links} {p : Nat} {t : Tree} (hr : Rep h p t)
    (hl : ∀ a ∈ t.ids, h'.live a = h.live a)
    (hb : ∀ a ∈ t.ids, h'.br a = h.br a)
    (hp : ∀ a ∈ t.ids, h'.par a = h.par a) : Rep h' p t := by
  induction t generalizing p with
  | nil => trivial
  | node i k l r il ir =>
    obtain ⟨h0, hlv, hb0, hb1, hpar, h1, h2⟩ := hr
    have mi : i ∈ (node i k l r).ids := by simp [ids]
    have ml : ∀ a ∈ l.ids, a ∈ (node i k l r).ids := by intro a ha; simp [ids, ha]
    have mr : ∀ a ∈ r.ids, a ∈ (node i k l r).ids := by intro a ha; simp [ids, ha]
    refine ⟨h0, by rw [hl i mi]; exact hlv, by rw [hb i mi]; exact hb0, by rw [hb i mi]; exact hb1,
      by rw [hp i mi]; exact hpar, ?_, ?_⟩
    · exact il h1 (fun a ha => hl a (ml a ha)) (fun a ha => hb a (ml a ha)) (fun a ha => hp a (ml a ha))
    · exact ir h2 (fun a ha => hl a (mr a ha)) (fun a ha => hb a (mr a ha)) (fun a ha => hp a (mr a ha))

/-- A represented path is untouched by writes elsewhere, if the root field keeps its value when the path is
empty. -/
theorem RepC.congr {h h' : Links} {c : Ctx} {x : Nat} (hr : RepC h c x)
    (hroot : h'.root = h.root)
    (hl : ∀ a ∈ cids c, h'.live a = h.live a)
    (hb : ∀ a ∈ cids c, h'.br a = h.br a)
    (hp : ∀ a ∈ cids c, h'.par a = h.par a) : RepC h' c x := by
  induction c generalizing x with
  | nil => simpa [RepC, hroot] using hr
  | cons f c ih =>
    obtain ⟨h0, hlv, hb0, hb1, hpar, h1, h2⟩ := hr
    have mi : f.id ∈ cids (f :: c) := by simp
    have ml : ∀ a ∈ f.sib.ids, a ∈ cids (f :: c) := by intro a ha; simp [ha]
    have mr : ∀ a ∈ cids c, a ∈ cids (f :: c) := by intro a ha; simp [ha]
    refine ⟨h0, by rw [hl _ mi]; exact hlv, by rw [hb _ mi]; exact hb0, by rw [hb _ mi]; exact hb1,
      by rw [hp _ mi]; exact hpar, ?_, ?_⟩
    · exact h1.congr (fun a ha => hl a (ml a ha)) (fun a ha => hb a (ml a ha)) (fun a ha => hp a (ml a ha))
    · exact ih h2 (fun a ha => hl a (mr a ha)) (fun a ha => hb a (mr a ha)) (fun a ha => hp a (mr a ha))

/-! ### Memory access lemmas -/
namespace Links
variable {t : Links} {a : Nat}

theorem getBr_live {d : Bool} (h : t.live a = true) : t.getBr a d = some (t.br a d) := by simp [getBr, h]
theorem getPar_live (h : t.live a = true) : t.getPar a = some (t.par a) := by simp [getPar, h]
theorem getParity_live (h : t.live a = true) : t.getParity a = some (t.parity a) := by simp [getParity, h]
theorem setBr_live {d : Bool} {v : Nat} (h : t.live a = true) :
    t.setBr a d v = some { t with br := fun b e => if b = a ∧ e = d then v else t.br b e } := by simp [setBr, h]
theorem setPar_live {v : Nat} (h : t.live a = true) : t.setPar a v = some { t with par := upd t.par a v } := by
  simp [setPar, h]
theorem setParity_live {v : Bool} (h : t.live a = true) :
    t.setParity a v = some { t with parity := upd t.parity a v } := by simp [setParity, h]

end Links

/-- Redirecting the link above the hole. -/
theorem relink_spec {h : Links} {c : Ctx} {z x : Nat} (hc : RepC h c z) (hz : z ≠ 0) (hzc : z ∉ cids c)
    (hnd : (cids c).Nodup) :
    ∃ h', h.relink (pid c) z x = some h' ∧ RepC h' c x ∧ h'.live = h.live ∧ h'.par = h.par ∧
      h'.parity = h.parity ∧ (∀ a, a ∉ cids c → h'.br a = h.br a) := by
  cases c with
  | nil =>
    refine ⟨h.setRoot x, by simp [relink], ?_, rfl, rfl, rfl, fun _ _ => rfl⟩
    simp [RepC, setRoot]
  | cons f c =>
    obtain ⟨h0, hlv, hb0, hb1, hpar, h1, h2⟩ := hc
    have hd : (h.br f.id true == z) = f.dir := by
      cases hf : f.dir with
      | true => rw [hf] at hb0; simp [hb0]
      | false =>
        rw [hf] at hb1
        simp only [Bool.not_false] at hb1
        rw [hb1]
        simp only [beq_eq_false_iff_ne]
        intro hh
        rcases rootId_mem_or f.sib with h3 | h3
        · exact hz (hh ▸ h3)
        · apply hzc; rw [hh] at h3; simp [h3]
    have hn2 := hnd
    simp only [cids_cons, List.nodup_cons, List.mem_append, not_or] at hnd
    refine ⟨{ h with br := fun b e => if b = f.id ∧ e = f.dir then x else h.br b e }, ?_, ?_, rfl, rfl, rfl, ?_⟩
    · simp only [relink, pid_cons, h0, if_false, getBr_live hlv, Option.bind_eq_bind, Option.bind_some, hd,
        setBr_live hlv]
    · have nb : ∀ a, a ≠ f.id →
          (fun b e => if b = f.id ∧ e = f.dir then x else h.br b e : Nat → Bool → Nat) a = h.br a := by
        intro a ha; funext e; simp [ha]
      refine ⟨h0, hlv, by simp, ?_, hpar, ?_, ?_⟩
      · simp [hb1]
      · exact h1.congr (fun _ _ => rfl) (fun a ha => nb a (fun hh => hnd.1.1 (hh ▸ ha))) (fun _ _ => rfl)
      · exact h2.congr rfl (fun _ _ => rfl) (fun a ha => nb a (fun hh => hnd.1.2 (hh ▸ ha))) (fun _ _ => rfl)
    · intro a ha
      have : a ≠ f.id := by intro hh; apply ha; simp [hh]
      funext e; simp [this]

end CCC
