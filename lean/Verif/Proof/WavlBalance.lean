import Verif.Proof.WavlInv
import Verif.Spec.Iter
/-
Consequences of the WAVL rank rule.
-/
namespace CCC.Wavl
open CCC Links Tree

/-- A tree of rank `k` holds at least `2^(k/2) - 1` elements. -/
theorem Valid.size_bound {t : Tree} (hv : Valid t) : 2 ^ t.rk ≤ (t.ids.length + 1) ^ 2 := by
  induction t with
  | nil => simp [Tree.rk, ids]
  | node i k l r il ir =>
    obtain ⟨hl, hr, _, vl, vr⟩ := hv
    have il := il vl
    have ir := ir vr
    have hlen : (node i k l r).ids.length + 1 = (l.ids.length + 1) + (r.ids.length + 1) := by simp [ids]; omega
    rw [hlen]
    simp only [Tree.rk]
    generalize l.ids.length + 1 = a at *
    generalize r.ids.length + 1 = b at *
    have h1 : 2 ^ k ≤ 4 * a ^ 2 := by
      have : 2 ^ k ≤ 2 ^ (l.rk + 2) := Nat.pow_le_pow_right (by omega) (by omega)
      rw [Nat.pow_add] at this; omega
    have h2 : 2 ^ k ≤ 4 * b ^ 2 := by
      have : 2 ^ k ≤ 2 ^ (r.rk + 2) := Nat.pow_le_pow_right (by omega) (by omega)
      rw [Nat.pow_add] at this; omega
    have : (a + b) ^ 2 = a ^ 2 + 2 * (a * b) + b ^ 2 := by
      simp only [Nat.pow_two, Nat.add_mul, Nat.mul_add, Nat.mul_comm b a]; omega
    rw [this]
    rcases Nat.le_total a b with hab | hab
    · have e1 : a ^ 2 ≤ a * b := by rw [Nat.pow_two]; exact Nat.mul_le_mul_left a hab
      have e2 : a * b ≤ b ^ 2 := by rw [Nat.pow_two]; exact Nat.mul_le_mul_right b hab
      omega
    · have e1 : b ^ 2 ≤ a * b := by rw [Nat.pow_two]; exact Nat.mul_le_mul_right b hab
      have e2 : a * b ≤ a ^ 2 := by rw [Nat.pow_two]; exact Nat.mul_le_mul_left a hab
      omega

/-- Every way down ends after at most as many elements as the rank says. -/
theorem Valid.descend_le {h : Links} : ∀ {t : Tree} {p : Nat}, Valid t → Rep h p t → ∀ ds : List Bool,
    descend h.br t.rootId ds ≠ 0 → ds.length + 1 ≤ t.rk := by
  intro t
  induction t with
  | nil =>
    intro p _ _ ds hd
    cases ds <;> simp [descend] at hd
  | node i k l r il ir =>
    intro p hv hr ds hd
    obtain ⟨hl, hr', _, vl, vr⟩ := hv
    obtain ⟨i0, _, b0, b1, _, rl, rr⟩ := hr
    cases ds with
    | nil => simp only [List.length_nil, Tree.rk]; omega
    | cons d ds =>
      change (if i = 0 then 0 else descend h.br (h.br i d) ds) ≠ 0 at hd
      rw [if_neg i0] at hd
      cases d with
      | false =>
        rw [b0] at hd
        have := il vl rl ds hd
        simp only [List.length_cons, Tree.rk]; omega
      | true =>
        rw [b1] at hd
        have := ir vr rr ds hd
        simp only [List.length_cons, Tree.rk]; omega

/-- Rank of an element of a tree. -/
def rankOf : Tree → Nat → Nat
  | nil, _ => 0
  | node i k l r, a => if a = i then k else if a ∈ l.ids then rankOf l a else rankOf r a

theorem rankOf_not_mem {t : Tree} {a : Nat} (h : a ∉ t.ids) : rankOf t a = 0 := by
  induction t with
  | nil => rfl
  | node i k l r il ir =>
    simp only [ids, List.mem_append, List.mem_cons, not_or] at h
    simp [rankOf, h, ir]

theorem rankOf_root {t : Tree} (h0 : 0 ∉ t.ids) : rankOf t t.rootId = t.rk := by
  cases t with
  | nil => rfl
  | node i k l r => simp [rankOf, Tree.rk]

theorem rank_rules_aux {h : Links} : ∀ {t : Tree} {p : Nat}, Valid t → Rep h p t → RP h t → t.ids.Nodup → 0 ∉ t.ids →
    ∀ rk : Nat → Nat, rk 0 = 0 → (∀ a ∈ t.ids, rk a = rankOf t a) → ∀ a ∈ t.ids,
      (∀ d, rk a = rk (h.br a d) + 1 ∨ rk a = rk (h.br a d) + 2) ∧
      (h.br a false = 0 → h.br a true = 0 → rk a = 1) ∧ h.parity a = (rk a % 2 == 0) := by
  intro t
  induction t with
  | nil => intro p _ _ _ _ _ rk _ _ a ha; simp [ids] at ha
  | node i k l r il ir =>
    intro p hv hr hp hn h0 rk rk0 hrk a ha
    obtain ⟨hl, hr', hleaf, vl, vr⟩ := hv
    obtain ⟨i0, _, b0, b1, _, rl, rr⟩ := hr
    obtain ⟨p1, p2, p3⟩ := hp
    simp only [ids, List.nodup_append, List.nodup_cons] at hn
    obtain ⟨nl, ⟨nir, nr⟩, nd⟩ := hn
    have nil' : i ∉ l.ids := fun hh => nd i hh i (by simp) rfl
    have h0l : 0 ∉ l.ids := fun hh => h0 (by simp [ids, hh])
    have h0r : 0 ∉ r.ids := fun hh => h0 (by simp [ids, hh])
    have hkl : ∀ b ∈ l.ids, rk b = rankOf l b := by
      intro b hb
      rw [hrk b (by simp [ids, hb])]
      have hbi : b ≠ i := fun hh => nil' (hh ▸ hb)
      simp [rankOf, hb, hbi]
    have hkr : ∀ b ∈ r.ids, rk b = rankOf r b := by
      intro b hb
      rw [hrk b (by simp [ids, hb])]
      have hbi : b ≠ i := fun hh => nir (hh ▸ hb)
      have hbl : b ∉ l.ids := fun hh => nd b hh b (by simp [hb]) rfl
      simp [rankOf, hbi, hbl]
    have hki : rk i = k := by rw [hrk i (by simp [ids])]; simp [rankOf]
    have root : ∀ b : Tree, 0 ∉ b.ids → (∀ a ∈ b.ids, rk a = rankOf b a) → rk b.rootId = b.rk := by
      intro b hb hh
      rcases rootId_mem_or b with h1 | h1
      · rw [h1, rk0, ← rankOf_root hb, h1, rankOf_not_mem hb]
      · rw [hh _ h1, rankOf_root hb]
    simp only [ids, List.mem_append, List.mem_cons] at ha
    rcases ha with ha | rfl | ha
    · exact il vl rl p2 nl h0l rk rk0 hkl a ha
    · refine ⟨?_, ?_, ?_⟩
      · intro d
        cases d
        · rw [b0, root l h0l hkl, hki]; exact hl
        · rw [b1, root r h0r hkr, hki]; exact hr'
      · intro z0 z1
        rw [hki]
        apply hleaf
        · rw [← root l h0l hkl, ← b0, z0, rk0]
        · rw [← root r h0r hkr, ← b1, z1, rk0]
      · rw [p1, hki]; rfl
    · exact ir vr rr p3 nr h0r rk rk0 hkr a ha

theorem rank_rules {h : Links} {t : Tree} (hv : Valid t) (w : Wv h [] t) : RankRules t.ids h.br h.parity := by
  have h0 : 0 ∉ t.ids := w.whole.tree.ne_zero
  refine ⟨rankOf t, rankOf_not_mem h0, ?_⟩
  exact rank_rules_aux hv w.whole.tree w.rp (by simpa using w.whole.nodup) h0 _ (rankOf_not_mem h0) (fun _ _ => rfl)

end CCC.Wavl
