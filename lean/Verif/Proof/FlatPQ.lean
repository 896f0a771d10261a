import Verif.Model.FlatPQ
import Verif.Spec.Order
import Verif.Proof.Window
/- Helper lemmas for the flat priority queue. -/
namespace CCC
variable {α : Type}

/-- exchange two slots -/
def xchg (f : Nat → α) (i j : Nat) : Nat → α := fun k => if k = i then f j else if k = j then f i else f k

theorem xchg_left (f : Nat → α) (i j : Nat) : xchg f i j i = f j := by simp [xchg]
theorem xchg_right (f : Nat → α) (i j : Nat) : xchg f i j j = f i := by
  by_cases h : j = i <;> simp [xchg, h]
theorem xchg_other (f : Nat → α) {i j k : Nat} (h1 : k ≠ i) (h2 : k ≠ j) : xchg f i j k = f k := by
  simp [xchg, h1, h2]

theorem window_xchg_perm (f : Nat → α) (n i j : Nat) (hi : i < n) (hj : j < n) :
    (window (xchg f i j) 0 n).Perm (window f 0 n) := by
  have h := List.set_set_perm (as := window f 0 n) (i := i) (j := j) (by simpa) (by simpa)
  refine (List.Perm.of_eq ?_).trans h
  apply List.ext_getElem (by simp)
  intro k h1 h2
  simp [List.getElem_set, xchg] at h1 ⊢
  by_cases hki : k = i
  · subst hki
    by_cases hkj : k = j
    · simp [hkj]
    · simp [Ne.symm hkj]
  · by_cases hkj : k = j
    · subst hkj; simp [hki]
    · simp [hki, hkj, Ne.symm hki, Ne.symm hkj]

namespace Fpq

/-- heap order on slots `0 … n-1` -/
def HeapOrd (w : α → α → Prop) (f : Nat → α) (n : Nat) : Prop :=
  ∀ k, 0 < k → k < n → ¬ w (f k) (f ((k - 1) / 2))

/-- heap order except possibly between `i` and its parent -/
def HeapUp (w : α → α → Prop) (f : Nat → α) (n i : Nat) : Prop :=
  (∀ k, 0 < k → k < n → k ≠ i → ¬ w (f k) (f ((k - 1) / 2))) ∧
  (∀ k, 0 < k → k < n → (k - 1) / 2 = i → 0 < i → ¬ w (f k) (f ((i - 1) / 2)))

/-- heap order from slot `lo` on, except possibly between `i` and its children -/
def HeapDown (w : α → α → Prop) (f : Nat → α) (n lo i : Nat) : Prop :=
  (∀ k, 0 < k → k < n → lo ≤ (k - 1) / 2 → (k - 1) / 2 ≠ i → ¬ w (f k) (f ((k - 1) / 2))) ∧
  (∀ k, 0 < k → k < n → (k - 1) / 2 = i → 0 < i → lo ≤ (i - 1) / 2 → ¬ w (f k) (f ((i - 1) / 2)))

/-- what bubbling preserves -/
structure Same (q q' : Fpq α) : Prop where
  len : q'.buf.len = q.buf.len
  sz : q'.buf.sz = q.buf.sz
  cap : q'.buf.cap = q.buf.cap
  ha : q'.buf.hasAlloc = q.buf.hasAlloc
  cmp : q'.cmp = q.cmp
  order : q'.order = q.order

theorem Same.refl (q : Fpq α) : Same q q := ⟨rfl, rfl, rfl, rfl, rfl, rfl⟩
theorem Same.trans {q q' q'' : Fpq α} (h : Same q q') (h' : Same q' q'') : Same q q'' :=
  ⟨h'.len.trans h.len, h'.sz.trans h.sz, h'.cap.trans h.cap, h'.ha.trans h.ha, h'.cmp.trans h.cmp,
   h'.order.trans h.order⟩

theorem load_eq {q : Fpq α} (hl : q.buf.len = q.buf.cap) {i : Nat} (hi : i < q.buf.cap) :
    q.load i = some (q.buf.mem i) := by
  have : ¬ i ≥ q.buf.cap := by omega
  have h2 : i < q.buf.len := by omega
  simp [load, Buf.at_, this, Buf.load, h2]

theorem swap_eq {q : Fpq α} (hl : q.buf.len = q.buf.cap) {t i j : Nat} (ht : t < q.buf.cap)
    (hi : i < q.buf.cap) (hj : j < q.buf.cap) (hij : j ≠ i) (hti : t ≠ i) (htj : t ≠ j) :
    ∃ q', q.swap (some t) i j = some q' ∧ Same q q' ∧ ∀ k, k ≠ t → q'.buf.mem k = xchg q.buf.mem i j k := by
  have h1 : ¬ (i ≥ q.buf.cap ∨ j ≥ q.buf.cap ∨ j = i) := by omega
  have h2 : i < q.buf.len := by omega
  have h3 : j < q.buf.len := by omega
  have h4 : t < q.buf.len := by omega
  refine ⟨{ q with buf := { q.buf with mem := upd (upd (upd q.buf.mem t (q.buf.mem i)) i (q.buf.mem j)) j (q.buf.mem i) } },
    ?_, ⟨rfl, rfl, rfl, rfl, rfl, rfl⟩, ?_⟩
  · simp only [swap]; rw [if_neg h1]
    simp [Buf.load, Buf.store, h2, h3, h4, upd, hti, Ne.symm htj]
  · intro k hk
    simp only [upd, xchg]
    by_cases hkj : k = j
    · subst hkj; simp [hij]
    · by_cases hki : k = i
      · simp [hki, Ne.symm hij]
      · simp [hkj, hki, hk]

/-- Correctness of `bubble_up`. -/
theorem bubbleUp_spec {w : α → α → Prop} (hw : SWO w) (t : Nat) (i : Nat) :
    ∀ (q : Fpq α), q.buf.len = q.buf.cap → q.buf.sz ≤ t → t < q.buf.cap → i < q.buf.sz →
      (∀ a b, q.wins a b = true ↔ w a b) →
      HeapUp w q.buf.mem q.buf.sz i →
      ∃ q' j, q.bubbleUp (some t) i = some (q', j) ∧ Same q q' ∧ j < q.buf.sz ∧
        q'.buf.mem j = q.buf.mem i ∧ HeapOrd w q'.buf.mem q.buf.sz ∧
        (window q'.buf.mem 0 q.buf.sz).Perm (window q.buf.mem 0 q.buf.sz) := by
  induction i using Nat.strongRecOn with
  | _ i ih =>
  intro q hl hst ht hi hwins hh
  rw [bubbleUp]
  by_cases h0 : i = 0
  · subst h0
    refine ⟨q, 0, by simp, Same.refl q, hi, rfl, ?_, List.Perm.refl _⟩
    intro k hk hkn
    exact hh.1 k hk hkn (by omega)
  rw [if_neg h0]
  have hp : (i - 1) / 2 < i := by omega
  simp only [load_eq hl (show i < q.buf.cap by omega), load_eq hl (show (i-1)/2 < q.buf.cap by omega),
    Option.bind_eq_bind, Option.bind_some]
  by_cases hb : q.wins (q.buf.mem i) (q.buf.mem ((i - 1) / 2)) = true
  · rw [if_pos hb]
    have hbw := (hwins _ _).1 hb
    obtain ⟨q1, e1, hs1, hm1⟩ := swap_eq (q := q) hl (t := t) (i := (i-1)/2) (j := i) ht (by omega) (by omega)
      (by omega) (by omega) (by omega)
    have hwins1 : ∀ a b, q1.wins a b = true ↔ w a b := by
      intro a b; rw [← hwins]; simp [wins, hs1.cmp, hs1.order]
    have hm1' : ∀ k, k < q.buf.sz → q1.buf.mem k = xchg q.buf.mem ((i-1)/2) i k := fun k hk => hm1 k (by omega)
    have hh1 : HeapUp w q1.buf.mem q1.buf.sz ((i-1)/2) := by
      rw [hs1.sz]
      constructor
      · intro k hk hkn hki
        rw [hm1' k hkn, hm1' _ (show (k-1)/2 < q.buf.sz by omega)]
        by_cases hki2 : k = i
        · subst hki2
          rw [xchg_right, xchg_left]
          exact hw.asym _ _ hbw
        · rw [xchg_other _ hki hki2]
          by_cases hpk : (k - 1) / 2 = i
          · rw [hpk, xchg_right]
            exact hh.2 k hk hkn hpk (by omega)
          · by_cases hpk2 : (k - 1) / 2 = (i - 1) / 2
            · rw [hpk2, xchg_left]
              have h1 := hh.1 k hk hkn hki2
              rw [hpk2] at h1
              intro hc
              exact hw.ntrans _ _ _ h1 (hw.asym _ _ hbw) hc
            · rw [xchg_other _ hpk2 hpk]
              exact hh.1 k hk hkn hki2
      · intro k hk hkn hpk hpos
        rw [hm1' k hkn, hm1' _ (show ((i-1)/2 - 1)/2 < q.buf.sz by omega)]
        rw [xchg_other (k := ((i-1)/2 - 1)/2) _ (by omega) (by omega)]
        by_cases hki2 : k = i
        · subst hki2
          rw [xchg_right]
          exact hh.1 ((k-1)/2) hpos (by omega) (by omega)
        · rw [xchg_other _ (by omega) hki2]
          have h1 := hh.1 k hk hkn hki2
          rw [hpk] at h1
          have h2 := hh.1 ((i-1)/2) hpos (by omega) (by omega)
          exact hw.ntrans _ _ _ h1 h2
    obtain ⟨q', j, e, hs, hj, hmj, hord, hperm⟩ := ih ((i-1)/2) hp q1 (by rw [hs1.len, hs1.cap, hl])
      (by rw [hs1.sz]; exact hst) (by rw [hs1.cap]; exact ht) (by rw [hs1.sz]; omega) hwins1 hh1
    rw [hs1.sz] at hj hord hperm
    refine ⟨q', j, by simp [e1, e], hs1.trans hs, hj, ?_, hord, ?_⟩
    · rw [hmj, hm1' _ (by omega), xchg_left]
    · refine hperm.trans ?_
      have : window q1.buf.mem 0 q.buf.sz = window (xchg q.buf.mem ((i-1)/2) i) 0 q.buf.sz := by
        apply window_congr; intro k hk; simpa using hm1' k hk
      rw [this]
      exact window_xchg_perm _ _ _ _ (by omega) hi
  · rw [if_neg hb]
    refine ⟨q, i, rfl, Same.refl q, hi, rfl, ?_, List.Perm.refl _⟩
    intro k hk hkn
    by_cases hki : k = i
    · subst hki; intro hc; exact hb ((hwins _ _).2 hc)
    · exact hh.1 k hk hkn hki

/-- heap order for all parents from `lo` on -/
def HeapFrom (w : α → α → Prop) (f : Nat → α) (n lo : Nat) : Prop :=
  ∀ k, 0 < k → k < n → lo ≤ (k - 1) / 2 → ¬ w (f k) (f ((k - 1) / 2))

theorem pickChild_spec {w : α → α → Prop} (hw : SWO w) {q : Fpq α} (hl : q.buf.len = q.buf.cap)
    (hsz : q.buf.sz ≤ q.buf.cap) (hwins : ∀ a b, q.wins a b = true ↔ w a b) {i : Nat} (hi : i * 2 + 1 < q.buf.sz) :
    ∃ c, q.pickChild (i * 2 + 1) = some c ∧ 0 < c ∧ c < q.buf.sz ∧ (c - 1) / 2 = i ∧
      ∀ k, 0 < k → k < q.buf.sz → (k - 1) / 2 = i → ¬ w (q.buf.mem k) (q.buf.mem c) := by
  have irrefl : ∀ a, ¬ w a a := fun a h => hw.asym a a h h
  unfold pickChild
  by_cases h1 : i * 2 + 1 + 1 < q.buf.sz
  · rw [if_pos h1]
    simp only [load_eq hl (show i * 2 + 1 + 1 < q.buf.cap by omega), load_eq hl (show i * 2 + 1 < q.buf.cap by omega),
      Option.bind_eq_bind, Option.bind_some]
    by_cases hb : q.wins (q.buf.mem (i * 2 + 1 + 1)) (q.buf.mem (i * 2 + 1)) = true
    · refine ⟨i * 2 + 2, by simp [hb], by omega, by omega, by omega, ?_⟩
      intro k hk hkn hpk
      have : k = i * 2 + 1 ∨ k = i * 2 + 2 := by omega
      rcases this with rfl | rfl
      · exact hw.asym _ _ ((hwins _ _).1 hb)
      · exact irrefl _
    · refine ⟨i * 2 + 1, by simp [hb], by omega, by omega, by omega, ?_⟩
      intro k hk hkn hpk
      have : k = i * 2 + 1 ∨ k = i * 2 + 2 := by omega
      rcases this with rfl | rfl
      · exact irrefl _
      · intro hc; exact hb ((hwins _ _).2 hc)
  · rw [if_neg h1]
    refine ⟨i * 2 + 1, rfl, by omega, by omega, by omega, ?_⟩
    intro k hk hkn hpk
    have : k = i * 2 + 1 := by omega
    subst this; exact irrefl _

/-- Correctness of `bubble_down`. -/
theorem bubbleDown_spec {w : α → α → Prop} (hw : SWO w) (t lo : Nat) (m : Nat) :
    ∀ (i : Nat) (q : Fpq α), q.buf.sz - i = m → q.buf.len = q.buf.cap → q.buf.sz ≤ t → t < q.buf.cap → lo ≤ i →
      (∀ a b, q.wins a b = true ↔ w a b) →
      HeapDown w q.buf.mem q.buf.sz lo i →
      ∃ q' j, q.bubbleDown (some t) i = some (q', j) ∧ Same q q' ∧
        (i < q.buf.sz → j < q.buf.sz ∧ q'.buf.mem j = q.buf.mem i) ∧
        HeapFrom w q'.buf.mem q.buf.sz lo ∧
        (window q'.buf.mem 0 q.buf.sz).Perm (window q.buf.mem 0 q.buf.sz) := by
  induction m using Nat.strongRecOn with
  | _ m ih =>
  intro i q hm hl hst ht hlo hwins hh
  rw [bubbleDown]
  by_cases hlt : i * 2 + 1 < q.buf.sz
  case neg =>
    rw [if_neg hlt]
    refine ⟨q, i, rfl, Same.refl q, fun h => ⟨h, rfl⟩, ?_, List.Perm.refl _⟩
    intro k hk hkn hlok
    exact hh.1 k hk hkn hlok (by omega)
  rw [if_pos hlt]
  obtain ⟨c, ec, hc0, hcn, hpc, hcbest⟩ := pickChild_spec hw hl (by omega) hwins hlt
  simp only [ec, load_eq hl (show c < q.buf.cap by omega), load_eq hl (show i < q.buf.cap by omega),
    Option.bind_eq_bind, Option.bind_some]
  by_cases hb : q.wins (q.buf.mem c) (q.buf.mem i) = true
  · rw [if_pos hb]
    have hbw := (hwins _ _).1 hb
    obtain ⟨q1, e1, hs1, hm1⟩ := swap_eq (q := q) hl (t := t) (i := c) (j := i) ht (by omega) (by omega)
      (by omega) (by omega) (by omega)
    have hwins1 : ∀ a b, q1.wins a b = true ↔ w a b := by
      intro a b; rw [← hwins]; simp [wins, hs1.cmp, hs1.order]
    have hm1' : ∀ k, k < q.buf.sz → q1.buf.mem k = xchg q.buf.mem c i k := fun k hk => hm1 k (by omega)
    have hh1 : HeapDown w q1.buf.mem q1.buf.sz lo c := by
      rw [hs1.sz]
      constructor
      · intro k hk hkn hlok hpk
        rw [hm1' k hkn, hm1' _ (show (k-1)/2 < q.buf.sz by omega)]
        by_cases hpi : (k - 1) / 2 = i
        · rw [hpi, xchg_right]
          by_cases hkc : k = c
          · subst hkc; rw [xchg_left]; exact hw.asym _ _ hbw
          · rw [xchg_other _ hkc (by omega)]
            exact hcbest k hk hkn hpi
        · rw [xchg_other (k := (k-1)/2) _ hpk hpi]
          have hkc : k ≠ c := by intro h; subst h; exact hpi hpc
          by_cases hki : k = i
          · subst hki
            rw [xchg_right]
            exact hh.2 c hc0 hcn hpc hk hlok
          · rw [xchg_other _ hkc hki]
            exact hh.1 k hk hkn hlok hpi
      · intro k hk hkn hpk hcpos hlo'
        rw [hm1' k hkn, hpc, hm1' _ (show i < q.buf.sz by omega), xchg_right,
          xchg_other _ (show k ≠ c by omega) (show k ≠ i by omega)]
        have := hh.1 k hk hkn (by omega) (by omega)
        rwa [hpk] at this
    obtain ⟨q', j, e, hs, hj, hord, hperm⟩ := ih (q1.buf.sz - c) (by rw [hs1.sz]; omega) c q1 rfl
      (by rw [hs1.len, hs1.cap, hl]) (by rw [hs1.sz]; exact hst) (by rw [hs1.cap]; exact ht) (by omega) hwins1 hh1
    rw [hs1.sz] at hj hord hperm
    refine ⟨q', j, by simp [e1, e], hs1.trans hs, ?_, hord, ?_⟩
    · intro _
      refine ⟨(hj hcn).1, ?_⟩
      rw [(hj hcn).2, hm1' _ hcn, xchg_left]
    · refine hperm.trans ?_
      have : window q1.buf.mem 0 q.buf.sz = window (xchg q.buf.mem c i) 0 q.buf.sz := by
        apply window_congr; intro k hk; simpa using hm1' k hk
      rw [this]
      exact window_xchg_perm _ _ _ _ hcn (by omega)
  · rw [if_neg hb]
    refine ⟨q, i, rfl, Same.refl q, fun h => ⟨h, rfl⟩, ?_, List.Perm.refl _⟩
    intro k hk hkn hlok
    by_cases hpi : (k - 1) / 2 = i
    · have h1 := hcbest k hk hkn hpi
      rw [hpi]
      intro hc
      refine hw.ntrans _ _ _ h1 ?_ hc
      intro h2; exact hb ((hwins _ _).2 h2)
    · exact hh.1 k hk hkn hlok hpi

theorem heapifyLoop_spec {w : α → α → Prop} (hw : SWO w) (t : Nat) (m : Nat) :
    ∀ (q : Fpq α), q.buf.len = q.buf.cap → q.buf.sz ≤ t → t < q.buf.cap →
      (∀ a b, q.wins a b = true ↔ w a b) →
      HeapFrom w q.buf.mem q.buf.sz m →
      ∃ q', q.heapifyLoop (some t) m = some q' ∧ Same q q' ∧
        HeapFrom w q'.buf.mem q.buf.sz 0 ∧
        (window q'.buf.mem 0 q.buf.sz).Perm (window q.buf.mem 0 q.buf.sz) := by
  induction m with
  | zero => intro q _ _ _ _ hh; exact ⟨q, rfl, Same.refl q, hh, List.Perm.refl _⟩
  | succ m ih =>
    intro q hl hst ht hwins hh
    have hd : HeapDown w q.buf.mem q.buf.sz m m := by
      constructor
      · intro k hk hkn hlo hne; exact hh k hk hkn (by omega)
      · intro k hk hkn hpk hpos hlo; omega
    obtain ⟨q1, j, e1, hs1, _, hord1, hperm1⟩ := bubbleDown_spec hw t m _ m q rfl hl hst ht (Nat.le_refl _) hwins hd
    have hwins1 : ∀ a b, q1.wins a b = true ↔ w a b := by
      intro a b; rw [← hwins]; simp [wins, hs1.cmp, hs1.order]
    obtain ⟨q2, e2, hs2, hord2, hperm2⟩ := ih q1 (by rw [hs1.len, hs1.cap, hl]) (by rw [hs1.sz]; exact hst)
      (by rw [hs1.cap]; exact ht) hwins1 (by rw [hs1.sz]; exact hord1)
    rw [hs1.sz] at hord2 hperm2
    exact ⟨q2, by simp [heapifyLoop, e1, e2], hs1.trans hs2, hord2, hperm2.trans hperm1⟩

theorem heapFrom_zero {w : α → α → Prop} {f : Nat → α} {n : Nat} : HeapFrom w f n 0 ↔ HeapOrd w f n := by
  constructor
  · intro h k hk hkn; exact h k hk hkn (by omega)
  · intro h k hk hkn _; exact h k hk hkn

/-- the root of a heap is not beaten -/
theorem root_best {w : α → α → Prop} (hw : SWO w) {f : Nat → α} {n : Nat} (h : HeapOrd w f n) :
    ∀ k, k < n → ¬ w (f k) (f 0) := by
  intro k
  induction k using Nat.strongRecOn with
  | _ k ih =>
    intro hk
    by_cases h0 : k = 0
    · subst h0; intro hc; exact hw.asym _ _ hc hc
    · exact hw.ntrans _ _ _ (h k (by omega) hk) (ih ((k-1)/2) (by omega) (by omega))

end Fpq
end CCC
