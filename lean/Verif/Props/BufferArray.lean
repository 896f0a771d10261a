import Verif.Spec.Array
import Verif.Props.Buffer
/-
C61: the buffer is an array.  Specification: `Verif/Spec/Array.lean`.
-/
namespace CCC.Buf
open ArrSpec
variable {α : Type}

/-- The array a buffer stands for: all slots below the capacity, and the size. -/
def arr (b : Buf α) : Arr α := ⟨window b.mem 0 b.cap, b.sz⟩

theorem cells_get {b : Buf α} {i : Nat} : (window b.mem 0 b.cap)[i]? = if i < b.cap then some (b.mem i) else none := by
  split
  · rename_i h
    rw [List.getElem?_eq_getElem (by simpa using h)]; simp
  · rename_i h
    rw [List.getElem?_eq_none (by simpa using h)]

theorem window_upd {f : Nat → α} {n i : Nat} {x : α} : window (upd f i x) 0 n = (window f 0 n).set i x := by
  apply List.ext_getElem (by simp)
  intro j h1 h2
  simp only [window_length] at h1
  simp [List.getElem_set, upd, eq_comm]

theorem resize_window {b : Buf α} {c : Nat} {junk : Nat → α} :
    resize (window b.mem 0 b.cap) c junk = window (fun i => if i < b.cap then b.mem i else junk i) 0 c := by
  unfold resize
  apply List.ext_getElem (by simp)
  intro j h1 h2
  simp only [List.getElem_map, List.getElem_range, window_getElem, Nat.zero_add, cells_get]
  split <;> rfl

theorem room_spec {b : Buf α} (h : b.Good) (ans : AllocAns α) :
    match room b.hasAlloc b.arr ans with
    | some l => ∃ b', b.allocBack ans = (b', some b.sz) ∧ b'.Good ∧ b'.hasAlloc = b.hasAlloc ∧ b'.arr = ⟨l, b.sz + 1⟩
    | none => b.allocBack ans = (b, none) := by
  obtain ⟨mem, len, sz, cap, ha⟩ := b
  simp only [Good] at h
  obtain ⟨rfl, hle⟩ := h
  by_cases hf : sz = len
  · subst hf
    by_cases h0 : sz = 0
    · subst h0
      cases ha <;> cases ans <;> simp [allocBack, fn, alloc, startCapacity, Good, room, arr, resize, window, Function.comp_def]
    · have h2 : sz * 2 ≠ 0 := by omega
      cases ha <;> cases ans <;> simp [allocBack, fn, alloc, Good, h0, h2, room, arr]
      refine ⟨by omega, ?_⟩
      exact (resize_window (b := ⟨mem, sz, sz, sz, true⟩)).symm
  · have hl : sz < len := by omega
    simp only [room, arr, window_length, hl, if_true]
    exact ⟨⟨mem, len, sz + 1, len, ha⟩, by simp [allocBack, hf], by simp [Good]; omega, rfl, rfl⟩

theorem push_spec {b : Buf α} (h : b.Good) (x : α) (ans : AllocAns α) :
    ∃ b', (b.pushBack x ans).map (fun r => (r.1, Out.slot r.2)) = some (b', (push b.hasAlloc b.arr x ans).2) ∧ b'.Good ∧
      b'.hasAlloc = b.hasAlloc ∧ b'.arr = (push b.hasAlloc b.arr x ans).1 := by
  have hr := room_spec h ans
  unfold push
  split <;> rename_i e <;> rw [e] at hr
  · obtain ⟨b', e1, hg, ha, harr⟩ := hr
    have hn : b'.sz = b.sz + 1 := congrArg Arr.n harr
    have hcells : window b'.mem 0 b'.cap = _ := congrArg Arr.cells harr
    have hlt : b.sz < b'.len := by unfold Good at hg; omega
    refine ⟨{ b' with mem := upd b'.mem b.sz x }, by simp [pushBack, e1, store, hlt, arr], by simpa [Good] using hg, ha, ?_⟩
    simp only [arr, window_upd, hcells, hn]
  · exact ⟨b, by simp [pushBack, hr], h, rfl, rfl⟩

/-- One call on an intact buffer does what is specified for the array. -/
theorem array_step {b : Buf α} (h : b.Good) (op : Op α) (hs : safe b.arr op) :
    ∃ b', b.step op = some (b', (ArrSpec.step b.hasAlloc b.arr op).2) ∧ b'.Good ∧ b'.hasAlloc = b.hasAlloc ∧
      b'.arr = (ArrSpec.step b.hasAlloc b.arr op).1 := by
  have hg := h
  simp only [Good] at hg
  obtain ⟨hl, hle⟩ := hg
  cases op with
  | alloc c f =>
    have hs : b.sz ≤ c := hs
    cases f with
    | none => exact ⟨b, rfl, h, rfl, rfl⟩
    | some ans =>
      by_cases hc : c = 0
      · subst hc
        exact ⟨{ b with len := 0, cap := 0 }, by simp [Buf.step, alloc, ArrSpec.step], by simp [Good]; omega, rfl,
          by simp [arr, ArrSpec.step, window]⟩
      · cases ans with
        | none => exact ⟨b, by simp [Buf.step, alloc, ArrSpec.step, hc], h, rfl, by simp [ArrSpec.step, hc]⟩
        | some junk =>
          refine ⟨{ b with mem := fun i => if i < b.len then b.mem i else junk i, len := c, cap := c },
            by simp [Buf.step, alloc, ArrSpec.step, hc], by simp [Good]; omega, rfl, ?_⟩
          simp [arr, ArrSpec.step, hc, resize_window, hl]
  | pushBack x ans => exact push_spec h x ans
  | emplaceBack x ans => exact push_spec h x ans
  | allocBack ans =>
    have hr := room_spec h ans
    simp only [Buf.step, ArrSpec.step]
    split <;> rename_i e <;> rw [e] at hr
    · obtain ⟨b', e1, hg, ha, harr⟩ := hr
      exact ⟨b', by simp [e1, arr], hg, ha, harr⟩
    · exact ⟨b, by simp [hr], h, rfl, rfl⟩
  | popBack =>
    by_cases h0 : b.sz = 0
    · exact ⟨b, by simp [Buf.step, popBack, popBackN, h0, ArrSpec.step, arr], h, rfl, by simp [ArrSpec.step, arr, h0]⟩
    · exact ⟨{ b with sz := b.sz - 1 }, by simp [Buf.step, popBack, popBackN, ArrSpec.step, arr, h0],
        by simp [Good]; omega, rfl, by simp [ArrSpec.step, arr, h0]⟩
  | popBackN k =>
    by_cases h0 : b.sz < k
    · exact ⟨b, by simp [Buf.step, popBackN, h0, ArrSpec.step, arr], h, rfl, by simp [ArrSpec.step, arr, h0]⟩
    · exact ⟨{ b with sz := b.sz - k }, by simp [Buf.step, popBackN, ArrSpec.step, arr, h0],
        by simp [Good]; omega, rfl, by simp [ArrSpec.step, arr, h0]⟩
  | swap i j =>
    simp only [ArrSpec.step, arr, cells_get]
    by_cases hi : i < b.cap
    · by_cases hj : j < b.cap
      · by_cases he : i = j
        · exact ⟨b, by simp [Buf.step, swap, he, hj], h, rfl, by simp [he, hj]⟩
        · have he' : j ≠ i := fun e => he e.symm
          refine ⟨{ b with mem := upd (upd b.mem i (b.mem j)) j (b.mem i) }, ?_, by simpa [Good] using h, rfl, ?_⟩
          · have h1 : ¬ (i ≥ b.cap ∨ j ≥ b.cap ∨ j = i) := by omega
            simp [Buf.step, swap, load, store, hl, hi, hj, he, he']
          · simp [hi, hj, he, window_upd]
      · exact ⟨b, by simp [Buf.step, swap, hi, hj], h, rfl, by simp [hi, hj]⟩
    · exact ⟨b, by simp [Buf.step, swap, hi], h, rfl, by simp [hi]⟩
  | copy d k =>
    simp only [ArrSpec.step, arr, cells_get, window_length]
    by_cases hk : k < b.cap
    · by_cases hd : d < b.cap
      · by_cases he : d = k
        · subst he
          refine ⟨b, by simp [Buf.step, copy, hd], h, rfl, ?_⟩
          simp only [hd, if_true]
          congr 1
          apply List.ext_getElem (by simp)
          intro j h1 h2
          simp only [List.getElem_set, window_getElem, Nat.zero_add]
          split
          · rename_i e; rw [e]
          · rfl
        · refine ⟨{ b with mem := upd b.mem d (b.mem k) }, ?_, by simpa [Good] using h, rfl, ?_⟩
          · simp [Buf.step, copy, load, store, hl, hk, hd, he]
          · simp [hk, hd, window_upd]
      · exact ⟨b, by simp [Buf.step, copy, hk, hd], h, rfl, by simp [hk, hd]⟩
    · exact ⟨b, by simp [Buf.step, copy, hk], h, rfl, by simp [hk]⟩
  | write i x =>
    simp only [ArrSpec.step, arr, window_length]
    by_cases hi : i < b.cap
    · refine ⟨{ b with mem := upd b.mem i x }, ?_, by simpa [Good] using h, rfl, by simp [hi, window_upd]⟩
      have h1 : ¬ (i ≥ b.cap) := by omega
      have h2 : b.cap ≠ 0 := by omega
      simp [Buf.step, write, hl, h2, at_, store, hi, h1]
    · refine ⟨b, ?_, h, rfl, by simp [hi]⟩
      have h1 : i ≥ b.cap := by omega
      simp [Buf.step, write, at_, h1, hi]
  | emplace i x =>
    simp only [ArrSpec.step, arr, window_length]
    by_cases hi : i < b.cap
    · refine ⟨{ b with mem := upd b.mem i x }, ?_, by simpa [Good] using h, rfl, by simp [hi, window_upd]⟩
      have h1 : ¬ (i ≥ b.cap) := by omega
      simp [Buf.step, emplace, hl, at_, store, hi, h1]
    · refine ⟨b, ?_, h, rfl, by simp [hi]⟩
      have h1 : i ≥ b.cap := by omega
      simp [Buf.step, emplace, at_, h1, hi]
  | erase lax i =>
    have hs : lax = true ∨ b.sz ≤ i + 2 := hs
    simp only [ArrSpec.step]
    by_cases hi : i < b.sz
    · rw [if_pos (show i < b.arr.n from hi)]
      simp only [arr]
      have key : ∀ m : Nat → α, (∀ j, j < b.sz - 1 → m j = if i ≤ j then b.mem (j + 1) else b.mem j) →
          (∀ j, b.sz - 1 ≤ j → j < b.cap → m j = b.mem j) →
          window m 0 b.cap = ((window b.mem 0 b.cap).take b.sz).eraseIdx i ++ (window b.mem 0 b.cap).drop (b.sz - 1) := by
        intro m h1 h2
        apply List.ext_getElem
        · simp [List.length_eraseIdx, Nat.min_eq_left hle, hi]; omega
        · intro j k1 k2
          simp only [window_length] at k1
          simp only [window_getElem, Nat.zero_add]
          rw [List.getElem_append]
          split
          · rename_i k3
            have k4 : j < b.sz - 1 := by simpa [List.length_eraseIdx, Nat.min_eq_left hle, hi] using k3
            rw [h1 j k4, List.getElem_eraseIdx]
            by_cases hij : i ≤ j
            · rw [if_pos hij, dif_neg (by omega)]; simp
            · rw [if_neg hij, dif_pos (by omega)]; simp
          · rename_i k3
            have k4 : ¬ j < b.sz - 1 := by simpa [List.length_eraseIdx, Nat.min_eq_left hle, hi] using k3
            rw [h2 j (by omega) k1]
            simp [List.length_eraseIdx, Nat.min_eq_left hle, hi]
            congr 1; omega
      have h0 : ¬ (b.sz = 0 ∨ i ≥ b.sz) := by omega
      by_cases h1 : b.sz = 1
      · refine ⟨{ b with sz := 0 }, by simp [Buf.step, erase, h1, hi]; omega, by simp [Good]; omega, rfl, ?_⟩
        have := key b.mem (by intro j hj; omega) (by intros; rfl)
        simp only [Arr.mk.injEq]
        exact ⟨this, by omega⟩
      · by_cases h2 : i = b.sz - 1
        · refine ⟨{ b with sz := b.sz - 1 }, ?_, by simp [Good]; omega, rfl, ?_⟩
          · simp only [Buf.step, erase]
            rw [if_neg h0, if_neg h1, if_pos h2]; rfl
          · simp only [Arr.mk.injEq, and_true]
            apply key
            · intro j hj; rw [if_neg (by omega)]
            · intros; rfl
        · refine ⟨{ b with mem := blockMove b.mem i (i + 1) (b.sz - (i + 1)), sz := b.sz - 1 }, ?_, by simp [Good]; omega, rfl, ?_⟩
          · simp only [Buf.step, erase]
            rw [if_neg h0, if_neg h1, if_neg h2]
            have a1 : ¬ (i + 1 + (b.sz - (i + 1)) > b.len) := by omega
            have a2 : ¬ (2 ≤ b.sz - (i + 1) ∧ lax = false) := by
              rcases hs with hs | hs
              · simp [hs]
              · omega
            simp only [a1, a2, if_false]; rfl
          · simp only [Arr.mk.injEq, and_true]
            apply key
            · intro j hj
              simp only [blockMove]
              by_cases hij : i ≤ j
              · rw [if_pos ⟨hij, by omega⟩, if_pos hij]; congr 1; omega
              · rw [if_neg (by omega), if_neg hij]
            · intro j k1 k2
              simp only [blockMove]
              rw [if_neg (by omega)]
    · rw [if_neg (show ¬ i < b.arr.n from hi)]
      exact ⟨b, by simp [Buf.step, erase]; omega, h, rfl, rfl⟩
  | insert i x ans =>
    have hs : b.sz ≤ i := hs
    simp only [ArrSpec.step]
    have hc : b.arr.cells.length = b.cap := by simp [arr]
    rw [hc]
    by_cases h1 : b.cap = 0 ∨ b.sz < i
    · rw [if_pos (show b.cap = 0 ∨ b.arr.n < i from h1)]
      exact ⟨b, by simp [Buf.step, insert]; omega, h, rfl, rfl⟩
    · rw [if_neg (show ¬ (b.cap = 0 ∨ b.arr.n < i) from h1)]
      have h2 : i = b.sz := by omega
      rw [if_pos (show i = b.arr.n from h2)]
      have e : b.step (.insert i x ans) = (b.pushBack x ans).map (fun r => (r.1, Out.slot r.2)) := by
        simp only [Buf.step]
        rw [insert, if_neg (by omega), if_pos h2]
      rw [e]
      exact push_spec h x ans
  | sizePlus k =>
    simp only [ArrSpec.step, arr, window_length, Buf.step, sizePlus]
    by_cases h0 : b.cap < b.sz + k
    · exact ⟨{ b with sz := b.cap }, by simp [h0], by simp [Good, hl], rfl, by simp [h0]⟩
    · exact ⟨{ b with sz := b.sz + k }, by simp [h0], by simp [Good, hl]; omega, rfl, by simp [h0]⟩
  | sizeMinus k =>
    simp only [ArrSpec.step, arr, Buf.step, sizeMinus]
    by_cases h0 : b.sz < k
    · exact ⟨{ b with sz := 0 }, by simp [h0], by simp [Good, hl], rfl, by simp [h0]⟩
    · exact ⟨{ b with sz := b.sz - k }, by simp [h0], by simp [Good, hl]; omega, rfl, by simp [h0]⟩
  | sizeSet k =>
    simp only [ArrSpec.step, arr, window_length, Buf.step, sizeSet]
    by_cases h0 : b.cap < k
    · exact ⟨{ b with sz := b.cap }, by simp [h0], by simp [Good, hl], rfl, by simp [h0]⟩
    · exact ⟨{ b with sz := k }, by simp [h0], by simp [Good, hl]; omega, rfl, by simp [h0]⟩

/-- **C61 (partial).**  Every history of buffer calls, over memory with arbitrary contents and with every answer of the allocation
function, answers what the array answers and leaves the buffer with exactly the cells and the size of the array.  Missing: the calls that
`safe` excludes, which the code gets wrong (`C01_shrink_then_push_undefined`, `C05_insert_duplicates`, `C01_erase_overlap_undefined`). -/
theorem C61_buffer_array_partial (mem : Nat → α) (cap : Nat) (hasAlloc : Bool) (ops : List (Op α))
    (hs : safeRun hasAlloc ⟨window mem 0 cap, 0⟩ ops) :
    ∃ b', (Buf.init mem cap hasAlloc).runOuts ops = some (b', (ArrSpec.run hasAlloc ⟨window mem 0 cap, 0⟩ ops).2) ∧
      window b'.mem 0 b'.cap = (ArrSpec.run hasAlloc ⟨window mem 0 cap, 0⟩ ops).1.cells ∧
      b'.sz = (ArrSpec.run hasAlloc ⟨window mem 0 cap, 0⟩ ops).1.n := by
  have key : ∀ (ops : List (Op α)) (b : Buf α), b.Good → b.hasAlloc = hasAlloc → safeRun hasAlloc b.arr ops →
      ∃ b', b.runOuts ops = some (b', (ArrSpec.run hasAlloc b.arr ops).2) ∧ b'.arr = (ArrSpec.run hasAlloc b.arr ops).1 := by
    intro ops
    induction ops with
    | nil => intro b _ _ _; exact ⟨b, rfl, rfl⟩
    | cons op ops ih =>
      intro b h ha hs
      obtain ⟨b1, e1, h1, ha1, r1⟩ := array_step h op hs.1
      rw [ha] at e1 r1 ha1
      obtain ⟨b2, e2, r2⟩ := ih b1 h1 ha1 (by rw [r1]; exact hs.2)
      rw [r1] at e2 r2
      exact ⟨b2, by simp [runOuts, e1, e2, ArrSpec.run], by simpa [ArrSpec.run] using r2⟩
  obtain ⟨b', e, r⟩ := key ops (Buf.init mem cap hasAlloc) (by simp [Good, init]) rfl hs
  exact ⟨b', e, congrArg Arr.cells r, congrArg Arr.n r⟩

/-- A history with growth, random access and removal meets the hypothesis, and ends with the cells one expects. -/
example : let ops : List (Op Nat) := [.pushBack 5 none, .emplaceBack 6 none, .pushBack 7 (some fun i => i), .write 3 9, .swap 0 2,
      .copy 1 3, .erase true 0, .emplace 2 4, .insert 2 8 none]
    safeRun true ⟨window (fun _ => 0) 0 2, 0⟩ ops ∧ (ArrSpec.run true ⟨window (fun _ => 0) 0 2, 0⟩ ops).1.cells = [9, 5, 8, 9] ∧
    (ArrSpec.run true ⟨window (fun _ => 0) 0 2, 0⟩ ops).1.n = 3 := by
  refine ⟨?_, by decide, by decide⟩
  simp [safeRun, safe, ArrSpec.step, push, room, resize, window, List.range_succ]

end CCC.Buf
