import Verif.Model.Messages
/-
C66: the messages for result codes and entry statuses.
-/
namespace CCC

/-- The documented entry statuses, ccc/impl/impl_types.h:9-18. -/
def statuses : List Nat := [0, 1, 2, 4, 8, 16, 32]

/-- **C66** (results).  Every value has a message; no message is read from outside the table; the message tells the result:
different results have different messages, and values that are no result share one that no result has. -/
theorem C66_result_msg : (∀ n, ∃ m, resultMsg n = some m) ∧
    (∀ r r' : Res, resultMsg r.code = resultMsg r'.code → r = r') ∧
    ∀ n, (∀ r : Res, r.code ≠ n) → resultMsg n = some "error: invalid result provided no message exists" ∧
      ∀ r : Res, resultMsg n ≠ resultMsg r.code := by
  have lt : ∀ r : Res, r.code < 4 := by intro r; cases r <;> decide
  refine ⟨fun n => ?_, ?_, fun n hn => ?_⟩
  · by_cases h : n ≥ 4
    · exact ⟨_, if_pos h⟩
    · simp only [resultMsg, if_neg h]
      have : n = 0 ∨ n = 1 ∨ n = 2 ∨ n = 3 := by omega
      rcases this with rfl | rfl | rfl | rfl <;> exact ⟨_, rfl⟩
  · intro r r' h
    cases r <;> cases r' <;> first | rfl | (simp [resultMsg, resultMsgs, Res.code] at h)
  · have h4 : n ≥ 4 := by
      have h0 := hn .ok
      have h1 := hn .noAlloc
      have h2 := hn .memErr
      have h3 := hn .inputErr
      simp only [Res.code] at h0 h1 h2 h3
      omega
    refine ⟨if_pos h4, fun r => ?_⟩
    rw [resultMsg, if_pos h4]
    cases r <;> simp [resultMsg, resultMsgs, Res.code]

/-- **C66** (entry statuses).  Different documented statuses have different messages, and every combination of flags that is
none of them has one message that none of them has. -/
theorem C66_status_msg : (∀ a ∈ statuses, ∀ b ∈ statuses, statusMsg a = statusMsg b → a = b) ∧
    ∀ n, n ∉ statuses → statusMsg n = "error: entry encountered an unknown combination of flags" ∧
      ∀ a ∈ statuses, statusMsg n ≠ statusMsg a := by
  refine ⟨by decide, fun n hn => ?_⟩
  simp only [statuses, List.mem_cons, List.not_mem_nil, or_false, not_or] at hn
  obtain ⟨h0, h1, h2, h3, h4, h5, h6⟩ := hn
  have e : statusMsg n = "error: entry encountered an unknown combination of flags" := by
    simp only [statusMsg, Stat.vacant, Stat.occupied, Stat.insertError, Stat.searchError, Stat.deleteError, Stat.inputError,
      Stat.noUnwrap, h0, h1, h2, h3, h4, h5, h6, if_false]
  exact ⟨e, by rw [e]; decide⟩

example : ∃ n, (∀ r : Res, r.code ≠ n) ∧ resultMsg n ≠ none := ⟨7, by intro r; cases r <;> decide, by decide⟩
example : (3 : Nat) ∉ statuses ∧ (33 : Nat) ∉ statuses ∧ statusMsg 32 = "entry shall not be unwrapped by user to protect container" := by
  decide

end CCC
