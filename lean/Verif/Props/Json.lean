/-
Property theorems about JSON values and the text channel (C07, C49).
-/
import Verif.JsonText

namespace MM

/-- **C07** A JSON value written as text to a blob and read back through the
line based channel parses to the value that was written. -/
theorem C07_json_channel (T : FloatText) (j : Json) (h : j.WF) :
    loads T (gitText (dumps T j)) = some j := by
  rw [gitText_dumps, loads_dumps T j h]

/-- **C07** Different JSON values never have the same text. -/
theorem C07_text_injective (T : FloatText) (a b : Json) (ha : a.WF) (hb : b.WF)
    (h : dumps T a = dumps T b) : a = b := by
  have h1 := loads_dumps T a ha
  rw [h, loads_dumps T b hb] at h1
  exact (Option.some.inj h1).symm

/-- **C07** The text is printable ASCII, whatever the strings in the value hold. -/
theorem C07_text_ascii (T : FloatText) (j : Json) :
    ∀ c ∈ dumps T j, 0x20 ≤ c.toNat ∧ c.toNat ≤ 0x7e :=
  plain_dumps T j

/-- **C49** Text survives the channel exactly when newlines are its only line
separators and it does not end with one. -/
theorem C49_channel_exact (s : Str) :
    gitText s = s ↔ (∀ c ∈ s, isLineSep c = true → c = '\n') ∧ s.getLast? ≠ some '\n' := by
  constructor
  · intro h
    have h1 : ∀ c ∈ s, isLineSep c = true → c = '\n' := by
      have := gitText_sep s
      rwa [h] at this
    refine ⟨h1, ?_⟩
    intro hl
    obtain ⟨t, rfl⟩ : ∃ t, s = t ++ ['\n'] := by
      obtain ⟨hne, hl⟩ := List.getLast?_eq_some_iff.mp hl
      exact ⟨hne, hl⟩
    exact gitText_trailing (fun c hc => h1 c (by simp [hc])) h
  · rintro ⟨h1, h2⟩
    exact gitText_newline h1 h2

/-- **C49** (negation) Some texts do not survive. -/
theorem C49_false : ∃ s : Str, gitText s ≠ s := ⟨c!"line\n", by decide⟩

/-! Concrete cases -/

/-- 0.5 = 2^52 * 2^(1021 - 1074) -/
def Flt.half : Flt := ⟨false, 2 ^ 52, 1021, by omega⟩

def Json.sample : Json :=
  .obj [(c!"äß", .arr [.null, .bool true, .int (-7), .flt Flt.half]),
    (c!"line  \"q\"\\", .obj [(c!"", .str c!"𝄞\x00")])]

example : Json.sample.WF := by
  simp [Json.sample, Json.WF, Json.WFObj, Json.WFArr, dkeys]
example : loads FloatText.sample (gitText (dumps FloatText.sample Json.sample)) = some Json.sample :=
  C07_json_channel _ _ (by simp [Json.sample, Json.WF, Json.WFObj, Json.WFArr, dkeys])
example : dumpStr c!"𝄞 " = c!"\"\\ud834\\udd1e\\u2028\"" := by decide
example : gitText c!"a\nb" = c!"a\nb" ∧ gitText c!"a\r\nb " = c!"a\nb" := by decide

end MM
