import Verif.Proofs.SuffixText
/-
The word tokeniser of the suffix array and the text it gives back: C86. The specifications are `Spec.Divided` (the division of a text into
tokens) and `Spec.Tidy` in `Proofs/SuffixText.lean`.
-/

namespace CollateX

open Spec

/-- C86, the tokens: the word tokeniser divides every text, and in the only possible way. -/
theorem C86_tokens (s : Str) (ts : List Str) : saTokenize .word s = .ok ts ↔ Divided s ts := saTokenize_iff s ts

/-- C86, the text: `reprString` of a part of the text is divided into the same tokens as this part of the text. -/
theorem C86_text_back (s : Str) (ts : List Str) (h : saTokenize .word s = .ok ts) (offset length : Nat) :
    ∃ sa r, saOfText .word s = .ok sa ∧ reprString .word sa offset length = .ok r ∧
      saTokenize .word r = .ok ((ts.drop offset).take length) := by
  have ht := divided_isTok ((C86_tokens s ts).mp h)
  have hsub : ∀ t ∈ (ts.drop offset).take length, IsTok t := fun t hm => ht t (List.mem_of_mem_drop (List.mem_of_mem_take hm))
  refine ⟨mkSuffixArray ts, _, by unfold saOfText; rw [h]; rfl, reprString_eq .word ts offset length, ?_⟩
  simp only
  rw [replace_first _ hsub, replace_second _ hsub]
  exact (C86_tokens _ _).mpr (rendered_divided _ hsub)

/-- C86, nothing but spaces is lost. -/
theorem C86_only_spaces_lost (s : Str) (ts : List Str) (h : saTokenize .word s = .ok ts) : ts.flatten = s.filter (fun c => decide (c ≠ ' ')) := by
  have hd := (C86_tokens s ts).mp h
  clear h
  induction hd with
  | nil => rfl
  | space _ ih => rw [ih]; simp
  | newline _ ih => rw [List.flatten_cons, ih]; simp
  | @word w s ts _ h2 _ _ ih =>
    rw [List.flatten_cons, ih, List.filter_append]
    congr 1
    symm
    rw [List.filter_eq_self]
    exact fun c hc => by simpa using (h2 c hc).1

/-- C86, the whole text is given back as it was exactly if all its spaces are between two words. -/
theorem C86_exact (s : Str) : ∃ ts sa, saTokenize .word s = .ok ts ∧ saOfText .word s = .ok sa ∧
    (reprString .word sa 0 ts.length = .ok s ↔ Tidy s) := by
  obtain ⟨ts, hts⟩ : ∃ ts, saTokenize .word s = .ok ts := ⟨_, saTokenize_word s⟩
  have hd := (C86_tokens s ts).mp hts
  have ht := divided_isTok hd
  refine ⟨ts, mkSuffixArray ts, hts, by unfold saOfText; rw [hts]; rfl, ?_⟩
  rw [reprString_eq]
  simp only [List.drop_zero, List.take_length]
  rw [replace_first _ ht, replace_second _ ht]
  constructor
  · intro h
    rw [← Except.ok.inj h]
    exact rendered_tidy ts ht
  · intro h
    rw [(rendered_tidy_eq hd).1 h]

/-- C86, for characters: `reprString` gives exactly the part of the text. -/
theorem C86_bytes (s : Str) (offset length : Nat) : ∃ sa, saOfText .byte s = .ok sa ∧
    reprString .byte sa offset length = .ok ((s.drop offset).take length) := by
  refine ⟨mkSuffixArray (s.map (fun c => [c])), rfl, ?_⟩
  rw [reprString_eq]
  simp only
  rw [← List.map_drop, ← List.map_take, pyJoin_chars]

/-- The claim that every unit works is false: `UNIT_CHARACTER` decodes a string, which Python 3 cannot. -/
theorem C86_characters (s : Str) : saOfText .character s = .error .attributeError ∧ ¬ ∀ unit, ∃ sa, saOfText unit s = .ok sa := by
  refine ⟨rfl, fun h => ?_⟩
  obtain ⟨sa, h⟩ := h .character
  cases h

/-- The claim that texts come back as they were is false: runs of spaces do not. -/
theorem C86_spaces : (∃ sa, saOfText .word (S "a  b \n c") = .ok sa ∧ reprString .word sa 0 4 = .ok (S "a b\nc")) ∧ ¬ Tidy (S "a  b \n c") := by
  refine ⟨⟨mkSuffixArray [S "a", S "b", S "\n", S "c"], ?_, ?_⟩, ?_⟩
  · unfold saOfText
    rw [(by decide +kernel : saTokenize .word (S "a  b \n c") = .ok [S "a", S "b", S "\n", S "c"])]
    rfl
  · rw [reprString_eq]
    decide +kernel
  · intro h
    obtain ⟨_, a, b, _, hb, _, h2, _⟩ := h 1 (by decide)
    have : (S "a  b \n c")[2]? = some ' ' := by decide
    rw [this] at hb
    injection hb with hb
    exact h2 hb.symm

/-- A text that meets the hypotheses of `C86_tokens`, `C86_text_back` and `C86_only_spaces_lost`. -/
example : saTokenize .word (S "miss issi\nppi") = .ok [S "miss", S "issi", S "\n", S "ppi"] := by decide +kernel

/-- A tidy text with both spaces and line breaks. -/
example : Tidy (S "a b\nc") := by
  have : rendered [S "a", S "b", S "\n", S "c"] = S "a b\nc" := by decide +kernel
  rw [← this]
  apply rendered_tidy
  intro t ht
  simp only [List.mem_cons, List.not_mem_nil, or_false] at ht
  rcases ht with rfl | rfl | rfl | rfl
  · exact Or.inr (by decide)
  · exact Or.inr (by decide)
  · exact Or.inl rfl
  · exact Or.inr (by decide)

end CollateX
