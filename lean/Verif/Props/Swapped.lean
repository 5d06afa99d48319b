import Verif.Proofs.Swapped
import Verif.Props.Passage
import Verif.Props.Textbook
/-
Passages that changed places: C109.
-/

namespace CollateX
open Spec

/-- The columns for two texts in which `X` and `Y` stand in different order: the longer one is in both rows, the other one is left out in one row
where the other row has it. Of two passages of the same length, that which stands first in the first text is in both rows. -/
def Spec.transposedColumns (P X Y Q : List Str) : List Pairing :=
  let both := List.map (fun s : Str => ((some s, some s) : Pairing))
  let first := List.map (fun s : Str => ((some s, none) : Pairing))
  let second := List.map (fun s : Str => ((none, some s) : Pairing))
  if Y.length ≤ X.length then both P ++ second Y ++ both X ++ first Y ++ both Q else both P ++ first X ++ both Y ++ second X ++ both Q

theorem showsPairs_marked (seg : Bool) (cols : List Pairing) : showsPairs seg (cols.map marked) = showsArrangement seg cols := by
  unfold showsPairs showsArrangement
  simp only [List.map_map]
  rfl

theorem collation_transposed {P X Y Q : List Str} (hn : (P ++ X ++ Y ++ Q).Nodup) :
    collation (P ++ X ++ Y ++ Q) (P ++ Y ++ X ++ Q) = (transposedColumns P X Y Q).map marked := by
  have h1 : (P ++ (X ++ Y) ++ Q).Nodup := by simpa using hn
  have h2 : (P ++ (Y ++ X) ++ Q).Nodup := by
    refine (List.Perm.nodup_iff ?_).mp h1
    exact ((List.perm_append_comm (l₁ := X) (l₂ := Y)).append_left P).append_right Q
  have k1 := (List.nodup_append.mp h1).1
  have k2 := (List.nodup_append.mp h2).1
  have hXY := (List.nodup_append.mp k1).2.1
  rw [List.append_assoc P X Y, List.append_assoc P Y X, collation_suffix h1 h2, collation_prefix k1 k2]
  unfold transposedColumns
  by_cases hl : Y.length ≤ X.length
  · rw [if_pos hl]
    by_cases hX : X = []
    · subst hX
      obtain rfl := List.length_eq_zero_iff.mp (Nat.le_zero.mp hl)
      rw [List.append_nil, collation_nil]
      simp [inBoth]
    · rw [collation_swap_first hXY hl hX]
      simp [inBoth, onlyLower, onlyUpper]
  · rw [if_neg hl, collation_swap_second hXY (by omega)]
    simp [inBoth, onlyLower, onlyUpper]

/-- C109. Two witnesses with the same distinct words, in which two neighbouring passages changed places. The longer passage is aligned word by
word, with what stands before the two and what stands after them; the shorter one is shown as an addition of one witness in one place and as
an addition of the other in another. If they have the same length, the passage that stands first in the first witness is aligned. -/
theorem C109_transposed (env : Env) (hts : TopoSpec env.topo) (wA wB : Witness) (hv : Valid [wA, wB])
    (hs : ∀ w ∈ [wA, wB], w.sigil ≠ []) (o : Opts) (ho : ExactMatching o) (hf : o.pfilter = none)
    (P X Y Q : List Str) (hA : strings wA = P ++ X ++ Y ++ Q) (hB : strings wB = P ++ Y ++ X ++ Q) (hn : (strings wA).Nodup) :
    ∃ t, collateTable env [wA, wB] o = .ok t ∧ markedStrings t = showsArrangement o.segmentation (transposedColumns P X Y Q) := by
  obtain ⟨t, h1, h2⟩ := C102_two_witnesses env hts wA wB hv hs o ho hf
  rw [hA] at hn
  rw [hA, hB, collation_transposed hn, showsPairs_marked] at h2
  exact ⟨t, h1, h2⟩

/-- The hypotheses of C109, and two tables: passages of different length, and single words. -/
example : TopoSpec exampleEnv.topo ∧ Valid [wordsWitness "A" ["he", "sat", "down", "then", "."], wordsWitness "B" ["he", "then", "sat", "down", "."]] ∧
    (strings (wordsWitness "A" ["he", "sat", "down", "then", "."])).Nodup ∧
    (∃ t, collateTable exampleEnv [wordsWitness "A" ["he", "sat", "down", "then", "."], wordsWitness "B" ["he", "then", "sat", "down", "."]] {} = .ok t ∧
      markedStrings t = [[(false, some [S "he"]), (true, none), (false, some [S "sat", S "down"]), (true, some [S "then"]), (false, some [S "."])],
        [(false, some [S "he"]), (true, some [S "then"]), (false, some [S "sat", S "down"]), (true, none), (false, some [S "."])]]) ∧
    ∃ t, collateTable exampleEnv [wordsWitness "A" ["black", "old", "cat"], wordsWitness "B" ["old", "black", "cat"]] {} = .ok t ∧
      markedStrings t = [[(true, none), (false, some [S "black"]), (true, some [S "old"]), (false, some [S "cat"])],
        [(true, some [S "old"]), (false, some [S "black"]), (true, none), (false, some [S "cat"])]] := by
  refine ⟨kahn_spec, valid_of_check (by decide) (by decide) (by decide) (by decide), by decide, ?_, ?_⟩
  · obtain ⟨t, h1, h2⟩ := C109_transposed exampleEnv kahn_spec (wordsWitness "A" ["he", "sat", "down", "then", "."])
      (wordsWitness "B" ["he", "then", "sat", "down", "."]) (valid_of_check (by decide) (by decide) (by decide) (by decide)) (by decide) {}
      ⟨rfl, rfl, rfl⟩ rfl [S "he"] [S "sat", S "down"] [S "then"] [S "."] (by decide) (by decide) (by decide)
    exact ⟨t, h1, h2.trans (by decide +kernel)⟩
  · obtain ⟨t, h1, h2⟩ := C109_transposed exampleEnv kahn_spec (wordsWitness "A" ["black", "old", "cat"])
      (wordsWitness "B" ["old", "black", "cat"]) (valid_of_check (by decide) (by decide) (by decide) (by decide)) (by decide) {}
      ⟨rfl, rfl, rfl⟩ rfl [] [S "black"] [S "old"] [S "cat"] (by decide) (by decide) (by decide)
    exact ⟨t, h1, h2.trans (by decide +kernel)⟩

/-- C109, why the words must be distinct: `the cat` and `the dog` change places, but as they have a word in common, they are put below each
other, word by word. -/
theorem C109_common_word : ∃ t, collateTable exampleEnv [wordsWitness "A" ["the", "cat", "the", "dog"], wordsWitness "B" ["the", "dog", "the", "cat"]] {} =
      .ok t ∧ markedStrings t = [[(false, some [S "the"]), (true, some [S "cat"]), (false, some [S "the"]), (true, some [S "dog"])],
        [(false, some [S "the"]), (true, some [S "dog"]), (false, some [S "the"]), (true, some [S "cat"])]] ∧
    markedStrings t ≠ showsArrangement true (transposedColumns [] [S "the", S "cat"] [S "the", S "dog"] []) := by
  obtain ⟨t, h1, h2⟩ := C102_two_witnesses exampleEnv kahn_spec (wordsWitness "A" ["the", "cat", "the", "dog"])
    (wordsWitness "B" ["the", "dog", "the", "cat"]) (valid_of_check (by decide) (by decide) (by decide) (by decide)) (by decide) {}
    ⟨rfl, rfl, rfl⟩ rfl
  have h3 : markedStrings t = [[(false, some [S "the"]), (true, some [S "cat"]), (false, some [S "the"]), (true, some [S "dog"])],
      [(false, some [S "the"]), (true, some [S "dog"]), (false, some [S "the"]), (true, some [S "cat"])]] := h2.trans (by decide +kernel)
  exact ⟨t, h1, h3, by rw [h3]; decide +kernel⟩

end CollateX
