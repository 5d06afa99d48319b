import Verif.Proofs.Passage
/-
Passages that two witnesses have in common: C97.
-/

namespace CollateX
open Spec

/-- The texts `A1 X A2` and `B1 X B2` have the passage `X` in common: its words are distinct and occur in no other place, and no word before
it in one text occurs after it in the other. -/
structure Spec.CommonPassage (A1 X A2 B1 B2 : List Str) : Prop where
  ne : X ≠ []
  distinct : X.Nodup
  elsewhere : ∀ x ∈ X, x ∉ A1 ∧ x ∉ A2 ∧ x ∉ B1 ∧ x ∉ B2
  before_after : ∀ s ∈ A1, s ∉ B2
  after_before : ∀ s ∈ A2, s ∉ B1

/-- The passage is more than half as long as the shorter of what stands before it in one text and after it in the other. -/
structure Spec.LongPassage (A1 X A2 B1 B2 : List Str) : Prop where
  first : min A1.length B2.length < 2 * X.length
  second : min A2.length B1.length < 2 * X.length

/-- An arrangement that no other arrangement of the same texts surpasses. -/
def Spec.BestArrangement (A B : List Str) (cols : List Pairing) : Prop :=
  Arrangement A B cols ∧ ∀ cols', Arrangement A B cols' → balance cols' ≤ balance cols

/-- The rows of a table that shows an arrangement, with the mark of each column: variant if the two strings differ. With segmentation
neighbouring columns with the same mark are put together. -/
def Spec.showsArrangement (seg : Bool) (cols : List Pairing) : List (List (Bool × Option (List Str))) :=
  let rows := [cols.map (fun c => (decide (c.1 ≠ c.2), c.1.map (fun s => [s]))), cols.map (fun c => (decide (c.1 ≠ c.2), c.2.map (fun s => [s])))]
  if seg then rows.map mergedRuns else rows

/-- The table of two witnesses shows a best arrangement, without and with segmentation. -/
theorem best_marked (env : Env) (hts : TopoSpec env.topo) (wA wB : Witness) (hv : Valid [wA, wB])
    (hs : ∀ w ∈ [wA, wB], w.sigil ≠ []) (hrep : NoRepeats wB) (o : Opts) (ho : ExactMatching o) (hf : o.pfilter = none) :
    ∃ t cols, collateTable env [wA, wB] o = .ok t ∧ BestArrangement (strings wA) (strings wB) cols ∧
      markedStrings t = showsArrangement o.segmentation cols := by
  have ho1 : ExactMatching { o with segmentation := false } := ⟨ho.astar, ho.detect, ho.near⟩
  obtain ⟨t, cols, ht, h2, harr, hbest⟩ := C65_best_partial env hts wA wB hv hs hrep { o with segmentation := false } ho1 hf rfl
  have hlen : t.columns.length = cols.length := by
    obtain ⟨_, h3, _⟩ := C26_table_shape env hts [wA, wB] hv hs { o with segmentation := false } ho1 t ht
    have hl := congrArg List.length h2
    simp only [List.length_map, List.length_cons, List.length_nil] at hl
    obtain ⟨r1, r2, hr⟩ : ∃ r1 r2, t.rows = [r1, r2] := by
      match t.rows, hl with
      | [r1, r2], _ => exact ⟨r1, r2, rfl⟩
    have h4 := (h3 r1 (by rw [hr]; simp)).1
    unfold TwoRows at h2
    rw [hr] at h2
    simp only [List.map_cons, List.map_nil, List.cons.injEq, and_true] at h2
    have h5 := congrArg List.length h2.1
    simp only [List.length_map] at h5
    omega
  have hmarks : t.columns.map Column.variant = cols.map (fun c => decide (c.1 ≠ c.2)) := by
    apply List.ext_getElem?
    intro j
    rw [List.getElem?_map, List.getElem?_map]
    by_cases hj : j < t.columns.length
    · have hc := List.getElem?_eq_getElem hj
      have hd := List.getElem?_eq_getElem (show j < cols.length by omega)
      rw [hc, hd, Option.map_some, Option.map_some, Option.some.injEq]
      have k1 := C77_variant_iff_differ_partial env hts wA wB hv hs hrep { o with segmentation := false } ho1 hf t ht j _ hc
      rw [twoRows_agree h2 hd (harr.full _ (List.getElem_mem _))] at k1
      rw [Bool.eq_iff_iff, k1, decide_eq_true_iff]
    · rw [List.getElem?_eq_none (by omega), List.getElem?_eq_none (by omega)]
      rfl
  have hms : markedStrings t = showsArrangement false cols := by
    rw [markedStrings_eq]
    unfold tableSummary
    simp only
    rw [h2, hmarks]
    simp only [List.map_cons, List.map_nil, List.zip_map']
    simp [showsArrangement]
  cases hseg : o.segmentation with
  | false =>
    have ho' : { o with segmentation := false } = o := by rw [← hseg]
    rw [ho'] at ht
    exact ⟨t, cols, ht, ⟨harr, hbest⟩, hms⟩
  | true =>
    obtain ⟨t1, t', k1, k2, k3⟩ := C92_segmentation_merges_runs env hts wA wB hv hs o ho
    rw [ht] at k1
    obtain rfl := Except.ok.inj k1
    have ho' : { o with segmentation := true } = o := by rw [← hseg]
    rw [ho'] at k2
    refine ⟨t', cols, k2, ⟨harr, hbest⟩, ?_⟩
    rw [markedStrings_merged k3, hms]
    rfl

/-- C97 for passages that are long enough (what is missing: shorter passages, for which the claim is false, see `C97_short` and
`C97_short_same_place`) and second witnesses without equal neighbours. Two witnesses have a passage in common: the table aligns it word
by word, and what stands before it and what stands after it are arranged as well as possible. -/
theorem C97_common_passage_partial (env : Env) (hts : TopoSpec env.topo) (wA wB : Witness) (hv : Valid [wA, wB])
    (hs : ∀ w ∈ [wA, wB], w.sigil ≠ []) (hrep : NoRepeats wB) (o : Opts) (ho : ExactMatching o) (hf : o.pfilter = none)
    (A1 X A2 B1 B2 : List Str) (hA : strings wA = A1 ++ X ++ A2) (hB : strings wB = B1 ++ X ++ B2) (hc : CommonPassage A1 X A2 B1 B2)
    (hl : LongPassage A1 X A2 B1 B2) :
    ∃ t L R, collateTable env [wA, wB] o = .ok t ∧ BestArrangement A1 B1 L ∧ BestArrangement A2 B2 R ∧
      markedStrings t = showsArrangement o.segmentation (L ++ X.map (fun s => (some s, some s)) ++ R) := by
  obtain ⟨t, cols, ht, ⟨h1, h2⟩, hm⟩ := best_marked env hts wA wB hv hs hrep o ho hf
  rw [hA, hB, List.append_assoc, List.append_assoc] at h1 h2
  obtain ⟨L, R, e, hL, hR, bL, bR⟩ := best_passage hc.ne hc.distinct hc.elsewhere hc.before_after hc.after_before hl.first hl.second h1 h2
  refine ⟨t, L, R, ht, ⟨hL, bL⟩, ⟨hR, bR⟩, ?_⟩
  rw [hm, e, List.append_assoc]
  rfl

/-- A passage at the beginning of both texts is always long enough. -/
theorem C97_opening_long (X A2 B2 : List Str) (h : X ≠ []) : LongPassage [] X A2 [] B2 := by
  have : 0 < X.length := List.length_pos_iff.mpr h
  exact ⟨by simp; omega, by simp; omega⟩

/-- A passage at the end of both texts is always long enough. -/
theorem C97_ending_long (A1 X B1 : List Str) (h : X ≠ []) : LongPassage A1 X [] B1 [] := by
  have : 0 < X.length := List.length_pos_iff.mpr h
  exact ⟨by simp; omega, by simp; omega⟩

/-! ### Short passages, and a case -/

/-- The only word that two texts have in common, `x`, is not aligned: the passage has half the length of what stands before it in the first
text and after it in the second. The bound in `LongPassage` cannot be relaxed. -/
theorem C97_short : Valid [wordsWitness "A" ["a", "b", "x"], wordsWitness "B" ["x", "c", "d"]] ∧
    NoRepeats (wordsWitness "B" ["x", "c", "d"]) ∧ CommonPassage [S "a", S "b"] [S "x"] [] [] [S "c", S "d"] ∧
    min [S "a", S "b"].length [S "c", S "d"].length = 2 * [S "x"].length ∧
    (collateTable exampleEnv [wordsWitness "A" ["a", "b", "x"], wordsWitness "B" ["x", "c", "d"]] { segmentation := false }).map tableSummary =
      .ok ⟨[true, true, true], [S "A", S "B"], [[some [S "a"], some [S "b"], some [S "x"]], [some [S "x"], some [S "c"], some [S "d"]]]⟩ :=
  ⟨valid_of_check (by decide) (by decide) (by decide) (by decide), noRepeats_of_check (by decide),
    ⟨by decide, by decide, by decide, by decide, by decide⟩, by decide, by decide +kernel⟩

/-- The same with a word in the same place of both texts: `x` is the seventh word of thirteen in both, no match crosses it, and it is not
aligned. -/
def sameSeventh : List Witness := [wordsWitness "A" ["1", "2", "3", "a", "b", "c", "x", "d", "e", "f", "g", "h", "i"],
  wordsWitness "B" ["a", "b", "c", "4", "5", "6", "x", "g", "h", "i", "7", "8", "9"]]

theorem C97_short_same_place : Valid sameSeventh ∧
    CommonPassage [S "1", S "2", S "3", S "a", S "b", S "c"] [S "x"] [S "d", S "e", S "f", S "g", S "h", S "i"]
      [S "a", S "b", S "c", S "4", S "5", S "6"] [S "g", S "h", S "i", S "7", S "8", S "9"] ∧
    (collateTable exampleEnv sameSeventh { segmentation := true }).map tableSummary =
      .ok ⟨[true, false, true, false, true], [S "A", S "B"],
        [[some [S "1", S "2", S "3"], some [S "a", S "b", S "c"], some [S "x", S "d", S "e", S "f"], some [S "g", S "h", S "i"], none],
          [none, some [S "a", S "b", S "c"], some [S "4", S "5", S "6", S "x"], some [S "g", S "h", S "i"], some [S "7", S "8", S "9"]]]⟩ :=
  ⟨valid_of_check (by decide) (by decide) (by decide) (by decide),
    ⟨by decide, by decide, by decide, by decide, by decide⟩, by decide +kernel⟩

/-- A passage of two words, with the hypotheses of C97 and the table. -/
example : Valid [wordsWitness "A" ["1", "2", "x", "y", "a", "b"], wordsWitness "B" ["2", "c", "d", "x", "y", "b", "e"]] ∧
    NoRepeats (wordsWitness "B" ["2", "c", "d", "x", "y", "b", "e"]) ∧
    strings (wordsWitness "A" ["1", "2", "x", "y", "a", "b"]) = [S "1", S "2"] ++ [S "x", S "y"] ++ [S "a", S "b"] ∧
    strings (wordsWitness "B" ["2", "c", "d", "x", "y", "b", "e"]) = [S "2", S "c", S "d"] ++ [S "x", S "y"] ++ [S "b", S "e"] ∧
    CommonPassage [S "1", S "2"] [S "x", S "y"] [S "a", S "b"] [S "2", S "c", S "d"] [S "b", S "e"] ∧
    LongPassage [S "1", S "2"] [S "x", S "y"] [S "a", S "b"] [S "2", S "c", S "d"] [S "b", S "e"] ∧
    (collateTable exampleEnv [wordsWitness "A" ["1", "2", "x", "y", "a", "b"], wordsWitness "B" ["2", "c", "d", "x", "y", "b", "e"]]
        { segmentation := true }).map tableSummary =
      .ok ⟨[true, false, true, false, true, false, true], [S "A", S "B"],
        [[some [S "1"], some [S "2"], none, some [S "x", S "y"], some [S "a"], some [S "b"], none],
          [none, some [S "2"], some [S "c", S "d"], some [S "x", S "y"], none, some [S "b"], some [S "e"]]]⟩ :=
  ⟨valid_of_check (by decide) (by decide) (by decide) (by decide), noRepeats_of_check (by decide), by decide, by decide,
    ⟨by decide, by decide, by decide, by decide, by decide⟩, ⟨by decide, by decide⟩, by decide +kernel⟩

end CollateX
