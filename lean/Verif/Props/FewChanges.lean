import Verif.Props.Distance
/-
C114: few changes show in few columns.
-/

namespace CollateX
open Spec

/-! ### Spec -/

/-- `Edited k r g A B`: the second text is the first with `k` words kept, `r` words replaced and `g` words added or left out. -/
inductive Spec.Edited : Nat → Nat → Nat → List Str → List Str → Prop
  | nil : Edited 0 0 0 [] []
  | keep {k r g A B} (s : Str) : Edited k r g A B → Edited (k + 1) r g (s :: A) (s :: B)
  | replace {k r g A B} (s u : Str) : Edited k r g A B → Edited k (r + 1) g (s :: A) (u :: B)
  | leave {k r g A B} (s : Str) : Edited k r g A B → Edited k r (g + 1) (s :: A) B
  | add {k r g A B} (u : Str) : Edited k r g A B → Edited k r (g + 1) A (u :: B)

/-- The words of a row in columns that are not marked. -/
def Spec.agreedWords (row : List (Bool × Option (List Str))) : List Str := (row.filter (fun c => !c.1)).flatMap (fun c => c.2.getD [])

/-- The number of marked columns. -/
def Spec.markedColumns (row : List (Bool × Option (List Str))) : Nat := row.countP (fun c => c.1)

/-! ### Arrangements -/

/-- A way to edit the text is an arrangement. -/
theorem Spec.Edited.arrangement {k r g : Nat} {A B : List Str} (h : Edited k r g A B) :
    ∃ cols, Arrangement A B cols ∧ (k : Int) - r - g ≤ balance cols ∧ A.length + B.length = 2 * k + 2 * r + g := by
  induction h with
  | nil => exact ⟨[], ⟨rfl, rfl, by simp⟩, by simp [balance], rfl⟩
  | keep s _ ih =>
    obtain ⟨cols, h1, h2, h3⟩ := ih
    refine ⟨(some s, some s) :: cols, ⟨by simp [h1.first], by simp [h1.second], ?_⟩, ?_, ?_⟩
    · intro c hc
      rcases List.mem_cons.mp hc with rfl | hc
      · simp
      · exact h1.full c hc
    · unfold balance at h2 ⊢
      simp only [List.map_cons, List.sum_cons, if_true]
      push_cast
      omega
    · simp only [List.length_cons]
      omega
  | replace s u _ ih =>
    obtain ⟨cols, h1, h2, h3⟩ := ih
    refine ⟨(some s, some u) :: cols, ⟨by simp [h1.first], by simp [h1.second], ?_⟩, ?_, ?_⟩
    · intro c hc
      rcases List.mem_cons.mp hc with rfl | hc
      · simp
      · exact h1.full c hc
    · unfold balance at h2 ⊢
      simp only [List.map_cons, List.sum_cons]
      push_cast
      split <;> omega
    · simp only [List.length_cons]
      omega
  | leave s _ ih =>
    obtain ⟨cols, h1, h2, h3⟩ := ih
    refine ⟨(some s, none) :: cols, ⟨by simp [h1.first], by simp [h1.second], ?_⟩, ?_, ?_⟩
    · intro c hc
      rcases List.mem_cons.mp hc with rfl | hc
      · simp
      · exact h1.full c hc
    · unfold balance at h2 ⊢
      simp only [List.map_cons, List.sum_cons]
      push_cast
      omega
    · simp only [List.length_cons]
      omega
  | add u _ ih =>
    obtain ⟨cols, h1, h2, h3⟩ := ih
    refine ⟨(none, some u) :: cols, ⟨by simp [h1.first], by simp [h1.second], ?_⟩, ?_, ?_⟩
    · intro c hc
      rcases List.mem_cons.mp hc with rfl | hc
      · simp
      · exact h1.full c hc
    · unfold balance at h2 ⊢
      simp only [List.map_cons, List.sum_cons]
      push_cast
      omega
    · simp only [List.length_cons]
      omega

/-- Columns that agree, and the others. -/
theorem balance_counts : ∀ cols : List Pairing, (∀ c ∈ cols, c ≠ (none, none)) →
    balance cols = cols.countP (fun c => c.1 = c.2) - cols.countP (fun c => c.1 ≠ c.2) ∧
    2 * cols.countP (fun c => c.1 = c.2) + cols.countP (fun c => c.1 ≠ c.2) ≤ (cols.filterMap Prod.fst).length + (cols.filterMap Prod.snd).length ∧
    (cols.filterMap Prod.fst).length + (cols.filterMap Prod.snd).length ≤ 2 * cols.countP (fun c => c.1 = c.2) + 2 * cols.countP (fun c => c.1 ≠ c.2)
  | [], _ => by simp [balance]
  | (a, b) :: l, h => by
    obtain ⟨i1, i2, i3⟩ := balance_counts l (fun c hc => h c (by simp [hc]))
    have h0 := h (a, b) (by simp)
    unfold balance at i1 ⊢
    rw [List.map_cons, List.sum_cons, i1]
    simp only [List.countP_cons, List.filterMap_cons]
    simp only [ne_eq, decide_not] at i2 i3 ⊢
    cases a with
    | none =>
      cases b with
      | none => exact absurd rfl h0
      | some b => simp; omega
    | some a =>
      cases b with
      | none => simp; omega
      | some b =>
        by_cases hab : a = b
        · simp [hab]; omega
        · simp [hab]; omega

/-! ### Rows -/

theorem agreed_shows (f : Pairing → Option Str) (hf : ∀ c : Pairing, c.1 = c.2 → f c = c.1) : ∀ cols : List Pairing,
    agreedWords (cols.map (fun c => (decide (c.1 ≠ c.2), (f c).map (fun s => [s])))) = (cols.filter (fun c => c.1 = c.2)).filterMap Prod.fst
  | [] => rfl
  | c :: l => by
    have ih := agreed_shows f hf l
    unfold agreedWords at ih ⊢
    rw [List.map_cons, List.filter_cons, List.filter_cons]
    by_cases h : c.1 = c.2
    · simp only [h, ne_eq, not_true_eq_false, decide_false, Bool.not_false, decide_true, if_true] at ih ⊢
      rw [List.flatMap_cons, ih, List.filterMap_cons, hf c h]
      cases hc : c.1 with
      | none => rfl
      | some s => rfl
    · simp only [h, ne_eq, not_false_eq_true, decide_true, Bool.not_true, decide_false, Bool.false_eq_true, if_false] at ih ⊢
      exact ih

theorem agreed_length : ∀ cols : List Pairing, (∀ c ∈ cols, c ≠ (none, none)) →
    ((cols.filter (fun c => c.1 = c.2)).filterMap Prod.fst).length = cols.countP (fun c => c.1 = c.2)
  | [], _ => rfl
  | (a, b) :: l, h => by
    have ih := agreed_length l (fun c hc => h c (by simp [hc]))
    have h0 := h (a, b) (by simp)
    rw [List.filter_cons, List.countP_cons]
    by_cases hab : a = b
    · subst hab
      cases a with
      | none => exact absurd rfl h0
      | some a => simp [ih]
    · simp only [hab, decide_false, Bool.false_eq_true, if_false]
      rw [ih]
      rfl

theorem joined_words : ∀ cs : List (Option (List Str)), (joinedCells cs).getD [] = cs.flatMap (fun c => c.getD []) := by
  have h : ∀ cs : List (Option (List Str)), (cs.filterMap id).flatten = cs.flatMap (fun c => c.getD []) := by
    intro cs
    induction cs with
    | nil => rfl
    | cons c l ih =>
      cases c with
      | none => exact ih
      | some a => exact congrArg (a ++ ·) ih
  intro cs
  unfold joinedCells
  split
  · rename_i hn
    rw [← h]
    have : cs.filterMap id = [] := by
      rw [List.filterMap_eq_nil_iff]
      intro c hc
      exact Option.isNone_iff_eq_none.mp (List.all_eq_true.mp hn c hc)
    rw [this]
    rfl
  · exact h cs

/-- Segmentation keeps the words in unmarked columns and does not make more marked ones. -/
theorem merged_agreed (row : List (Bool × Option (List Str))) :
    agreedWords (mergedRuns row) = agreedWords row ∧ markedColumns (mergedRuns row) ≤ markedColumns row := by
  have key : ∀ gs : List (List (Bool × Option (List Str))), (∀ g ∈ gs, g ≠ [] ∧ ∀ x ∈ g, ∀ y ∈ g, x.1 = y.1) →
      agreedWords (gs.map (fun g => (g.any Prod.fst, joinedCells (g.map Prod.snd)))) = agreedWords gs.flatten ∧
      markedColumns (gs.map (fun g => (g.any Prod.fst, joinedCells (g.map Prod.snd)))) ≤ markedColumns gs.flatten := by
    intro gs
    induction gs with
    | nil => intro _; exact ⟨rfl, Nat.le_refl _⟩
    | cons g gs ih =>
      intro h
      obtain ⟨i1, i2⟩ := ih (fun x hx => h x (by simp [hx]))
      obtain ⟨hne, hg⟩ := h g (by simp)
      unfold agreedWords at i1
      unfold markedColumns at i2
      unfold agreedWords markedColumns
      rw [List.map_cons, List.flatten_cons, List.filter_cons, List.filter_append, List.flatMap_append, List.countP_append, List.countP_cons]
      cases hm : g.any Prod.fst with
      | true =>
        obtain ⟨x, hx, hx1⟩ := List.any_eq_true.mp hm
        have hall : ∀ y ∈ g, y.1 = true := fun y hy => (hg y hy x hx).trans hx1
        have e1 : g.filter (fun c => !c.1) = [] := by
          rw [List.filter_eq_nil_iff]
          intro y hy
          simp [hall y hy]
        have e2 : g.countP (fun c => c.1) = g.length := List.countP_eq_length.mpr hall
        have e3 : 0 < g.length := List.length_pos_iff.mpr hne
        rw [e1, e2]
        simp only [Bool.not_true, Bool.false_eq_true, if_false, if_true, List.flatMap_nil, List.nil_append]
        exact ⟨i1, by omega⟩
      | false =>
        have hall : ∀ y ∈ g, y.1 = false := fun y hy => by
          have := List.any_eq_false.mp hm y hy
          simpa using this
        have e1 : g.filter (fun c => !c.1) = g := by
          rw [List.filter_eq_self]
          intro y hy
          simp [hall y hy]
        rw [e1]
        simp only [Bool.not_false, Bool.false_eq_true, if_false, if_true, List.flatMap_cons, Nat.add_zero]
        refine ⟨?_, by omega⟩
        rw [i1, joined_words, List.flatMap_map]
  have h := key (row.splitBy (fun x y => x.1 == y.1)) (fun g hg =>
    ⟨List.ne_nil_of_mem_splitBy hg, chain_marks (f := Prod.fst) (List.isChain_of_mem_splitBy hg)⟩)
  rw [List.flatten_splitBy] at h
  exact h

/-! ### C114 -/

/-- C114 if no two neighbouring words of the second witness are equal (what is missing: second witnesses with equal neighbours, for which
the claim is false, see `C114_repeats`). However one text can be turned into the other: in the table both rows have the same words in
unmarked columns, of the words that were kept at most one for every four that were added or left out is not among them, and there is at
most one marked column for every word added or left out and four for every three words replaced. Without and with segmentation. -/
theorem C114_few_changes_partial (env : Env) (hts : TopoSpec env.topo) (wA wB : Witness) (hv : Valid [wA, wB]) (hs : ∀ w ∈ [wA, wB], w.sigil ≠ [])
    (hrep : NoRepeats wB) (o : Opts) (ho : ExactMatching o) (hf : o.pfilter = none) {k r g : Nat}
    (h : Edited k r g (strings wA) (strings wB)) :
    ∃ t rowA rowB, collateTable env [wA, wB] o = .ok t ∧ markedStrings t = [rowA, rowB] ∧ agreedWords rowA = agreedWords rowB ∧
      4 * k ≤ 4 * (agreedWords rowA).length + g ∧
      3 * markedColumns rowA ≤ 4 * r + 3 * g ∧ 3 * markedColumns rowB ≤ 4 * r + 3 * g := by
  obtain ⟨t, cols, h1, h2, h3⟩ := best_marked env hts wA wB hv hs hrep o ho hf
  obtain ⟨cols', a1, a2, a3⟩ := h.arrangement
  have hbest := h2.2 cols' a1
  obtain ⟨b1, b2, b3⟩ := balance_counts cols h2.1.full
  rw [h2.1.first, h2.1.second] at b2 b3
  have eA := agreed_shows Prod.fst (fun c _ => rfl) cols
  have eB := agreed_shows Prod.snd (fun c h => h.symm) cols
  have el := agreed_length cols h2.1.full
  have hm : ∀ f : Pairing → Option (List Str), markedColumns (cols.map (fun c => (decide (c.1 ≠ c.2), f c))) = cols.countP (fun c => c.1 ≠ c.2) := by
    intro f
    unfold markedColumns
    rw [List.countP_map]
    rfl
  have hmA := hm (fun c => c.1.map (fun s => [s]))
  have hmB := hm (fun c => c.2.map (fun s => [s]))
  cases hseg : o.segmentation with
  | false =>
    rw [hseg] at h3
    refine ⟨t, _, _, h1, h3, eA.trans eB.symm, ?_, ?_, ?_⟩
    · rw [eA, el]
      omega
    · rw [hmA]
      omega
    · rw [hmB]
      omega
  | true =>
    rw [hseg] at h3
    have mA := merged_agreed (cols.map (fun c => (decide (c.1 ≠ c.2), c.1.map (fun s => [s]))))
    have mB := merged_agreed (cols.map (fun c => (decide (c.1 ≠ c.2), c.2.map (fun s => [s]))))
    refine ⟨t, _, _, h1, h3, by rw [mA.1, mB.1, eA, eB], ?_, ?_, ?_⟩
    · rw [mA.1, eA, el]
      omega
    · have := mA.2
      rw [hmA] at this
      omega
    · have := mB.2
      rw [hmB] at this
      omega

/-- C114, one or two words replaced (what is missing as before): there are at most as many marked columns as changes. With more words
replaced there can be more (`C114_more_columns`). -/
theorem C114_two_changes_partial (env : Env) (hts : TopoSpec env.topo) (wA wB : Witness) (hv : Valid [wA, wB]) (hs : ∀ w ∈ [wA, wB], w.sigil ≠ [])
    (hrep : NoRepeats wB) (o : Opts) (ho : ExactMatching o) (hf : o.pfilter = none) {k r g : Nat}
    (h : Edited k r g (strings wA) (strings wB)) (h2 : r ≤ 2) :
    ∃ t rowA rowB, collateTable env [wA, wB] o = .ok t ∧ markedStrings t = [rowA, rowB] ∧ markedColumns rowA ≤ r + g ∧ markedColumns rowB ≤ r + g := by
  obtain ⟨t, rowA, rowB, h1, h3, _, _, h4, h5⟩ := C114_few_changes_partial env hts wA wB hv hs hrep o ho hf h
  exact ⟨t, rowA, rowB, h1, h3, by omega, by omega⟩

/-- C114, words replaced only (what is missing as before): at least as many words as were kept stand in unmarked columns. -/
theorem C114_replaced_partial (env : Env) (hts : TopoSpec env.topo) (wA wB : Witness) (hv : Valid [wA, wB]) (hs : ∀ w ∈ [wA, wB], w.sigil ≠ [])
    (hrep : NoRepeats wB) (o : Opts) (ho : ExactMatching o) (hf : o.pfilter = none) {k r : Nat}
    (h : Edited k r 0 (strings wA) (strings wB)) :
    ∃ t rowA rowB, collateTable env [wA, wB] o = .ok t ∧ markedStrings t = [rowA, rowB] ∧ agreedWords rowA = agreedWords rowB ∧
      k ≤ (agreedWords rowA).length := by
  obtain ⟨t, rowA, rowB, h1, h3, h4, h5, _⟩ := C114_few_changes_partial env hts wA wB hv hs hrep o ho hf h
  exact ⟨t, rowA, rowB, h1, h3, h4, by omega⟩

/-- The bound of C114 is not the number of changes: six words are replaced one by one, but the table has seven marked columns. -/
theorem C114_more_columns : Valid [wordsWitness "A" ["a", "b", "c", "x", "u", "y"], wordsWitness "B" ["x", "v", "y", "d", "e", "f"]] ∧
    NoRepeats (wordsWitness "B" ["x", "v", "y", "d", "e", "f"]) ∧
    Edited 0 6 0 (strings (wordsWitness "A" ["a", "b", "c", "x", "u", "y"])) (strings (wordsWitness "B" ["x", "v", "y", "d", "e", "f"])) ∧
    (collateTable exampleEnv [wordsWitness "A" ["a", "b", "c", "x", "u", "y"], wordsWitness "B" ["x", "v", "y", "d", "e", "f"]]
      { segmentation := false }).map (fun t => (markedStrings t).map markedColumns) = .ok [7, 7] :=
  ⟨valid_of_check (by decide) (by decide) (by decide) (by decide), noRepeats_of_check (by decide),
    .replace _ _ (.replace _ _ (.replace _ _ (.replace _ _ (.replace _ _ (.replace _ _ .nil))))), by decide +kernel⟩

/-- Words that were kept can be missed: `x` is kept if two words are left out before it and two are added after it, and it is not aligned. -/
theorem C114_missed : Valid [wordsWitness "A" ["a", "b", "x"], wordsWitness "B" ["x", "d", "e"]] ∧
    NoRepeats (wordsWitness "B" ["x", "d", "e"]) ∧
    Edited 1 0 4 (strings (wordsWitness "A" ["a", "b", "x"])) (strings (wordsWitness "B" ["x", "d", "e"])) ∧
    (collateTable exampleEnv [wordsWitness "A" ["a", "b", "x"], wordsWitness "B" ["x", "d", "e"]]
      { segmentation := false }).map (fun t => (markedStrings t).map agreedWords) = .ok [[], []] :=
  ⟨valid_of_check (by decide) (by decide) (by decide) (by decide), noRepeats_of_check (by decide),
    .leave _ (.leave _ (.keep _ (.add _ (.add _ .nil)))), by decide +kernel⟩

/-- C114 is false with equal neighbours: one word is added, but two columns are marked and one of the two words that were kept is not
aligned. -/
theorem C114_repeats : Valid [wordsWitness "A" ["b", "b"], wordsWitness "B" ["b", "b", "a"]] ∧
    Edited 2 0 1 (strings (wordsWitness "A" ["b", "b"])) (strings (wordsWitness "B" ["b", "b", "a"])) ∧
    (collateTable exampleEnv [wordsWitness "A" ["b", "b"], wordsWitness "B" ["b", "b", "a"]]
      { segmentation := false }).map (fun t => (markedStrings t).map (fun r => (markedColumns r, agreedWords r))) = .ok [(2, [S "b"]), (2, [S "b"])] :=
  ⟨valid_of_check (by decide) (by decide) (by decide) (by decide), .keep _ (.keep _ (.add _ .nil)), by decide +kernel⟩

/-- Two words replaced and one added, with the hypotheses of C114 and the table: three marked columns. -/
example : TopoSpec exampleEnv.topo ∧
    Valid [wordsWitness "A" ["the", "black", "cat", "sat", "there"], wordsWitness "B" ["the", "white", "cat", "then", "ate", "there"]] ∧
    NoRepeats (wordsWitness "B" ["the", "white", "cat", "then", "ate", "there"]) ∧ ExactMatching { segmentation := false } ∧
    Edited 3 2 1 (strings (wordsWitness "A" ["the", "black", "cat", "sat", "there"]))
      (strings (wordsWitness "B" ["the", "white", "cat", "then", "ate", "there"])) ∧
    (collateTable exampleEnv [wordsWitness "A" ["the", "black", "cat", "sat", "there"], wordsWitness "B" ["the", "white", "cat", "then", "ate", "there"]]
      { segmentation := false }).map (fun t => (markedStrings t).map (fun r => (markedColumns r, agreedWords r))) =
      .ok [(3, [S "the", S "cat", S "there"]), (3, [S "the", S "cat", S "there"])] :=
  ⟨kahn_spec, valid_of_check (by decide) (by decide) (by decide) (by decide), noRepeats_of_check (by decide), ⟨rfl, rfl, rfl⟩,
    .keep _ (.replace _ _ (.keep _ (.add _ (.replace _ _ (.keep _ .nil))))), by decide +kernel⟩

end CollateX
