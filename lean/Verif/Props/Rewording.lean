import Verif.Props.Passage
/-
Two witnesses of which one has words of the other replaced or left out: C100.
-/

namespace CollateX
open Spec

/-- The arrangement has no gap in the first row, and all words of the second that the first has stand against themselves. -/
def Spec.AlignsBase (A : List Str) (cols : List Pairing) : Prop :=
  (∀ c ∈ cols, c.1 ≠ none) ∧ ∀ c ∈ cols, ∀ b, c.2 = some b → b ∈ A → c.1 = some b

/-- `B` is `A` with some words replaced by words that `A` does not have, and some left out: it can be put below `A` in this way. -/
def Spec.Reworded (A B : List Str) : Prop := ∃ cols, Arrangement A B cols ∧ AlignsBase A cols

/-- The same with the rows exchanged. -/
def Spec.flipped (cols : List Pairing) : List Pairing := cols.map (fun c => (c.2, c.1))

section
variable {A B : List Str} {cols cols' : List Pairing}

theorem length_ge_fst (cols : List Pairing) : (cols.filterMap Prod.fst).length ≤ cols.length := List.length_filterMap_le _ _

theorem length_eq_fst : ∀ {cols : List Pairing}, cols.length = (cols.filterMap Prod.fst).length → ∀ c ∈ cols, c.1 ≠ none
  | [], _ => by simp
  | (none, y) :: cols, h => by
    have := length_ge_fst cols
    simp only [List.length_cons, List.filterMap_cons] at h
    omega
  | (some x, y) :: cols, h => by
    simp only [List.length_cons, List.filterMap_cons, Nat.add_right_cancel_iff] at h
    intro c hc
    rcases List.mem_cons.mp hc with rfl | hc
    · simp
    · exact length_eq_fst h c hc

theorem fst_length : ∀ {cols : List Pairing}, (∀ c ∈ cols, c.1 ≠ none) → (cols.filterMap Prod.fst).length = cols.length
  | [], _ => rfl
  | (none, y) :: cols, h => absurd rfl (h (none, y) (by simp))
  | (some x, y) :: cols, h => by
    simp only [List.filterMap_cons, List.length_cons, Nat.add_right_cancel_iff]
    exact fst_length (fun c hc => h c (by simp [hc]))

/-- At most the words of the second row that the first text has stand against themselves. -/
theorem equal_le (A : List Str) : ∀ {cols : List Pairing}, (∀ c ∈ cols, c ≠ (none, none)) → (∀ c ∈ cols, ∀ a, c.1 = some a → a ∈ A) →
    cols.countP (fun c => decide (c.1 = c.2)) ≤ (cols.filterMap Prod.snd).countP (fun b => decide (b ∈ A))
  | [], _, _ => by simp
  | (x, y) :: cols, h1, h2 => by
    have ih := equal_le A (cols := cols) (fun c hc => h1 c (by simp [hc])) (fun c hc => h2 c (by simp [hc]))
    cases y with
    | none =>
      cases x with
      | none => exact absurd rfl (h1 (none, none) (by simp))
      | some a =>
        rw [List.countP_cons_of_neg (by simp)]
        simpa [List.filterMap_cons] using ih
    | some b =>
      simp only [List.filterMap_cons]
      by_cases hx : x = some b
      · subst hx
        rw [List.countP_cons_of_pos (by simp), List.countP_cons_of_pos (by simpa using h2 (some b, some b) (by simp) b rfl)]
        omega
      · rw [List.countP_cons_of_neg (by simpa using hx), List.countP_cons]
        omega

/-- If all of them do, they all do. -/
theorem equal_all (A : List Str) : ∀ {cols : List Pairing}, (∀ c ∈ cols, c ≠ (none, none)) → (∀ c ∈ cols, ∀ a, c.1 = some a → a ∈ A) →
    ((cols.filterMap Prod.snd).countP (fun b => decide (b ∈ A)) ≤ cols.countP (fun c => decide (c.1 = c.2)) ↔
      ∀ c ∈ cols, ∀ b, c.2 = some b → b ∈ A → c.1 = some b)
  | [], _, _ => by simp
  | (x, y) :: cols, h1, h2 => by
    have h1' : ∀ c ∈ cols, c ≠ (none, none) := fun c hc => h1 c (by simp [hc])
    have h2' : ∀ c ∈ cols, ∀ a, c.1 = some a → a ∈ A := fun c hc => h2 c (by simp [hc])
    have ih := equal_all A h1' h2'
    have hle := equal_le A h1' h2'
    have hsplit : (∀ c ∈ (x, y) :: cols, ∀ b, c.2 = some b → b ∈ A → c.1 = some b) ↔
        (∀ b, y = some b → b ∈ A → x = some b) ∧ ∀ c ∈ cols, ∀ b, c.2 = some b → b ∈ A → c.1 = some b := by
      simp only [List.forall_mem_cons]
    rw [hsplit, ← ih]
    cases y with
    | none =>
      cases x with
      | none => exact absurd rfl (h1 (none, none) (by simp))
      | some a =>
        rw [List.countP_cons_of_neg (by simp)]
        simp
    | some b =>
      simp only [List.filterMap_cons]
      by_cases hx : x = some b
      · subst hx
        have hb := h2 (some b, some b) (by simp) b rfl
        rw [List.countP_cons_of_pos (l := cols.filterMap Prod.snd) (by simpa using hb), List.countP_cons_of_pos (l := cols) (by simp)]
        constructor
        · intro h
          exact ⟨fun b' e _ => e, by omega⟩
        · rintro ⟨_, h⟩
          omega
      · rw [List.countP_cons_of_neg (l := cols) (by simpa using hx)]
        by_cases hb : b ∈ A
        · rw [List.countP_cons_of_pos (l := cols.filterMap Prod.snd) (by simpa using hb)]
          constructor
          · intro h; omega
          · rintro ⟨h, _⟩
            exact absurd (h b rfl hb) hx
        · rw [List.countP_cons_of_neg (l := cols.filterMap Prod.snd) (by simpa using hb)]
          constructor
          · intro h
            refine ⟨?_, h⟩
            intro b' e hb'
            obtain rfl := Option.some.inj e
            exact absurd hb' hb
          · exact fun h => h.2

/-- In a best arrangement of a text and a rewording of it all words that were not replaced stand against themselves. -/
theorem best_rewording (hr : Reworded A B) (h : BestArrangement A B cols) : AlignsBase A cols := by
  obtain ⟨cols0, a0, g0, e0⟩ := hr
  obtain ⟨a1, hbest⟩ := h
  have hb := hbest cols0 a0
  have hin : ∀ {cols : List Pairing}, Arrangement A B cols → ∀ c ∈ cols, ∀ a, c.1 = some a → a ∈ A := by
    intro cols hc c hcm a ha
    rw [← hc.1]
    exact List.mem_filterMap.mpr ⟨c, hcm, ha⟩
  have k0 := (equal_all A a0.3 (hin a0)).mpr e0
  have l0 := equal_le A a0.3 (hin a0)
  have l1 := equal_le A a1.3 (hin a1)
  have n0 := fst_length g0
  have n1 := length_ge_fst cols
  rw [balance_eq, balance_eq] at hb
  rw [a0.2] at k0 l0
  rw [a1.2] at l1
  rw [a0.1] at n0
  rw [a1.1] at n1
  refine ⟨length_eq_fst (by rw [a1.1]; omega), (equal_all A a1.3 (hin a1)).mp (by rw [a1.2]; omega)⟩

/-- Exchanging the rows. -/
theorem Spec.BestArrangement.flip (h : BestArrangement A B cols) : BestArrangement B A (flipped cols) := by
  have flip : ∀ {A B : List Str} {cols : List Pairing}, Arrangement A B cols → Arrangement B A (flipped cols) := by
    intro A B cols h
    refine ⟨?_, ?_, ?_⟩
    · rw [← h.2]; unfold flipped; rw [List.filterMap_map]; rfl
    · rw [← h.1]; unfold flipped; rw [List.filterMap_map]; rfl
    · intro c hc
      obtain ⟨⟨x, y⟩, h1, rfl⟩ := List.mem_map.mp hc
      intro e
      simp only [Prod.mk.injEq] at e
      exact h.3 _ h1 (by rw [e.1, e.2])
  have bal : ∀ cols, balance (flipped cols) = balance cols := by
    intro cols
    rw [balance_eq, balance_eq]
    unfold flipped
    rw [List.countP_map, List.length_map]
    congr 4
    funext c
    simp only [Function.comp_apply, decide_eq_decide]
    exact eq_comm
  refine ⟨flip h.1, ?_⟩
  intro cols' hc'
  have := h.2 _ (flip hc')
  rw [bal] at this ⊢
  exact this

end

/-- C100. If the second witness is the first with some words left out and some replaced by words that the first does not have, every word that
was kept is aligned with the same word of the first, and the row of the first has no gap. (If words are left out and others added, this is
false, see `C100_left_out_and_added`.) -/
theorem C100_rewording (env : Env) (hts : TopoSpec env.topo) (wA wB : Witness) (hv : Valid [wA, wB])
    (hs : ∀ w ∈ [wA, wB], w.sigil ≠ []) (hrep : NoRepeats wB) (hr : Reworded (strings wA) (strings wB)) (o : Opts) (ho : ExactMatching o)
    (hf : o.pfilter = none) :
    ∃ t cols, collateTable env [wA, wB] o = .ok t ∧ Arrangement (strings wA) (strings wB) cols ∧ AlignsBase (strings wA) cols ∧
      markedStrings t = showsArrangement o.segmentation cols := by
  obtain ⟨t, cols, ht, hb, hm⟩ := best_marked env hts wA wB hv hs hrep o ho hf
  exact ⟨t, cols, ht, hb.1, best_rewording hr hb, hm⟩

/-- The same if the first witness is the second with words left out and replaced. -/
theorem C100_rewording_first (env : Env) (hts : TopoSpec env.topo) (wA wB : Witness) (hv : Valid [wA, wB])
    (hs : ∀ w ∈ [wA, wB], w.sigil ≠ []) (hrep : NoRepeats wB) (hr : Reworded (strings wB) (strings wA)) (o : Opts) (ho : ExactMatching o)
    (hf : o.pfilter = none) :
    ∃ t cols, collateTable env [wA, wB] o = .ok t ∧ Arrangement (strings wA) (strings wB) cols ∧ AlignsBase (strings wB) (flipped cols) ∧
      markedStrings t = showsArrangement o.segmentation cols := by
  obtain ⟨t, cols, ht, hb, hm⟩ := best_marked env hts wA wB hv hs hrep o ho hf
  exact ⟨t, cols, ht, hb.1, best_rewording hr hb.flip, hm⟩

/-! ### Words left out and words added, and a case -/

/-- The second witness is the first with `a b` left out and `c d` added, neither of which the other has; `x`, which was kept, is not aligned. -/
theorem C100_left_out_and_added : Valid [wordsWitness "A" ["a", "b", "x"], wordsWitness "B" ["x", "c", "d"]] ∧
    NoRepeats (wordsWitness "B" ["x", "c", "d"]) ∧
    Arrangement [S "a", S "b", S "x"] [S "x", S "c", S "d"] [(some (S "a"), none), (some (S "b"), none), (some (S "x"), some (S "x")),
      (none, some (S "c")), (none, some (S "d"))] ∧
    (collateTable exampleEnv [wordsWitness "A" ["a", "b", "x"], wordsWitness "B" ["x", "c", "d"]] { segmentation := false }).map tableSummary =
      .ok ⟨[true, true, true], [S "A", S "B"], [[some [S "a"], some [S "b"], some [S "x"]], [some [S "x"], some [S "c"], some [S "d"]]]⟩ :=
  ⟨C97_short.1, C97_short.2.1, ⟨by decide, by decide, by decide⟩, C97_short.2.2.2.2⟩

/-- Replaced and left out words in a text in which a word occurs twice, with the hypotheses of C100 and the table. -/
example : Valid [wordsWitness "A" ["the", "cat", "saw", "the", "black", "dog"], wordsWitness "B" ["one", "cat", "heard", "the", "dog"]] ∧
    NoRepeats (wordsWitness "B" ["one", "cat", "heard", "the", "dog"]) ∧
    Reworded (strings (wordsWitness "A" ["the", "cat", "saw", "the", "black", "dog"])) (strings (wordsWitness "B" ["one", "cat", "heard", "the", "dog"])) ∧
    (collateTable exampleEnv [wordsWitness "A" ["the", "cat", "saw", "the", "black", "dog"], wordsWitness "B" ["one", "cat", "heard", "the", "dog"]]
        { segmentation := false }).map tableSummary =
      .ok ⟨[true, false, true, false, true, false], [S "A", S "B"],
        [[some [S "the"], some [S "cat"], some [S "saw"], some [S "the"], some [S "black"], some [S "dog"]],
          [some [S "one"], some [S "cat"], some [S "heard"], some [S "the"], none, some [S "dog"]]]⟩ := by
  refine ⟨valid_of_check (by decide) (by decide) (by decide) (by decide), noRepeats_of_check (by decide),
    ⟨[(some (S "the"), some (S "one")), (some (S "cat"), some (S "cat")), (some (S "saw"), some (S "heard")), (some (S "the"), some (S "the")),
      (some (S "black"), none), (some (S "dog"), some (S "dog"))], ⟨by decide, by decide, by decide⟩, by decide, ?_⟩, by decide +kernel⟩
  have key : ∀ c ∈ [(some (S "the"), some (S "one")), (some (S "cat"), some (S "cat")), (some (S "saw"), some (S "heard")),
      (some (S "the"), some (S "the")), (some (S "black"), none), (some (S "dog"), some (S "dog"))], ∀ b ∈ c.2.toList,
      b ∈ strings (wordsWitness "A" ["the", "cat", "saw", "the", "black", "dog"]) → c.1 = some b := by decide
  intro c hc b hb
  exact key c hc b (by rw [hb]; simp)

end CollateX
