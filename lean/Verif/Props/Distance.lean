import Verif.Props.Passage
/-
C112: the tables of two witnesses measure a distance.
-/

namespace CollateX
open Spec

/-! ### Spec -/

/-- The difference of two cells: nothing if they are equal, three if one of them is empty, four if they have different words. -/
def Spec.cellDistance : Option (List Str) → Option (List Str) → Nat
  | none, none => 0
  | some a, some b => if a = b then 0 else 4
  | _, _ => 3

/-- The differences of the cells of two rows. -/
def Spec.rowDistance (rows : List (List (Bool × Option (List Str)))) : Nat :=
  match rows with
  | [r, s] => (List.zipWith (fun x y => cellDistance x.2 y.2) r s).sum
  | _ => 0

/-! ### Arrangements -/

theorem sum_zero : ∀ {l : List Nat}, l.sum = 0 → ∀ x ∈ l, x = 0
  | a :: l, h, x, hx => by
    rw [List.sum_cons] at h
    rcases List.mem_cons.mp hx with rfl | hx
    · omega
    · exact sum_zero (l := l) (by omega) x hx

theorem zero_sum : ∀ {l : List Nat}, (∀ x ∈ l, x = 0) → l.sum = 0
  | [], _ => rfl
  | a :: l, h => by
    rw [List.sum_cons, h a (by simp), zero_sum (fun x hx => h x (by simp [hx]))]

/-- The weight of a column. -/
def pairDistance (c : Pairing) : Nat := cellDistance (c.1.map (fun s => [s])) (c.2.map (fun s => [s]))

theorem pairDistance_self (a : Option Str) : pairDistance (a, a) = 0 := by
  cases a with
  | none => rfl
  | some a => simp [pairDistance, cellDistance]

theorem pairDistance_ne {a b : Str} (h : a ≠ b) : pairDistance (some a, some b) = 4 := by
  simp [pairDistance, cellDistance, h]

theorem pairDistance_comm (c : Pairing) : pairDistance c.swap = pairDistance c := by
  obtain ⟨a, b⟩ := c
  cases a <;> cases b <;> simp [pairDistance, cellDistance, eq_comm]

theorem pairDistance_eq_zero {c : Pairing} : pairDistance c = 0 ↔ c.1 = c.2 := by
  obtain ⟨a, b⟩ := c
  cases a <;> cases b <;> simp [pairDistance, cellDistance]

theorem rowDistance_shows (cols : List Pairing) : rowDistance (showsArrangement false cols) = (cols.map pairDistance).sum := by
  unfold showsArrangement rowDistance
  simp only [Bool.false_eq_true, if_false]
  rw [List.zipWith_map_left, List.zipWith_map_right, List.zipWith_self]
  rfl

/-- The weights of the columns and their balance. -/
theorem sum_balance : ∀ cols : List Pairing, (∀ c ∈ cols, c ≠ (none, none)) →
    ((cols.map pairDistance).sum : Int) + 2 * balance cols = (cols.filterMap Prod.fst).length + (cols.filterMap Prod.snd).length
  | [], _ => rfl
  | (a, b) :: l, h => by
    have ih := sum_balance l (fun c hc => h c (by simp [hc]))
    have h0 := h (a, b) (by simp)
    unfold balance at ih ⊢
    cases a with
    | none =>
      cases b with
      | none => exact absurd rfl h0
      | some b => simp [pairDistance, cellDistance] at ih ⊢; omega
    | some a =>
      cases b with
      | none => simp [pairDistance, cellDistance] at ih ⊢; omega
      | some b =>
        by_cases hab : a = b
        · subst hab
          simp [pairDistance, cellDistance] at ih ⊢; omega
        · simp [pairDistance, cellDistance, hab] at ih ⊢; omega

/-- A best arrangement has the least weight. -/
theorem best_distance {A B : List Str} {cols cols' : List Pairing} (h : BestArrangement A B cols) (h' : Arrangement A B cols') :
    (cols.map pairDistance).sum ≤ (cols'.map pairDistance).sum := by
  have h1 := sum_balance cols h.1.full
  have h2 := sum_balance cols' h'.full
  have h3 := h.2 cols' h'
  rw [h.1.first, h.1.second] at h1
  rw [h'.first, h'.second] at h2
  omega

/-- An arrangement of the first text and the second and one of the second and the third, put together. -/
theorem arrangement_trans : ∀ (n : Nat) (l m : List Pairing), l.length + m.length ≤ n → (∀ c ∈ l, c ≠ (none, none)) → (∀ c ∈ m, c ≠ (none, none)) →
    l.filterMap Prod.snd = m.filterMap Prod.fst →
    ∃ cols, Arrangement (l.filterMap Prod.fst) (m.filterMap Prod.snd) cols ∧
      (cols.map pairDistance).sum ≤ (l.map pairDistance).sum + (m.map pairDistance).sum := by
  intro n
  induction n with
  | zero =>
    intro l m hl _ _ _
    obtain rfl : l = [] := List.length_eq_zero_iff.mp (by omega)
    obtain rfl : m = [] := List.length_eq_zero_iff.mp (by omega)
    exact ⟨[], ⟨rfl, rfl, by simp⟩, by simp⟩
  | succ n ih =>
    intro l m hl h1 h2 he
    match l, m with
    | [], [] => exact ⟨[], ⟨rfl, rfl, by simp⟩, by simp⟩
    | (none, none) :: l, m => exact absurd rfl (h1 _ (by simp))
    | l, (none, none) :: m => exact absurd rfl (h2 _ (by simp))
    | (some a, none) :: l, m =>
      obtain ⟨cols, hc, hw⟩ := ih l m (by simp at hl; omega) (fun c h => h1 c (by simp [h])) h2 (by simpa using he)
      refine ⟨(some a, none) :: cols, ⟨by simp [hc.first], by simp [hc.second], ?_⟩, ?_⟩
      · intro c h
        rcases List.mem_cons.mp h with rfl | h
        · simp
        · exact hc.full c h
      · simp only [List.map_cons, List.sum_cons]
        omega
    | l, (none, some b) :: m =>
      obtain ⟨cols, hc, hw⟩ := ih l m (by simp at hl; omega) h1 (fun c h => h2 c (by simp [h])) (by simpa using he)
      refine ⟨(none, some b) :: cols, ⟨by simp [hc.first], by simp [hc.second], ?_⟩, ?_⟩
      · intro c h
        rcases List.mem_cons.mp h with rfl | h
        · simp
        · exact hc.full c h
      · simp only [List.map_cons, List.sum_cons]
        omega
    | [], (some b, y) :: m => simp at he
    | (x, some b) :: l, [] => simp at he
    | (x, some b) :: l, (some b', y) :: m =>
      simp only [List.filterMap_cons, List.cons.injEq] at he
      obtain ⟨rfl, he⟩ := he
      obtain ⟨cols, hc, hw⟩ := ih l m (by simp at hl; omega) (fun c h => h1 c (by simp [h])) (fun c h => h2 c (by simp [h])) he
      simp only [List.map_cons, List.sum_cons]
      by_cases hxy : x = none ∧ y = none
      · obtain ⟨rfl, rfl⟩ := hxy
        exact ⟨cols, ⟨by simp [hc.first], by simp [hc.second], hc.full⟩, by omega⟩
      · refine ⟨(x, y) :: cols, ⟨?_, ?_, ?_⟩, ?_⟩
        · cases x <;> simp [hc.first]
        · cases y <;> simp [hc.second]
        · intro c h
          rcases List.mem_cons.mp h with rfl | h
          · intro h
            exact hxy ⟨congrArg Prod.fst h, congrArg Prod.snd h⟩
          · exact hc.full c h
        · have key : pairDistance (x, y) ≤ pairDistance (x, some b) + pairDistance (some b, y) := by
            cases x with
            | none =>
              cases y with
              | none => exact absurd ⟨rfl, rfl⟩ hxy
              | some y => simp [pairDistance, cellDistance]
            | some x =>
              cases y with
              | none => simp [pairDistance, cellDistance]
              | some y =>
                by_cases hx : x = b
                · subst hx; omega
                · rw [pairDistance_ne hx]
                  by_cases hy : x = y
                  · subst hy; rw [pairDistance_self]; omega
                  · rw [pairDistance_ne hy]; omega
          simp only [List.map_cons, List.sum_cons]
          omega

theorem Spec.Arrangement.backwards {A B : List Str} {cols : List Pairing} (h : Arrangement A B cols) : Arrangement A.reverse B.reverse cols.reverse :=
  ⟨by rw [List.filterMap_reverse, h.first], by rw [List.filterMap_reverse, h.second], fun c hc => h.full c (List.mem_reverse.mp hc)⟩

/-! ### C112 -/

/-- C112, the least: the table of two witnesses is that of a cheapest way to turn the first text into the second, where to leave out or to add a word
costs three and to replace a word by another costs four. -/
theorem C112_least_partial (env : Env) (hts : TopoSpec env.topo) (wA wB : Witness) (hv : Valid [wA, wB]) (hs : ∀ w ∈ [wA, wB], w.sigil ≠ [])
    (hrep : NoRepeats wB) (o : Opts) (ho : ExactMatching o) (hf : o.pfilter = none) (hseg : o.segmentation = false) :
    ∃ t, collateTable env [wA, wB] o = .ok t ∧
      (∃ cols, Arrangement (strings wA) (strings wB) cols ∧ markedStrings t = showsArrangement false cols) ∧
      ∀ cols, Arrangement (strings wA) (strings wB) cols → rowDistance (markedStrings t) ≤ rowDistance (showsArrangement false cols) := by
  obtain ⟨t, cols, h1, h2, h3⟩ := best_marked env hts wA wB hv hs hrep o ho hf
  rw [hseg] at h3
  refine ⟨t, h1, ⟨cols, h2.1, h3⟩, ?_⟩
  intro cols' h'
  rw [h3, rowDistance_shows, rowDistance_shows]
  exact best_distance h2 h'

/-- C112, equal texts: the table of two witnesses has distance nought exactly if the texts are equal. -/
theorem C112_zero_partial (env : Env) (hts : TopoSpec env.topo) (wA wB : Witness) (hv : Valid [wA, wB]) (hs : ∀ w ∈ [wA, wB], w.sigil ≠ [])
    (hrep : NoRepeats wB) (o : Opts) (ho : ExactMatching o) (hf : o.pfilter = none) (hseg : o.segmentation = false) :
    ∃ t, collateTable env [wA, wB] o = .ok t ∧ (rowDistance (markedStrings t) = 0 ↔ strings wA = strings wB) := by
  obtain ⟨t, h1, ⟨cols, h2, h3⟩, h4⟩ := C112_least_partial env hts wA wB hv hs hrep o ho hf hseg
  refine ⟨t, h1, ⟨?_, ?_⟩⟩
  · intro h
    rw [h3, rowDistance_shows] at h
    have h5 : ∀ c ∈ cols, c.1 = c.2 := by
      intro c hc
      exact pairDistance_eq_zero.mp (sum_zero h _ (List.mem_map_of_mem hc))
    rw [← h2.first, ← h2.second]
    apply List.filterMap_congr
    exact h5
  · intro h
    have := h4 ((strings wA).map (fun s => (some s, some s))) ⟨by rw [List.filterMap_map]; simp, by rw [List.filterMap_map, h]; simp, by simp⟩
    rw [rowDistance_shows, List.map_map] at this
    have h0 : ((strings wA).map (pairDistance ∘ fun s => (some s, some s))).sum = 0 := by
      refine zero_sum ?_
      intro x hx
      obtain ⟨s, _, rfl⟩ := List.mem_map.mp hx
      exact pairDistance_self _
    omega

/-- C112, either order. -/
theorem C112_either_order_partial (env : Env) (hts : TopoSpec env.topo) (wA wB : Witness) (hv : Valid [wA, wB]) (hv' : Valid [wB, wA])
    (hs : ∀ w ∈ [wA, wB], w.sigil ≠ []) (hA : NoRepeats wA) (hB : NoRepeats wB) (o : Opts) (ho : ExactMatching o) (hf : o.pfilter = none)
    (hseg : o.segmentation = false) :
    ∃ t t', collateTable env [wA, wB] o = .ok t ∧ collateTable env [wB, wA] o = .ok t' ∧
      rowDistance (markedStrings t) = rowDistance (markedStrings t') := by
  obtain ⟨t, cols, h1, h2, h3⟩ := best_marked env hts wA wB hv hs hB o ho hf
  obtain ⟨t', cols', k1, k2, k3⟩ := best_marked env hts wB wA hv' (fun w hw => hs w (by simp at hw ⊢; tauto)) hA o ho hf
  rw [hseg] at h3 k3
  refine ⟨t, t', h1, k1, ?_⟩
  rw [h3, k3, rowDistance_shows, rowDistance_shows]
  have e : ∀ l : List Pairing, ((l.map Prod.swap).map pairDistance).sum = (l.map pairDistance).sum := by
    intro l
    rw [List.map_map]
    congr 1
    apply List.map_congr_left
    intro c _
    exact pairDistance_comm c
  have a1 := best_distance h2 k2.1.swap.1
  have a2 := best_distance k2 h2.1.swap.1
  rw [e] at a1 a2
  omega

/-- C112, the triangle: the distance of two witnesses is no larger than the sum of their distances from a third. -/
theorem C112_triangle_partial (env : Env) (hts : TopoSpec env.topo) (wA wB wC : Witness)
    (hs : ∀ w ∈ [wA, wB, wC], w.sigil ≠ []) (hB : NoRepeats wB) (hC : NoRepeats wC) (o : Opts) (ho : ExactMatching o) (hf : o.pfilter = none)
    (hseg : o.segmentation = false) (hAB : Valid [wA, wB]) (hBC : Valid [wB, wC]) (hAC : Valid [wA, wC]) :
    ∃ tAB tBC tAC, collateTable env [wA, wB] o = .ok tAB ∧ collateTable env [wB, wC] o = .ok tBC ∧ collateTable env [wA, wC] o = .ok tAC ∧
      rowDistance (markedStrings tAC) ≤ rowDistance (markedStrings tAB) + rowDistance (markedStrings tBC) := by
  obtain ⟨tAB, ab, h1, h2, h3⟩ := best_marked env hts wA wB hAB (fun w hw => hs w (by simp at hw ⊢; tauto)) hB o ho hf
  obtain ⟨tBC, bc, k1, k2, k3⟩ := best_marked env hts wB wC hBC (fun w hw => hs w (by simp at hw ⊢; tauto)) hC o ho hf
  obtain ⟨tAC, ac, m1, m2, m3⟩ := best_marked env hts wA wC hAC (fun w hw => hs w (by simp at hw ⊢; tauto)) hC o ho hf
  rw [hseg] at h3 k3 m3
  refine ⟨tAB, tBC, tAC, h1, k1, m1, ?_⟩
  rw [h3, k3, m3, rowDistance_shows, rowDistance_shows, rowDistance_shows]
  obtain ⟨cols, hc, hw⟩ := arrangement_trans _ ab bc (Nat.le_refl _) h2.1.full k2.1.full (h2.1.second.trans k2.1.first.symm)
  rw [h2.1.first, k2.1.second] at hc
  have := best_distance m2 hc
  omega

/-- C112, backwards: two witnesses whose texts are those of two others read backwards have the same distance. -/
theorem C112_backwards_partial (env : Env) (hts : TopoSpec env.topo) (wA wB uA uB : Witness) (hv : Valid [wA, wB]) (hvu : Valid [uA, uB])
    (hs : ∀ w ∈ [wA, wB], w.sigil ≠ []) (hsu : ∀ w ∈ [uA, uB], w.sigil ≠ []) (hB : NoRepeats wB) (hB' : NoRepeats uB)
    (hA' : strings uA = (strings wA).reverse) (hB'' : strings uB = (strings wB).reverse) (o : Opts) (ho : ExactMatching o) (hf : o.pfilter = none)
    (hseg : o.segmentation = false) :
    ∃ t t', collateTable env [wA, wB] o = .ok t ∧ collateTable env [uA, uB] o = .ok t' ∧
      rowDistance (markedStrings t) = rowDistance (markedStrings t') := by
  obtain ⟨t, cols, h1, h2, h3⟩ := best_marked env hts wA wB hv hs hB o ho hf
  obtain ⟨t', cols', k1, k2, k3⟩ := best_marked env hts uA uB hvu hsu hB' o ho hf
  rw [hseg] at h3 k3
  refine ⟨t, t', h1, k1, ?_⟩
  rw [h3, k3, rowDistance_shows, rowDistance_shows]
  have e : ∀ l : List Pairing, (l.reverse.map pairDistance).sum = (l.map pairDistance).sum := by
    intro l
    rw [List.map_reverse, List.sum_reverse]
  have hb := k2.1.backwards
  rw [hA', hB'', List.reverse_reverse, List.reverse_reverse] at hb
  have hf' := h2.1.backwards
  rw [← hA', ← hB''] at hf'
  have a1 := best_distance h2 hb
  have a2 := best_distance k2 hf'
  rw [e] at a1 a2
  omega

/-! ### Equal neighbours, and cases -/

/-- With equal neighbours the triangle can fail: `the cat` and `the cat the the the` are further apart than both are from `the cat the` together. -/
theorem C112_repeats :
    Valid [wordsWitness "A" ["the", "cat"], wordsWitness "B" ["the", "cat", "the"], wordsWitness "C" ["the", "cat", "the", "the", "the"]] ∧
    (collateTable exampleEnv [wordsWitness "A" ["the", "cat"], wordsWitness "B" ["the", "cat", "the"]] { segmentation := false }).map
      (fun t => rowDistance (markedStrings t)) = .ok 3 ∧
    (collateTable exampleEnv [wordsWitness "B" ["the", "cat", "the"], wordsWitness "C" ["the", "cat", "the", "the", "the"]] { segmentation := false }).map
      (fun t => rowDistance (markedStrings t)) = .ok 6 ∧
    (collateTable exampleEnv [wordsWitness "A" ["the", "cat"], wordsWitness "C" ["the", "cat", "the", "the", "the"]] { segmentation := false }).map
      (fun t => rowDistance (markedStrings t)) = .ok 15 :=
  ⟨valid_of_check (by decide) (by decide) (by decide) (by decide), by decide +kernel, by decide +kernel, by decide +kernel⟩

/-- The table of the texts read backwards need not be the table read backwards: `a` and `a b a` are the same backwards, their table is not. -/
theorem C112_not_mirrored : Valid [wordsWitness "A" ["a"], wordsWitness "B" ["a", "b", "a"]] ∧ NoRepeats (wordsWitness "B" ["a", "b", "a"]) ∧
    (collateTable exampleEnv [wordsWitness "A" ["a"], wordsWitness "B" ["a", "b", "a"]] { segmentation := false }).map tableSummary =
      .ok ⟨[true, true, false], [S "A", S "B"], [[none, none, some [S "a"]], [some [S "a"], some [S "b"], some [S "a"]]]⟩ :=
  ⟨valid_of_check (by decide) (by decide) (by decide) (by decide), noRepeats_of_check (by decide), by decide +kernel⟩

/-- The hypotheses of C112 for `the black cat`, `the white and black cat` and `the white cat`, and the three distances: 6, 6 and 4. -/
example : TopoSpec exampleEnv.topo ∧ Valid [wordsWitness "A" ["the", "black", "cat"], wordsWitness "B" ["the", "white", "and", "black", "cat"]] ∧
    Valid [wordsWitness "B" ["the", "white", "and", "black", "cat"], wordsWitness "C" ["the", "white", "cat"]] ∧
    Valid [wordsWitness "A" ["the", "black", "cat"], wordsWitness "C" ["the", "white", "cat"]] ∧
    NoRepeats (wordsWitness "B" ["the", "white", "and", "black", "cat"]) ∧ NoRepeats (wordsWitness "C" ["the", "white", "cat"]) ∧
    (collateTable exampleEnv [wordsWitness "A" ["the", "black", "cat"], wordsWitness "B" ["the", "white", "and", "black", "cat"]]
      { segmentation := false }).map (fun t => rowDistance (markedStrings t)) = .ok 6 ∧
    (collateTable exampleEnv [wordsWitness "B" ["the", "white", "and", "black", "cat"], wordsWitness "C" ["the", "white", "cat"]]
      { segmentation := false }).map (fun t => rowDistance (markedStrings t)) = .ok 6 ∧
    (collateTable exampleEnv [wordsWitness "A" ["the", "black", "cat"], wordsWitness "C" ["the", "white", "cat"]]
      { segmentation := false }).map (fun t => rowDistance (markedStrings t)) = .ok 4 :=
  ⟨kahn_spec, valid_of_check (by decide) (by decide) (by decide) (by decide), valid_of_check (by decide) (by decide) (by decide) (by decide),
    valid_of_check (by decide) (by decide) (by decide) (by decide), noRepeats_of_check (by decide), noRepeats_of_check (by decide),
    by decide +kernel, by decide +kernel, by decide +kernel⟩

/-- The hypotheses of the backward reading for `a b c` and `a c d`. -/
example : strings (wordsWitness "A" ["c", "b", "a"]) = (strings (wordsWitness "A" ["a", "b", "c"])).reverse ∧
    strings (wordsWitness "B" ["d", "c", "a"]) = (strings (wordsWitness "B" ["a", "c", "d"])).reverse ∧ NoRepeats (wordsWitness "B" ["d", "c", "a"]) :=
  ⟨by decide, by decide, noRepeats_of_check (by decide)⟩

end CollateX
