import Verif.Proofs.Cut
import Verif.Props.Textbook
/-
C108: the table of two witnesses can be cut at any column that is not marked as variant. What stands before it is the table of what the two
witnesses have before it, and what stands after it is the table of what they have after it.
-/

namespace CollateX
open Spec

/-- The words of a part of a row. -/
def Spec.wordsOfCells (cells : List (Bool × Option (List Str))) : List Str := cells.flatMap (fun c => c.2.getD [])

/-! ### The words of the columns -/

theorem range_lookup {α : Type} (l : List α) : ∀ n, l.length ≤ n → (List.range n).filterMap (fun d => l[d]?) = l := by
  intro n hn
  induction n generalizing l with
  | zero =>
    obtain rfl := List.length_eq_zero_iff.mp (Nat.le_zero.mp hn)
    rfl
  | succ n ih =>
    rw [List.range_succ_eq_map]
    cases l with
    | nil => simp
    | cons a l =>
      simp only [List.length_cons, Nat.add_le_add_iff_right] at hn
      rw [List.filterMap_cons]
      simp only [List.getElem?_cons_zero]
      rw [List.filterMap_map]
      congr 1
      exact ih l hn

theorem columnsFrom_texts {A B : List Str} : ∀ {l : List (Nat × Nat)} {a b : Nat}, l.Pairwise (fun p q => p.1 < q.1 ∧ p.2 < q.2) →
    (∀ p ∈ l, a ≤ p.1 ∧ p.1 < A.length ∧ b ≤ p.2 ∧ p.2 < B.length) →
      (columnsFrom A B l a b).filterMap (fun c => c.2.1) = A.drop a ∧ (columnsFrom A B l a b).filterMap (fun c => c.2.2) = B.drop b
  | [], a, b, _, _ => by
    rw [columnsFrom]
    unfold beside
    rw [List.filterMap_map, List.filterMap_map]
    exact ⟨range_lookup _ _ (Nat.le_max_left _ _), range_lookup _ _ (Nat.le_max_right _ _)⟩
  | (i, j) :: l, a, b, hp, hb => by
    obtain ⟨h1, h2, h3, h4⟩ := hb (i, j) (by simp)
    simp only at h1 h2 h3 h4
    obtain ⟨p1, p2⟩ := List.pairwise_cons.mp hp
    obtain ⟨k1, k2⟩ := columnsFrom_texts (A := A) (B := B) (l := l) (a := i + 1) (b := j + 1) p2 (by
      intro p hpm
      have := p1 p hpm
      have := hb p (by simp [hpm])
      simp only at *
      omega)
    rw [columnsFrom, List.filterMap_append, List.filterMap_append, List.filterMap_cons, List.filterMap_cons, List.getElem?_eq_getElem h2,
      List.getElem?_eq_getElem h4]
    simp only
    rw [k1, k2]
    unfold beside
    rw [List.filterMap_map, List.filterMap_map]
    have e1 := range_lookup ((A.take i).drop a) _ (Nat.le_max_left _ ((B.take j).drop b).length)
    have e2 := range_lookup ((B.take j).drop b) _ (Nat.le_max_right ((A.take i).drop a).length _)
    constructor
    · refine (congrArg (· ++ A[i] :: A.drop (i + 1)) e1).trans ?_
      rw [← List.drop_eq_getElem_cons h2]
      have := List.drop_append_of_le_length (l₁ := A.take i) (l₂ := A.drop i) (i := a) (by simp; omega)
      rw [List.take_append_drop] at this
      exact this.symm
    · refine (congrArg (· ++ B[j] :: B.drop (j + 1)) e2).trans ?_
      rw [← List.drop_eq_getElem_cons h4]
      have := List.drop_append_of_le_length (l₁ := B.take j) (l₂ := B.drop j) (i := b) (by simp; omega)
      rw [List.take_append_drop] at this
      exact this.symm

theorem collation_texts (A B : List Str) : (collation A B).filterMap (fun c => c.2.1) = A ∧ (collation A B).filterMap (fun c => c.2.2) = B := by
  have h := linked_rising A B
  have := columnsFrom_texts (A := A) (B := B) (a := 0) (b := 0) h.1 (fun p hp => by have := h.2 p hp; omega)
  rwa [List.drop_zero, List.drop_zero] at this

/-! ### Rows -/

/-- One row of the columns. -/
def rowOf (seg : Bool) (f : MarkedPair → Option Str) (cols : List MarkedPair) : List (Bool × Option (List Str)) :=
  if seg then mergedRuns (cols.map (fun c => (c.1, (f c).map (fun s => [s])))) else cols.map (fun c => (c.1, (f c).map (fun s => [s])))

theorem showsPairs_rows (seg : Bool) (cols : List MarkedPair) :
    showsPairs seg cols = [rowOf seg (fun c => c.2.1) cols, rowOf seg (fun c => c.2.2) cols] := by
  unfold showsPairs rowOf
  cases seg <;> rfl

theorem joinedCells_getD {α : Type} (cs : List (Option (List α))) : (joinedCells cs).getD [] = (cs.filterMap id).flatten := by
  unfold joinedCells
  split
  · rename_i h
    rw [List.filterMap_eq_nil_iff.mpr]
    · rfl
    · intro x hx
      have := List.all_eq_true.mp h x hx
      simpa using this
  · rfl

theorem wordsOfCells_merged (l : List (Bool × Option (List Str))) : wordsOfCells (mergedRuns l) = wordsOfCells l := by
  unfold wordsOfCells mergedRuns
  rw [List.flatMap_map]
  simp only [joinedCells_getD]
  conv => rhs; rw [← List.flatten_splitBy (fun x y : Bool × Option (List Str) => x.1 == y.1) l]
  have hg : ∀ g : List (Bool × Option (List Str)), (List.filterMap id (g.map Prod.snd)).flatten = g.flatMap (fun c => c.2.getD []) := by
    intro g
    induction g with
    | nil => rfl
    | cons c g ih =>
      rw [List.map_cons, List.flatMap_cons, ← ih]
      cases c.2 <;> simp
  simp only [hg]
  rw [List.flatMap_def (l := List.flatten _), List.map_flatten, List.flatten_flatten, List.map_map, List.flatMap_def]
  rfl

theorem wordsOfCells_row (seg : Bool) (f : MarkedPair → Option Str) (cols : List MarkedPair) : wordsOfCells (rowOf seg f cols) = cols.filterMap f := by
  have h : wordsOfCells (cols.map (fun c => (c.1, (f c).map (fun s => [s])))) = cols.filterMap f := by
    unfold wordsOfCells
    rw [List.flatMap_map]
    induction cols with
    | nil => rfl
    | cons c cols ih =>
      rw [List.flatMap_cons, ih, List.filterMap_cons]
      cases f c <;> simp
  unfold rowOf
  cases seg
  · exact h
  · simp only [if_true]
    rw [wordsOfCells_merged, h]

/-- The rows, cut at a column that is not marked. -/
theorem rows_cut (seg : Bool) {A B : List Str} (h : NoDoubles B) {f : MarkedPair → Option Str} {k : Nat} {x : Option (List Str)}
    (hk : (rowOf seg f (collation A B))[k]? = some (false, x)) :
    ∃ i j i' j', ∀ f', (rowOf seg f' (collation A B)).take k = rowOf seg f' (collation (A.take i) (B.take j)) ∧
      (rowOf seg f' (collation A B)).drop (k + 1) = rowOf seg f' (collation (A.drop i') (B.drop j')) := by
  cases seg with
  | false =>
    simp only [rowOf, Bool.false_eq_true, if_false] at hk ⊢
    rw [List.getElem?_map] at hk
    obtain ⟨c, hc, e⟩ := Option.map_eq_some_iff.mp hk
    obtain ⟨i, j, _, _, _, h1, h2⟩ := collation_at h hc (congrArg Prod.fst e)
    exact ⟨i, j, i + 1, j + 1, fun f' => ⟨by rw [← List.map_take, h1], by rw [← List.map_drop, h2]⟩⟩
  | true =>
    simp only [rowOf, if_true] at hk ⊢
    have rowEq : ∀ (f' : MarkedPair → Option Str) (cols : List MarkedPair), mergedRuns (cols.map (fun c => (c.1, (f' c).map (fun s => [s])))) =
        (cols.splitBy (fun x y => x.1 == y.1)).map (fun g => (g.any Prod.fst, joinedCells (g.map (fun c => (f' c).map (fun s => [s]))))) := by
      intro f' cols
      unfold mergedRuns
      rw [splitBy_map, List.map_map]
      apply List.map_congr_left
      intro g _
      simp [Function.comp_def]
    simp only [rowEq] at hk ⊢
    rw [List.getElem?_map] at hk
    obtain ⟨G, hG, e⟩ := Option.map_eq_some_iff.mp hk
    generalize hgs : (collation A B).splitBy (fun x y => x.1 == y.1) = gs at hG ⊢
    have hflat : gs.flatten = collation A B := by rw [← hgs]; exact List.flatten_splitBy _ _
    have hne : [] ∉ gs := by rw [← hgs]; exact List.nil_notMem_splitBy _ _
    have hch : ∀ m ∈ gs, m.IsChain (fun x y => (x.1 == y.1) = true) := by
      intro m hm
      rw [← hgs] at hm
      exact List.isChain_of_mem_splitBy hm
    have hbet : gs.IsChain (fun a b => ∃ ha hb, ((a.getLast ha).1 == (b.head hb).1) = false) := by
      rw [← hgs]
      exact List.isChain_getLast_head_splitBy (fun x y : MarkedPair => x.1 == y.1) _
    have hsplit : ∀ {l : List (List MarkedPair)}, l <:+: gs → l.flatten.splitBy (fun x y => x.1 == y.1) = l := by
      intro l hl
      exact List.splitBy_flatten (fun h0 => hne (hl.subset h0)) (fun m hm => hch m (hl.subset hm)) (hbet.infix hl)
    have hun : ∀ c ∈ G, c.1 = false := by
      have := congrArg Prod.fst e
      simp only at this
      intro c hc
      have := List.any_eq_false.mp this c hc
      simpa using this
    have hGm := List.mem_of_getElem? hG
    have hGne : G ≠ [] := fun h0 => hne (h0 ▸ hGm)
    obtain ⟨hklt, hGk⟩ := List.getElem?_eq_some_iff.mp hG
    have hcut : gs = gs.take k ++ G :: gs.drop (k + 1) := by
      rw [← hGk, List.getElem_cons_drop, List.take_append_drop]
    have hcols : collation A B = (gs.take k).flatten ++ (G ++ (gs.drop (k + 1)).flatten) := by
      rw [← hflat]
      conv => lhs; rw [hcut]
      simp
    have hlen : 0 < G.length := List.length_pos_iff.mpr hGne
    -- the first column of the group
    have f1 : (collation A B)[(gs.take k).flatten.length]? = some (G[0]'hlen) := by
      rw [hcols, List.getElem?_append_right (le_refl _), Nat.sub_self, List.getElem?_append_left hlen, List.getElem?_eq_getElem hlen]
    have f2 : (collation A B)[(gs.take k).flatten.length + (G.length - 1)]? = some (G[G.length - 1]'(by omega)) := by
      rw [hcols, List.getElem?_append_right (by omega), Nat.add_sub_cancel_left, List.getElem?_append_left (by omega), List.getElem?_eq_getElem]
    obtain ⟨i, j, _, _, _, h1, _⟩ := collation_at h f1 (hun _ (List.getElem_mem _))
    obtain ⟨i', j', _, _, _, _, h2⟩ := collation_at h f2 (hun _ (List.getElem_mem _))
    rw [hcols, List.take_left] at h1
    rw [hcols, show (gs.take k).flatten.length + (G.length - 1) + 1 = (gs.take k).flatten.length + G.length by omega, ← List.drop_drop, List.drop_left,
      List.drop_left] at h2
    refine ⟨i, j, i' + 1, j' + 1, fun f' => ⟨?_, ?_⟩⟩
    · rw [← List.map_take, ← h1, hsplit (List.take_prefix k gs).isInfix]
    · rw [← List.map_drop, ← h2, hsplit (List.drop_suffix (k + 1) gs).isInfix]

/-! ### C108 -/

/-- C108. The table of two witnesses, the second without equal neighbours, with and without segmentation: take any column that is not marked as
variant. The columns before it are the table of any two witnesses that have the words which the rows have before it, and the columns after it
are the table of any two witnesses that have the words which the rows have after it. -/
theorem C108_cut_partial (env : Env) (hts : TopoSpec env.topo) (wA wB : Witness) (hv : Valid [wA, wB])
    (hs : ∀ w ∈ [wA, wB], w.sigil ≠ []) (hrep : NoRepeats wB) (o : Opts) (ho : ExactMatching o) (hf : o.pfilter = none) :
    ∃ t rowA rowB, collateTable env [wA, wB] o = .ok t ∧ markedStrings t = [rowA, rowB] ∧
      ∀ (k : Nat) (c : Column), t.columns[k]? = some c → c.variant = false →
        (∀ uA uB, Valid [uA, uB] → (∀ w ∈ [uA, uB], w.sigil ≠ []) → strings uA = wordsOfCells (rowA.take k) →
          strings uB = wordsOfCells (rowB.take k) →
            ∃ t', collateTable env [uA, uB] o = .ok t' ∧ markedStrings t' = [rowA.take k, rowB.take k]) ∧
        (∀ uA uB, Valid [uA, uB] → (∀ w ∈ [uA, uB], w.sigil ≠ []) → strings uA = wordsOfCells (rowA.drop (k + 1)) →
          strings uB = wordsOfCells (rowB.drop (k + 1)) →
            ∃ t', collateTable env [uA, uB] o = .ok t' ∧ markedStrings t' = [rowA.drop (k + 1), rowB.drop (k + 1)]) := by
  obtain ⟨t, h1, h2⟩ := C102_two_witnesses env hts wA wB hv hs o ho hf
  rw [showsPairs_rows] at h2
  refine ⟨t, _, _, h1, h2, ?_⟩
  intro k c hc hcv
  have hk : ∃ x, (rowOf o.segmentation (fun c => c.2.1) (collation (strings wA) (strings wB)))[k]? = some (false, x) := by
    have hr : t.rows.map (fun r => (markedRow t r).map (fun x => (x.1, x.2.map (List.map Token.str)))) = _ := h2
    match hrows : t.rows with
    | [] => rw [hrows] at hr; cases hr
    | r :: rest =>
      rw [hrows, List.map_cons] at hr
      rw [← (List.cons.inj hr).1]
      have hlen : r.cells.length = t.columns.length := ((C26_table_shape env hts _ hv hs o ho t h1).2.1 r (by simp [hrows])).1
      have hkl := (List.getElem?_eq_some_iff.mp hc).1
      refine ⟨(r.cells[k]'(by omega)).map (List.map Token.str), ?_⟩
      unfold markedRow
      rw [List.getElem?_map, Option.map_eq_some_iff]
      refine ⟨(false, r.cells[k]'(by omega)), ?_, rfl⟩
      rw [List.getElem?_zip_eq_some]
      exact ⟨by rw [List.getElem?_map, hc, Option.map_some, hcv], List.getElem?_eq_getElem _⟩
  obtain ⟨x, hk⟩ := hk
  obtain ⟨i, j, i', j', hcut⟩ := rows_cut o.segmentation (A := strings wA) (B := strings wB) hrep hk
  simp only [(hcut _).1, (hcut _).2]
  refine ⟨?_, ?_⟩
  · intro uA uB hu hus hA hB
    obtain ⟨t', k1, k2⟩ := C102_two_witnesses env hts uA uB hu hus o ho hf
    rw [wordsOfCells_row, (collation_texts _ _).1] at hA
    rw [wordsOfCells_row, (collation_texts _ _).2] at hB
    rw [hA, hB, showsPairs_rows] at k2
    exact ⟨t', k1, k2⟩
  · intro uA uB hu hus hA hB
    obtain ⟨t', k1, k2⟩ := C102_two_witnesses env hts uA uB hu hus o ho hf
    rw [wordsOfCells_row, (collation_texts _ _).1] at hA
    rw [wordsOfCells_row, (collation_texts _ _).2] at hB
    rw [hA, hB, showsPairs_rows] at k2
    exact ⟨t', k1, k2⟩

/-- The hypotheses of C108 for two witnesses with a column that is not marked in the middle of the table: what stands before and after it. -/
example : TopoSpec exampleEnv.topo ∧ Valid [wordsWitness "A" ["the", "old", "cat", "sat"], wordsWitness "B" ["a", "the", "cat", "stood", "up"]] ∧
    NoRepeats (wordsWitness "B" ["a", "the", "cat", "stood", "up"]) ∧
    (∃ t, collateTable exampleEnv [wordsWitness "A" ["the", "old", "cat", "sat"], wordsWitness "B" ["a", "the", "cat", "stood", "up"]] {} = .ok t ∧
      markedStrings t = [[(true, none), (false, some [S "the"]), (true, some [S "old"]), (false, some [S "cat"]), (true, some [S "sat"])],
        [(true, some [S "a"]), (false, some [S "the"]), (true, none), (false, some [S "cat"]), (true, some [S "stood", S "up"])]]) ∧
    ∃ t, collateTable exampleEnv [wordsWitness "A" ["the", "old"], wordsWitness "B" ["a", "the"]] {} = .ok t ∧
      markedStrings t = [[(true, none), (false, some [S "the"]), (true, some [S "old"])],
        [(true, some [S "a"]), (false, some [S "the"]), (true, none)]] := by
  refine ⟨kahn_spec, valid_of_check (by decide) (by decide) (by decide) (by decide), noRepeats_of_check (by decide), ?_, ?_⟩
  · obtain ⟨t, h1, h2⟩ := C102_two_witnesses exampleEnv kahn_spec (wordsWitness "A" ["the", "old", "cat", "sat"])
      (wordsWitness "B" ["a", "the", "cat", "stood", "up"]) (valid_of_check (by decide) (by decide) (by decide) (by decide)) (by decide) {}
      ⟨rfl, rfl, rfl⟩ rfl
    exact ⟨t, h1, h2.trans (by decide +kernel)⟩
  · obtain ⟨t, h1, h2⟩ := C102_two_witnesses exampleEnv kahn_spec (wordsWitness "A" ["the", "old"])
      (wordsWitness "B" ["a", "the"]) (valid_of_check (by decide) (by decide) (by decide) (by decide)) (by decide) {} ⟨rfl, rfl, rfl⟩ rfl
    exact ⟨t, h1, h2.trans (by decide +kernel)⟩

/-- C108, why the second witness must have no equal neighbours. `a b a` and `b a a`: the last words share a column that is not marked, and before
it the words `b` share one. Without the last words, the texts are `a b` and `b a`, and now the words `a` share a column, not the words `b`. (The
first witness has no equal neighbours here.) -/
theorem C108_equal_neighbours : ∃ t t', collateTable exampleEnv [wordsWitness "A" ["a", "b", "a"], wordsWitness "B" ["b", "a", "a"]] {} = .ok t ∧
    markedStrings t = [[(true, some [S "a"]), (false, some [S "b"]), (true, none), (false, some [S "a"])],
      [(true, none), (false, some [S "b"]), (true, some [S "a"]), (false, some [S "a"])]] ∧
    collateTable exampleEnv [wordsWitness "A" ["a", "b"], wordsWitness "B" ["b", "a"]] {} = .ok t' ∧
    markedStrings t' = [[(true, none), (false, some [S "a"]), (true, some [S "b"])], [(true, some [S "b"]), (false, some [S "a"]), (true, none)]] := by
  obtain ⟨t, h1, h2⟩ := C102_two_witnesses exampleEnv kahn_spec (wordsWitness "A" ["a", "b", "a"]) (wordsWitness "B" ["b", "a", "a"])
    (valid_of_check (by decide) (by decide) (by decide) (by decide)) (by decide) {} ⟨rfl, rfl, rfl⟩ rfl
  obtain ⟨t', k1, k2⟩ := C102_two_witnesses exampleEnv kahn_spec (wordsWitness "A" ["a", "b"]) (wordsWitness "B" ["b", "a"])
    (valid_of_check (by decide) (by decide) (by decide) (by decide)) (by decide) {} ⟨rfl, rfl, rfl⟩ rfl
  exact ⟨t, t', h1, h2.trans (by decide +kernel), k1, k2.trans (by decide +kernel)⟩

end CollateX
