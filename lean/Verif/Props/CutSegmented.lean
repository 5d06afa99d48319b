import Verif.Proofs.WorkSegments
import Verif.Props.CutMany
import Verif.Props.Segmented
/-
C108 for any number of witnesses, with segmentation.
-/

namespace CollateX
open Spec

theorem wordsOfCells_segmented {ts : List (List Str)} (SH : Sound (workOf ts).heads) : (workOf ts).shownSegmented.map wordsOfCells = ts := by
  have hread := workOf_reads ts
  generalize workOf ts = W at SH hread
  have h1 : W.shownSegmented.map wordsOfCells = W.rows.map (fun r => r.filterMap (fun n => W.words[n]?)) := by
    unfold Work.shownSegmented Work.segments
    rw [List.map_map, List.map_map]
    apply List.map_congr_left
    intro r hr
    simp only [Function.comp]
    unfold wordsOfCells
    rw [List.flatMap_map]
    conv => rhs; rw [← List.flatten_splitBy W.glued r, ← SH.segments_of_row hr]
    generalize List.range W.heads.width = l
    induction l with
    | nil => rfl
    | cons x l ih =>
      rw [List.flatMap_cons, List.filterMap_cons, ih]
      cases hx : (r.splitBy W.glued).find? (fun s => decide (W.heads.column (Work.first s) = x + 1)) <;> simp
  rw [h1]
  have h2 : W.rows.map (fun r => r.filterMap (fun n => W.words[n]?)) = (W.rows.map (List.map (fun n => W.words[n]?))).map (List.filterMap id) := by
    rw [List.map_map]
    apply List.map_congr_left
    intro r _
    simp [List.filterMap_map]
  rw [h2, hread, List.map_map]
  conv => rhs; rw [← List.map_id ts]
  apply List.map_congr_left
  intro t _
  simp

/-- The table of segments of the short program, cut. -/
theorem segmented_cut {ws : List Witness} (hv : Valid ws) (hne : ws ≠ []) (hu : ∀ n < ws.length, (workOf ((ws.map strings).take n)).Untwinned)
    (hrep : ∀ w ∈ ws.tail, NoRepeats w) {k : Nat} (hvar : (workOf (ws.map strings)).heads.variantAt (k + 1) = false) :
    (∃ tsL, (workOf tsL).shownSegmented = (workOf (ws.map strings)).shownSegmented.map (List.take k) ∧
      (workOf (ws.map strings)).shownSegmented.map (fun r => wordsOfCells (r.take k)) = tsL ∧ ∀ n < ws.length, (workOf (tsL.take n)).Untwinned) ∧
    (∃ tsR, (workOf tsR).shownSegmented = (workOf (ws.map strings)).shownSegmented.map (List.drop (k + 1)) ∧
      (workOf (ws.map strings)).shownSegmented.map (fun r => wordsOfCells (r.drop (k + 1))) = tsR ∧
      ∀ n < ws.length, (workOf (tsR.take n)).Untwinned) := by
  obtain ⟨n0, hn0lt, hall⟩ := variantAt_false.mp hvar
  obtain ⟨S, hW⟩ := workOf_sound hv hne hu
  have SH := S.heads hW
  have hH : ∀ r ∈ (workOf (ws.map strings)).heads.rows, n0 ∈ r := fun r hr => ((SH.nodeAt_iff hr).mp (hall r hr)).1
  have hrows : (workOf (ws.map strings)).rows ≠ [] := by
    intro h
    have := workOf_rows_length (ws.map strings)
    rw [h, List.length_map] at this
    exact hne (List.length_eq_zero_iff.mp this.symm)
  obtain ⟨a, hA⟩ := S.around hrows hH
  have hmem := around_mem hA
  obtain ⟨⟨fL, _, CL⟩, uL, _⟩ := cut_all hv hne hu hrep (fun r hr => (hmem r hr).1)
  obtain ⟨⟨_, fR, CR⟩, _, uR⟩ := cut_all hv hne hu hrep (fun r hr => (hmem r hr).2)
  obtain ⟨r, hr⟩ := List.exists_mem_of_ne_nil _ hrows
  have hr' : (r.splitBy (workOf (ws.map strings)).glued).map Work.first ∈ (workOf (ws.map strings)).heads.rows := by
    rw [heads_rows]; exact List.mem_map_of_mem hr
  have hn0 : (workOf (ws.map strings)).heads.Used n0 := ⟨_, hr', hH _ hr'⟩
  have hcol : (workOf (ws.map strings)).heads.column n0 = k + 1 := ((SH.nodeAt_iff hr').mp (hall _ hr')).2
  have SL := (CL.left.left_sound S (fun r hr => (hmem r hr).1) CL.coverL).heads CL.coverL
  have SR := (CR.right.right_sound S (fun r hr => (hmem r hr).2) CR.coverR).heads CR.coverR
  have hwL := (CL.left.left_heads S hA).left_width SH hH SL hn0
  have eL := CL.left.left_segmented S hA SH SL hn0
  have eR := CR.right.right_segmented S hA SH SR hn0
  rw [show (workOf (leftTexts n0 (ws.map strings) (workOf (ws.map strings)).rows)).heads.width = k by omega] at eL
  rw [hcol] at eR
  refine ⟨⟨_, eL, ?_, uL⟩, ⟨_, eR, ?_, uR⟩⟩
  · have := wordsOfCells_segmented SL
    rw [eL, List.map_map] at this
    exact this
  · have := wordsOfCells_segmented SR
    rw [eR, List.map_map] at this
    exact this

/-- C108 for any number of witnesses, with segmentation, all but the first without equal neighbours, if the short program of C103 finds nothing to
choose. -/
theorem C108_segmented_many_partial (env : Env) (hts : TopoSpec env.topo) (ws : List Witness) (hv : Valid ws) (hs : ∀ w ∈ ws, w.sigil ≠ [])
    (hrep : ∀ w ∈ ws.tail, NoRepeats w) (hu : ∀ n < ws.length, (workOf ((ws.map strings).take n)).Untwinned) (o : Opts) (ho : ExactMatching o)
    (hf : o.pfilter = none) (hseg : o.segmentation = true) :
    ∃ t, collateTable env ws o = .ok t ∧ ∀ (k : Nat) (c : Column), t.columns[k]? = some c → c.variant = false →
      (∀ us, Valid us → (∀ w ∈ us, w.sigil ≠ []) → us.map strings = (markedStrings t).map (fun r => wordsOfCells (r.take k)) →
        ∃ t', collateTable env us o = .ok t' ∧ markedStrings t' = (markedStrings t).map (List.take k)) ∧
      (∀ us, Valid us → (∀ w ∈ us, w.sigil ≠ []) → us.map strings = (markedStrings t).map (fun r => wordsOfCells (r.drop (k + 1))) →
        ∃ t', collateTable env us o = .ok t' ∧ markedStrings t' = (markedStrings t).map (List.drop (k + 1))) := by
  have hne : ws ≠ [] := hv.ne
  obtain ⟨t, h1, h2⟩ := C104_computed env hts ws hv hs o ho hf hseg hu
  have hnum : (workOf (ws.map strings)).shownSegmented.length = ws.length := by
    unfold Work.shownSegmented Work.segments
    rw [List.length_map, List.length_map, workOf_rows_length, List.length_map]
  refine ⟨t, h1, ?_⟩
  intro k c hc hcv
  obtain ⟨hrows, hshape, _⟩ := C26_table_shape env hts _ hv hs o ho t h1
  obtain ⟨row, hrow⟩ : ∃ row, row ∈ t.rows := by
    cases hr : t.rows with
    | nil =>
      have : (markedStrings t).length = 0 := by unfold markedStrings; rw [hr]; rfl
      rw [h2, hnum] at this
      exact absurd (List.length_eq_zero_iff.mp this) hne
    | cons a l => exact ⟨a, by simp⟩
  obtain ⟨r, hr, x, hx⟩ := marked_at hc hrow (hshape row hrow).1
  rw [h2] at hr
  unfold Work.shownSegmented at hr
  obtain ⟨r0, _, rfl⟩ := List.mem_map.mp hr
  rw [List.getElem?_map] at hx
  obtain ⟨y, hy, he⟩ := Option.map_eq_some_iff.mp hx
  obtain ⟨hlt, hyk⟩ := List.getElem?_eq_some_iff.mp hy
  rw [List.getElem_range] at hyk
  subst hyk
  have hvar : (workOf (ws.map strings)).heads.variantAt (k + 1) = false := (congrArg Prod.fst he).trans hcv
  obtain ⟨⟨tsL, l1, l2, l3⟩, ⟨tsR, r1, r2, r3⟩⟩ := segmented_cut hv hne hu hrep hvar
  rw [h2]
  refine ⟨?_, ?_⟩
  · intro us hvu hsu hus
    rw [l2] at hus
    have hlen : us.length = ws.length := by
      have := congrArg List.length hus
      rwa [← l2, List.length_map, List.length_map, hnum] at this
    obtain ⟨t', k1, k2⟩ := C104_computed env hts us hvu hsu o ho hf hseg (by rw [hus, hlen]; exact l3)
    exact ⟨t', k1, by rw [k2, hus, l1]⟩
  · intro us hvu hsu hus
    rw [r2] at hus
    have hlen : us.length = ws.length := by
      have := congrArg List.length hus
      rwa [← r2, List.length_map, List.length_map, hnum] at this
    obtain ⟨t', k1, k2⟩ := C104_computed env hts us hvu hsu o ho hf hseg (by rw [hus, hlen]; exact r3)
    exact ⟨t', k1, by rw [k2, hus, r1]⟩

/-- C108 for three witnesses, the second and the third without equal neighbours, with or without segmentation. -/
theorem C108_three_partial (env : Env) (hts : TopoSpec env.topo) (ws : List Witness) (hv : Valid ws) (hs : ∀ w ∈ ws, w.sigil ≠ [])
    (h3 : ws.length ≤ 3) (hrep : ∀ w ∈ ws.tail, NoRepeats w) (o : Opts) (ho : ExactMatching o) (hf : o.pfilter = none) :
    ∃ t, collateTable env ws o = .ok t ∧ ∀ (k : Nat) (c : Column), t.columns[k]? = some c → c.variant = false →
      (∀ us, Valid us → (∀ w ∈ us, w.sigil ≠ []) → us.map strings = (markedStrings t).map (fun r => wordsOfCells (r.take k)) →
        ∃ t', collateTable env us o = .ok t' ∧ markedStrings t' = (markedStrings t).map (List.take k)) ∧
      (∀ us, Valid us → (∀ w ∈ us, w.sigil ≠ []) → us.map strings = (markedStrings t).map (fun r => wordsOfCells (r.drop (k + 1))) →
        ∃ t', collateTable env us o = .ok t' ∧ markedStrings t' = (markedStrings t).map (List.drop (k + 1))) := by
  have hu := untwinned_three hv hs h3 (by
    intro w hw
    refine hrep w ?_
    match ws, hw with
    | A :: l, hw => exact List.mem_of_getElem? (i := 0) (by simpa using hw))
  cases hseg : o.segmentation with
  | false => exact C108_cut_many_partial env hts ws hv hs hrep hu o ho hf hseg
  | true => exact C108_segmented_many_partial env hts ws hv hs hrep hu o ho hf hseg

/-- The hypotheses of C108 for `the black cat sat`, `the white and black cat sat` and `the white cat sat` with the default options: the column of
`cat sat` is not marked, and before it stands the table of `the black`, `the white and black` and `the white`. -/
example : TopoSpec exampleEnv.topo ∧
    Valid [wordsWitness "A" ["the", "black", "cat", "sat"], wordsWitness "B" ["the", "white", "and", "black", "cat", "sat"],
      wordsWitness "C" ["the", "white", "cat", "sat"]] ∧
    (∃ t, collateTable exampleEnv [wordsWitness "A" ["the", "black", "cat", "sat"], wordsWitness "B" ["the", "white", "and", "black", "cat", "sat"],
        wordsWitness "C" ["the", "white", "cat", "sat"]] {} = .ok t ∧ markedStrings t =
      [[(false, some [S "the"]), (true, none), (true, none), (true, some [S "black"]), (false, some [S "cat", S "sat"])],
       [(false, some [S "the"]), (true, some [S "white"]), (true, some [S "and"]), (true, some [S "black"]), (false, some [S "cat", S "sat"])],
       [(false, some [S "the"]), (true, some [S "white"]), (true, none), (true, none), (false, some [S "cat", S "sat"])]]) ∧
    ∃ t, collateTable exampleEnv [wordsWitness "A" ["the", "black"], wordsWitness "B" ["the", "white", "and", "black"], wordsWitness "C" ["the", "white"]]
        {} = .ok t ∧ markedStrings t =
      [[(false, some [S "the"]), (true, none), (true, none), (true, some [S "black"])],
       [(false, some [S "the"]), (true, some [S "white"]), (true, some [S "and"]), (true, some [S "black"])],
       [(false, some [S "the"]), (true, some [S "white"]), (true, none), (true, none)]] := by
  have hv : Valid [wordsWitness "A" ["the", "black", "cat", "sat"], wordsWitness "B" ["the", "white", "and", "black", "cat", "sat"],
      wordsWitness "C" ["the", "white", "cat", "sat"]] := valid_of_check (by decide) (by decide) (by decide) (by decide)
  have hvu : Valid [wordsWitness "A" ["the", "black"], wordsWitness "B" ["the", "white", "and", "black"], wordsWitness "C" ["the", "white"]] :=
    valid_of_check (by decide) (by decide) (by decide) (by decide)
  refine ⟨kahn_spec, hv, ?_, ?_⟩
  · obtain ⟨t, h1, h2⟩ := C104_computed exampleEnv kahn_spec _ hv (by decide) {} ⟨rfl, rfl, rfl⟩ rfl
      rfl (untwinned_three hv (by decide) (by decide) (fun w hw => by
        obtain rfl := Option.some.inj hw
        exact noRepeats_of_check (by decide)))
    exact ⟨t, h1, h2.trans (by decide +kernel)⟩
  · obtain ⟨t, h1, h2⟩ := C104_computed exampleEnv kahn_spec _ hvu (by decide) {} ⟨rfl, rfl, rfl⟩ rfl
      rfl (untwinned_three hvu (by decide) (by decide) (fun w hw => by
        obtain rfl := Option.some.inj hw
        exact noRepeats_of_check (by decide)))
    exact ⟨t, h1, h2.trans (by decide +kernel)⟩

end CollateX
