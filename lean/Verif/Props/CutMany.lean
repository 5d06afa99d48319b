import Verif.Proofs.WorkInduct
import Verif.Props.Cut
/-
C108 for any number of witnesses.
-/

namespace CollateX
open Spec

/-! ### The short program is sound -/

theorem Tracks.sound {cc : CharClass} {ws : List Witness} {W : Work} {g : VGraph} {ps : List WPath} {rk : Ranking} {rkf : VId → Nat}
    {ord : List VId} {m : Nat} (T : Tracks W g ps) (C : Collated cc ws false g ps rk rkf ord m) (hne : ps ≠ []) :
    Sound W ∧ ∀ n < W.words.length, W.Used n := by
  have hg := C.ginv
  have hr := C.rank
  have N := T.nodes
  have hbd := hg.rank_bounds hne (h := rkf) (fun p hp => hr.isRank.lt hg.wf (u := p.1) (v := p.2) hp)
  have hused : ∀ n, W.Used n → n + 2 ∈ g.vertices := by
    rintro n ⟨r, hr', hn⟩
    obtain ⟨p, hp, he⟩ := N.path_of hr'
    have h1 : n + 2 ∈ p.inner := by rw [he]; exact List.mem_map.mpr ⟨n, hn, rfl⟩
    obtain ⟨q, hq, hqe⟩ := List.mem_map.mp h1
    have h2 := (hg.segs_in p hp q hq).1
    rwa [hqe] at h2
  have hbound : ∀ n, W.Used n → n < W.words.length := by
    intro n hn
    have := N.bound _ (hused n hn)
    omega
  have hcov : ∀ n < W.words.length, W.Used n := by
    intro n hn
    obtain ⟨hv, h0, h1⟩ := T.inner hn
    obtain ⟨p, hp, hm⟩ := hg.cover _ hv h0 h1
    obtain ⟨r, hr', he⟩ := N.row_of hp
    rw [he] at hm
    obtain ⟨k, hk, hkn⟩ := List.mem_map.mp hm
    obtain rfl : k = n := by omega
    exact ⟨r, hr', hk⟩
  refine ⟨sound_of (c := fun n => rkf (n + 2)) hbound ?_ hcov, hcov⟩
  intro n hn
  have h1 := hused n hn
  obtain ⟨h2, h3⟩ := Nodes.inner n
  have hpos := (hbd _ h1).1 h2
  have hb : ∀ j ∈ W.before n, j + 2 ∈ g.vertices ∧ rkf (j + 2) < rkf (n + 2) := by
    intro j hj
    have he := (N.edge hg).mpr hj
    exact ⟨(hg.wf.ends _ he).1, hr.isRank.lt hg.wf he⟩
  obtain ⟨u, hu, hru⟩ := hr.isRank.pred h1 (by omega)
  have hle : Work.largest ((W.before n).map (fun j => rkf (j + 2))) < rkf (n + 2) := by
    rcases Nat.eq_zero_or_pos (Work.largest ((W.before n).map (fun j => rkf (j + 2)))) with h0 | h0
    · omega
    · obtain ⟨j, hj, he⟩ := List.mem_map.mp (largest_mem h0)
      rw [← he]
      exact (hb j hj).2
  have hge : rkf u ≤ Work.largest ((W.before n).map (fun j => rkf (j + 2))) := by
    by_cases h0 : u = startV
    · rcases Nat.eq_zero_or_pos (rkf u) with hz | hz
      · omega
      · obtain ⟨u', hu', _⟩ := hr.isRank.pred (hg.wf.ends _ hu).1 hz
        obtain ⟨q, hq, hc⟩ := (hg.edges_iff _ _).mp hu'
        have hnd := hg.path_nodup hq
        obtain ⟨i, _, hi⟩ := consec_iff_getElem.mp hc
        have hi0 : q.path[0]? = some startV := rfl
        rw [h0] at hi
        have := getElem_unique hnd hi0 hi
        omega
    · have h4 : u ≠ endV := by
        rintro rfl
        have := (hbd _ h1).2 h3
        omega
      obtain ⟨j, rfl, hj⟩ := N.node (hg.wf.ends _ hu).1 h0 h4
      exact le_largest (List.mem_map.mpr ⟨j, (N.edge hg).mp hu, rfl⟩)
  omega

theorem workOf_sound {ws : List Witness} (hv : Valid ws) (hne : ws ≠ []) (hu : ∀ n < ws.length, (workOf ((ws.map strings).take n)).Untwinned) :
    Sound (workOf (ws.map strings)) ∧ ∀ n < (workOf (ws.map strings)).words.length, (workOf (ws.map strings)).Used n := by
  obtain ⟨g, rk, ps, rkf, ord, m, W, h1, C, hW, T⟩ := worked_core exampleEnv kahn_spec ws hv { segmentation := false } ⟨rfl, rfl, rfl⟩ rfl rfl
  have hps : ps ≠ [] := C.ne (by
    intro h0
    have := congrArg List.length h0
    rw [indexed_length] at this
    exact hne (List.length_eq_zero_iff.mp this))
  rw [← hW.unique (by rw [List.length_map]; exact hu)]
  exact T.sound C hps

/-! ### Words of parts -/

theorem wordsOfCells_shown {ts : List (List Str)} (S : Sound (workOf ts)) : (workOf ts).shown.map wordsOfCells = ts := by
  have hread := workOf_reads ts
  generalize workOf ts = W at S hread
  have h1 : W.shown.map wordsOfCells = W.rows.map (fun r => r.filterMap (fun n => W.words[n]?)) := by
    unfold Work.shown
    rw [List.map_map]
    apply List.map_congr_left
    intro r hr
    simp only [Function.comp]
    unfold wordsOfCells
    rw [List.flatMap_map]
    conv => rhs; rw [← S.nodes_of_row hr]
    rw [List.filterMap_filterMap]
    generalize List.range W.width = l
    induction l with
    | nil => rfl
    | cons x l ih =>
      rw [List.flatMap_cons, List.filterMap_cons, ih]
      cases hx : (W.nodeAt r (x + 1)).bind (fun n => W.words[n]?) <;> simp
  rw [h1]
  have h2 : W.rows.map (fun r => r.filterMap (fun n => W.words[n]?)) = (W.rows.map (List.map (fun n => W.words[n]?))).map (List.filterMap id) := by
    rw [List.map_map]
    apply List.map_congr_left
    intro r _
    simp [List.filterMap_map]
  rw [h2, hread, List.map_map]
  conv => rhs; rw [← List.map_id ts]
  apply List.map_congr_left
  intro t _
  simp

theorem workOf_rows_take (ts : List (List Str)) : ∀ k, (workOf (ts.take k)).rows = (workOf ts).rows.take k := by
  induction ts using List.reverseRecOn with
  | nil => intro k; simp [workOf]
  | append_singleton ts B ih =>
    intro k
    have hl := workOf_rows_length ts
    rcases Nat.lt_or_ge ts.length k with h | h
    · rw [List.take_of_length_le (by simp; omega), List.take_of_length_le (by rw [workOf_rows_length]; simp; omega)]
    · rw [List.take_append_of_le_length h, ih, workOf_snoc]
      unfold Work.add
      simp only
      rw [List.take_append_of_le_length (by omega)]

/-- On both sides there are no twins either. -/
theorem PartOf.untwinned {side : List Nat → List Nat} {W V : Work} {f : Nat → Nat} (P : PartOf side W V f) (hu : W.Untwinned)
    (hcov : ∀ n < V.words.length, V.Used n) {d : Nat} (hf : ∀ n, V.Used n → f n < W.words.length)
    (hcol : ∀ n, V.Used n → d + V.column n = W.column (f n)) : V.Untwinned := by
  unfold Work.Untwinned
  refine List.Nodup.map_on ?_ List.nodup_range
  intro a ha b hb he
  have ua := hcov a (List.mem_range.mp ha)
  have ub := hcov b (List.mem_range.mp hb)
  simp only [Prod.mk.injEq] at he
  refine P.inj a b ua ub ?_
  refine List.inj_on_of_nodup_map hu (List.mem_range.mpr (hf a ua)) (List.mem_range.mpr (hf b ub)) ?_
  rw [← P.words a ua, ← P.words b ub, ← hcol a ua, ← hcol b ub, he.1, he.2]

/-- Both sides of a node that stands in every text. -/
theorem cut_all {ws : List Witness} (hv : Valid ws) (hne : ws ≠ []) (hu : ∀ n < ws.length, (workOf ((ws.map strings).take n)).Untwinned)
    (hrep : ∀ w ∈ ws.tail, NoRepeats w) {n0 : Nat} (h0 : ∀ r ∈ (workOf (ws.map strings)).rows, n0 ∈ r) :
    (∃ fL fR, CutAt n0 (ws.map strings) fL fR) ∧
    (∀ n < ws.length, (workOf ((leftTexts n0 (ws.map strings) (workOf (ws.map strings)).rows).take n)).Untwinned) ∧
    ∀ n < ws.length, (workOf ((rightTexts n0 (ws.map strings) (workOf (ws.map strings)).rows).take n)).Untwinned := by
  have hS : ∀ i < ws.length, Sound (workOf ((ws.map strings).take (i + 1))) ∧
      ∀ n < (workOf ((ws.map strings).take (i + 1))).words.length, (workOf ((ws.map strings).take (i + 1))).Used n := by
    intro i hi
    rw [← List.map_take]
    refine workOf_sound (hv.take (by omega)) (fun h0 => by have := congrArg List.length h0; rw [List.length_take, List.length_nil] at this; omega) ?_
    intro n hn
    rw [List.map_take, List.take_take]
    exact hu _ (by rw [List.length_take] at hn; omega)
  have hcut : ∀ i, i < ws.length → ∃ fL fR, CutAt n0 ((ws.map strings).take (i + 1)) fL fR := by
    intro i hi
    refine workOf_cut _ ?_ ?_ ?_ ?_ ?_ ?_
    · intro h0
      have := congrArg List.length h0
      rw [List.length_take, List.length_map, List.length_nil] at this
      omega
    · intro j hj
      rw [List.take_take]
      have := (hS (min j i) (by omega)).1
      rwa [show min j i + 1 = min (j + 1) (i + 1) by omega] at this
    · intro j hj
      rw [List.take_take]
      have := (hS (min j i) (by omega)).2
      rwa [show min j i + 1 = min (j + 1) (i + 1) by omega] at this
    · intro j hj
      rw [List.take_take]
      refine hu _ ?_
      rw [List.length_take, List.length_map] at hj
      omega
    · intro B hB
      have : B ∈ (ws.map strings).tail := by
        rw [← List.drop_one] at hB ⊢
        rw [List.drop_take] at hB
        exact List.mem_of_mem_take hB
      rw [← List.map_tail] at this
      obtain ⟨w, hw, rfl⟩ := List.mem_map.mp this
      exact hrep w hw
    · intro r hr
      rw [workOf_rows_take] at hr
      exact h0 r (List.mem_of_mem_take hr)
  have hpos : 0 < ws.length := List.length_pos_iff.mpr hne
  obtain ⟨fL, fR, C⟩ := hcut (ws.length - 1) (by omega)
  rw [show ws.length - 1 + 1 = ws.length by omega, List.take_of_length_le (by simp)] at C
  refine ⟨⟨fL, fR, C⟩, ?_, ?_⟩
  · intro n hn
    cases n with
    | zero => exact untwinned_nil
    | succ n =>
      obtain ⟨gL, gR, C'⟩ := hcut n (by omega)
      obtain ⟨S', _⟩ := hS n (by omega)
      have h0' : ∀ r ∈ (workOf ((ws.map strings).take (n + 1))).rows, n0 ∈ r := by
        intro r hr
        rw [workOf_rows_take] at hr
        exact h0 r (List.mem_of_mem_take hr)
      have e : (leftTexts n0 (ws.map strings) (workOf (ws.map strings)).rows).take (n + 1) =
          leftTexts n0 ((ws.map strings).take (n + 1)) (workOf ((ws.map strings).take (n + 1))).rows := by
        unfold leftTexts
        rw [List.take_zipWith, workOf_rows_take]
      rw [e]
      exact C'.left.untwinned (d := 0) (hu (n + 1) hn) C'.coverL (fun m hm => S'.bound _ (C'.left.left_used S' h0' hm).1)
        (fun m hm => by rw [Nat.zero_add]; exact C'.left.left_column S' h0' m hm)
  · intro n hn
    cases n with
    | zero => exact untwinned_nil
    | succ n =>
      obtain ⟨gL, gR, C'⟩ := hcut n (by omega)
      obtain ⟨S', _⟩ := hS n (by omega)
      have h0' : ∀ r ∈ (workOf ((ws.map strings).take (n + 1))).rows, n0 ∈ r := by
        intro r hr
        rw [workOf_rows_take] at hr
        exact h0 r (List.mem_of_mem_take hr)
      have e : (rightTexts n0 (ws.map strings) (workOf (ws.map strings)).rows).take (n + 1) =
          rightTexts n0 ((ws.map strings).take (n + 1)) (workOf ((ws.map strings).take (n + 1))).rows := by
        unfold rightTexts
        rw [List.take_zipWith, workOf_rows_take]
      rw [e]
      exact C'.right.untwinned (hu (n + 1) hn) C'.coverR (fun m hm => S'.bound _ (C'.right.right_used S' h0' hm).1)
        (fun m hm => C'.right.right_column S' h0' m hm)

/-- The table of the short program, cut. -/
theorem shown_cut {ws : List Witness} (hv : Valid ws) (hne : ws ≠ []) (hu : ∀ n < ws.length, (workOf ((ws.map strings).take n)).Untwinned)
    (hrep : ∀ w ∈ ws.tail, NoRepeats w) {k : Nat}
    (hvar : (workOf (ws.map strings)).variantAt (k + 1) = false) :
    (∃ tsL, (workOf tsL).shown = (workOf (ws.map strings)).shown.map (List.take k) ∧
      (workOf (ws.map strings)).shown.map (fun r => wordsOfCells (r.take k)) = tsL ∧ ∀ n < ws.length, (workOf (tsL.take n)).Untwinned) ∧
    (∃ tsR, (workOf tsR).shown = (workOf (ws.map strings)).shown.map (List.drop (k + 1)) ∧
      (workOf (ws.map strings)).shown.map (fun r => wordsOfCells (r.drop (k + 1))) = tsR ∧ ∀ n < ws.length, (workOf (tsR.take n)).Untwinned) := by
  obtain ⟨n0, hn0lt, hall⟩ := variantAt_false.mp hvar
  obtain ⟨S, hW⟩ := workOf_sound hv hne hu
  have h0 : ∀ r ∈ (workOf (ws.map strings)).rows, n0 ∈ r := fun r hr => ((S.nodeAt_iff hr).mp (hall r hr)).1
  obtain ⟨⟨fL, fR, C⟩, uL, uR⟩ := cut_all hv hne hu hrep h0
  have hrows : (workOf (ws.map strings)).rows ≠ [] := by
    intro h
    have := workOf_rows_length (ws.map strings)
    rw [h, List.length_map] at this
    exact hne (List.length_eq_zero_iff.mp this.symm)
  obtain ⟨r, hr⟩ := List.exists_mem_of_ne_nil _ hrows
  have hn0 : (workOf (ws.map strings)).Used n0 := ⟨r, hr, h0 r hr⟩
  have hcol : (workOf (ws.map strings)).column n0 = k + 1 := ((S.nodeAt_iff hr).mp (hall r hr)).2
  have SL := C.left.left_sound S h0 C.coverL
  have SR := C.right.right_sound S h0 C.coverR
  have hwL := C.left.left_width S h0 SL hn0
  have eL := C.left.left_shown S h0 SL hn0
  have eR := C.right.right_shown S h0 SR hn0
  rw [show (workOf (leftTexts n0 (ws.map strings) (workOf (ws.map strings)).rows)).width = k by omega] at eL
  rw [hcol] at eR
  refine ⟨⟨_, eL, ?_, uL⟩, ⟨_, eR, ?_, uR⟩⟩
  · have := wordsOfCells_shown SL
    rw [eL, List.map_map] at this
    exact this
  · have := wordsOfCells_shown SR
    rw [eR, List.map_map] at this
    exact this

/-! ### C108 -/

/-- The marks in the rows are those of the columns. -/
theorem marked_at {t : Table} {k : Nat} {c : Column} (hc : t.columns[k]? = some c) {row : Row} (hr : row ∈ t.rows) (hl : row.cells.length = t.columns.length) :
    ∃ r ∈ markedStrings t, ∃ x, r[k]? = some (c.variant, x) := by
  have hkl := (List.getElem?_eq_some_iff.mp hc).1
  refine ⟨_, List.mem_map_of_mem hr, (row.cells[k]'(by omega)).map (List.map Token.str), ?_⟩
  unfold markedRow
  rw [List.getElem?_map, Option.map_eq_some_iff]
  refine ⟨(c.variant, row.cells[k]'(by omega)), ?_, rfl⟩
  rw [List.getElem?_zip_eq_some]
  exact ⟨by rw [List.getElem?_map, hc, Option.map_some], List.getElem?_eq_getElem _⟩

/-- C108 for any number of witnesses, without segmentation, all but the first without equal neighbours, if the short program of C103 finds nothing
to choose. Take any column that is not marked as variant. The columns before it are the table of any witnesses that have the words which the rows
have before it, and the columns after it are the table of any witnesses that have the words which the rows have after it. -/
theorem C108_cut_many_partial (env : Env) (hts : TopoSpec env.topo) (ws : List Witness) (hv : Valid ws) (hs : ∀ w ∈ ws, w.sigil ≠ [])
    (hrep : ∀ w ∈ ws.tail, NoRepeats w) (hu : ∀ n < ws.length, (workOf ((ws.map strings).take n)).Untwinned) (o : Opts) (ho : ExactMatching o)
    (hf : o.pfilter = none) (hseg : o.segmentation = false) :
    ∃ t, collateTable env ws o = .ok t ∧ ∀ (k : Nat) (c : Column), t.columns[k]? = some c → c.variant = false →
      (∀ us, Valid us → (∀ w ∈ us, w.sigil ≠ []) → us.map strings = (markedStrings t).map (fun r => wordsOfCells (r.take k)) →
        ∃ t', collateTable env us o = .ok t' ∧ markedStrings t' = (markedStrings t).map (List.take k)) ∧
      (∀ us, Valid us → (∀ w ∈ us, w.sigil ≠ []) → us.map strings = (markedStrings t).map (fun r => wordsOfCells (r.drop (k + 1))) →
        ∃ t', collateTable env us o = .ok t' ∧ markedStrings t' = (markedStrings t).map (List.drop (k + 1))) := by
  have hne : ws ≠ [] := hv.ne
  obtain ⟨t, h1, h2⟩ := C103_computed env hts ws hv hs o ho hf hseg hu
  refine ⟨t, h1, ?_⟩
  intro k c hc hcv
  obtain ⟨hrows, hshape, _⟩ := C26_table_shape env hts _ hv hs o ho t h1
  obtain ⟨row, hrow⟩ : ∃ row, row ∈ t.rows := by
    cases hr : t.rows with
    | nil =>
      have : (markedStrings t).length = 0 := by unfold markedStrings; rw [hr]; rfl
      rw [h2] at this
      unfold Work.shown at this
      rw [List.length_map, workOf_rows_length, List.length_map] at this
      exact absurd (List.length_eq_zero_iff.mp this) hne
    | cons a l => exact ⟨a, by simp⟩
  obtain ⟨r, hr, x, hx⟩ := marked_at hc hrow (hshape row hrow).1
  rw [h2] at hr
  unfold Work.shown at hr
  obtain ⟨r0, _, rfl⟩ := List.mem_map.mp hr
  rw [List.getElem?_map] at hx
  obtain ⟨y, hy, he⟩ := Option.map_eq_some_iff.mp hx
  obtain ⟨hlt, hyk⟩ := List.getElem?_eq_some_iff.mp hy
  rw [List.getElem_range] at hyk
  subst hyk
  have hvar : (workOf (ws.map strings)).variantAt (k + 1) = false := (congrArg Prod.fst he).trans hcv
  obtain ⟨⟨tsL, l1, l2, l3⟩, ⟨tsR, r1, r2, r3⟩⟩ := shown_cut hv hne hu hrep hvar
  rw [h2]
  refine ⟨?_, ?_⟩
  · intro us hvu hsu hus
    rw [l2] at hus
    have hlen : us.length = ws.length := by
      have := congrArg List.length hus
      rw [← l2, List.length_map, List.length_map] at this
      unfold Work.shown at this
      rwa [List.length_map, workOf_rows_length, List.length_map] at this
    obtain ⟨t', k1, k2⟩ := C103_computed env hts us hvu hsu o ho hf hseg (by rw [hus, hlen]; exact l3)
    exact ⟨t', k1, by rw [k2, hus, l1]⟩
  · intro us hvu hsu hus
    rw [r2] at hus
    have hlen : us.length = ws.length := by
      have := congrArg List.length hus
      rw [← r2, List.length_map, List.length_map] at this
      unfold Work.shown at this
      rwa [List.length_map, workOf_rows_length, List.length_map] at this
    obtain ⟨t', k1, k2⟩ := C103_computed env hts us hvu hsu o ho hf hseg (by rw [hus, hlen]; exact r3)
    exact ⟨t', k1, by rw [k2, hus, r1]⟩

/-- The hypotheses of C108 for `the black cat`, `the white and black cat` and `the white cat`: the column of `cat` is not marked, and before it
stands the table of `the black`, `the white and black` and `the white`. -/
example : TopoSpec exampleEnv.topo ∧ Valid threeWitnesses ∧ threeWitnesses.length ≤ 3 ∧ (∀ w ∈ threeWitnesses.tail, NoRepeats w) ∧
    (∃ t, collateTable exampleEnv threeWitnesses { segmentation := false } = .ok t ∧ markedStrings t =
      [[(false, some [S "the"]), (true, none), (true, none), (true, some [S "black"]), (false, some [S "cat"])],
       [(false, some [S "the"]), (true, some [S "white"]), (true, some [S "and"]), (true, some [S "black"]), (false, some [S "cat"])],
       [(false, some [S "the"]), (true, some [S "white"]), (true, none), (true, none), (false, some [S "cat"])]]) ∧
    ∃ t, collateTable exampleEnv [wordsWitness "A" ["the", "black"], wordsWitness "B" ["the", "white", "and", "black"], wordsWitness "C" ["the", "white"]]
        { segmentation := false } = .ok t ∧ markedStrings t =
      [[(false, some [S "the"]), (true, none), (true, none), (true, some [S "black"])],
       [(false, some [S "the"]), (true, some [S "white"]), (true, some [S "and"]), (true, some [S "black"])],
       [(false, some [S "the"]), (true, some [S "white"]), (true, none), (true, none)]] := by
  have hrep : ∀ w ∈ threeWitnesses.tail, NoRepeats w := by
    intro w hw
    rcases List.mem_cons.mp hw with rfl | hw
    · exact noRepeats_of_check (by decide)
    · rcases List.mem_cons.mp hw with rfl | hw
      · exact noRepeats_of_check (by decide)
      · cases hw
  refine ⟨kahn_spec, threeWitnesses_valid, by decide, hrep, ?_, ?_⟩
  · obtain ⟨t, h1, h2⟩ := C103_computed exampleEnv kahn_spec threeWitnesses threeWitnesses_valid (by decide) { segmentation := false } ⟨rfl, rfl, rfl⟩ rfl
      rfl (untwinned_three threeWitnesses_valid (by decide) (by decide) (fun w hw => hrep w (List.mem_of_getElem? (i := 0) hw)))
    exact ⟨t, h1, h2.trans (by decide +kernel)⟩
  · have hvu : Valid [wordsWitness "A" ["the", "black"], wordsWitness "B" ["the", "white", "and", "black"], wordsWitness "C" ["the", "white"]] :=
      valid_of_check (by decide) (by decide) (by decide) (by decide)
    obtain ⟨t, h1, h2⟩ := C103_computed exampleEnv kahn_spec _ hvu (by decide) { segmentation := false } ⟨rfl, rfl, rfl⟩ rfl
      rfl (untwinned_three hvu (by decide) (by decide) (fun w hw => by
        obtain rfl := Option.some.inj hw
        exact noRepeats_of_check (by decide)))
    exact ⟨t, h1, h2.trans (by decide +kernel)⟩

end CollateX
