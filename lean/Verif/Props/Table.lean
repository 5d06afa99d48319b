import Verif.Proofs.Table
import Verif.Props.Index
import Verif.Props.Graph
/-
Properties of the alignment table of a collation: C25, C26, C27, C31.
-/

namespace CollateX
open Spec

/-- C06, for the `k`-th witness. -/
theorem sameTokens_at {env : Env} {ws ws' : List Witness} {o : Opts} {g : VGraph} {rk : Ranking}
    (h : collateRanked env ws o = .ok (ws', g, rk)) {k : Nat} {w w' : Witness} (hw : ws[k]? = some w) (hw' : ws'[k]? = some w') :
    List.Forall₂ SameToken w.tokens w'.tokens := by
  have h6 := C06_only_bookkeeping_keys env ws ws' o g rk h
  obtain ⟨hl, he⟩ := List.getElem?_eq_some_iff.mp hw
  obtain ⟨hl', he'⟩ := List.getElem?_eq_some_iff.mp hw'
  have := ((List.forall₂_iff_get.mp h6).2 k hl hl').2
  simp only [List.get_eq_getElem, he, he'] at this
  exact this

/-- C25. For every witness (with a siglum other than the empty string), the non-empty cells of its row, from left to right, are exactly its tokens, in order (up to the two
bookkeeping keys of C06). -/
theorem C25_table_lossless (env : Env) (hts : TopoSpec env.topo) (ws : List Witness) (hv : Valid ws)
    (o : Opts) (ho : ExactMatching o) (t : Table) (h : collateTable env ws o = .ok t)
    (k : Nat) (w : Witness) (row : Row) (hw : ws[k]? = some w) (hs : w.sigil ≠ []) (hr : t.rows[k]? = some row) :
    List.Forall₂ SameToken w.tokens (row.cells.filterMap id).flatten := by
  obtain ⟨g, ps, rk, rkf, ord, m, h1, C, rfl⟩ := table_of env hts hv ho h
  obtain ⟨w', hw', _, hcells⟩ := row_at hr
  obtain ⟨w0, hw0, hsig, _⟩ := indexed_strs ws hw'
  rw [hw] at hw0
  obtain rfl := Option.some.inj hw0
  obtain ⟨p, _, _, htext, hrow⟩ := C.row hw' (by rw [hsig]; exact hs)
  rw [hcells, hrow]
  have hflat : (p.segs.map Prod.snd).flatten = w'.tokens := by
    rw [← htext]; unfold WPath.text; rw [List.flatMap_def]
  rw [hflat]
  exact sameTokens_at h1 hw hw'

/-- C26. One row per witness, in witness order, headed by its siglum; one cell per column in every row; no cell holds an empty
list; no column is empty. -/
theorem C26_table_shape (env : Env) (hts : TopoSpec env.topo) (ws : List Witness) (hv : Valid ws)
    (hs : ∀ w ∈ ws, w.sigil ≠ []) (o : Opts) (ho : ExactMatching o) (t : Table) (h : collateTable env ws o = .ok t) :
    t.rows.map Row.header = ws.map Witness.sigil ∧
    (∀ row ∈ t.rows, row.cells.length = t.columns.length ∧ ∀ ts, some ts ∈ row.cells → ts ≠ []) ∧
    (∀ j, j < t.columns.length → ∃ row ∈ t.rows, ∃ ts, row.cells[j]? = some (some ts)) := by
  obtain ⟨g, ps, rk, rkf, ord, m, h1, C, rfl⟩ := table_of env hts hv ho h
  have hs' := indexed_sigil_ne hs
  refine ⟨?_, ?_, ?_⟩
  · rw [mkTable_rows, List.map_map, ← indexed_sigla 0 ws]
    rfl
  · intro row hrow
    obtain ⟨k, hk⟩ := List.getElem?_of_mem hrow
    obtain ⟨w, hw, _, hcells⟩ := row_at hk
    obtain ⟨p, hp, _, _, hp2⟩ := C.row hw (hs' w (List.mem_of_getElem? hw))
    refine ⟨by rw [hcells]; simp, ?_⟩
    intro ts hts
    have : ts ∈ row.cells.filterMap id := List.mem_filterMap.mpr ⟨some ts, hts, rfl⟩
    rw [hcells, hp2] at this
    obtain ⟨q, hq, rfl⟩ := List.mem_map.mp this
    exact (C.ginv.segs_in p (List.mem_of_getElem? hp) q hq).2.2.2
  · intro j hj
    obtain ⟨c, hc⟩ : ∃ c, (mkTable (indexed 0 ws) g rk).columns[j]? = some c := ⟨_, List.getElem?_eq_getElem hj⟩
    obtain ⟨k, hk, hcol⟩ := C.col hc
    obtain ⟨p, hp, hmem⟩ := (C.byRank.col_keys C.ginv (C.sigil_ne hs') hk hcol).2
    obtain ⟨i, w, hw, hws⟩ := C.sigil_mem hp
    obtain ⟨ts, hts⟩ := exists_dget_of_mem_keys hmem
    refine ⟨{ header := w.sigil, cells := (mkTable (indexed 0 ws) g rk).columns.map (fun c => dget c.tokens w.sigil) }, ?_, ts, ?_⟩
    · rw [mkTable_rows]
      exact List.mem_map.mpr ⟨w, List.mem_of_getElem? hw, rfl⟩
    · simp only [List.getElem?_map, hc, Option.map_some, hws, hts]

/-- C27. In a column that is not marked variant every witness has tokens, and all of them the same strings. (So a column in
which a witness has nothing is marked variant.) -/
theorem C27_invariant_columns (env : Env) (hts : TopoSpec env.topo) (ws : List Witness) (hv : Valid ws)
    (hs : ∀ w ∈ ws, w.sigil ≠ []) (o : Opts) (ho : ExactMatching o) (t : Table) (h : collateTable env ws o = .ok t)
    (j : Nat) (c : Column) (hc : t.columns[j]? = some c) (hvar : c.variant = false) :
    ∃ l : List Str, l ≠ [] ∧ ∀ row ∈ t.rows, ∃ ts, row.cells[j]? = some (some ts) ∧ ts.map Token.str = l := by
  obtain ⟨g, ps, rk, rkf, ord, m, h1, C, rfl⟩ := table_of env hts hv ho h
  have hs' := indexed_sigil_ne hs
  have hsp := C.sigil_ne hs'
  obtain ⟨k, hk, hcol⟩ := C.col hc
  obtain ⟨hone, hlen⟩ := colAt_not_variant hcol hvar
  obtain ⟨hkeys, p0, hp0, hp0c⟩ := C.byRank.col_keys C.ginv hsp hk hcol
  have hall : ∀ p ∈ ps, p.sigil ∈ c.tokens.map Prod.fst := by
    intro p hp
    refine subset_of_length (colAt_nodup hcol) (s := ps.map WPath.sigil) ?_ ?_ _ (List.mem_map.mpr ⟨p, hp, rfl⟩)
    · intro σ hσ
      obtain ⟨q, hq, rfl⟩ := hkeys σ hσ
      exact List.mem_map.mpr ⟨q, hq, rfl⟩
    · simp [hlen, C.length]
  have hentry : ∀ p ∈ ps, ∃ ts v, dget c.tokens p.sigil = some ts ∧ v ∈ ord.filter (fun v => rkf v = k) ∧ (v, ts) ∈ p.segs := by
    intro p hp
    obtain ⟨ts, hts⟩ := exists_dget_of_mem_keys (hall p hp)
    obtain ⟨v, hv1, hv2⟩ := C.byRank.col_entry C.ginv hsp hk hcol hp hts
    exact ⟨ts, v, hts, hv1, hv2⟩
  obtain ⟨ts0, v0, hd0, hv0, hq0⟩ := hentry p0 hp0
  refine ⟨ts0.map Token.str, ?_, ?_⟩
  · have := (C.ginv.segs_in p0 hp0 _ hq0).2.2.2
    simpa using this
  · intro row hrow
    obtain ⟨i, hi⟩ := List.getElem?_of_mem hrow
    obtain ⟨w, hw, _, hcells⟩ := row_at hi
    obtain ⟨p, hp, hpw, _⟩ := C.at hw
    obtain ⟨ts, v, hd, hvk, hq⟩ := hentry p (List.mem_of_getElem? hp)
    refine ⟨ts, ?_, ?_⟩
    · rw [hcells]
      simp only [List.getElem?_map, hc, Option.map_some, ← hpw, hd]
    · have : v = v0 := by
        match hl : ord.filter (fun v => rkf v = k) with
        | [] => rw [hl] at hv0; simp at hv0
        | [a] => rw [hl] at hv0 hvk; simp at hv0 hvk; rw [hv0, hvk]
        | a :: b :: l => simp only [hl] at hone; simp at hone
      subst this
      exact C.uniform p (List.mem_of_getElem? hp) p0 hp0 v ts ts0 hq hq0

/-- C31. Without segmentation the table has at least as many columns as any witness has tokens, and at most as many as there
are tokens altogether. -/
theorem C31_column_bounds (env : Env) (hts : TopoSpec env.topo) (ws : List Witness) (hv : Valid ws)
    (hs : ∀ w ∈ ws, w.sigil ≠ []) (o : Opts) (ho : ExactMatching o) (hseg : o.segmentation = false) (t : Table)
    (h : collateTable env ws o = .ok t) :
    (∀ w ∈ ws, w.tokens.length ≤ t.columns.length) ∧ t.columns.length ≤ (ws.map (fun w => w.tokens.length)).sum := by
  obtain ⟨g, ps, rk, rkf, ord, m, h1, C, rfl⟩ := table_of env hts hv ho h
  have hs' := indexed_sigil_ne hs
  have hsingle : ∀ p ∈ ps, p.segs.length = p.text.length := by
    intro p hp
    have h1 := C.single hseg p hp
    unfold WPath.text
    generalize p.segs = l at h1
    induction l with
    | nil => rfl
    | cons q l ih =>
      obtain ⟨t, ht⟩ := h1 q (by simp)
      rw [List.flatMap_cons, ht, List.length_append, ← ih (fun q hq => h1 q (by simp [hq]))]
      simp; omega
  have hlens : ∀ (k : Nat) (w : Witness), ws[k]? = some w →
      ∃ w', (indexed 0 ws)[k]? = some w' ∧ w'.tokens.length = w.tokens.length := by
    intro k w hw
    have hlt := (List.getElem?_eq_some_iff.mp hw).1
    obtain ⟨w', hw'⟩ : ∃ w', (indexed 0 ws)[k]? = some w' := ⟨_, List.getElem?_eq_getElem (by rw [indexed_length]; exact hlt)⟩
    exact ⟨w', hw', (sameTokens_at h1 hw hw').length_eq.symm⟩
  constructor
  · intro w hw
    obtain ⟨k, hk⟩ := List.getElem?_of_mem hw
    obtain ⟨w', hw', hlen⟩ := hlens k w hk
    obtain ⟨p, hp, _, htext, hrow⟩ := C.row hw' (hs' _ (List.mem_of_getElem? hw'))
    have h2 := hsingle p (List.mem_of_getElem? hp)
    rw [htext, hlen] at h2
    rw [← h2, ← List.length_map (f := Prod.snd), ← hrow]
    refine Nat.le_trans (List.length_filterMap_le _ _) ?_
    simp
  · have htot : (ws.map (fun w => w.tokens.length)).sum = (ps.flatMap (fun p => p.segs.map Prod.fst)).length := by
      rw [List.length_flatMap]
      congr 1
      apply List.ext_getElem?
      intro k
      rw [List.getElem?_map, List.getElem?_map]
      cases hk : ws[k]? with
      | none =>
        have : ps[k]? = none := by
          rw [List.getElem?_eq_none_iff] at hk ⊢
          rw [C.length, indexed_length]; exact hk
        rw [this]; rfl
      | some w =>
        obtain ⟨w', hw', hlen⟩ := hlens k w hk
        obtain ⟨p, hp, _, htext⟩ := C.at hw'
        rw [hp]
        simp only [Option.map_some, List.length_map]
        rw [hsingle p (List.mem_of_getElem? hp), htext, hlen]
    rw [htot, C.byRank.columns]
    -- choose a vertex for each column
    have hch : ∀ l : List Nat, l.Nodup → (∀ k ∈ l, k < m) → ∃ vs : List VId, vs.Nodup ∧
        vs.length = (l.filterMap (colAt g (indexed 0 ws).length (fun k => ord.filter (fun v => rkf v = k)))).length ∧
        ∀ v ∈ vs, v ∈ ps.flatMap (fun p => p.segs.map Prod.fst) ∧ rkf v ∈ l := by
      intro l
      induction l with
      | nil => intro _ _; exact ⟨[], by simp, rfl, by simp⟩
      | cons k l ih =>
        intro hnd hlt
        rw [List.nodup_cons] at hnd
        obtain ⟨vs, h1, h2, h3⟩ := ih hnd.2 (fun k hk => hlt k (by simp [hk]))
        cases hc : colAt g (indexed 0 ws).length (fun k => ord.filter (fun v => rkf v = k)) k with
        | none =>
          exact ⟨vs, h1, by rw [List.filterMap_cons_none hc]; exact h2, fun v hv => ⟨(h3 v hv).1, by simp [(h3 v hv).2]⟩⟩
        | some c =>
          obtain ⟨v, hv, hi⟩ := colAt_isSome.mp ⟨c, hc⟩
          have hvm := (C.byRank.mem k (hlt k (by simp)) v).mp hv
          simp only [inside, decide_eq_true_eq] at hi
          obtain ⟨p, hp, hvp⟩ := C.ginv.cover v hvm.1 hi.1 hi.2
          refine ⟨v :: vs, ?_, ?_, ?_⟩
          · rw [List.nodup_cons]
            refine ⟨fun hv' => ?_, h1⟩
            have := (h3 v hv').2
            rw [hvm.2] at this
            exact hnd.1 this
          · rw [List.filterMap_cons_some hc]; simp [h2]
          · intro u hu
            rcases List.mem_cons.mp hu with rfl | hu
            · exact ⟨List.mem_flatMap.mpr ⟨p, hp, hvp⟩, by simp [hvm.2]⟩
            · exact ⟨(h3 u hu).1, by simp [(h3 u hu).2]⟩
    obtain ⟨vs, h1, h2, h3⟩ := hch (List.range m) List.nodup_range (fun k hk => List.mem_range.mp hk)
    rw [← h2]
    exact nodup_length_le h1 (fun v hv => (h3 v hv).1)

/-- Summary of a table: which columns are variant; sigla; the strings in the cells. -/
structure TableSummary where
  variant : List Bool
  sigla : List Str
  cells : List (List (Option (List Str)))
  deriving DecidableEq

def tableSummary (t : Table) : TableSummary :=
  ⟨t.columns.map Column.variant, t.rows.map Row.header, t.rows.map (fun r => r.cells.map (Option.map (List.map Token.str)))⟩

/-- The hypotheses are met: the table of `the black cat`, `the white and black cat`, `the white cat`. -/
example : TopoSpec exampleEnv.topo ∧ Valid threeWitnesses ∧ (∀ w ∈ threeWitnesses, w.sigil ≠ []) ∧ ExactMatching {} ∧
    (collateTable exampleEnv threeWitnesses {}).map tableSummary =
    .ok ⟨[false, true, true, true, false], [S "A", S "B", S "C"],
      [[some [S "the"], none, none, some [S "black"], some [S "cat"]],
       [some [S "the"], some [S "white"], some [S "and"], some [S "black"], some [S "cat"]],
       [some [S "the"], some [S "white"], none, none, some [S "cat"]]]⟩ :=
  ⟨kahn_spec, threeWitnesses_valid, by decide, ⟨rfl, rfl, rfl⟩, by decide +kernel⟩

end CollateX
