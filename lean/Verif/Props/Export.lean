import Verif.Proofs.Export
import Verif.Props.SuffixArray
import Verif.Props.Table
/-
Properties of the output formats: C35–C40.
-/

namespace CollateX
open Spec

/-! ### The table of a collation -/

/-- The table of a valid collation is a good table with one row per witness. -/
theorem goodTable_of (env : Env) (hts : TopoSpec env.topo) (ws : List Witness) (hv : Valid ws)
    (hs : ∀ w ∈ ws, w.sigil ≠ []) (o : Opts) (ho : ExactMatching o) (t : Table) (h : collateTable env ws o = .ok t) :
    GoodTable t ∧ t.rows.map Row.header = ws.map Witness.sigil := by
  obtain ⟨hhead, hrows, _⟩ := C26_table_shape env hts ws hv hs o ho t h
  obtain ⟨g, ps, rk, rkf, ord, m, h1, C, rfl⟩ := table_of env hts hv ho h
  have hs' := indexed_sigil_ne hs
  have hcells : ∀ r ∈ (mkTable (indexed 0 ws) g rk).rows,
      r.cells = (mkTable (indexed 0 ws) g rk).columns.map (fun c => dget c.tokens r.header) := by
    intro r hr
    obtain ⟨k, hk⟩ := List.getElem?_of_mem hr
    obtain ⟨w, hw, hh, hc⟩ := row_at hk
    rw [hc, hh]
  have hkeys : ∀ c ∈ (mkTable (indexed 0 ws) g rk).columns, (c.tokens.map Prod.fst).Nodup ∧
      ∀ σ ∈ c.tokens.map Prod.fst, σ ∈ (mkTable (indexed 0 ws) g rk).rows.map Row.header := by
    intro c hc
    obtain ⟨j, hj⟩ := List.getElem?_of_mem hc
    obtain ⟨k, hk, hcol⟩ := C.col hj
    refine ⟨colAt_nodup hcol, ?_⟩
    intro σ hσ
    obtain ⟨p, hp, rfl⟩ := (C.byRank.col_keys C.ginv (C.sigil_ne hs') hk hcol).1 σ hσ
    obtain ⟨i, w, hw, hws⟩ := C.sigil_mem hp
    rw [mkTable_rows, List.map_map]
    exact List.mem_map.mpr ⟨w, List.mem_of_getElem? hw, hws⟩
  refine ⟨⟨by rw [hhead]; exact hv.sigla, hcells, hkeys, ?_⟩, hhead⟩
  intro c hc σ ts hd
  have hσ := (hkeys c hc).2 σ (List.mem_map.mpr ⟨_, dget_mem hd, rfl⟩)
  obtain ⟨r, hr, rfl⟩ := List.mem_map.mp hσ
  refine (hrows r hr).2 ts ?_
  rw [hcells r hr]
  exact List.mem_map.mpr ⟨c, hc, hd⟩

/-- A valid collation (exact matching) has a table, and every output is computed from it. -/
theorem exists_table (env : Env) (hts : TopoSpec env.topo) (ws : List Witness) (hv : Valid ws) (o : Opts)
    (ho : ExactMatching o) : ∃ t ws' g rk, collateRanked env ws o = .ok (ws', g, rk) ∧ collateTable env ws o = .ok t ∧
      t = mkTable ws' g rk ∧ ws'.map Witness.sigil = ws.map Witness.sigil := by
  obtain ⟨g, ps, rk, rkf, ord, m, h1, _⟩ := collateRanked_ok env hts hv o ho.astar ho.detect ho.near
  exact ⟨_, _, g, rk, h1, by unfold collateTable; rw [h1]; rfl, rfl, indexed_sigla 0 ws⟩

theorem textOf_sameToken {a b : List Token} (h : List.Forall₂ SameToken a b) {s : Str} : TextOf a s ↔ TextOf b s := by
  have : a.map (fun t => dget t.data .t) = b.map (fun t => dget t.data .t) := by
    induction h with
    | nil => rfl
    | cons h _ ih => rw [List.map_cons, List.map_cons, ih, h.2.1 .t (by simp [Bookkeeping])]
  unfold TextOf
  rw [this]

/-- All tokens have a string `t`. -/
def Spec.HasTexts (ws : List Witness) : Prop := ∀ w ∈ ws, ∀ t ∈ w.tokens, ∃ s, dget t.data .t = some (.str s)

/-- The texts of the cells of a row are pieces of the text of the witness. -/
theorem row_texts (env : Env) (hts : TopoSpec env.topo) (ws : List Witness) (hv : Valid ws) (o : Opts) (ho : ExactMatching o)
    (t : Table) (h : collateTable env ws o = .ok t) (hx : HasTexts ws) {k : Nat} {w : Witness} {r : Row} (hw : ws[k]? = some w)
    (hs : w.sigil ≠ []) (hr : t.rows[k]? = some r) : ∃ xs, List.Forall₂ CellTextOf r.cells xs ∧ TextOf w.tokens xs.flatten := by
  have h25 := C25_table_lossless env hts ws hv o ho t h k w r hw hs hr
  obtain ⟨s, hs⟩ := exists_textOf (hx w (List.mem_of_getElem? hw))
  have h1 := (textOf_sameToken h25).mp hs
  have key : ∀ (cells : List (Option (List Token))) (s : Str), TextOf (cells.filterMap id).flatten s →
      ∃ xs, List.Forall₂ CellTextOf cells xs ∧ xs.flatten = s := by
    intro cells
    induction cells with
    | nil => intro s h; exact ⟨[], .nil, h.unique (s := s) textOf_nil ▸ rfl⟩
    | cons c cells ih =>
      intro s h
      cases c with
      | none =>
        obtain ⟨xs, a, b⟩ := ih s h
        exact ⟨[] :: xs, .cons textOf_nil a, b⟩
      | some ts =>
        obtain ⟨x, y, h1, h2, rfl⟩ := textOf_append.mp (show TextOf (ts ++ (cells.filterMap id).flatten) s from h)
        obtain ⟨xs, a, b⟩ := ih y h2
        exact ⟨x :: xs, .cons h1 a, by rw [← b]; rfl⟩
  obtain ⟨xs, a, b⟩ := key _ _ h1
  exact ⟨xs, a, by rw [b]; exact hs⟩

/-- In a collation whose tokens have string `t` values, the entries of the columns have texts. -/
theorem column_texts (env : Env) (hts : TopoSpec env.topo) (ws : List Witness) (hv : Valid ws)
    (hs : ∀ w ∈ ws, w.sigil ≠ []) (o : Opts) (ho : ExactMatching o)
    (t : Table) (h : collateTable env ws o = .ok t) (hx : HasTexts ws) :
    ∀ c ∈ t.columns, ∀ p ∈ c.tokens, ∃ s, TextOf p.2 s := by
  obtain ⟨G, hh⟩ := goodTable_of env hts ws hv hs o ho t h
  intro c hc p hp
  obtain ⟨hnd, hsub⟩ := G.keys c hc
  have hσ := hsub p.1 (List.mem_map.mpr ⟨p, hp, rfl⟩)
  obtain ⟨r, hr, hrp⟩ := List.mem_map.mp hσ
  obtain ⟨k, hk⟩ := List.getElem?_of_mem hr
  have hk' : (t.rows.map Row.header)[k]? = some r.header := by rw [List.getElem?_map, hk]; rfl
  rw [hh, List.getElem?_map] at hk'
  obtain ⟨w, hw, _⟩ := Option.map_eq_some_iff.mp hk'
  obtain ⟨xs, hxs, _⟩ := row_texts env hts ws hv o ho t h hx hw (hs w (List.mem_of_getElem? hw)) hk
  have hcell : some p.2 ∈ r.cells := by
    rw [G.cells r hr]
    exact List.mem_map.mpr ⟨c, hc, by rw [hrp]; exact (dget_iff_mem hnd).mpr hp⟩
  obtain ⟨j, hj⟩ := List.getElem?_of_mem hcell
  obtain ⟨hjl, hje⟩ := List.getElem?_eq_some_iff.mp hj
  have := (List.forall₂_iff_get.mp hxs).2 j hjl (by rw [← hxs.length_eq]; exact hjl)
  simp only [List.get_eq_getElem, hje] at this
  exact ⟨_, this⟩

/-! ### C35: JSON -/

/-- C35. For every good table (in which there is a column) the horizontal JSON output has the sigla of the rows in order and for
each row and column `null` for an empty cell and otherwise the records of its tokens in order; the vertical JSON output has the
same sigla and is the transpose of the horizontal one. -/
theorem C35_json (t : Table) (G : GoodTable t) (hne : t.columns ≠ []) (ws : List Witness)
    (hws : ws.map Witness.sigil = t.rows.map Row.header) :
    (exportJson t false).witnesses = t.rows.map Row.header ∧
    (exportVerticalJson t ws).witnesses = t.rows.map Row.header ∧
    (exportJson t false).table.length = t.rows.length ∧ (exportVerticalJson t ws).table.length = t.columns.length ∧
    (∀ (k i : Nat) (r : Row) (cell : Option (List Token)), t.rows[k]? = some r → r.cells[i]? = some cell →
      ∃ (jr : List (Option (List TokenData))) (jc : List (Option (List TokenData))) (x : Option (List TokenData)),
        (exportJson t false).table[k]? = some jr ∧ jr.length = t.columns.length ∧ jr[i]? = some x ∧
        (exportVerticalJson t ws).table[i]? = some jc ∧ jc.length = t.rows.length ∧ jc[k]? = some x ∧
        (cell = none → x = none) ∧ ∀ ts, cell = some ts → ∃ ds, x = some ds ∧ ds ≠ [] ∧ ds = ts.map Token.data) := by
  have hadd : ∀ (ws : List Witness) (l : List Str), (l ++ ws.map Witness.sigil).Nodup →
      addSigla ws l = l ++ ws.map Witness.sigil := by
    intro ws
    induction ws with
    | nil => intro l _; simp [addSigla]
    | cons w ws ih =>
      intro l hl
      have hw : w.sigil ∉ l := by
        intro hm
        exact (List.nodup_append.mp hl).2.2 _ hm _ (by simp) rfl
      have := ih (l ++ [w.sigil]) (by simpa using hl)
      unfold addSigla at this ⊢
      rw [List.foldl_cons, if_neg hw, this]
      simp
  have hadd2 : ∀ (ws : List Witness) (l : List Str), (∀ w ∈ ws, w.sigil ∈ l) → addSigla ws l = l := by
    intro ws
    induction ws with
    | nil => intro l _; rfl
    | cons w ws ih =>
      intro l hl
      have := ih l (fun w hw => hl w (by simp [hw]))
      unfold addSigla at this ⊢
      rw [List.foldl_cons, if_pos (hl w (by simp)), this]
  refine ⟨rfl, ?_, by simp [exportJson], by simp [exportVerticalJson], ?_⟩
  · simp only [exportVerticalJson]
    rw [← hws]
    have hnd : (ws.map Witness.sigil).Nodup := by rw [hws]; exact G.sigla
    cases hc : t.columns with
    | nil => exact absurd hc hne
    | cons c cs =>
      rw [List.foldl_cons, hadd ws [] (by simpa using hnd), List.nil_append]
      clear hc hne
      induction cs with
      | nil => rfl
      | cons c cs ih =>
        rw [List.foldl_cons, hadd2 ws _ (fun w hw => List.mem_map.mpr ⟨w, hw, rfl⟩)]
        exact ih
  · intro k i r cell hr hcell
    have hrm := List.mem_of_getElem? hr
    have hcells := G.cells r hrm
    have hi : ∃ c, t.columns[i]? = some c ∧ dget c.tokens r.header = cell := by
      rw [hcells, List.getElem?_map] at hcell
      exact Option.map_eq_some_iff.mp hcell
    obtain ⟨c, hc, hd⟩ := hi
    have hk : (ws.map Witness.sigil)[k]? = some r.header := by rw [hws, List.getElem?_map, hr]; rfl
    rw [List.getElem?_map] at hk
    obtain ⟨w, hw, hwr⟩ := Option.map_eq_some_iff.mp hk
    refine ⟨r.cells.map jsonCell, ws.map (fun w => jsonCell (dget c.tokens w.sigil)), jsonCell cell, ?_, ?_, ?_, ?_, ?_, ?_, ?_, ?_⟩
    · simp [exportJson, hr]
    · rw [hcells]; simp
    · rw [List.getElem?_map, hcell]; rfl
    · simp [exportVerticalJson, hc]
    · have := congrArg List.length hws
      simpa using this
    · rw [List.getElem?_map, hw, Option.map_some, hwr, hd]
    · rintro rfl; rfl
    · rintro ts rfl
      have hne := G.full c (List.mem_of_getElem? hc) r.header ts hd
      cases ts with
      | nil => exact absurd rfl hne
      | cons a ts => exact ⟨(a :: ts).map Token.data, rfl, by simp, rfl⟩

/-- C35 for `collate`: in the JSON output of a valid collation (exact matching), both layouts list the sigla in witness order and
the vertical table is the transpose of the horizontal one; and the records of the non-null cells of the row of a witness are
the records of its tokens in order, up to the two bookkeeping keys. -/
theorem C35_json_of_collation (env : Env) (hts : TopoSpec env.topo) (ws : List Witness) (hv : Valid ws)
    (hs : ∀ w ∈ ws, w.sigil ≠ []) (o : Opts) (ho : ExactMatching o) :
    ∃ jh jv : JsonTable, collate env ws { o with output := S "json", layout := S "horizontal" } = .ok (.json jh) ∧
      collate env ws { o with output := S "json", layout := S "vertical" } = .ok (.json jv) ∧
      jh.witnesses = ws.map Witness.sigil ∧ jv.witnesses = ws.map Witness.sigil ∧
      jh.table.length = ws.length ∧ (∀ row ∈ jh.table, row.length = jv.table.length) ∧
      (∀ k i : Nat, (jh.table[k]?.bind (·[i]?)) = (jv.table[i]?.bind (·[k]?))) ∧
      ∀ (k : Nat) (w : Witness) (row : List (Option (List TokenData))), ws[k]? = some w → jh.table[k]? = some row →
        (∀ ds, some ds ∈ row → ds ≠ []) ∧
        List.Forall₂ (fun tok d => ∃ t', SameToken tok t' ∧ t'.data = d) w.tokens (row.filterMap id).flatten := by
  obtain ⟨t, ws', g, rk, h1, h2, rfl, hws⟩ := exists_table env hts ws hv o ho
  obtain ⟨G, hh⟩ := goodTable_of env hts ws hv hs o ho _ h2
  have hne : (mkTable ws' g rk).columns ≠ [] := by
    intro h0
    cases hw : ws with
    | nil => exact hv.ne hw
    | cons w ws0 =>
      have hw0 : ws[0]? = some w := by rw [hw]; rfl
      have hr0 : ((mkTable ws' g rk).rows.map Row.header)[0]? = some w.sigil := by rw [hh, hw]; rfl
      rw [List.getElem?_map] at hr0
      obtain ⟨r, hr, _⟩ := Option.map_eq_some_iff.mp hr0
      have := C25_table_lossless env hts ws hv o ho _ h2 0 w r hw0 (hs w (by rw [hw]; simp)) hr
      rw [G.cells r (List.mem_of_getElem? hr), h0] at this
      have h3 : w.tokens = [] := by
        cases ht : w.tokens with
        | nil => rfl
        | cons a l => rw [ht] at this; cases this
      exact (hv.tokens w (by rw [hw]; simp)).1 h3
  obtain ⟨a1, a2, a3, a4, a5⟩ := C35_json _ G hne ws' (by rw [hws, hh])
  refine ⟨exportJson (mkTable ws' g rk) false, exportVerticalJson (mkTable ws' g rk) ws', ?_, ?_, ?_, ?_, ?_, ?_, ?_, ?_⟩
  · have h1' : collateRanked env ws { o with output := S "json", layout := S "horizontal" } = .ok (ws', g, rk) := h1
    simp only [collate, h1', bind_ok]
    have e1 : ¬ (S "json" = S "svg" ∨ S "json" = S "svg_simple") := by decide
    have e2 : S "json" ≠ S "graph" := by decide
    have e3 : S "horizontal" ≠ S "vertical" := by decide
    simp only [render, if_neg e1, if_neg e2, if_neg e3, if_true]
  · have h1' : collateRanked env ws { o with output := S "json", layout := S "vertical" } = .ok (ws', g, rk) := h1
    simp only [collate, h1', bind_ok]
    have e1 : ¬ (S "json" = S "svg" ∨ S "json" = S "svg_simple") := by decide
    have e2 : S "json" ≠ S "graph" := by decide
    simp only [render, if_neg e1, if_neg e2, if_true]
  · rw [a1, hh]
  · rw [a2, hh]
  · rw [a3, ← List.length_map (f := Row.header), hh, List.length_map]
  · intro row hrow
    rw [a4]
    simp only [exportJson, List.mem_map] at hrow
    obtain ⟨r, hr, rfl⟩ := hrow
    rw [G.cells r hr]
    simp
  · intro k i
    have hlen : ws'.length = (mkTable ws' g rk).rows.length := by simp [mkTable]
    by_cases hk : k < (mkTable ws' g rk).rows.length
    · by_cases hi : i < (mkTable ws' g rk).columns.length
      · have hr : (mkTable ws' g rk).rows[k]? = some _ := List.getElem?_eq_getElem hk
        have hrm := List.mem_of_getElem? hr
        have hc : (mkTable ws' g rk).rows[k].cells[i]? = some _ := List.getElem?_eq_getElem (by rw [G.cells _ hrm]; simpa using hi)
        obtain ⟨jr, jc, x, b1, _, b2, b3, _, b4, _⟩ := a5 k i _ _ hr hc
        rw [b1, b3]
        simp only [Option.bind_some, b2, b4]
      · have e1 : (exportVerticalJson (mkTable ws' g rk) ws').table[i]? = none := by
          rw [List.getElem?_eq_none_iff, a4]; omega
        rw [e1]
        cases hjr : (exportJson (mkTable ws' g rk) false).table[k]? with
        | none => rfl
        | some jr =>
          simp only [Option.bind_some, Option.bind_none, List.getElem?_eq_none_iff]
          have hm := List.mem_of_getElem? hjr
          simp only [exportJson, List.mem_map] at hm
          obtain ⟨r, hr, rfl⟩ := hm
          rw [G.cells r hr]
          simp only [List.length_map]
          omega
    · have e1 : (exportJson (mkTable ws' g rk) false).table[k]? = none := by
        rw [List.getElem?_eq_none_iff, a3]; omega
      rw [e1]
      cases hjr : (exportVerticalJson (mkTable ws' g rk) ws').table[i]? with
      | none => rfl
      | some jc =>
        simp only [Option.bind_some, Option.bind_none]
        symm
        rw [List.getElem?_eq_none_iff]
        have hm := List.mem_of_getElem? hjr
        simp only [exportVerticalJson, List.mem_map] at hm
        obtain ⟨c, hc, rfl⟩ := hm
        simp only [List.length_map]
        omega
  · intro k w row hw hrow
    simp only [exportJson, List.getElem?_map] at hrow
    obtain ⟨r, hr, rfl⟩ := Option.map_eq_some_iff.mp hrow
    have h25 := C25_table_lossless env hts ws hv o ho _ h2 k w r hw (hs w (List.mem_of_getElem? hw)) hr
    have hfull : ∀ ts, some ts ∈ r.cells → ts ≠ [] := by
      intro ts hts0
      have hrm := List.mem_of_getElem? hr
      rw [G.cells r hrm] at hts0
      obtain ⟨c, hc, hd⟩ := List.mem_map.mp hts0
      exact G.full c hc _ _ hd
    constructor
    · intro ds hds
      obtain ⟨c, hc, hcd⟩ := List.mem_map.mp hds
      unfold jsonCell cellOrNone at hcd
      split at hcd
      · cases hcd
      · rename_i hn
        cases c with
        | none => cases hcd
        | some ts =>
          simp only [Option.map_some, Option.some.injEq] at hcd
          rw [← hcd]
          simpa using hfull ts hc
    · have e : ((r.cells.map jsonCell).filterMap id).flatten = ((r.cells.filterMap id).flatten).map Token.data := by
        clear h25 hrow hr
        generalize r.cells = cells at hfull
        induction cells with
        | nil => rfl
        | cons c cells ih =>
          have ih' := ih (fun ts h => hfull ts (by simp [h]))
          cases c with
          | none => exact ih'
          | some ts =>
            cases ts with
            | nil => exact absurd rfl (hfull [] (by simp))
            | cons a ts =>
              simp only [List.map_cons, jsonCell, cellOrNone, Option.map_some, List.filterMap_cons, id, List.flatten_cons] at ih' ⊢
              rw [List.map_append]
              simp only [List.map_cons]
              rw [← ih']
      rw [e]
      generalize (r.cells.filterMap id).flatten = l at h25
      generalize w.tokens = l0 at h25
      induction h25 with
      | nil => exact .nil
      | cons h _ ih => exact .cons ⟨_, h, rfl⟩ ih

/-! ### C36: CSV -/

/-- The delimiter of the format. -/
def Spec.csvDelim (tsv : Bool) : Char := if tsv then '\t' else ','

theorem csvRows_read (d : Char) (hd : d ≠ '"') (hn : d ≠ '\n') (hr : d ≠ '\r') : ∀ {rows : List Row} {s : Str},
    csvRows d rows = .ok s → (∀ r ∈ rows, '\r' ∉ r.header ∧ ∀ c ∈ r.cells, ∀ x, CellTextOf c x → '\r' ∉ x) →
    List.Forall₂ (fun r fields => ∃ xs, fields = r.header :: xs ∧ List.Forall₂ CellTextOf r.cells xs) rows
      (readCsvFrom d .start [] [] s)
  | [], s, h, _ => by
    obtain rfl := Except.ok.inj h
    exact .nil
  | r :: rows, s, h, hcr => by
    unfold csvRows at h
    obtain ⟨xs, hxs, h⟩ := bind_eq_ok.mp h
    obtain ⟨rest, hrest, h⟩ := bind_eq_ok.mp h
    obtain rfl := Except.ok.inj h
    have hF := cellsToStrings_ok hxs
    have hcr0 := hcr r (by simp)
    have hno : ∀ y ∈ some r.header :: xs, '\r' ∉ y.getD [] := by
      intro y hy
      rcases List.mem_cons.mp hy with rfl | hy
      · exact hcr0.1
      · obtain ⟨j, hj⟩ := List.getElem?_of_mem hy
        obtain ⟨hjl, hje⟩ := List.getElem?_eq_some_iff.mp hj
        have hjl' : j < r.cells.length := by rw [hF.length_eq]; exact hjl
        have := (List.forall₂_iff_get.mp hF).2 j hjl' hjl
        simp only [List.get_eq_getElem, hje] at this
        exact hcr0.2 _ (List.getElem_mem hjl') _ this
    rw [record_line hr _ _ hno hd hn]
    refine .cons ⟨xs.map (fun o => o.getD []), by simp, ?_⟩ (csvRows_read d hd hn hr hrest (fun r hr => hcr r (by simp [hr])))
    rw [List.forall₂_map_right_iff]
    exact hF

/-- C36. Whatever the table: if no siglum and no cell text has a carriage return, then reading the CSV (or TSV) output gives one
record per row, the siglum followed by the text of each cell, the empty string for an empty cell. -/
theorem C36_csv_reads_back (t : Table) (tsv : Bool) (s : Str) (h : exportCsv t tsv = .ok s)
    (hcr : ∀ r ∈ t.rows, '\r' ∉ r.header ∧ ∀ c ∈ r.cells, ∀ x, CellTextOf c x → '\r' ∉ x) :
    List.Forall₂ (fun r fields => ∃ xs, fields = r.header :: xs ∧ List.Forall₂ CellTextOf r.cells xs) t.rows
      (readCsv (csvDelim tsv) s) := by
  cases tsv with
  | false => exact csvRows_read ',' (by decide) (by decide) (by decide) h hcr
  | true => exact csvRows_read '\t' (by decide) (by decide) (by decide) h hcr

theorem exists_exportCsv {t : Table} (tsv : Bool) (h : ∀ r ∈ t.rows, ∀ c ∈ r.cells, ∃ s, CellTextOf c s) :
    ∃ s, exportCsv t tsv = .ok s := by
  unfold exportCsv
  generalize (if tsv then '\t' else ',') = d
  generalize t.rows = rows at h
  induction rows with
  | nil => exact ⟨[], rfl⟩
  | cons r rows ih =>
    obtain ⟨b, hb⟩ := ih (fun r hr => h r (by simp [hr]))
    obtain ⟨xs, hxs⟩ := exists_cellsToStrings (h r (by simp))
    exact ⟨_, by simp only [csvRows, hxs, hb, bind_ok]; rfl⟩

/-- C36 for `collate`. The CSV and TSV outputs of a valid collation (exact matching) whose tokens have string `t` values without
carriage returns can be read back: one record per witness in order, first the siglum, then cells that together are the text of the
witness. -/
theorem C36_csv_of_collation (env : Env) (hts : TopoSpec env.topo) (ws : List Witness) (hv : Valid ws)
    (hs : ∀ w ∈ ws, w.sigil ≠ [] ∧ '\r' ∉ w.sigil) (hx : HasTexts ws)
    (hcr : ∀ w ∈ ws, ∀ t ∈ w.tokens, ∀ s, dget t.data .t = some (.str s) → '\r' ∉ s) (o : Opts) (ho : ExactMatching o)
    (tsv : Bool) :
    ∃ s, collate env ws { o with output := if tsv then S "tsv" else S "csv" } = .ok (.csv s) ∧
      List.Forall₂ (fun w fields => ∃ cells, fields = w.sigil :: cells ∧ TextOf w.tokens cells.flatten) ws
        (readCsv (csvDelim tsv) s) := by
  obtain ⟨t, ws', g, rk, h1, h2, rfl, hws⟩ := exists_table env hts ws hv o ho
  obtain ⟨G, hh⟩ := goodTable_of env hts ws hv (fun w hw => (hs w hw).1) o ho _ h2
  have hlen : (mkTable ws' g rk).rows.length = ws.length := by
    rw [← List.length_map (f := Row.header), hh, List.length_map]
  have hat : ∀ (k : Nat) (r : Row), (mkTable ws' g rk).rows[k]? = some r → ∃ w, ws[k]? = some w ∧ w.sigil = r.header ∧
      ∃ xs, List.Forall₂ CellTextOf r.cells xs ∧ TextOf w.tokens xs.flatten := by
    intro k r hr
    have hr0 : ((mkTable ws' g rk).rows.map Row.header)[k]? = some r.header := by rw [List.getElem?_map, hr]; rfl
    rw [hh, List.getElem?_map] at hr0
    obtain ⟨w, hw, hwr⟩ := Option.map_eq_some_iff.mp hr0
    exact ⟨w, hw, hwr, row_texts env hts ws hv o ho _ h2 hx hw (hs w (List.mem_of_getElem? hw)).1 hr⟩
  have hcell : ∀ {cells : List (Option (List Token))} {xs : List Str}, List.Forall₂ CellTextOf cells xs → ∀ c ∈ cells,
      ∃ x ∈ xs, CellTextOf c x := by
    intro cells xs hF
    induction hF with
    | nil => intro c hc; cases hc
    | cons h _ ih =>
      intro c hc
      rcases List.mem_cons.mp hc with rfl | hc
      · exact ⟨_, by simp, h⟩
      · obtain ⟨x, hx, hxc⟩ := ih c hc
        exact ⟨x, by simp [hx], hxc⟩
  obtain ⟨s, hcsv⟩ := exists_exportCsv (t := mkTable ws' g rk) tsv (by
    intro r hr c hc
    obtain ⟨k, hk⟩ := List.getElem?_of_mem hr
    obtain ⟨w, _, _, xs, hF, _⟩ := hat k r hk
    obtain ⟨x, _, hx⟩ := hcell hF c hc
    exact ⟨x, hx⟩)
  refine ⟨s, ?_, ?_⟩
  · have h1' : collateRanked env ws { o with output := if tsv then S "tsv" else S "csv" } = .ok (ws', g, rk) := h1
    simp only [collate, h1', bind_ok]
    cases tsv with
    | true =>
      have e : (S "tsv" : Str) ∉ [S "svg", S "svg_simple", S "graph", S "json", S "html", S "html2", S "table", S "xml", S "tei", S "csv"] := by
        decide
      simp only [List.mem_cons, List.not_mem_nil, or_false, not_or] at e
      simp only [render, if_true, e, or_self, if_false, or_true, decide_true, hcsv, bind_ok]
    | false =>
      have e : (S "csv" : Str) ∉ [S "svg", S "svg_simple", S "graph", S "json", S "html", S "html2", S "table", S "xml", S "tei", S "tsv"] := by
        decide
      simp only [List.mem_cons, List.not_mem_nil, or_false, not_or] at e
      simp only [render, Bool.false_eq_true, e, or_self, if_false, or_false, if_true, decide_false, hcsv, bind_ok]
  · have hF := C36_csv_reads_back _ tsv s hcsv (by
      intro r hr
      obtain ⟨k, hk⟩ := List.getElem?_of_mem hr
      obtain ⟨w, hw, hwr, xs, hF, htext⟩ := hat k r hk
      have hwm := List.mem_of_getElem? hw
      refine ⟨by rw [← hwr]; exact (hs w hwm).2, ?_⟩
      intro c hc x hxc
      obtain ⟨y, hy, hyc⟩ := hcell hF c hc
      obtain rfl := hxc.unique hyc
      have hno : '\r' ∉ xs.flatten := by
        obtain ⟨l, hl, hle⟩ := htext
        rw [← hle]
        intro hm
        obtain ⟨z, hz, hzm⟩ := List.mem_flatten.mp hm
        have : some (JVal.str z) ∈ w.tokens.map (fun t => dget t.data .t) := by
          rw [hl]; exact List.mem_map.mpr ⟨z, hz, rfl⟩
        obtain ⟨t, ht, hd⟩ := List.mem_map.mp this
        exact hcr w hwm t ht z hd hzm
      exact fun hm => hno (List.mem_flatten.mpr ⟨x, hy, hm⟩))
    rw [List.forall₂_iff_get] at hF ⊢
    refine ⟨by rw [← hF.1, hlen], ?_⟩
    intro k hk1 hk2
    obtain ⟨xs, hxs, hF2⟩ := hF.2 k (by rw [hlen]; exact hk1) hk2
    obtain ⟨w, hw, hwr, ys, hF3, htext⟩ := hat k _ (List.getElem?_eq_getElem (by rw [hlen]; exact hk1))
    obtain ⟨hk1', hwe⟩ := List.getElem?_eq_some_iff.mp hw
    simp only [List.get_eq_getElem] at hxs hF2 ⊢
    have hxy : xs = ys := by
      clear htext hxs
      generalize (mkTable ws' g rk).rows[k].cells = cells at hF2 hF3
      induction hF2 generalizing ys with
      | nil => cases hF3; rfl
      | cons h _ ih => cases hF3 with
        | cons h' h2 => rw [TextOf.unique h h', ih _ h2]
    refine ⟨xs, ?_, ?_⟩
    · rw [hxs, hwe, hwr]
    · rw [hwe, hxy]; exact htext

/-- C36: a carriage return does not survive, which is why it is excluded. -/
example : (exportCsv ⟨[⟨[(S "A", [⟨S "a", [(.t, .str (S "a\r"))]⟩])], false⟩],
      [⟨S "A", [some [⟨S "a", [(.t, .str (S "a\r"))]⟩]]⟩]⟩ false).map (readCsv ',') = .ok [[S "A", S "a\n"]] := by decide +kernel

/-- C36 is not vacuous: quotes, a delimiter, a line feed and an empty cell. -/
example : (exportCsv ⟨[], [⟨S "A", [some [⟨S "x", [(.t, .str (S "say \"x\", \n"))]⟩], none]⟩,
      ⟨S "B", [none, some [⟨S "y", [(.t, .str (S "y "))]⟩, ⟨S "z", [(.t, .str (S "z"))]⟩]]⟩]⟩ false).map (fun s => (s, readCsv ',' s)) =
    .ok (S "A,\"say \"\"x\"\", \n\",\nB,,y z\n", [[S "A", S "say \"x\", \n", S ""], [S "B", S "", S "y z"]]) := by decide +kernel

/-! ### C37: XML -/

/-- C37. For every good table the XML output has one `app` per column; the `rdg` elements of a column are those of the witnesses that
have tokens in the column, once each, in increasing order of siglum, and each has as text the printed `t` values of these tokens. -/
theorem C37_xml (t : Table) (G : GoodTable t) (apps : List (List Rdg)) (h : exportXml t.columns = .ok apps) :
    apps.length = t.columns.length ∧
    ∀ (i : Nat) (c : Column) (rdgs : List Rdg), t.columns[i]? = some c → apps[i]? = some rdgs →
      ∃ sigla : List Str, rdgs.map Rdg.wit = sigla.map ('#' :: ·) ∧ sigla.Pairwise StrLt ∧
        (∀ σ, σ ∈ sigla ↔ ∃ r ∈ t.rows, r.header = σ ∧ ∃ ts, r.cells[i]? = some (some ts)) ∧
        ∀ (j : Nat) (σ : Str) (x : Rdg), sigla[j]? = some σ → rdgs[j]? = some x →
          ∃ r ∈ t.rows, r.header = σ ∧ ∃ ts, r.cells[i]? = some (some ts) ∧ PrintedText ts x.text := by
  have hF := exportXml_ok h
  refine ⟨hF.length_eq.symm, ?_⟩
  intro i c rdgs hc hr
  have hcm := List.mem_of_getElem? hc
  obtain ⟨hnd, hsub⟩ := G.keys c hcm
  have hF2 : List.Forall₂ (fun p r => r.wit = '#' :: p.1 ∧ PrintedText p.2 r.text) (sortedItems c.tokens) rdgs := by
    obtain ⟨hl, he⟩ := List.getElem?_eq_some_iff.mp hc
    obtain ⟨hl', he'⟩ := List.getElem?_eq_some_iff.mp hr
    have := (List.forall₂_iff_get.mp hF).2 i hl hl'
    simp only [List.get_eq_getElem, he, he'] at this
    exact this
  have hcell : ∀ σ ts, dget c.tokens σ = some ts ↔ ∃ r ∈ t.rows, r.header = σ ∧ r.cells[i]? = some (some ts) := by
    intro σ ts
    constructor
    · intro hd
      obtain ⟨r, hrm, rfl⟩ := List.mem_map.mp (hsub σ (List.mem_map.mpr ⟨_, dget_mem hd, rfl⟩))
      exact ⟨r, hrm, rfl, by rw [G.cells r hrm, List.getElem?_map, hc, Option.map_some, hd]⟩
    · rintro ⟨r, hrm, rfl, hcell⟩
      rw [G.cells r hrm, List.getElem?_map, hc, Option.map_some] at hcell
      exact Option.some.inj hcell
  refine ⟨(sortedItems c.tokens).map Prod.fst, ?_, ?_, ?_, ?_⟩
  · clear hcell hr
    generalize sortedItems c.tokens = items at hF2
    induction hF2 with
    | nil => rfl
    | cons h _ ih => rw [List.map_cons, List.map_cons, List.map_cons, ih, h.1]
  · rw [List.pairwise_map]
    exact (sortedItems_sorted hnd).imp (fun h => (strLt_iff _ _).mp h)
  · intro σ
    constructor
    · intro hσ
      obtain ⟨⟨σ', ts⟩, hp, rfl⟩ := List.mem_map.mp hσ
      obtain ⟨r, a, b, cc⟩ := (hcell _ _).mp ((dget_sortedItems hnd).mp hp)
      exact ⟨r, a, b, ts, cc⟩
    · rintro ⟨r, a, b, ts, hts⟩
      exact List.mem_map.mpr ⟨_, (dget_sortedItems hnd).mpr ((hcell σ ts).mpr ⟨r, a, b, hts⟩), rfl⟩
  · intro j σ x hσ hx
    rw [List.getElem?_map] at hσ
    obtain ⟨⟨σ', ts⟩, hp, rfl⟩ := Option.map_eq_some_iff.mp hσ
    obtain ⟨hl, he⟩ := List.getElem?_eq_some_iff.mp hp
    obtain ⟨hl', he'⟩ := List.getElem?_eq_some_iff.mp hx
    have := (List.forall₂_iff_get.mp hF2).2 j hl hl'
    simp only [List.get_eq_getElem, he, he'] at this
    obtain ⟨r, a, b, cc⟩ := (hcell _ _).mp ((dget_sortedItems hnd).mp (List.mem_of_getElem? hp))
    exact ⟨r, a, b, ts, cc, this.2⟩

/-- C37 for `collate`: the XML output of a valid collation (exact matching) whose tokens have string `t` values exists and is as
described for its table. -/
theorem C37_xml_of_collation (env : Env) (hts : TopoSpec env.topo) (ws : List Witness) (hv : Valid ws)
    (hs : ∀ w ∈ ws, w.sigil ≠ []) (hx : HasTexts ws) (o : Opts) (ho : ExactMatching o) :
    ∃ t apps, collateTable env ws o = .ok t ∧ collate env ws { o with output := S "xml" } = .ok (.xml apps) ∧ GoodTable t ∧
      exportXml t.columns = .ok apps := by
  obtain ⟨t, ws', g, rk, h1, h2, rfl, hws⟩ := exists_table env hts ws hv o ho
  obtain ⟨G, hh⟩ := goodTable_of env hts ws hv hs o ho _ h2
  obtain ⟨apps, ha⟩ := exists_exportXml (fun c hc p hp => by
    obtain ⟨s, hs⟩ := column_texts env hts ws hv hs o ho _ h2 hx c hc p hp
    exact ⟨s, printedText_of_textOf hs⟩)
  refine ⟨_, apps, h2, ?_, G, ha⟩
  have h1' : collateRanked env ws { o with output := S "xml" } = .ok (ws', g, rk) := h1
  have e : (S "xml" : Str) ∉ [S "svg", S "svg_simple", S "graph", S "json", S "html", S "html2", S "table"] := by decide
  simp only [List.mem_cons, List.not_mem_nil, or_false, not_or] at e
  simp only [collate, h1', bind_ok, render, e, or_self, if_false, if_true, ha]

/-! ### C38–C40: TEI -/

theorem ReadingsOf.keys {l : List (Str × List Token)} {rs : List (Str × Str)} (h : ReadingsOf l rs) :
    rs.map Prod.fst = l.map Prod.fst := by
  unfold ReadingsOf at h
  induction h with
  | nil => rfl
  | cons h _ ih => rw [List.map_cons, List.map_cons, ih, h.1]

theorem ReadingsOf.mem {l : List (Str × List Token)} {rs : List (Str × Str)} (h : ReadingsOf l rs) {σ s : Str} :
    (σ, s) ∈ rs ↔ ∃ ts, (σ, ts) ∈ l ∧ TextOf ts s := by
  unfold ReadingsOf at h
  induction h with
  | nil => simp
  | cons h htl ih =>
    rename_i p q l rs
    obtain ⟨k, ts⟩ := p
    obtain ⟨k', x⟩ := q
    obtain ⟨rfl, hx⟩ := h
    simp only [List.mem_cons, Prod.mk.injEq, ih]
    constructor
    · rintro (⟨rfl, rfl⟩ | ⟨ts', h1, h2⟩)
      · exact ⟨ts, Or.inl ⟨rfl, rfl⟩, hx⟩
      · exact ⟨ts', Or.inr h1, h2⟩
    · rintro ⟨ts', ⟨rfl, rfl⟩ | h1, h2⟩
      · exact Or.inl ⟨rfl, h2.unique hx⟩
      · exact Or.inr ⟨ts', h1, h2⟩

/-- One column of the TEI output. -/
theorem tei_column {cc : CharClass} {sigla : List Str} (hsig : sigla.Nodup) (hne : sigla ≠ []) (hb : ∀ σ ∈ sigla, ' ' ∉ σ)
    {c : Column} (hnd : (c.tokens.map Prod.fst).Nodup) (hsub : ∀ σ ∈ c.tokens.map Prod.fst, σ ∈ sigla) {d : Dict Str (List Str)}
    {w : Bool} (h : teiGroup cc (sortedItems c.tokens) [] false = .ok (d, w)) :
    TeiColumn cc sigla c (teiMain sigla.length d) ∧
    (w = true ↔ ∃ σ ts s, dget c.tokens σ = some ts ∧ TextOf ts s ∧ endsWs s = true) := by
  obtain ⟨rs, hrs, hget, hnd', hkeys, hw⟩ := teiGroup_ok cc h
  have hdnd := hnd' (by simp)
  have hmem : ∀ σ s, (σ, s) ∈ rs ↔ ∃ ts, dget c.tokens σ = some ts ∧ TextOf ts s := by
    intro σ s
    rw [hrs.mem]
    simp only [dget_sortedItems hnd]
  have hrsnd : (rs.map Prod.fst).Nodup := by rw [hrs.keys]; exact sortedItems_nodup hnd
  have hrsub : ∀ q ∈ rs, q.1 ∈ sigla := by
    intro q hq
    obtain ⟨ts, hd, _⟩ := (hmem q.1 q.2).mp hq
    exact hsub _ (List.mem_map.mpr ⟨_, dget_mem hd, rfl⟩)
  -- the groups
  have hgrp : ∀ k v, (k, v) ∈ d → v = (rs.filter (fun q => strip cc q.2 = k)).map Prod.fst ∧ v ≠ [] := by
    intro k v hm
    have h1 := hget k
    rw [(dget_iff_mem hdnd).mpr hm] at h1
    simp only [Option.getD_some, dget_nil, Option.getD_none, List.nil_append] at h1
    refine ⟨h1, ?_⟩
    have : k ∈ d.map Prod.fst := List.mem_map.mpr ⟨_, hm, rfl⟩
    rcases (hkeys k).mp this with hk | ⟨q, hq, hqk⟩
    · simp at hk
    · rw [h1]
      intro h0
      have h2 : q.1 ∈ (rs.filter (fun q => strip cc q.2 = k)).map Prod.fst :=
        List.mem_map.mpr ⟨q, List.mem_filter.mpr ⟨hq, by simpa using hqk⟩, rfl⟩
      rw [h0] at h2
      cases h2
  have hblank : ∀ k v, (k, v) ∈ d → ∀ σ ∈ v, ' ' ∉ σ := by
    intro k v hm σ hσ
    rw [(hgrp k v hm).1] at hσ
    obtain ⟨q, hq, rfl⟩ := List.mem_map.mp hσ
    exact hb _ (hrsub q (List.mem_filter.mp hq).1)
  have hlists : ∀ k v, (k, v) ∈ d → ∀ σ, Lists ⟨witAttr v, k⟩ σ ↔ ∃ s, (σ, s) ∈ rs ∧ strip cc s = k := by
    intro k v hm σ
    rw [lists_witAttr (hgrp k v hm).2 (hblank k v hm), (hgrp k v hm).1]
    simp only [List.mem_map, List.mem_filter, decide_eq_true_eq]
    constructor
    · rintro ⟨⟨σ', s⟩, ⟨h1, h2⟩, rfl⟩; exact ⟨s, h1, h2⟩
    · rintro ⟨s, h1, h2⟩; exact ⟨(σ, s), ⟨h1, h2⟩, rfl⟩
  have huniq : ∀ σ s s', (σ, s) ∈ rs → (σ, s') ∈ rs → s = s' := by
    intro σ s s' h1 h2
    have := (dget_iff_mem (d := rs) hrsnd).mpr h1
    rw [(dget_iff_mem (d := rs) hrsnd).mpr h2] at this
    exact (Option.some.inj this).symm
  refine ⟨⟨?_, ?_, ?_, ?_⟩, ?_⟩
  · -- text
    intro s
    constructor
    · intro hn
      rcases teiMain_cases sigla.length d with ⟨k, v, rfl, hv, he⟩ | ⟨he, _⟩
      · rw [he] at hn
        obtain rfl := TeiNode.text.inj hn
        have hv' := (hgrp k v (by simp)).1
        have hvs : ∀ σ ∈ sigla, σ ∈ v := by
          apply subset_of_length (l := v) (s := sigla)
          · rw [hv']
            exact hrsnd.sublist (List.Sublist.map _ List.filter_sublist)
          · intro σ hσ
            rw [hv'] at hσ
            obtain ⟨q, hq, rfl⟩ := List.mem_map.mp hσ
            exact hrsub q (List.mem_filter.mp hq).1
          · omega
        intro σ hσ
        have := hvs σ hσ
        rw [hv'] at this
        obtain ⟨⟨σ', r⟩, hq, rfl⟩ := List.mem_map.mp this
        obtain ⟨hq1, hq2⟩ := List.mem_filter.mp hq
        obtain ⟨ts, hd, ht⟩ := (hmem _ _).mp hq1
        simp only [decide_eq_true_eq] at hq2
        exact ⟨ts, r, hd, ht, hq2 ▸ strip_spec cc r⟩
      · rw [he] at hn; cases hn
    · intro hall
      have hrs_all : ∀ q ∈ rs, strip cc q.2 = s := by
        intro q hq
        obtain ⟨ts, r, hd, ht, hst⟩ := hall q.1 (hrsub q hq)
        have h1 : (q.1, r) ∈ rs := (hmem _ _).mpr ⟨ts, hd, ht⟩
        have h2 := huniq q.1 _ _ h1 hq
        subst h2
        exact stripped_unique (strip_spec cc _) hst
      have hsigl : ∀ σ ∈ sigla, σ ∈ rs.map Prod.fst := by
        intro σ hσ
        obtain ⟨ts, r, hd, ht, _⟩ := hall σ hσ
        exact List.mem_map.mpr ⟨_, (hmem σ r).mpr ⟨ts, hd, ht⟩, rfl⟩
      have hk : ∀ k, k ∈ d.map Prod.fst ↔ k = s := by
        intro k
        rw [hkeys k]
        simp only [List.map_nil, List.not_mem_nil, false_or]
        constructor
        · rintro ⟨q, hq, rfl⟩; exact hrs_all q hq
        · rintro rfl
          obtain ⟨σ, hσ⟩ := List.exists_mem_of_ne_nil _ hne
          obtain ⟨q, hq, _⟩ := List.mem_map.mp (hsigl σ hσ)
          exact ⟨q, hq, hrs_all q hq⟩
      have hd1 : ∃ v, d = [(s, v)] := by
        cases hd : d with
        | nil => have := (hk s).mpr rfl; rw [hd] at this; cases this
        | cons p d' =>
          obtain ⟨k, v⟩ := p
          have hks : k = s := (hk k).mp (by rw [hd]; simp)
          subst hks
          cases d' with
          | nil => exact ⟨v, rfl⟩
          | cons p' d'' =>
            have hks' : p'.1 = k := (hk p'.1).mp (by rw [hd]; simp)
            rw [hd] at hdnd
            simp [hks'] at hdnd
      obtain ⟨v, rfl⟩ := hd1
      have hv' := (hgrp s v (by simp)).1
      have hfil : rs.filter (fun q => strip cc q.2 = s) = rs := by
        rw [List.filter_eq_self]
        intro q hq
        simpa using hrs_all q hq
      rw [hfil] at hv'
      have hlen : v.length = sigla.length := by
        have h1 : v.length ≤ sigla.length := nodup_length_le (by rw [hv']; exact hrsnd) (by
          intro σ hσ
          rw [hv'] at hσ
          obtain ⟨q, hq, rfl⟩ := List.mem_map.mp hσ
          exact hrsub q hq)
        have h2 : sigla.length ≤ v.length := nodup_length_le hsig (by intro σ hσ; rw [hv']; exact hsigl σ hσ)
        omega
      show (if v.length = sigla.length then TeiNode.text s else _) = _
      rw [if_pos hlen]
  · -- distinct readings
    intro rdgs hn
    rcases teiMain_cases sigla.length d with ⟨k, v, _, _, he⟩ | ⟨he, _⟩
    · rw [he] at hn; cases hn
    · rw [he] at hn
      obtain rfl := TeiNode.app.inj hn
      rw [List.map_map]
      exact hdnd
  · -- once
    intro rdgs hn σ ts r hd ht
    rcases teiMain_cases sigla.length d with ⟨k, v, _, _, he⟩ | ⟨he, _⟩
    · rw [he] at hn; cases hn
    · rw [he] at hn
      obtain rfl := TeiNode.app.inj hn
      have hr : (σ, r) ∈ rs := (hmem _ _).mpr ⟨ts, hd, ht⟩
      have hk : strip cc r ∈ d.map Prod.fst := (hkeys _).mpr (Or.inr ⟨_, hr, rfl⟩)
      obtain ⟨⟨k, v⟩, hkv, hk1⟩ := List.mem_map.mp hk
      simp only at hk1
      subst hk1
      refine ⟨⟨witAttr v, strip cc r⟩, List.mem_map.mpr ⟨_, hkv, rfl⟩, strip_spec cc r, (hlists _ _ hkv σ).mpr ⟨r, hr, rfl⟩, ?_⟩
      intro y hy hyl
      obtain ⟨⟨k', v'⟩, hkv', rfl⟩ := List.mem_map.mp hy
      obtain ⟨s', hs', hk'⟩ := (hlists _ _ hkv' σ).mp hyl
      obtain rfl := huniq σ _ _ hs' hr
      subst hk'
      have := (dget_iff_mem hdnd).mpr hkv
      rw [(dget_iff_mem hdnd).mpr hkv'] at this
      rw [Option.some.inj this]
  · -- only
    intro rdgs hn x hx
    rcases teiMain_cases sigla.length d with ⟨k, v, _, _, he⟩ | ⟨he, _⟩
    · rw [he] at hn; cases hn
    · rw [he] at hn
      obtain rfl := TeiNode.app.inj hn
      obtain ⟨⟨k, v⟩, hkv, rfl⟩ := List.mem_map.mp hx
      constructor
      · obtain ⟨σ, hσ⟩ := List.exists_mem_of_ne_nil _ (hgrp k v hkv).2
        exact ⟨σ, (lists_witAttr (hgrp k v hkv).2 (hblank k v hkv)).mpr hσ⟩
      · intro σ hσ
        obtain ⟨s, hs, _⟩ := (hlists k v hkv σ).mp hσ
        obtain ⟨ts, hd, _⟩ := (hmem _ _).mp hs
        exact ⟨ts, hd⟩
  · rw [hw]
    simp only [Bool.false_or, List.any_eq_true]
    constructor
    · rintro ⟨⟨σ, s⟩, hq, he⟩
      obtain ⟨ts, hd, ht⟩ := (hmem _ _).mp hq
      exact ⟨σ, ts, s, hd, ht, he⟩
    · rintro ⟨σ, ts, s, hd, ht, he⟩
      exact ⟨(σ, s), (hmem _ _).mpr ⟨ts, hd, ht⟩, he⟩

/-- The TEI output is made column by column. -/
theorem tei_pieces (cc : CharClass) (t : Table) (G : GoodTable t) (hne : t.rows ≠ []) (hb : ∀ r ∈ t.rows, ' ' ∉ r.header)
    (nodes : List TeiNode) (h : exportTei cc t = .ok nodes) :
    ∃ pieces : List (TeiNode × Bool), nodes = flatPieces pieces ∧
      List.Forall₂ (fun c p => TeiColumn cc (t.rows.map Row.header) c p.1 ∧
        (p.2 = true ↔ ∃ σ ts s, dget c.tokens σ = some ts ∧ TextOf ts s ∧ endsWs s = true)) t.columns pieces := by
  obtain ⟨pieces, hp, hF⟩ := teiColumns_ok cc _ h
  refine ⟨pieces, hp, ?_⟩
  have hk := G.keys
  generalize t.columns = cols at hF hk
  clear hp h
  induction hF with
  | nil => exact .nil
  | cons hd htl ih =>
    rename_i c p _ _
    refine .cons ?_ (ih (fun c hc => hk c (by simp [hc])))
    obtain ⟨d, hd, hp⟩ := hd
    have hc := hk c (by simp)
    have := tei_column G.sigla (by simpa using hne) (by
      intro σ hσ
      obtain ⟨r, hr, rfl⟩ := List.mem_map.mp hσ
      exact hb r hr) hc.1 hc.2 hd
    rw [List.length_map] at this
    rw [hp]
    exact this

/-- C38. For every good table with at least one row, if no siglum has a blank, the TEI output consists of one node per column, some
followed by a blank; the node of a column is plain text exactly when all witnesses have the same reading (up to white space at
both ends), and that reading is the text; otherwise it is an `app` with distinct readings in which each witness that has tokens
in the column is listed exactly once, with its reading, and no other witness is listed. -/
theorem C38_tei_partition (cc : CharClass) (t : Table) (G : GoodTable t) (hne : t.rows ≠ []) (hb : ∀ r ∈ t.rows, ' ' ∉ r.header)
    (nodes : List TeiNode) (h : exportTei cc t = .ok nodes) :
    ∃ pieces : List (TeiNode × Bool), nodes = flatPieces pieces ∧
      List.Forall₂ (fun c p => TeiColumn cc (t.rows.map Row.header) c p.1) t.columns pieces := by
  obtain ⟨pieces, hp, hF⟩ := tei_pieces cc t G hne hb nodes h
  exact ⟨pieces, hp, hF.imp (fun _ _ h => h.1)⟩

/-- C38: that no siglum has a blank is needed. A witness with siglum `A #B` and two witnesses `A` and `B` with the same reading give
the same output, though they are not the same witnesses. -/
theorem C38_blank_in_siglum :
    let x : List Token := [⟨S "x", [(.t, .str (S "x"))]⟩]
    let y : List Token := [⟨S "y", [(.t, .str (S "y"))]⟩]
    let t1 : Table := ⟨[⟨[(S "A", x), (S "B", x), (S "C", y)], true⟩], [⟨S "A", [some x]⟩, ⟨S "B", [some x]⟩, ⟨S "C", [some y]⟩]⟩
    let t2 : Table := ⟨[⟨[(S "A #B", x), (S "C", y)], true⟩], [⟨S "A #B", [some x]⟩, ⟨S "C", [some y]⟩]⟩
    exportTei asciiClass t1 = .ok [.app [⟨S "#A #B", S "x"⟩, ⟨S "#C", S "y"⟩]] ∧ exportTei asciiClass t2 = exportTei asciiClass t1 := by
  decide +kernel

theorem squeeze_node {cc : CharClass} {sigla : List Str} {c : Column} {n : TeiNode} (T : TeiColumn cc sigla c n) {σ : Str}
    (hσ : σ ∈ sigla) {s : Str} (hs : CellTextOf (dget c.tokens σ) s) : squeeze cc (teiText σ [n]) = squeeze cc s := by
  cases n with
  | text x =>
    obtain ⟨ts, r, hd, ht, hst⟩ := (T.text x).mp rfl σ hσ
    have : s = r := by
      unfold CellTextOf at hs
      rw [hd] at hs
      exact hs.unique ht
    subst this
    rw [squeeze_stripped hst]
    simp [teiText]
  | app rdgs =>
    have hflat : teiText σ [.app rdgs] = rdgs.flatMap (fun r => if Lists r σ then r.text else []) := by
      simp [teiText]
    rw [hflat]
    unfold CellTextOf at hs
    cases hd : dget c.tokens σ with
    | none =>
      rw [hd] at hs
      obtain rfl := hs.unique textOf_nil
      have : rdgs.flatMap (fun r => if Lists r σ then r.text else []) = [] := by
        rw [List.flatMap_eq_nil_iff]
        intro x hx
        rw [if_neg]
        intro hl
        obtain ⟨ts, h⟩ := (T.only rdgs rfl x hx).2 σ hl
        rw [hd] at h
        cases h
      rw [this]
    | some ts =>
      rw [hd] at hs
      obtain ⟨x, hx, hst, hl, huniq⟩ := T.once rdgs rfl σ ts s hd hs
      rw [squeeze_stripped hst]
      have hnd := T.distinct rdgs rfl
      have hrn : rdgs.Nodup := hnd.of_map
      have key : ∀ l : List Rdg, l.Nodup → (∀ y ∈ l, Lists y σ → y = x) →
          l.flatMap (fun r => if Lists r σ then r.text else []) = if x ∈ l then x.text else [] := by
        intro l
        induction l with
        | nil => intro _ _; simp
        | cons y l ih =>
          intro hn hu
          rw [List.flatMap_cons, ih (List.nodup_cons.mp hn).2 (fun z hz => hu z (by simp [hz]))]
          by_cases hy : Lists y σ
          · obtain rfl := hu y (by simp) hy
            rw [if_pos hy, if_neg (List.nodup_cons.mp hn).1, if_pos (by simp)]
            simp
          · rw [if_neg hy]
            have hxy : x ≠ y := fun e => hy (e ▸ hl)
            by_cases hxl : x ∈ l
            · rw [if_pos hxl, if_pos (by simp [hxl])]; simp
            · rw [if_neg hxl, if_neg (by simp [hxl, hxy])]; simp
      rw [key rdgs hrn huniq, if_pos hx]

theorem teiText_append (σ : Str) (a b : List TeiNode) : teiText σ (a ++ b) = teiText σ a ++ teiText σ b := by
  simp [teiText]

/-- C39, for a good table: for each row, the text of its siglum in the TEI output is the text of its cells, up to white space. -/
theorem C39_tei_text_of_row (cc : CharClass) (hsp : cc.space ' ' = true) (t : Table) (G : GoodTable t)
    (hb : ∀ r ∈ t.rows, ' ' ∉ r.header) (nodes : List TeiNode) (h : exportTei cc t = .ok nodes) (r : Row) (hr : r ∈ t.rows)
    (xs : List Str) (hxs : List.Forall₂ CellTextOf r.cells xs) :
    squeeze cc (teiText r.header nodes) = squeeze cc xs.flatten := by
  obtain ⟨pieces, rfl, hF⟩ := C38_tei_partition cc t G (List.ne_nil_of_mem hr) hb nodes h
  have hσ : r.header ∈ t.rows.map Row.header := List.mem_map.mpr ⟨r, hr, rfl⟩
  rw [G.cells r hr] at hxs
  generalize t.columns = cols at hF hxs
  clear h
  induction hF generalizing xs with
  | nil =>
    cases hxs
    rfl
  | cons hT htl ih =>
    rename_i c p cols pieces
    rw [List.map_cons] at hxs
    cases hxs with
    | cons hx hxs =>
      rename_i x xs
      have ih' := ih xs hxs
      have e : flatPieces (p :: pieces) = [p.1] ++ ((if p.2 then [.text [' ']] else []) ++ flatPieces pieces) := by
        simp [flatPieces]
      rw [e, teiText_append, teiText_append, squeeze_append, squeeze_append, squeeze_node hT hσ hx, ih']
      rw [List.flatten_cons, squeeze_append]
      have : squeeze cc (teiText r.header (if p.2 then [.text [' ']] else [])) = [] := by
        split
        · simp [teiText, squeeze, hsp]
        · rfl
      rw [this, List.nil_append]

/-- C39. Reading the TEI output of a valid collation (exact matching, tokens with string `t` values, sigla without blanks) for one
witness gives its text, up to white space. -/
theorem C39_tei_text (env : Env) (hts : TopoSpec env.topo) (hsp : env.cc.space ' ' = true) (ws : List Witness) (hv : Valid ws)
    (hs : ∀ w ∈ ws, w.sigil ≠ [] ∧ ' ' ∉ w.sigil) (hx : HasTexts ws) (o : Opts) (ho : ExactMatching o) :
    ∃ nodes, collate env ws { o with output := S "tei" } = .ok (.tei nodes) ∧
      ∀ w ∈ ws, ∃ s, TextOf w.tokens s ∧ squeeze env.cc (teiText w.sigil nodes) = squeeze env.cc s := by
  obtain ⟨t, ws', g, rk, h1, h2, rfl, hws⟩ := exists_table env hts ws hv o ho
  have hs1 : ∀ w ∈ ws, w.sigil ≠ [] := fun w hw => (hs w hw).1
  obtain ⟨G, hh⟩ := goodTable_of env hts ws hv hs1 o ho _ h2
  obtain ⟨nodes, hn⟩ := exists_exportTei env.cc (column_texts env hts ws hv hs1 o ho _ h2 hx)
  refine ⟨nodes, ?_, ?_⟩
  · have h1' : collateRanked env ws { o with output := S "tei" } = .ok (ws', g, rk) := h1
    have e : (S "tei" : Str) ∉ [S "svg", S "svg_simple", S "graph", S "json", S "html", S "html2", S "table", S "xml"] := by decide
    simp only [List.mem_cons, List.not_mem_nil, or_false, not_or] at e
    simp only [collate, h1', bind_ok, render, e, or_self, if_false, if_true, hn]
  · intro w hw
    obtain ⟨k, hk⟩ := List.getElem?_of_mem hw
    have hk' : (ws.map Witness.sigil)[k]? = some w.sigil := by rw [List.getElem?_map, hk]; rfl
    rw [← hh, List.getElem?_map] at hk'
    obtain ⟨r, hr, hrw⟩ := Option.map_eq_some_iff.mp hk'
    obtain ⟨xs, hF, htext⟩ := row_texts env hts ws hv o ho _ h2 hx hk (hs1 w hw) hr
    refine ⟨xs.flatten, htext, ?_⟩
    rw [← hrw]
    refine C39_tei_text_of_row env.cc hsp _ G ?_ nodes hn r (List.mem_of_getElem? hr) xs hF
    intro r' hr'
    have : r'.header ∈ ws.map Witness.sigil := by rw [← hh]; exact List.mem_map.mpr ⟨r', hr', rfl⟩
    obtain ⟨w', hw', he⟩ := List.mem_map.mp this
    rw [← he]
    exact (hs w' hw').2

/-- C40, the full claim: a separator follows every column in which some reading ends in a space, tab or line feed. -/
def Spec.WordsApart (cc : CharClass) : Prop :=
  ∀ (t : Table), GoodTable t → t.rows ≠ [] → (∀ r ∈ t.rows, ' ' ∉ r.header) → ∀ nodes, exportTei cc t = .ok nodes →
    ∃ pieces : List (TeiNode × Bool), nodes = flatPieces pieces ∧
      List.Forall₂ (fun c p => (∃ σ ts s ch, dget c.tokens σ = some ts ∧ TextOf ts s ∧ s.getLast? = some ch ∧
        (ch = ' ' ∨ ch = '\t' ∨ ch = '\n')) → p.2 = true) t.columns pieces

/-- One witness, the words `a` and `b` with a tab between them. -/
def tabTable : Table :=
  ⟨[⟨[(S "A", [⟨S "a", [(.t, .str (S "a\t"))]⟩])], false⟩, ⟨[(S "A", [⟨S "b", [(.t, .str (S "b"))]⟩])], false⟩],
   [⟨S "A", [some [⟨S "a", [(.t, .str (S "a\t"))]⟩], some [⟨S "b", [(.t, .str (S "b"))]⟩]]⟩]⟩

/-- C40, negation of the full claim: after a tab there is no separator (line 153 compares with raw strings), so that words run
together. -/
theorem C40_words_run_together : ¬ WordsApart asciiClass := by
  intro h
  have hn : exportTei asciiClass tabTable = .ok [.text (S "a"), .text (S "b")] := by decide +kernel
  obtain ⟨pieces, hp, hF⟩ := h tabTable ⟨by decide, by decide, by decide, by
    intro c hc σ ts hd h0
    subst h0
    have : ∀ c ∈ tabTable.columns, ∀ p ∈ c.tokens, p.2 ≠ [] := by decide
    exact this c hc _ (dget_mem hd) rfl⟩ (by decide) (by decide) _ hn
  unfold tabTable at hF
  cases hF with
  | cons h1 hF2 =>
    rename_i p pieces'
    cases hF2 with
    | cons h2 hF3 =>
      cases hF3
      rename_i p2
      have hsep : p.2 = true := h1 ⟨S "A", _, S "a\t", '\t', rfl, ⟨[S "a\t"], rfl, rfl⟩, rfl, by simp⟩
      have := congrArg List.length hp
      simp only [flatPieces, List.flatMap_cons, List.flatMap_nil, hsep, if_true] at this
      revert this
      cases p2.2 <;> simp

/-- C40, partial. A separator follows every column in which some reading ends in a space (and otherwise none, except after one of
the literal texts `\u0009` and `\000a`). Missing: readings that end in a tab or a line feed, for which the claim is false. -/
theorem C40_separator_partial (cc : CharClass) (t : Table) (G : GoodTable t) (hne : t.rows ≠ []) (hb : ∀ r ∈ t.rows, ' ' ∉ r.header)
    (nodes : List TeiNode) (h : exportTei cc t = .ok nodes) :
    ∃ pieces : List (TeiNode × Bool), nodes = flatPieces pieces ∧
      List.Forall₂ (fun c p => TeiColumn cc (t.rows.map Row.header) c p.1 ∧
        ((∃ σ ts s, dget c.tokens σ = some ts ∧ TextOf ts s ∧ s.getLast? = some ' ') → p.2 = true) ∧
        (p.2 = true → ∃ σ ts s, dget c.tokens σ = some ts ∧ TextOf ts s ∧
          (s.getLast? = some ' ' ∨ "\\u0009".toList <:+ s ∨ "\\000a".toList <:+ s))) t.columns pieces := by
  obtain ⟨pieces, hp, hF⟩ := tei_pieces cc t G hne hb nodes h
  refine ⟨pieces, hp, hF.imp ?_⟩
  rintro c p ⟨hT, hw⟩
  have hends : ∀ s : Str, endsWs s = true ↔ s.getLast? = some ' ' ∨ "\\u0009".toList <:+ s ∨ "\\000a".toList <:+ s := by
    intro s
    unfold endsWs
    rw [Bool.or_eq_true, Bool.or_eq_true, List.isSuffixOf_iff_suffix, List.isSuffixOf_iff_suffix, List.isSuffixOf_iff_suffix]
    have : S " " <:+ s ↔ s.getLast? = some ' ' := by
      constructor
      · rintro ⟨a, rfl⟩
        show (a ++ [' ']).getLast? = _
        simp
      · intro hl
        obtain ⟨a, rfl⟩ := List.getLast?_eq_some_iff.mp hl
        exact ⟨a, rfl⟩
    rw [this]
    tauto
  refine ⟨hT, ?_, ?_⟩
  · rintro ⟨σ, ts, s, hd, ht, hl⟩
    exact hw.mpr ⟨σ, ts, s, hd, ht, (hends s).mpr (Or.inl hl)⟩
  · intro hp2
    obtain ⟨σ, ts, s, hd, ht, hl⟩ := hw.mp hp2
    exact ⟨σ, ts, s, hd, ht, (hends s).mp hl⟩

/-- Two plain-text witnesses, `a b` and `a c`. -/
def plainWitnesses : List Witness :=
  [⟨S "A", [⟨S "a", [(.t, .str (S "a ")), (.n, .str (S "a"))]⟩, ⟨S "b", [(.t, .str (S "b")), (.n, .str (S "b"))]⟩]⟩,
   ⟨S "B", [⟨S "a", [(.t, .str (S "a ")), (.n, .str (S "a"))]⟩, ⟨S "c", [(.t, .str (S "c")), (.n, .str (S "c"))]⟩]⟩]

theorem plainWitnesses_valid : Valid plainWitnesses := by
  refine ⟨by decide, by decide, by decide, ?_⟩
  intro w hw t ht hsep
  obtain ⟨i, _, h⟩ := hsep
  have hd : ∀ w ∈ plainWitnesses, ∀ t ∈ w.tokens, t.str.head? ≠ some '$' := by decide
  exact hd w hw t ht (by rw [h]; rfl)

theorem plainWitnesses_texts : HasTexts plainWitnesses := by
  have h : ∀ w ∈ plainWitnesses, ∀ t ∈ w.tokens, dget t.data .t = some (.str (S "a ")) ∨ dget t.data .t = some (.str (S "b")) ∨
      dget t.data .t = some (.str (S "c")) := by decide
  intro w hw t ht
  rcases h w hw t ht with h | h | h <;> exact ⟨_, h⟩

/-- The hypotheses of the theorems of this file are met, and the outputs are not trivial. -/
example : TopoSpec exampleEnv.topo ∧ exampleEnv.cc.space ' ' = true ∧ Valid plainWitnesses ∧ HasTexts plainWitnesses ∧
    (∀ w ∈ plainWitnesses, w.sigil ≠ [] ∧ ' ' ∉ w.sigil ∧ '\r' ∉ w.sigil) ∧ ExactMatching {} ∧
    collate exampleEnv plainWitnesses { output := S "tei" } =
      .ok (.tei [.text (S "a"), .text (S " "), .app [⟨S "#A", S "b"⟩, ⟨S "#B", S "c"⟩]]) ∧
    collate exampleEnv plainWitnesses { output := S "xml" } =
      .ok (.xml [[⟨S "#A", S "a "⟩, ⟨S "#B", S "a "⟩], [⟨S "#A", S "b"⟩, ⟨S "#B", S "c"⟩]]) ∧
    collate exampleEnv plainWitnesses { output := S "csv" } = .ok (.csv (S "A,a ,b\nB,a ,c\n")) :=
  ⟨kahn_spec, by decide, plainWitnesses_valid, plainWitnesses_texts, by decide, ⟨rfl, rfl, rfl⟩, by decide +kernel, by decide +kernel,
    by decide +kernel⟩

end CollateX
