import Verif.Props.NearCells
import Verif.Props.Export
/-
The outputs of a collation with near matching: C89.
-/

namespace CollateX
open Spec

/-- A table comes from a graph and a ranking. -/
theorem ranked_of_table {env : Env} {ws : List Witness} {o : Opts} {t : Table} (h : collateTable env ws o = .ok t) :
    ∃ ws' g rk, collateRanked env ws o = .ok (ws', g, rk) ∧ t = mkTable ws' g rk := by
  unfold collateTable at h
  obtain ⟨⟨ws', g, rk⟩, h1, h2⟩ := bind_eq_ok.mp h
  exact ⟨ws', g, rk, h1, (Except.ok.inj h2).symm⟩

/-- The table of a collation with near matching is a good table with one row per witness; its cells have texts if the tokens have. -/
theorem nearTable_good (env : Env) (hts : TopoSpec env.topo) (ws : List Witness) (hv : Valid ws)
    (hs : ∀ w ∈ ws, w.sigil ≠ []) (o : Opts) (ho : NearMatching o) :
    ∃ ws' g rk, collateRanked env ws o = .ok (ws', g, rk) ∧ collateTable env ws o = .ok (mkTable ws' g rk) ∧
      ws'.map Witness.sigil = ws.map Witness.sigil ∧ GoodTable (mkTable ws' g rk) ∧
      (mkTable ws' g rk).rows.map Row.header = ws.map Witness.sigil ∧ (mkTable ws' g rk).columns ≠ [] ∧
      ∀ (k : Nat) (w : Witness) (r : Row), ws[k]? = some w → (mkTable ws' g rk).rows[k]? = some r →
        ∀ c ∈ r.cells, ∀ ts, c = some ts → ∃ u ∈ w.tokens, ∃ x, SameToken u x ∧ ts = [x] := by
  obtain ⟨t, t₀, h1, h2, hlen, hh, hcl, hcol, hrow, _⟩ := C55_nothing_invented env hts ws hv hs o ho
  obtain ⟨ws', g, rk, h3, rfl⟩ := ranked_of_table h1
  have hcells : ∀ r ∈ (mkTable ws' g rk).rows, r.cells = (mkTable ws' g rk).columns.map (fun c => dget c.tokens r.header) := by
    intro r hr
    obtain ⟨k, hk⟩ := List.getElem?_of_mem hr
    obtain ⟨w, hw, he, hc⟩ := row_at hk
    rw [hc, he]
  have hws : ws'.map Witness.sigil = ws.map Witness.sigil := by
    rw [← hh, mkTable_rows, List.map_map]
    rfl
  have htok : ∀ (k : Nat) (w : Witness) (r : Row), ws[k]? = some w → (mkTable ws' g rk).rows[k]? = some r →
      ∀ c ∈ r.cells, ∀ ts, c = some ts → ∃ u ∈ w.tokens, ∃ x, SameToken u x ∧ ts = [x] := by
    intro k w r hw hr c hc ts he
    subst he
    obtain ⟨pos, hp, _⟩ := hrow k w r hw hr
    obtain ⟨j, hj⟩ := List.getElem?_of_mem hc
    obtain ⟨u, x, a, b, c⟩ := hp j ts hj
    exact ⟨u, List.mem_of_getElem? a, x, b, c⟩
  have hne : (mkTable ws' g rk).columns ≠ [] := by
    intro h0
    have h5 := (goodTable_of env hts ws hv hs { o with nearMatch := false } ⟨ho.astar, ho.detect, rfl⟩ _ h2)
    have h6 : t₀.columns = [] := by
      rw [h0] at hlen
      exact List.length_eq_zero_iff.mp hlen.symm
    cases hw : ws with
    | nil => exact hv.ne hw
    | cons w ws0 =>
      have hr0 : (t₀.rows.map Row.header)[0]? = some w.sigil := by rw [h5.2, hw]; rfl
      rw [List.getElem?_map] at hr0
      obtain ⟨r, hr, _⟩ := Option.map_eq_some_iff.mp hr0
      have := C25_table_lossless env hts ws hv { o with nearMatch := false } ⟨ho.astar, ho.detect, rfl⟩ _ h2 0 w r (by rw [hw]; rfl)
        (hs w (by rw [hw]; simp)) hr
      rw [h5.1.cells r (List.mem_of_getElem? hr), h6] at this
      have h3 : w.tokens = [] := by
        cases ht : w.tokens with
        | nil => rfl
        | cons a l => rw [ht] at this; cases this
      exact (hv.tokens w (by rw [hw]; simp)).1 h3
  obtain ⟨g', ps, r₁, rk', ord, m, f, r', L, C, h0, h4, R, _, hm, hcolk⟩ := near_table env hts hv ho
  have het : mkTable (indexed 0 ws) g' r' = mkTable ws' g rk := by
    rw [h4] at h1
    exact Except.ok.inj h1
  have hkeys : ∀ c ∈ (mkTable ws' g rk).columns, (c.tokens.map Prod.fst).Nodup ∧
      ∀ σ ∈ c.tokens.map Prod.fst, σ ∈ (mkTable ws' g rk).rows.map Row.header := by
    intro c hc
    rw [← het] at hc ⊢
    obtain ⟨j, hj⟩ := List.getElem?_of_mem hc
    have hjl := (List.getElem?_eq_some_iff.mp hj).1
    rw [hcolk j hjl] at hj
    refine ⟨colAt_nodup hj, ?_⟩
    intro σ hσ
    obtain ⟨p, hp, rfl⟩ := (R.col_keys C.ginv (C.sigil_ne (indexed_sigil_ne hs)) (by omega) hj).1 σ hσ
    obtain ⟨i, w, hw, hws⟩ := C.sigil_mem hp
    rw [mkTable_rows, List.map_map]
    exact List.mem_map.mpr ⟨w, List.mem_of_getElem? hw, hws⟩
  refine ⟨ws', g, rk, h3, h1, hws, ⟨by rw [hh]; exact hv.sigla, hcells, hkeys, ?_⟩, hh, hne, htok⟩
  intro c hc σ ts hd
  have hσ := (hkeys c hc).2 σ (List.mem_map.mpr ⟨_, dget_mem hd, rfl⟩)
  obtain ⟨r, hr, rfl⟩ := List.mem_map.mp hσ
  obtain ⟨k, hk⟩ := List.getElem?_of_mem hr
  have hk' : ((mkTable ws' g rk).rows.map Row.header)[k]? = some r.header := by rw [List.getElem?_map, hk]; rfl
  rw [hh, List.getElem?_map] at hk'
  obtain ⟨w, hw, _⟩ := Option.map_eq_some_iff.mp hk'
  have hmem : some ts ∈ r.cells := by
    rw [hcells r hr]
    exact List.mem_map.mpr ⟨c, hc, hd⟩
  obtain ⟨_, _, x, _, rfl⟩ := htok k w r hw hk _ hmem ts rfl
  simp

/-- The cells of a row whose tokens have texts have texts. -/
theorem near_cell_text {w : Witness} {c : Option (List Token)} (hx : ∀ t ∈ w.tokens, ∃ s, dget t.data .t = some (.str s))
    (h : ∀ ts, c = some ts → ∃ u ∈ w.tokens, ∃ x, SameToken u x ∧ ts = [x]) : ∃ s, CellTextOf c s := by
  cases c with
  | none => exact ⟨[], textOf_nil⟩
  | some ts =>
    obtain ⟨u, hu, x, hux, rfl⟩ := h ts rfl
    obtain ⟨s, hs⟩ := hx u hu
    exact ⟨s, [s], by simp [hux.2.1 .t (by simp [Bookkeeping]), hs], by simp⟩

theorem jsonCell_of_full {c : Option (List Token)} (h : ∀ ts, c = some ts → ts ≠ []) : jsonCell c = c.map (List.map Token.data) := by
  cases c with
  | none => rfl
  | some ts =>
    cases ts with
    | nil => exact absurd rfl (h [] rfl)
    | cons a l => rfl

/-- C89, JSON. With near matching both layouts list the sigla in the order of the witnesses, and show for each cell of the table the records of
its tokens (`null` for an empty cell). -/
theorem C89_json (env : Env) (hts : TopoSpec env.topo) (ws : List Witness) (hv : Valid ws) (hs : ∀ w ∈ ws, w.sigil ≠ []) (o : Opts)
    (ho : NearMatching o) :
    ∃ t jh jv, collateTable env ws o = .ok t ∧
      collate env ws { o with output := S "json", layout := S "horizontal" } = .ok (.json jh) ∧
      collate env ws { o with output := S "json", layout := S "vertical" } = .ok (.json jv) ∧
      jh.witnesses = ws.map Witness.sigil ∧ jv.witnesses = ws.map Witness.sigil ∧
      jh.table = t.rows.map (fun r => r.cells.map (Option.map (List.map Token.data))) ∧
      jv.table.length = t.columns.length ∧ (∀ col ∈ jv.table, col.length = ws.length) ∧
      ∀ (k i : Nat) (r : Row) (cell : Option (List Token)), t.rows[k]? = some r → r.cells[i]? = some cell →
        (jv.table[i]?.bind (·[k]?)) = some (cell.map (List.map Token.data)) := by
  obtain ⟨ws', g, rk, h1, h2, hws, G, hh, hne, htok⟩ := nearTable_good env hts ws hv hs o ho
  obtain ⟨a1, a2, a3, a4, a5⟩ := C35_json _ G hne ws' (by rw [hws, hh])
  have hfull : ∀ r ∈ (mkTable ws' g rk).rows, ∀ c ∈ r.cells, ∀ ts, c = some ts → ts ≠ [] := by
    intro r hr c hc ts he
    subst he
    rw [G.cells r hr] at hc
    obtain ⟨c, hc, hd⟩ := List.mem_map.mp hc
    exact G.full c hc _ _ hd
  refine ⟨_, exportJson (mkTable ws' g rk) false, exportVerticalJson (mkTable ws' g rk) ws', h2, ?_, ?_, by rw [a1, hh], by rw [a2, hh], ?_, a4,
    ?_, ?_⟩
  · have h1' : collateRanked env ws { o with output := S "json", layout := S "horizontal" } = .ok (ws', g, rk) := h1
    simp only [collate, h1', bind_ok]
    have e1 : ¬ (S "json" = S "svg" ∨ S "json" = S "svg_simple") := by decide
    have e2 : S "json" ≠ S "graph" := by decide
    have e3 : S "horizontal" ≠ S "vertical" := by decide
    simp only [render, if_neg e1, if_neg e2, if_neg e3, if_true]
  · have h1' : collateRanked env ws { o with output := S "json", layout := S "vertical" } = .ok (ws', g, rk) := h1
    simp only [collate, h1', bind_ok]
    have e1 : ¬ (S "json" = S "svg" ∨ S "json" = S "svg_simple") := by decide
    have e2 : S "json" ≠ S "graph" := by decide
    simp only [render, if_neg e1, if_neg e2, if_true]
  · simp only [exportJson]
    apply List.map_congr_left
    intro r hr
    apply List.map_congr_left
    intro c hc
    exact jsonCell_of_full (hfull r hr c hc)
  · intro col hcol
    simp only [exportVerticalJson, List.mem_map] at hcol
    obtain ⟨c, hc, rfl⟩ := hcol
    rw [List.length_map, ← List.length_map (f := Witness.sigil), hws, List.length_map]
  · intro k i r cell hr hc
    obtain ⟨jr, jc, x, b1, _, b2, b3, _, b4, _⟩ := a5 k i r cell hr hc
    rw [b3, Option.bind_some, b4]
    simp only [exportJson, List.getElem?_map, hr, Option.map_some, Option.some.injEq] at b1
    rw [← b1, List.getElem?_map, hc, Option.map_some] at b2
    rw [← b2, jsonCell_of_full (hfull r (List.mem_of_getElem? hr) cell (List.mem_of_getElem? hc))]

/-- C89, CSV. With near matching, if no siglum and no text has a carriage return, reading the CSV or TSV output gives a record for each row of the
table: the siglum and the text of each cell. -/
theorem C89_csv (env : Env) (hts : TopoSpec env.topo) (ws : List Witness) (hv : Valid ws) (hs : ∀ w ∈ ws, w.sigil ≠ [] ∧ '\r' ∉ w.sigil)
    (hx : HasTexts ws) (hcr : ∀ w ∈ ws, ∀ t ∈ w.tokens, ∀ s, dget t.data .t = some (.str s) → '\r' ∉ s) (o : Opts) (ho : NearMatching o)
    (tsv : Bool) :
    ∃ t s, collateTable env ws o = .ok t ∧ collate env ws { o with output := if tsv then S "tsv" else S "csv" } = .ok (.csv s) ∧
      List.Forall₂ (fun r fields => ∃ xs, fields = r.header :: xs ∧ List.Forall₂ CellTextOf r.cells xs) t.rows (readCsv (csvDelim tsv) s) := by
  obtain ⟨ws', g, rk, h1, h2, hws, G, hh, hne, htok⟩ := nearTable_good env hts ws hv (fun w hw => (hs w hw).1) o ho
  have hat : ∀ r ∈ (mkTable ws' g rk).rows, ∃ w ∈ ws, w.sigil = r.header ∧ ∀ c ∈ r.cells, ∀ ts, c = some ts →
      ∃ u ∈ w.tokens, ∃ x, SameToken u x ∧ ts = [x] := by
    intro r hr
    obtain ⟨k, hk⟩ := List.getElem?_of_mem hr
    have hk' : ((mkTable ws' g rk).rows.map Row.header)[k]? = some r.header := by rw [List.getElem?_map, hk]; rfl
    rw [hh, List.getElem?_map] at hk'
    obtain ⟨w, hw, he⟩ := Option.map_eq_some_iff.mp hk'
    exact ⟨w, List.mem_of_getElem? hw, he, htok k w r hw hk⟩
  obtain ⟨s, hcsv⟩ := exists_exportCsv (t := mkTable ws' g rk) tsv (by
    intro r hr c hc
    obtain ⟨w, hw, _, h⟩ := hat r hr
    exact near_cell_text (hx w hw) (h c hc))
  refine ⟨_, s, h2, ?_, C36_csv_reads_back _ tsv s hcsv ?_⟩
  · have h1' : collateRanked env ws { o with output := if tsv then S "tsv" else S "csv" } = .ok (ws', g, rk) := h1
    simp only [collate, h1', bind_ok]
    cases tsv with
    | true =>
      have e : (S "tsv" : Str) ∉ [S "svg", S "svg_simple", S "graph", S "json", S "html", S "html2", S "table", S "xml", S "tei", S "csv"] := by
        decide
      simp only [List.mem_cons, List.not_mem_nil, or_false, not_or] at e
      simp only [render, if_true, e, or_self, if_false, or_true, decide_true, hcsv, bind_ok]
    | false =>
      have e : (S "csv" : Str) ∉ [S "svg", S "svg_simple", S "graph", S "json", S "html", S "html2", S "table", S "xml", S "tei", S "tsv"] := by
        decide
      simp only [List.mem_cons, List.not_mem_nil, or_false, not_or] at e
      simp only [render, Bool.false_eq_true, e, or_self, if_false, or_false, if_true, decide_false, hcsv, bind_ok]
  · intro r hr
    obtain ⟨w, hw, he, h⟩ := hat r hr
    refine ⟨by rw [← he]; exact (hs w hw).2, ?_⟩
    intro c hc x hxc
    cases c with
    | none => rw [TextOf.unique hxc textOf_nil]; simp
    | some ts =>
      obtain ⟨u, hu, y, huy, rfl⟩ := h _ hc ts rfl
      obtain ⟨s, hs'⟩ := hx w hw u hu
      have : CellTextOf (some [y]) s := ⟨[s], by simp [huy.2.1 .t (by simp [Bookkeeping]), hs'], by simp⟩
      rw [TextOf.unique hxc this]
      exact hcr w hw u hu s hs'

/-- The columns' entries have texts. -/
theorem near_column_texts {ws : List Witness} (hx : HasTexts ws) {t : Table} (G : GoodTable t) (hh : t.rows.map Row.header = ws.map Witness.sigil)
    (htok : ∀ (k : Nat) (w : Witness) (r : Row), ws[k]? = some w → t.rows[k]? = some r →
      ∀ c ∈ r.cells, ∀ ts, c = some ts → ∃ u ∈ w.tokens, ∃ x, SameToken u x ∧ ts = [x]) :
    ∀ c ∈ t.columns, ∀ p ∈ c.tokens, ∃ s, TextOf p.2 s := by
  intro c hc p hp
  obtain ⟨hnd, hsub⟩ := G.keys c hc
  obtain ⟨r, hr, hrp⟩ := List.mem_map.mp (hsub p.1 (List.mem_map.mpr ⟨p, hp, rfl⟩))
  obtain ⟨k, hk⟩ := List.getElem?_of_mem hr
  have hk' : (t.rows.map Row.header)[k]? = some r.header := by rw [List.getElem?_map, hk]; rfl
  rw [hh, List.getElem?_map] at hk'
  obtain ⟨w, hw, _⟩ := Option.map_eq_some_iff.mp hk'
  have hcell : some p.2 ∈ r.cells := by
    rw [G.cells r hr]
    exact List.mem_map.mpr ⟨c, hc, by rw [hrp]; exact (dget_iff_mem hnd).mpr hp⟩
  exact near_cell_text (hx w (List.mem_of_getElem? hw)) (htok k w r hw hk _ hcell)

/-- C89, XML. With near matching the XML output has one `app` per column of the table; its `rdg` elements are those of the witnesses that have
tokens in the column, once each, in increasing order of siglum, with the texts of these tokens. -/
theorem C89_xml (env : Env) (hts : TopoSpec env.topo) (ws : List Witness) (hv : Valid ws) (hs : ∀ w ∈ ws, w.sigil ≠ []) (hx : HasTexts ws)
    (o : Opts) (ho : NearMatching o) :
    ∃ t apps, collateTable env ws o = .ok t ∧ collate env ws { o with output := S "xml" } = .ok (.xml apps) ∧
      apps.length = t.columns.length ∧
      ∀ (i : Nat) (c : Column) (rdgs : List Rdg), t.columns[i]? = some c → apps[i]? = some rdgs →
        ∃ sigla : List Str, rdgs.map Rdg.wit = sigla.map ('#' :: ·) ∧ sigla.Pairwise StrLt ∧
          (∀ σ, σ ∈ sigla ↔ ∃ r ∈ t.rows, r.header = σ ∧ ∃ ts, r.cells[i]? = some (some ts)) ∧
          ∀ (j : Nat) (σ : Str) (x : Rdg), sigla[j]? = some σ → rdgs[j]? = some x →
            ∃ r ∈ t.rows, r.header = σ ∧ ∃ ts, r.cells[i]? = some (some ts) ∧ PrintedText ts x.text := by
  obtain ⟨ws', g, rk, h1, h2, hws, G, hh, hne, htok⟩ := nearTable_good env hts ws hv hs o ho
  obtain ⟨apps, ha⟩ := exists_exportXml (fun c hc p hp => by
    obtain ⟨s, hs⟩ := near_column_texts hx G hh htok c hc p hp
    exact ⟨s, printedText_of_textOf hs⟩)
  refine ⟨_, apps, h2, ?_, C37_xml _ G apps ha⟩
  have h1' : collateRanked env ws { o with output := S "xml" } = .ok (ws', g, rk) := h1
  have e : (S "xml" : Str) ∉ [S "svg", S "svg_simple", S "graph", S "json", S "html", S "html2", S "table"] := by decide
  simp only [List.mem_cons, List.not_mem_nil, or_false, not_or] at e
  simp only [collate, h1', bind_ok, render, e, or_self, if_false, if_true, ha]

/-- C89, TEI. With near matching, if no siglum has a blank, the TEI output has one node per column of the table (and separators), as described
for C38, and the text of a witness in it is the text of its row, up to white space. -/
theorem C89_tei (env : Env) (hts : TopoSpec env.topo) (hsp : env.cc.space ' ' = true) (ws : List Witness) (hv : Valid ws)
    (hs : ∀ w ∈ ws, w.sigil ≠ [] ∧ ' ' ∉ w.sigil) (hx : HasTexts ws) (o : Opts) (ho : NearMatching o) :
    ∃ t nodes pieces, collateTable env ws o = .ok t ∧ collate env ws { o with output := S "tei" } = .ok (.tei nodes) ∧
      nodes = flatPieces pieces ∧ List.Forall₂ (fun c p => TeiColumn env.cc (ws.map Witness.sigil) c p.1) t.columns pieces ∧
      ∀ r ∈ t.rows, ∃ xs, List.Forall₂ CellTextOf r.cells xs ∧ squeeze env.cc (teiText r.header nodes) = squeeze env.cc xs.flatten := by
  obtain ⟨ws', g, rk, h1, h2, hws, G, hh, hne, htok⟩ := nearTable_good env hts ws hv (fun w hw => (hs w hw).1) o ho
  obtain ⟨nodes, hn⟩ := exists_exportTei env.cc (near_column_texts hx G hh htok)
  have hb : ∀ r ∈ (mkTable ws' g rk).rows, ' ' ∉ r.header := by
    intro r hr
    have : r.header ∈ ws.map Witness.sigil := by rw [← hh]; exact List.mem_map.mpr ⟨r, hr, rfl⟩
    obtain ⟨w, hw, he⟩ := List.mem_map.mp this
    rw [← he]
    exact (hs w hw).2
  have hrne : (mkTable ws' g rk).rows ≠ [] := by
    intro h0
    rw [h0] at hh
    exact hv.ne (List.map_eq_nil_iff.mp hh.symm)
  obtain ⟨pieces, hp, hF⟩ := C38_tei_partition env.cc _ G hrne hb nodes hn
  rw [hh] at hF
  refine ⟨_, nodes, pieces, h2, ?_, hp, hF, ?_⟩
  · have h1' : collateRanked env ws { o with output := S "tei" } = .ok (ws', g, rk) := h1
    have e : (S "tei" : Str) ∉ [S "svg", S "svg_simple", S "graph", S "json", S "html", S "html2", S "table", S "xml"] := by decide
    simp only [List.mem_cons, List.not_mem_nil, or_false, not_or] at e
    simp only [collate, h1', bind_ok, render, e, or_self, if_false, if_true, hn]
  · intro r hr
    obtain ⟨k, hk⟩ := List.getElem?_of_mem hr
    have hk' : ((mkTable ws' g rk).rows.map Row.header)[k]? = some r.header := by rw [List.getElem?_map, hk]; rfl
    rw [hh, List.getElem?_map] at hk'
    obtain ⟨w, hw, _⟩ := Option.map_eq_some_iff.mp hk'
    have hall : ∀ cells : List (Option (List Token)), (∀ c ∈ cells, ∃ s, CellTextOf c s) → ∃ xs, List.Forall₂ CellTextOf cells xs := by
      intro cells
      induction cells with
      | nil => intro _; exact ⟨[], .nil⟩
      | cons c cells ih =>
        intro h
        obtain ⟨x, hx⟩ := h c (by simp)
        obtain ⟨xs, hxs⟩ := ih (fun c hc => h c (by simp [hc]))
        exact ⟨x :: xs, .cons hx hxs⟩
    obtain ⟨xs, hxs⟩ := hall r.cells (fun c hc => near_cell_text (hx w (List.mem_of_getElem? hw)) (htok k w r hw hk c hc))
    exact ⟨xs, hxs, C39_tei_text_of_row env.cc hsp _ G hb nodes hn r hr xs hxs⟩

theorem cells_text {cells : List (Option (List Token))} {xs : List Str} (h : List.Forall₂ CellTextOf cells xs) :
    TextOf (cells.filterMap id).flatten xs.flatten := by
  induction h with
  | nil => exact textOf_nil
  | cons h _ ih =>
    rename_i c x cells xs _
    cases c with
    | none => rw [TextOf.unique h textOf_nil]; exact ih
    | some ts => exact textOf_append.mpr ⟨x, xs.flatten, h, ih, rfl⟩

/-- C89 for at most two witnesses (what is missing: three or more witnesses, for which the claim is false, see `C89_three_witnesses`). With near
matching the JSON output has for each witness the records of all its tokens in order (up to the two bookkeeping keys), the CSV output has its
text, and so has the TEI output, up to white space. -/
theorem C89_two_witnesses_partial (env : Env) (hts : TopoSpec env.topo) (hsp : env.cc.space ' ' = true) (ws : List Witness) (hv : Valid ws)
    (h2 : ws.length ≤ 2) (hs : ∀ w ∈ ws, w.sigil ≠ [] ∧ ' ' ∉ w.sigil ∧ '\r' ∉ w.sigil) (hx : HasTexts ws)
    (hcr : ∀ w ∈ ws, ∀ t ∈ w.tokens, ∀ s, dget t.data .t = some (.str s) → '\r' ∉ s) (o : Opts) (ho : NearMatching o) :
    ∃ j s nodes, collate env ws { o with output := S "json", layout := S "horizontal" } = .ok (.json j) ∧
      collate env ws { o with output := S "csv" } = .ok (.csv s) ∧ collate env ws { o with output := S "tei" } = .ok (.tei nodes) ∧
      (∀ (k : Nat) (w : Witness) (row : List (Option (List TokenData))), ws[k]? = some w → j.table[k]? = some row →
        List.Forall₂ (fun tok d => ∃ t', SameToken tok t' ∧ t'.data = d) w.tokens (row.filterMap id).flatten) ∧
      List.Forall₂ (fun w fields => ∃ cells, fields = w.sigil :: cells ∧ TextOf w.tokens cells.flatten) ws (readCsv ',' s) ∧
      ∀ w ∈ ws, ∃ x, TextOf w.tokens x ∧ squeeze env.cc (teiText w.sigil nodes) = squeeze env.cc x := by
  obtain ⟨t, j, _, ht, hj, _, _, _, hjt, _⟩ := C89_json env hts ws hv (fun w hw => (hs w hw).1) o ho
  obtain ⟨t1, s, ht1, hcsv, hF⟩ := C89_csv env hts ws hv (fun w hw => ⟨(hs w hw).1, (hs w hw).2.2⟩) hx hcr o ho false
  obtain ⟨t2, nodes, _, ht2, htei, _, _, hrow⟩ := C89_tei env hts hsp ws hv (fun w hw => ⟨(hs w hw).1, (hs w hw).2.1⟩) hx o ho
  obtain ⟨t3, ht3, hh, hall⟩ := C34_two_witnesses_partial env hts ws hv h2 o ho
  obtain rfl : t3 = t := by rw [ht3] at ht; exact Except.ok.inj ht
  obtain rfl : t3 = t1 := by rw [ht3] at ht1; exact Except.ok.inj ht1
  obtain rfl : t3 = t2 := by rw [ht3] at ht2; exact Except.ok.inj ht2
  have hlen : t3.rows.length = ws.length := by rw [← List.length_map (f := Row.header), hh, List.length_map]
  have hhead : ∀ (k : Nat) (w : Witness) (r : Row), ws[k]? = some w → t3.rows[k]? = some r → r.header = w.sigil := by
    intro k w r hw hr
    have := congrArg (fun l => l[k]?) hh
    simpa [List.getElem?_map, hw, hr] using this
  refine ⟨j, s, nodes, hj, hcsv, htei, ?_, ?_, ?_⟩
  · intro k w row hw hr
    rw [hjt, List.getElem?_map] at hr
    obtain ⟨r, hr', rfl⟩ := Option.map_eq_some_iff.mp hr
    have := hall k w r hw (hs w (List.mem_of_getElem? hw)).1 hr'
    have e : ((r.cells.map (Option.map (List.map Token.data))).filterMap id).flatten = ((r.cells.filterMap id).flatten).map Token.data := by
      generalize r.cells = cells
      induction cells with
      | nil => rfl
      | cons c cells ih =>
        cases c with
        | none => exact ih
        | some ts =>
          simp only [List.map_cons, Option.map_some, List.filterMap_cons, id, List.flatten_cons, List.map_append] at ih ⊢
          rw [ih]
    rw [e]
    generalize (r.cells.filterMap id).flatten = l at this
    generalize w.tokens = l0 at this
    induction this with
    | nil => exact .nil
    | cons h _ ih => exact .cons ⟨_, h, rfl⟩ ih
  · rw [List.forall₂_iff_get] at hF ⊢
    refine ⟨by rw [← hlen]; exact hF.1, ?_⟩
    intro k hk1 hk2
    obtain ⟨xs, hxs, hc⟩ := hF.2 k (by rw [hlen]; exact hk1) hk2
    simp only [List.get_eq_getElem] at hxs hc ⊢
    have hw : ws[k]? = some ws[k] := List.getElem?_eq_getElem hk1
    have hr : t3.rows[k]? = some (t3.rows[k]'(by rw [hlen]; exact hk1)) := List.getElem?_eq_getElem _
    refine ⟨xs, by rw [← hhead k _ _ hw hr]; exact hxs, ?_⟩
    exact (textOf_sameToken (hall k _ _ hw (hs _ (List.mem_of_getElem? hw)).1 hr)).mpr (cells_text hc)
  · intro w hw
    obtain ⟨k, hk⟩ := List.getElem?_of_mem hw
    have hk1 := (List.getElem?_eq_some_iff.mp hk).1
    have hr : t3.rows[k]? = some (t3.rows[k]'(by rw [hlen]; exact hk1)) := List.getElem?_eq_getElem _
    obtain ⟨xs, hc, hsq⟩ := hrow _ (List.mem_of_getElem? hr)
    rw [hhead k _ _ hk hr] at hsq
    exact ⟨xs.flatten, (textOf_sameToken (hall k _ _ hk (hs _ hw).1 hr)).mpr (cells_text hc), hsq⟩

/-- A witness whose tokens have these texts. -/
def textWitness (σ : String) (l : List String) : Witness := ⟨S σ, l.map (fun x => ⟨S x, [(.t, .str (S x))]⟩)⟩

/-- The witnesses of `C34_three_witnesses`, with texts. -/
def losingTextWitnesses : List Witness :=
  [textWitness "A" ["x1", "x2", "w", "yyyy", "v"], textWitness "B" ["yyyz", "w", "yyyy", "v"], textWitness "C" ["yyyz", "v"]]

theorem losingTextWitnesses_valid : Valid losingTextWitnesses := valid_of_check (by decide) (by decide) (by decide) (by decide)

theorem textWitness_texts {σ : String} {l : List String} : ∀ t ∈ (textWitness σ l).tokens, ∃ s, dget t.data .t = some (.str s) := by
  intro t ht
  obtain ⟨x, _, rfl⟩ := List.mem_map.mp ht
  exact ⟨S x, rfl⟩

theorem losingTextWitnesses_texts : HasTexts losingTextWitnesses := by
  intro w hw
  simp only [losingTextWitnesses, List.mem_cons, List.not_mem_nil, or_false] at hw
  rcases hw with rfl | rfl | rfl <;> exact textWitness_texts

/-- C89 is false for three witnesses: the token `yyyy` of B is neither in the CSV nor in the TEI output. -/
theorem C89_three_witnesses : Valid losingTextWitnesses ∧ HasTexts losingTextWitnesses ∧
    collate nearEnv losingTextWitnesses { output := S "csv", segmentation := false, nearMatch := true } =
      .ok (.csv (S "A,x1,x2,w,yyyy,v\nB,,,w,yyyz,v\nC,,,,yyyz,v\n")) ∧
    collate nearEnv losingTextWitnesses { output := S "tei", segmentation := false, nearMatch := true } =
      .ok (.tei [.app [⟨S "#A", S "x1"⟩], .app [⟨S "#A", S "x2"⟩], .app [⟨S "#A #B", S "w"⟩],
        .app [⟨S "#A", S "yyyy"⟩, ⟨S "#B #C", S "yyyz"⟩], .text (S "v")]) :=
  ⟨losingTextWitnesses_valid, losingTextWitnesses_texts, by decide +kernel, by decide +kernel⟩

/-- Two witnesses with a near match: `grey` is put under `gray`. -/
def greyTexts : List Witness := [textWitness "A" ["the ", "big ", "gray ", "koala"], textWitness "B" ["the ", "grey ", "koala"]]

/-- The hypotheses of the theorems of this file are met, and the outputs show the near match. -/
example : TopoSpec nearEnv.topo ∧ nearEnv.cc.space ' ' = true ∧ Valid greyTexts ∧ greyTexts.length ≤ 2 ∧ HasTexts greyTexts ∧
    (∀ w ∈ greyTexts, w.sigil ≠ [] ∧ ' ' ∉ w.sigil ∧ '\r' ∉ w.sigil) ∧
    (∀ w ∈ greyTexts, ∀ t ∈ w.tokens, ∀ s, dget t.data .t = some (.str s) → '\r' ∉ s) ∧
    NearMatching { segmentation := false, nearMatch := true } ∧
    collate nearEnv greyTexts { output := S "csv", segmentation := false, nearMatch := true } =
      .ok (.csv (S "A,the ,big ,gray ,koala\nB,the ,,grey ,koala\n")) ∧
    collate nearEnv greyTexts { output := S "csv", segmentation := false } =
      .ok (.csv (S "A,the ,big ,gray ,koala\nB,the ,grey ,,koala\n")) := by
  refine ⟨kahn_spec, by decide, valid_of_check (by decide) (by decide) (by decide) (by decide), by decide, ?_, by decide, ?_,
    ⟨rfl, rfl, rfl, rfl⟩, by decide +kernel, by decide +kernel⟩
  · intro w hw
    simp only [greyTexts, List.mem_cons, List.not_mem_nil, or_false] at hw
    rcases hw with rfl | rfl <;> exact textWitness_texts
  · have h : ∀ w ∈ greyTexts, ∀ t ∈ w.tokens, dget t.data .t = some (.str t.str) ∧ '\r' ∉ t.str := by decide
    intro w hw t ht s hd
    obtain ⟨h1, h2⟩ := h w hw t ht
    rw [h1] at hd
    injection Option.some.inj hd with e
    rw [← e]
    exact h2

end CollateX
