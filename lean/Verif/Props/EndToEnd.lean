import Verif.Spec.EndToEnd
import Verif.Props.PlainText
import Verif.Props.NearOutputs
import Verif.Props.NearProgram
import Verif.Props.Segmented
import Verif.Props.TwoComputed
/-
From plain texts to the cells of the output, by a short program on lists of words: C107.
-/

namespace CollateX
open Spec

/-! ### Rows -/

theorem row_dealt {cells : List (Option (List Token))} {toks : List Str}
    (h : (cells.filterMap id).flatten.map (fun t => dget t.data .t) = toks.map (fun x => some (JVal.str x))) :
    List.Forall₂ CellTextOf cells (deal (cells.map (Option.map (List.map Token.str))) toks) := by
  induction cells generalizing toks with
  | nil => exact .nil
  | cons c cells ih =>
    cases c with
    | none => exact .cons textOf_nil (ih h)
    | some ts =>
      have h' : ts.map (fun t => dget t.data .t) ++ ((cells.filterMap id).flatten.map (fun t => dget t.data .t)) =
          toks.map (fun x => some (JVal.str x)) := by
        rw [← h, ← List.map_append]
        rfl
      have hl : (ts.map (fun t => dget t.data .t)).length = ts.length := List.length_map ..
      have h1 := congrArg (List.take ts.length) h'
      have h2 := congrArg (List.drop ts.length) h'
      rw [← hl, List.take_left, hl, ← List.map_take] at h1
      rw [← hl, List.drop_left, hl, ← List.map_drop] at h2
      have := ih h2
      simp only [List.map_cons, Option.map_some, deal, List.length_map]
      exact .cons ⟨_, h1, rfl⟩ this

/-- What is known of a table: its rows have all tokens of the witnesses, and it shows the given strings and marks. -/
structure Told (ws : List Witness) (t : Table) (rows : List (List (Bool × Option (List Str)))) : Prop where
  good : GoodTable t
  header : t.rows.map Row.header = ws.map Witness.sigil
  all : ∀ (k : Nat) (w : Witness) (r : Row), (indexed 0 ws)[k]? = some w → t.rows[k]? = some r → (r.cells.filterMap id).flatten = w.tokens
  rows : markedStrings t = rows

theorem exact_all (env : Env) (hts : TopoSpec env.topo) {ws : List Witness} (hv : Valid ws) (hs : ∀ w ∈ ws, w.sigil ≠ []) {o : Opts}
    (ho : ExactMatching o) {t : Table} (h : collateTable env ws o = .ok t) {k : Nat} {w : Witness} {r : Row} (hw : (indexed 0 ws)[k]? = some w)
    (hr : t.rows[k]? = some r) : (r.cells.filterMap id).flatten = w.tokens := by
  obtain ⟨g, ps, rk, rkf, ord, m, h1, C, rfl⟩ := table_of env hts hv ho h
  obtain ⟨w', hw', _, hcells⟩ := row_at hr
  rw [hw] at hw'
  obtain rfl := Option.some.inj hw'
  obtain ⟨p, _, _, htext, hrow⟩ := C.row hw (indexed_sigil_ne hs w (List.mem_of_getElem? hw))
  rw [hcells, hrow, ← htext]
  unfold WPath.text
  rw [List.flatMap_def]

theorem told_exact (env : Env) (hts : TopoSpec env.topo) {ws : List Witness} (hv : Valid ws) (hs : ∀ w ∈ ws, w.sigil ≠ []) {o : Opts}
    (ho : ExactMatching o) (hf : o.pfilter = none) (hu : ∀ n < ws.length, (workOf ((ws.map strings).take n)).Untwinned) :
    ∃ t, collateTable env ws o = .ok t ∧
      Told ws t (if o.segmentation then (workOf (ws.map strings)).shownSegmented else (workOf (ws.map strings)).shown) := by
  have key : ∃ t, collateTable env ws o = .ok t ∧
      markedStrings t = if o.segmentation then (workOf (ws.map strings)).shownSegmented else (workOf (ws.map strings)).shown := by
    cases hseg : o.segmentation with
    | true => exact C104_computed env hts ws hv hs o ho hf hseg hu
    | false => exact C103_computed env hts ws hv hs o ho hf hseg hu
  obtain ⟨t, h1, h2⟩ := key
  obtain ⟨G, hh⟩ := goodTable_of env hts ws hv hs o ho t h1
  exact ⟨t, h1, G, hh, fun k w r hw hr => exact_all env hts hv hs ho h1 hw hr, h2⟩

theorem near_all (env : Env) (hts : TopoSpec env.topo) {ws : List Witness} (hv : Valid ws) (hs : ∀ w ∈ ws, w.sigil ≠ []) (h2 : ws.length ≤ 2)
    {o : Opts} (ho : NearMatching o) {t : Table} (h : collateTable env ws o = .ok t) {k : Nat} {w : Witness} {r : Row}
    (hw : (indexed 0 ws)[k]? = some w) (hr : t.rows[k]? = some r) : (r.cells.filterMap id).flatten = w.tokens := by
  obtain ⟨g, ps, r₀, rk, ord, m, B, C, h0, h1⟩ := near_base env hts hv ho
  have hne : indexed 0 ws ≠ [] := by
    intro h0
    rw [h0] at hw
    cases hw
  obtain ⟨n, r', f, h3, R, hinc, _, _⟩ := performNearMatch_two B C.ginv (C.ne hne)
    (atMostTwo_of_length (by rw [C.length, indexed_length]; exact h2)) env.ratio
  rw [h3] at h1
  have het : t = mkTable (indexed 0 ws) g r' := by
    unfold collateTable at h
    rw [h1] at h
    rw [← Except.ok.inj h, mkTable_withNear]
  subst het
  obtain ⟨w', hw', _, hcells⟩ := row_at hr
  rw [hw] at hw'
  obtain rfl := Option.some.inj hw'
  obtain ⟨p, hp, hps, htext⟩ := C.at hw
  have hpm := List.mem_of_getElem? hp
  obtain ⟨L, hbr, hnd, hmem⟩ := R.br
  have hby : ByRank g f m L r' := ⟨hbr, hnd, fun k hk v => by rw [hmem k hk v, B.mem], fun v hv => R.lt v (B.mem.mpr hv)⟩
  have hinner : p.inner.Pairwise (fun u v => f u < f v) := by
    have h := C.ginv.path_increasing hinc hpm
    unfold WPath.path at h
    exact (List.pairwise_append.mp (List.pairwise_cons.mp h).2).1
  have hrow := hby.row C.ginv hpm (by rw [hps]; exact indexed_sigil_ne hs w (List.mem_of_getElem? hw)) hinner (indexed 0 ws)
  rw [hps] at hrow
  rw [hcells, hrow, ← htext]
  unfold WPath.text
  rw [List.flatMap_def]

theorem told_near (env : Env) (hts : TopoSpec env.topo) {ws : List Witness} (hv : Valid ws) (hs : ∀ w ∈ ws, w.sigil ≠ []) (h2 : ws.length = 2)
    {o : Opts} (ho : NearMatching o) (hf : o.pfilter = none) :
    ∃ t, collateTable env ws o = .ok t ∧ Told ws t ((workOf (ws.map strings)).nearShown env.ratio) := by
  obtain ⟨t, h1, h3⟩ := C105_near_program env hts ws hv hs h2 o ho hf
  obtain ⟨ws', g, rk, _, h4, _, G, hh, _⟩ := nearTable_good env hts ws hv hs o ho
  rw [h1] at h4
  obtain rfl := Except.ok.inj h4
  exact ⟨_, h1, G, hh, fun k w r hw hr => near_all env hts hv hs (by omega) ho h1 hw hr, h3⟩

/-! ### Plain texts -/

theorem wordsOf_tokens {cc : CharClass} {texts : List Str} {toks words : List (List Str)} (h : WordsOf cc texts toks words) :
    toks = texts.map (tokenize cc) := by
  have := h.cut
  clear h
  induction this with
  | nil => rfl
  | cons h _ ih => rw [List.map_cons, ← ih, (C02_token_boundaries_canonical _ _ _).mp h]

theorem wordsOf_words {cc : CharClass} {texts : List Str} {toks words : List (List Str)} (h : WordsOf cc texts toks words) :
    words = toks.map (List.map (rstrip cc)) := by
  have := h.stripped
  clear h
  induction this with
  | nil => rfl
  | @cons ts ns _ _ h _ ih =>
    rw [List.map_cons, ← ih]
    congr 1
    clear ih
    induction h with
    | nil => rfl
    | cons h _ ih => rw [List.map_cons, ← ih, ← rstrip_unique _ _ _ h]

theorem plain_strings {cc : CharClass} {texts : List (Str × Str)} {toks words : List (List Str)} (h : WordsOf cc (texts.map Prod.snd) toks words) :
    (plainWitnessesOf cc texts).map strings = words := by
  rw [wordsOf_words h, wordsOf_tokens h, plainWitnessesOf]
  simp only [List.map_map]
  apply List.map_congr_left
  intro p _
  simp [strings, plainToken]

/-- There are such words, and only these. -/
theorem wordsOf_exists (cc : CharClass) (texts : List Str) :
    WordsOf cc texts (texts.map (tokenize cc)) ((texts.map (tokenize cc)).map (List.map (rstrip cc))) := by
  constructor
  · rw [List.forall₂_map_right_iff]
    exact List.forall₂_same.mpr (fun s _ => (C02_token_boundaries_canonical _ _ _).mpr rfl)
  · rw [List.forall₂_map_right_iff]
    refine List.forall₂_same.mpr (fun ts _ => ?_)
    rw [List.forall₂_map_right_iff]
    exact List.forall₂_same.mpr (fun t _ => rstrip_spec cc t)

theorem Told.markedRow {ws : List Witness} {t : Table} {rows : List (List (Bool × Option (List Str)))} (T : Told ws t rows) {k : Nat} {r : Row}
    (hr : t.rows[k]? = some r) : ∃ row, rows[k]? = some row ∧ row.map Prod.snd = r.cells.map (Option.map (List.map Token.str)) := by
  have hl : r.cells.length = t.columns.length := by rw [T.good.cells r (List.mem_of_getElem? hr), List.length_map]
  refine ⟨_, by rw [← T.rows, markedStrings, List.getElem?_map, hr]; rfl, ?_⟩
  have : (Spec.markedRow t r).map Prod.snd = r.cells := by
    unfold Spec.markedRow
    exact List.map_snd_zip (by rw [List.length_map]; omega)
  rw [List.map_map, ← this, List.map_map]
  rfl

/-- The texts of the cells of the table of plain texts. -/
theorem Told.cellTexts {cc : CharClass} {texts : List (Str × Str)} {toks words : List (List Str)} (hw : WordsOf cc (texts.map Prod.snd) toks words)
    {t : Table} {rows : List (List (Bool × Option (List Str)))} (T : Told (plainWitnessesOf cc texts) t rows) :
    List.Forall₂ (fun r xs => List.Forall₂ CellTextOf r.cells xs) t.rows (Spec.cellTexts rows toks) ∧ rows.length = texts.length ∧
      t.rows.length = texts.length := by
  have hlr : t.rows.length = texts.length := by
    rw [← List.length_map (f := Row.header), T.header, List.length_map, plainWitnessesOf, List.length_map]
  have hlR : rows.length = texts.length := by rw [← T.rows, markedStrings, List.length_map, hlr]
  have ht := wordsOf_tokens hw
  have hlT : toks.length = texts.length := by rw [ht, List.length_map, List.length_map]
  refine ⟨?_, hlR, hlr⟩
  rw [List.forall₂_iff_get]
  refine ⟨by rw [Spec.cellTexts, List.length_zipWith, hlr, hlR, hlT, Nat.min_self], ?_⟩
  intro k k1 k2
  rw [List.get_eq_getElem, List.get_eq_getElem]
  have hr : t.rows[k]? = some t.rows[k] := List.getElem?_eq_getElem k1
  obtain ⟨row, h1, h2⟩ := T.markedRow hr
  have hk : k < texts.length := by omega
  obtain ⟨w, hwk⟩ : ∃ w, (indexed 0 (plainWitnessesOf cc texts))[k]? = some w :=
    ⟨_, List.getElem?_eq_getElem (by rw [indexed_length, plainWitnessesOf, List.length_map]; exact hk)⟩
  have hall := T.all k w _ hwk hr
  have hc : (Spec.cellTexts rows toks)[k] = deal (row.map Prod.snd) toks[k] := by
    simp only [Spec.cellTexts, List.getElem_zipWith]
    rw [show rows[k] = row from by rw [List.getElem?_eq_getElem (by omega)] at h1; exact Option.some.inj h1]
  rw [hc, h2]
  apply row_dealt
  rw [hall]
  rw [indexed_getElem?] at hwk
  obtain ⟨w0, hw0, rfl⟩ := Option.map_eq_some_iff.mp hwk
  have e0 : w0 = ⟨texts[k].1, (tokenize cc texts[k].2).map (plainToken cc)⟩ := by
    rw [plainWitnessesOf, List.getElem?_map, List.getElem?_eq_getElem hk] at hw0
    exact (Option.some.inj hw0).symm
  subst e0
  have et : toks[k] = tokenize cc texts[k].2 := by simp [ht]
  rw [et]
  apply List.ext_getElem?
  intro i
  simp only [List.getElem?_map, indexTokens_getElem?]
  cases (tokenize cc texts[k].2)[i]? with
  | none => rfl
  | some s =>
    have := (sameToken_indexToken texts[k].1 (0 + off (plainWitnessesOf cc texts) k + i) (plainToken cc s)).2.1 .t (by simp [Bookkeeping])
    simp only [Option.map_some, Option.some.injEq]
    rw [this]
    rfl

/-! ### CSV -/

theorem collate_csv {env : Env} {ws : List Witness} {o : Opts} {t : Table} (h : collateTable env ws o = .ok t) {tsv : Bool} {s : Str}
    (hs : exportCsv t tsv = .ok s) : collate env ws { o with output := if tsv then S "tsv" else S "csv" } = .ok (.csv s) := by
  obtain ⟨ws', g, rk, h1, rfl⟩ := ranked_of_table h
  have h1' : collateRanked env ws { o with output := if tsv then S "tsv" else S "csv" } = .ok (ws', g, rk) := h1
  simp only [collate, h1', bind_ok]
  cases tsv with
  | true =>
    have e : (S "tsv" : Str) ∉ [S "svg", S "svg_simple", S "graph", S "json", S "html", S "html2", S "table", S "xml", S "tei", S "csv"] := by
      decide
    simp only [List.mem_cons, List.not_mem_nil, or_false, not_or] at e
    simp only [render, if_true, e, or_self, if_false, or_true, decide_true, hs, bind_ok]
  | false =>
    have e : (S "csv" : Str) ∉ [S "svg", S "svg_simple", S "graph", S "json", S "html", S "html2", S "table", S "xml", S "tei", S "tsv"] := by
      decide
    simp only [List.mem_cons, List.not_mem_nil, or_false, not_or] at e
    simp only [render, Bool.false_eq_true, e, or_self, if_false, or_false, if_true, decide_false, hs, bind_ok]

theorem deal_mem {cells : List (Option (List Str))} {toks : List Str} {x : Str} (h : x ∈ deal cells toks) : ∀ c ∈ x, c ∈ toks.flatten := by
  induction cells generalizing toks with
  | nil => cases h
  | cons a cells ih =>
    intro c hc
    cases a with
    | none =>
      rcases List.mem_cons.mp h with rfl | h
      · cases hc
      · exact ih h c hc
    | some ws =>
      rcases List.mem_cons.mp h with rfl | h
      · obtain ⟨t, ht, hct⟩ := List.mem_flatten.mp hc
        exact List.mem_flatten.mpr ⟨t, List.mem_of_mem_take ht, hct⟩
      · obtain ⟨t, ht, hct⟩ := List.mem_flatten.mp (ih h c hc)
        exact List.mem_flatten.mpr ⟨t, List.mem_of_mem_drop ht, hct⟩

theorem cellTexts_unique {cells : List (Option (List Token))} {xs ys : List Str} (h : List.Forall₂ CellTextOf cells xs)
    (h' : List.Forall₂ CellTextOf cells ys) : xs = ys := by
  induction h generalizing ys with
  | nil => cases h'; rfl
  | cons h _ ih =>
    cases h' with
    | cons h1 h2 => rw [TextOf.unique h h1, ih h2]

theorem read_rows {rs : List Row} {fs xss : List (List Str)}
    (h : List.Forall₂ (fun r fields => ∃ xs, fields = r.header :: xs ∧ List.Forall₂ CellTextOf r.cells xs) rs fs)
    (h' : List.Forall₂ (fun r xs => List.Forall₂ CellTextOf r.cells xs) rs xss) : fs = List.zipWith List.cons (rs.map Row.header) xss := by
  induction h generalizing xss with
  | nil => cases h'; rfl
  | cons h _ ih =>
    cases h' with
    | cons h1 h2 =>
      obtain ⟨xs, rfl, hx⟩ := h
      rw [List.map_cons, List.zipWith_cons_cons, ← ih h2, cellTexts_unique hx h1]

theorem Told.csv {env : Env} {texts : List (Str × Str)} {toks words : List (List Str)} (hw : WordsOf env.cc (texts.map Prod.snd) toks words)
    (hcr : ∀ p ∈ texts, '\r' ∉ p.1 ∧ '\r' ∉ p.2) {o : Opts} {t : Table} (h : collateTable env (plainWitnessesOf env.cc texts) o = .ok t)
    {rows : List (List (Bool × Option (List Str)))} (T : Told (plainWitnessesOf env.cc texts) t rows) (tsv : Bool) :
    ∃ s, collateDict env (plainInput texts) { o with output := if tsv then S "tsv" else S "csv" } = .ok (.csv s) ∧
      readCsv (csvDelim tsv) s = List.zipWith List.cons (texts.map Prod.fst) (Spec.cellTexts rows toks) := by
  obtain ⟨hF, hlR, hlr⟩ := T.cellTexts hw
  have hh : t.rows.map Row.header = texts.map Prod.fst := by
    rw [T.header, plainWitnessesOf, List.map_map]
    rfl
  obtain ⟨s, hs⟩ := exists_exportCsv (t := t) tsv (by
    intro r hr c hc
    obtain ⟨xs, _, h⟩ := forall₂_mem_left hF r hr
    obtain ⟨x, _, hx⟩ := forall₂_mem_left h c hc
    exact ⟨x, hx⟩)
  refine ⟨s, ?_, ?_⟩
  · unfold collateDict
    rw [plain_added, bind_ok, List.nil_append]
    exact collate_csv h hs
  · have hcr' : ∀ r ∈ t.rows, '\r' ∉ r.header ∧ ∀ c ∈ r.cells, ∀ x, CellTextOf c x → '\r' ∉ x := by
      intro r hr
      obtain ⟨k, hk⟩ := List.getElem?_of_mem hr
      have hkl := (List.getElem?_eq_some_iff.mp hk).1
      have hkt : k < texts.length := by omega
      have hhk : r.header = texts[k].1 := by
        have := congrArg (fun l => l[k]?) hh
        simp only [List.getElem?_map, hk, List.getElem?_eq_getElem hkt, Option.map_some] at this
        exact Option.some.inj this
      refine ⟨by rw [hhk]; exact (hcr _ (List.getElem_mem hkt)).1, ?_⟩
      intro c hc x hx hin
      obtain ⟨xs, hxs, h⟩ : ∃ xs, (Spec.cellTexts rows toks)[k]? = some xs ∧ List.Forall₂ CellTextOf r.cells xs := by
        have hk2 : k < (Spec.cellTexts rows toks).length := by rw [← hF.length_eq]; exact hkl
        have := (List.forall₂_iff_get.mp hF).2 k hkl hk2
        rw [List.get_eq_getElem, (List.getElem?_eq_some_iff.mp hk).2] at this
        exact ⟨_, List.getElem?_eq_getElem hk2, this⟩
      obtain ⟨y, hy, hcy⟩ := forall₂_mem_left h c hc
      have : y = x := TextOf.unique hcy hx
      subst this
      simp only [Spec.cellTexts, List.getElem?_zipWith] at hxs
      have ht := wordsOf_tokens hw
      have htk : toks[k]? = some (tokenize env.cc texts[k].2) := by
        rw [ht, List.getElem?_map, List.getElem?_map, List.getElem?_eq_getElem hkt]
        rfl
      rw [htk, List.getElem?_eq_getElem (by omega)] at hxs
      obtain rfl := Option.some.inj hxs
      have := deal_mem hy _ hin
      rw [((C02_token_boundaries_canonical _ _ _).mpr rfl).lossless] at this
      exact (hcr _ (List.getElem_mem hkt)).2 this
    rw [← hh]
    exact read_rows (C36_csv_reads_back t tsv s hs hcr') hF

/-! ### JSON -/

theorem collate_json {env : Env} {ws : List Witness} {o : Opts} {t : Table} (h : collateTable env ws o = .ok t) :
    collate env ws { o with output := S "json", layout := S "horizontal" } = .ok (.json (exportJson t false)) := by
  obtain ⟨ws', g, rk, h1, rfl⟩ := ranked_of_table h
  have h1' : collateRanked env ws { o with output := S "json", layout := S "horizontal" } = .ok (ws', g, rk) := h1
  simp only [collate, h1', bind_ok]
  have e1 : ¬ (S "json" = S "svg" ∨ S "json" = S "svg_simple") := by decide
  have e2 : S "json" ≠ S "graph" := by decide
  have e3 : S "horizontal" ≠ S "vertical" := by decide
  simp only [render, if_neg e1, if_neg e2, if_neg e3, if_true]

theorem json_rows {rs : List Row} {xss yss : List (List Str)} {js : List (List (Option (List TokenData)))}
    (hjs : js = rs.map (fun r => r.cells.map (Option.map (List.map Token.data))))
    (h : List.Forall₂ (List.Forall₂ (fun c x => DataText (Option.getD c []) x)) js xss)
    (h' : List.Forall₂ (fun r xs => List.Forall₂ CellTextOf r.cells xs) rs yss) : xss = yss := by
  subst hjs
  rw [List.forall₂_map_left_iff] at h
  induction h generalizing yss with
  | nil => cases h'; rfl
  | cons h _ ih =>
    cases h' with
    | cons h1 h2 =>
      rw [ih h2]
      congr 1
      rw [List.forall₂_map_left_iff] at h
      refine cellTexts_unique (h.imp ?_) h1
      intro c x hx
      cases c with
      | none => exact dataText_of_textOf.mp hx
      | some ts => exact dataText_of_textOf.mp hx

theorem Told.json {env : Env} {texts : List (Str × Str)} {toks words : List (List Str)} (hw : WordsOf env.cc (texts.map Prod.snd) toks words)
    {o : Opts} {t : Table} (h : collateTable env (plainWitnessesOf env.cc texts) o = .ok t)
    {rows : List (List (Bool × Option (List Str)))} (T : Told (plainWitnessesOf env.cc texts) t rows) (raw : Str → Json) (indent : Option Nat) :
    ∃ j, collateDict env (plainInput texts) { o with output := S "json", layout := S "horizontal" } = .ok (.json j) ∧
      (readJson (j.text raw indent)).bind jsonCells = some (texts.map Prod.fst, Spec.cellTexts rows toks) := by
  obtain ⟨hF, hlR, hlr⟩ := T.cellTexts hw
  have hh : t.rows.map Row.header = texts.map Prod.fst := by
    rw [T.header, plainWitnessesOf, List.map_map]
    rfl
  have hfull : ∀ r ∈ t.rows, ∀ c ∈ r.cells, ∀ ts, c = some ts → ts ≠ [] := by
    intro r hr c hc ts he
    subst he
    rw [T.good.cells r hr] at hc
    obtain ⟨c, hc, hd⟩ := List.mem_map.mp hc
    exact T.good.full c hc _ _ hd
  have hwit : (exportJson t false).witnesses = texts.map Prod.fst := by rw [← hh]; rfl
  have htab : (exportJson t false).table = t.rows.map (fun r => r.cells.map (Option.map (List.map Token.data))) := by
    show t.rows.map _ = _
    apply List.map_congr_left
    intro r hr
    apply List.map_congr_left
    intro c hc
    exact jsonCell_of_full (hfull r hr c hc)
  refine ⟨exportJson t false, ?_, ?_⟩
  · unfold collateDict
    rw [plain_added, bind_ok, List.nil_append]
    exact collate_json h
  · have hrec := isRecord_indexed (plain_isRecord (fun _ => .null) env.cc texts)
    obtain ⟨tt, g1, g2⟩ := jsonCells_reads raw indent (exportJson t false) (by
      rw [htab]
      intro row hrow ds hds d hdm
      obtain ⟨r, hr, rfl⟩ := List.mem_map.mp hrow
      obtain ⟨c, hc, hcd⟩ := List.mem_map.mp hds
      obtain ⟨ts, rfl, rfl⟩ := Option.map_eq_some_iff.mp hcd
      obtain ⟨tk, htk, rfl⟩ := List.mem_map.mp hdm
      obtain ⟨k, hk⟩ := List.getElem?_of_mem hr
      obtain ⟨w, hwk⟩ : ∃ w, (indexed 0 (plainWitnessesOf env.cc texts))[k]? = some w :=
        ⟨_, List.getElem?_eq_getElem (by
          rw [indexed_length, plainWitnessesOf, List.length_map, ← hlr]
          exact (List.getElem?_eq_some_iff.mp hk).1)⟩
      have hm : tk ∈ w.tokens := by
        rw [← T.all k w r hwk hk]
        exact List.mem_flatten.mpr ⟨ts, List.mem_filterMap.mpr ⟨some ts, hc, rfl⟩, htk⟩
      refine ⟨key_name_inj (hrec w (List.mem_of_getElem? hwk) tk hm), ?_⟩
      obtain ⟨xs, _, hxs⟩ := forall₂_mem_left hF r hr
      obtain ⟨x, _, l, hl, _⟩ := forall₂_mem_left hxs _ hc
      have : dget tk.data .t ∈ ts.map (fun t => dget t.data .t) := List.mem_map.mpr ⟨tk, htk, rfl⟩
      rw [show (some ts).getD [] = ts from rfl] at hl
      rw [hl] at this
      obtain ⟨s, _, hs⟩ := List.mem_map.mp this
      exact ⟨s, hs.symm⟩)
    rw [g1, hwit, json_rows htab g2 hF]

/-! ### C107 -/

theorem told_plain (env : Env) (hts : TopoSpec env.topo) (hdol : env.cc.word '$' = false) (hd : ∀ c, c.isDigit = true → env.cc.word c = true)
    {texts : List (Str × Str)} (hne : texts ≠ []) (htx : ∀ p ∈ texts, p.1 ≠ [] ∧ p.2 ≠ [] ∧ p.2.length < 1000000000)
    (hsig : (texts.map Prod.fst).Nodup) {o : Opts} (ha : o.astar = false) (ht : o.detect = false) (hf : o.pfilter = none)
    (hns : o.nearMatch = true → o.segmentation = false ∧ texts.length = 2) {toks words : List (List Str)}
    (hw : WordsOf env.cc (texts.map Prod.snd) toks words)
    (hu : o.nearMatch = false → ∀ n < texts.length, (workOf (words.take n)).Untwinned) :
    ∃ t, collateTable env (plainWitnessesOf env.cc texts) o = .ok t ∧
      Told (plainWitnessesOf env.cc texts) t (rowsBy o.nearMatch o.segmentation env.ratio words) := by
  have hv := plain_valid hts hdol hd hne (fun p hp => (htx p hp).2) hsig
  have hs : ∀ w ∈ plainWitnessesOf env.cc texts, w.sigil ≠ [] := by
    intro w hw
    obtain ⟨p, hp, rfl⟩ := List.mem_map.mp hw
    exact (htx p hp).1
  have hl : (plainWitnessesOf env.cc texts).length = texts.length := by rw [plainWitnessesOf, List.length_map]
  have hstr := plain_strings hw
  cases hn : o.nearMatch with
  | true =>
    obtain ⟨hseg, h2⟩ := hns hn
    have := told_near env hts hv hs (by rw [hl]; exact h2) ⟨ha, ht, hseg, hn⟩ hf
    rw [hstr] at this
    exact this
  | false =>
    have := told_exact env hts hv hs ⟨ha, ht, hn⟩ hf (by rw [hstr, hl]; exact hu hn)
    rw [hstr] at this
    exact this

/-- C107, CSV and TSV. From plain texts to the fields of the output: the CSV output, read by a CSV reader, has a record for each text, with its
siglum and the texts of its cells; these are the tokens of the text dealt out to the cells of its row in the table that the short program
makes of the words of the texts. -/
theorem C107_csv (env : Env) (hts : TopoSpec env.topo) (hdol : env.cc.word '$' = false) (hd : ∀ c, c.isDigit = true → env.cc.word c = true)
    (texts : List (Str × Str)) (hne : texts ≠ []) (htx : ∀ p ∈ texts, p.1 ≠ [] ∧ p.2 ≠ [] ∧ p.2.length < 1000000000)
    (hcr : ∀ p ∈ texts, '\r' ∉ p.1 ∧ '\r' ∉ p.2)
    (hsig : (texts.map Prod.fst).Nodup) (o : Opts) (ha : o.astar = false) (ht : o.detect = false) (hf : o.pfilter = none)
    (hns : o.nearMatch = true → o.segmentation = false ∧ texts.length = 2) (toks words : List (List Str))
    (hw : WordsOf env.cc (texts.map Prod.snd) toks words)
    (hu : o.nearMatch = false → ∀ n < texts.length, (workOf (words.take n)).Untwinned) (tsv : Bool) :
    ∃ s, collateDict env (plainInput texts) { o with output := if tsv then S "tsv" else S "csv" } = .ok (.csv s) ∧
      readCsv (csvDelim tsv) s =
        List.zipWith List.cons (texts.map Prod.fst) (cellTexts (rowsBy o.nearMatch o.segmentation env.ratio words) toks) := by
  obtain ⟨t, h1, T⟩ := told_plain env hts hdol hd hne htx hsig ha ht hf hns hw hu
  exact T.csv hw hcr h1 tsv

/-- C107, JSON: the same of the JSON output, read by a JSON reader. -/
theorem C107_json (env : Env) (hts : TopoSpec env.topo) (hdol : env.cc.word '$' = false) (hd : ∀ c, c.isDigit = true → env.cc.word c = true)
    (texts : List (Str × Str)) (hne : texts ≠ []) (htx : ∀ p ∈ texts, p.1 ≠ [] ∧ p.2 ≠ [] ∧ p.2.length < 1000000000)
    (hsig : (texts.map Prod.fst).Nodup) (o : Opts) (ha : o.astar = false) (ht : o.detect = false) (hf : o.pfilter = none)
    (hns : o.nearMatch = true → o.segmentation = false ∧ texts.length = 2) (toks words : List (List Str))
    (hw : WordsOf env.cc (texts.map Prod.snd) toks words)
    (hu : o.nearMatch = false → ∀ n < texts.length, (workOf (words.take n)).Untwinned) (raw : Str → Json) (indent : Option Nat) :
    ∃ j, collateDict env (plainInput texts) { o with output := S "json", layout := S "horizontal" } = .ok (.json j) ∧
      (readJson (j.text raw indent)).bind jsonCells =
        some (texts.map Prod.fst, cellTexts (rowsBy o.nearMatch o.segmentation env.ratio words) toks) := by
  obtain ⟨t, h1, T⟩ := told_plain env hts hdol hd hne htx hsig ha ht hf hns hw hu
  exact T.json hw h1 raw indent

/-- C107 for two texts, where the short program needs no condition: CSV (or TSV) and JSON, with near matching, with segmentation or without
either. -/
theorem C107_two (env : Env) (hts : TopoSpec env.topo) (hdol : env.cc.word '$' = false) (hd : ∀ c, c.isDigit = true → env.cc.word c = true)
    (σ τ a b : Str) (hne : σ ≠ [] ∧ τ ≠ [] ∧ σ ≠ τ) (hab : a ≠ [] ∧ b ≠ [] ∧ a.length < 1000000000 ∧ b.length < 1000000000)
    (o : Opts) (ha : o.astar = false) (ht : o.detect = false) (hf : o.pfilter = none)
    (hns : o.nearMatch = true → o.segmentation = false) (toks words : List (List Str)) (hw : WordsOf env.cc [a, b] toks words) :
    (∀ (raw : Str → Json) (indent : Option Nat),
      ∃ j, collateDict env (plainInput [(σ, a), (τ, b)]) { o with output := S "json", layout := S "horizontal" } = .ok (.json j) ∧
        (readJson (j.text raw indent)).bind jsonCells = some ([σ, τ], cellTexts (rowsBy o.nearMatch o.segmentation env.ratio words) toks)) ∧
    ((∀ s ∈ [σ, τ, a, b], '\r' ∉ s) → ∀ tsv : Bool,
      ∃ s, collateDict env (plainInput [(σ, a), (τ, b)]) { o with output := if tsv then S "tsv" else S "csv" } = .ok (.csv s) ∧
        readCsv (csvDelim tsv) s = List.zipWith List.cons [σ, τ] (cellTexts (rowsBy o.nearMatch o.segmentation env.ratio words) toks)) := by
  have htx : ∀ p ∈ [(σ, a), (τ, b)], p.1 ≠ [] ∧ p.2 ≠ [] ∧ p.2.length < 1000000000 := by
    intro p hp
    simp only [List.mem_cons, List.not_mem_nil, or_false] at hp
    rcases hp with rfl | rfl
    · exact ⟨hne.1, hab.1, hab.2.2.1⟩
    · exact ⟨hne.2.1, hab.2.1, hab.2.2.2⟩
  have hsig : (([(σ, a), (τ, b)] : List (Str × Str)).map Prod.fst).Nodup := by simp [hne.2.2]
  have hl : words.length = 2 := by rw [wordsOf_words hw, wordsOf_tokens hw]; rfl
  have hu : o.nearMatch = false → ∀ n < ([(σ, a), (τ, b)] : List (Str × Str)).length, (workOf (words.take n)).Untwinned := by
    intro _
    have := untwinned_two (ts := words) (by omega)
    rw [hl] at this
    exact this
  refine ⟨fun raw indent => ?_, fun hcr tsv => ?_⟩
  · exact C107_json env hts hdol hd _ (by simp) htx hsig o ha ht hf (fun h => ⟨hns h, rfl⟩) toks words hw hu raw indent
  · refine C107_csv env hts hdol hd _ (by simp) htx ?_ hsig o ha ht hf (fun h => ⟨hns h, rfl⟩) toks words hw hu tsv
    intro p hp
    simp only [List.mem_cons, List.not_mem_nil, or_false] at hp
    rcases hp with rfl | rfl
    · exact ⟨hcr _ (by simp), hcr _ (by simp)⟩
    · exact ⟨hcr _ (by simp), hcr _ (by simp)⟩

/-- The tokens and words that C107 speaks of exist and are unique. -/
theorem C107_words (cc : CharClass) (texts : List Str) : ∃! x : List (List Str) × List (List Str), WordsOf cc texts x.1 x.2 := by
  refine ⟨(_, _), wordsOf_exists cc texts, ?_⟩
  rintro ⟨toks, words⟩ h
  have h1 := wordsOf_tokens h
  have h2 := wordsOf_words h
  simp only at h1 h2
  rw [h2, h1]

/-- The words and cells of two texts: `big gray` and `grey` share a cell with segmentation, and near matching puts `grey` under `gray`. -/
example : WordsOf nearEnv.cc [S "the big gray  koala!", S "the grey koala? "]
      [[S "the ", S "big ", S "gray  ", S "koala", S "!"], [S "the ", S "grey ", S "koala", S "? "]]
      [[S "the", S "big", S "gray", S "koala", S "!"], [S "the", S "grey", S "koala", S "?"]] ∧
    cellTexts (rowsBy false true nearEnv.ratio [[S "the", S "big", S "gray", S "koala", S "!"], [S "the", S "grey", S "koala", S "?"]])
      [[S "the ", S "big ", S "gray  ", S "koala", S "!"], [S "the ", S "grey ", S "koala", S "? "]] =
      [[S "the ", S "big gray  ", S "koala", S "!"], [S "the ", S "grey ", S "koala", S "? "]] ∧
    cellTexts (rowsBy true false nearEnv.ratio [[S "the", S "big", S "gray", S "koala", S "!"], [S "the", S "grey", S "koala", S "?"]])
      [[S "the ", S "big ", S "gray  ", S "koala", S "!"], [S "the ", S "grey ", S "koala", S "? "]] =
      [[S "the ", S "big ", S "gray  ", S "koala", S "!"], [S "the ", [], S "grey ", S "koala", S "? "]] := by
  refine ⟨?_, by decide +kernel, by decide +kernel⟩
  have h := wordsOf_exists nearEnv.cc [S "the big gray  koala!", S "the grey koala? "]
  have e1 : [S "the big gray  koala!", S "the grey koala? "].map (tokenize nearEnv.cc) =
      [[S "the ", S "big ", S "gray  ", S "koala", S "!"], [S "the ", S "grey ", S "koala", S "? "]] := by decide +kernel
  have e2 : [[S "the ", S "big ", S "gray  ", S "koala", S "!"], [S "the ", S "grey ", S "koala", S "? "]].map (List.map (rstrip nearEnv.cc)) =
      [[S "the", S "big", S "gray", S "koala", S "!"], [S "the", S "grey", S "koala", S "?"]] := by decide +kernel
  rw [e1, e2] at h
  exact h

theorem asciiClass_digit : ∀ c : Char, c.isDigit = true → asciiClass.word c = true := by
  intro c h
  simp only [Char.isDigit, Bool.and_eq_true, decide_eq_true_eq, UInt32.le_iff_toNat_le] at h
  simp only [asciiClass, Bool.or_eq_true, Bool.and_eq_true, decide_eq_true_eq]
  exact Or.inl (Or.inr h)

/-- The other hypotheses are met by these texts. -/
example : TopoSpec nearEnv.topo ∧ nearEnv.cc.word '$' = false ∧ (∀ c, c.isDigit = true → nearEnv.cc.word c = true) ∧
    (∀ s ∈ [S "A", S "B", S "the big gray  koala!", S "the grey koala? "], '\r' ∉ s) :=
  ⟨kahn_spec, by decide, asciiClass_digit, by decide⟩

/-- Three texts meet the condition of C107 as well. -/
example : ∀ n < 3, (workOf ([[S "the", S "black", S "cat"], [S "the", S "white", S "and", S "black", S "cat"],
    [S "the", S "white", S "cat"]].take n)).Untwinned := by
  have : ∀ n : Fin 3, (workOf ([[S "the", S "black", S "cat"], [S "the", S "white", S "and", S "black", S "cat"],
    [S "the", S "white", S "cat"]].take n)).Untwinned := by decide +kernel
  exact fun n hn => this ⟨n, hn⟩

end CollateX
