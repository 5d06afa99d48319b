import Verif.Proofs.Display
import Verif.Props.Export
import Verif.Props.Near
/-
Properties of the displayed forms: C60 (the printed table) and C61 (the coloured HTML table).
-/

namespace CollateX
open Spec

/-- In the table of a collation all cells have texts, and the cells of a witness make up its text. -/
theorem cells_texts (env : Env) (hts : TopoSpec env.topo) (ws : List Witness) (hv : Valid ws)
    (hs : ∀ w ∈ ws, w.sigil ≠ []) (o : Opts) (ho : ExactMatching o) (t : Table) (h : collateTable env ws o = .ok t) (hx : HasTexts ws) :
    List.Forall₂ (fun (w : Witness) (r : Row) => r.header = w.sigil ∧ r.cells = t.columns.map (fun c => dget c.tokens w.sigil) ∧
      (∀ c ∈ r.cells, c ≠ some []) ∧ ∃ xs, List.Forall₂ CellTextOf r.cells xs ∧ TextOf w.tokens xs.flatten) ws t.rows := by
  obtain ⟨G, hh⟩ := goodTable_of env hts ws hv hs o ho t h
  have hlen : t.rows.length = ws.length := by rw [← List.length_map (f := Row.header), hh, List.length_map]
  rw [List.forall₂_iff_get]
  refine ⟨hlen.symm, ?_⟩
  intro k h1 h2
  simp only [List.get_eq_getElem]
  have hr := List.getElem?_eq_getElem h2
  have hw := List.getElem?_eq_getElem h1
  have e : t.rows[k].header = ws[k].sigil := by
    have : (t.rows.map Row.header)[k]? = some t.rows[k].header := by rw [List.getElem?_map, hr]; rfl
    rw [hh, List.getElem?_map, hw] at this
    exact (Option.some.inj this).symm
  have hrm := List.mem_of_getElem? hr
  refine ⟨e, by rw [G.cells _ hrm, e], ?_, row_texts env hts ws hv o ho t h hx hw (hs _ (List.mem_of_getElem? hw)) hr⟩
  rintro c hc rfl
  rw [G.cells _ hrm] at hc
  obtain ⟨c, hc, hd⟩ := List.mem_map.mp hc
  exact G.full c hc _ _ hd rfl

theorem forall₂_mem {α β : Type} {R : α → β → Prop} {l : List α} {l' : List β} (h : List.Forall₂ R l l') :
    ∀ b ∈ l', ∃ a ∈ l, R a b := by
  induction h with
  | nil => intro b hb; cases hb
  | cons h _ ih =>
    intro b hb
    rcases List.mem_cons.mp hb with rfl | hb
    · exact ⟨_, by simp, h⟩
    · obtain ⟨a, ha, hR⟩ := ih b hb
      exact ⟨a, by simp [ha], hR⟩

theorem forall₂_mem_left {α β : Type} {R : α → β → Prop} {l : List α} {l' : List β} (h : List.Forall₂ R l l') :
    ∀ a ∈ l, ∃ b ∈ l', R a b := by
  induction h with
  | nil => intro b hb; cases hb
  | cons h _ ih =>
    intro b hb
    rcases List.mem_cons.mp hb with rfl | hb
    · exact ⟨_, by simp, h⟩
    · obtain ⟨a, ha, hR⟩ := ih b hb
      exact ⟨a, by simp [ha], hR⟩

/-! ### C60: the printed table -/

/-- C60. The table of a valid collation (exact matching, string `t` values) can be printed in the two layouts and in no other: in the
horizontal layout there is one row per witness with its siglum and the texts of its cells without white space at the end, in the
vertical layout one column per witness with its siglum and the texts of its cells in lines of at most 20 characters which have lost
nothing but white space; an empty cell is printed as `-`. -/
theorem C60_printed_table (env : Env) (hts : TopoSpec env.topo) (ws : List Witness) (hv : Valid ws)
    (hs : ∀ w ∈ ws, w.sigil ≠ []) (hx : HasTexts ws) (o : Opts) (ho : ExactMatching o) (t : Table) (h : collateTable env ws o = .ok t)
    (cc : CharClass) (ha : AsciiSpaces cc) (hd : cc.space '-' = false) (f : WrapFn) (hf : WrapSpec f) :
    ∃ (rows : List (List Str)) (cols : List (Str × List Str)), printTable cc f (S "horizontal") t = .ok (.horizontal rows) ∧
      printTable cc f (S "vertical") t = .ok (.vertical cols) ∧
      (∀ layout, layout ≠ S "horizontal" → layout ≠ S "vertical" → printTable cc f layout t = .error .exception) ∧
      List.Forall₂ (fun (w : Witness) row => ∃ cells, row = w.sigil :: cells ∧
        List.Forall₂ (fun (c : Column) x => PrintedCell cc (dget c.tokens w.sigil) x) t.columns cells) ws rows ∧
      List.Forall₂ (fun (w : Witness) (col : Str × List Str) => col.1 = w.sigil ∧
        List.Forall₂ (fun (c : Column) x => WrappedCell cc (dget c.tokens w.sigil) x) t.columns col.2) ws cols := by
  have hF := cells_texts env hts ws hv hs o ho t h hx
  have hok : ∀ r ∈ t.rows, ∀ c ∈ r.cells, (∃ s, CellTextOf c s) ∧ c ≠ some [] := by
    intro r hr c hc
    obtain ⟨w, _, _, _, h2, xs, h3, _⟩ := forall₂_mem hF r hr
    obtain ⟨x, _, hx⟩ := forall₂_mem_left h3 c hc
    exact ⟨⟨x, hx⟩, h2 c hc⟩
  obtain ⟨rows, h1, h2⟩ := printHorizontal_ok cc hd hok
  obtain ⟨cols, h3, h4⟩ := printVertical_ok hf ha hd hok
  refine ⟨rows, cols, ?_, ?_, ?_, ?_, ?_⟩
  · unfold printTable
    rw [if_neg (by decide), if_pos rfl, h1]; rfl
  · unfold printTable
    rw [if_pos rfl, h3]; rfl
  · intro layout e1 e2
    unfold printTable
    rw [if_neg e2, if_neg e1]
  · clear h1 h3 h4 hok h hs hv hx
    generalize t.rows = rs at hF h2
    induction hF generalizing rows with
    | nil => cases h2; exact .nil
    | cons a _ ih =>
      cases h2 with
      | cons b h2 =>
        refine .cons ?_ (ih _ h2)
        obtain ⟨cells, rfl, h5⟩ := b
        refine ⟨cells, by rw [a.1], ?_⟩
        rw [a.2.1] at h5
        exact (List.forall₂_map_left_iff.mp h5)
  · clear h1 h2 h3 hok h hs hv hx
    generalize t.rows = rs at hF h4
    induction hF generalizing cols with
    | nil => cases h4; exact .nil
    | cons a _ ih =>
      cases h4 with
      | cons b h4 =>
        refine .cons ⟨by rw [b.1, a.1], ?_⟩ (ih _ h4)
        have h5 := b.2
        rw [a.2.1] at h5
        exact (List.forall₂_map_left_iff.mp h5)

theorem squeeze_trailing {cc : CharClass} {s x : Str} (h : TrailingSpaceRemoved cc s x) : squeeze cc x = squeeze cc s := by
  obtain ⟨⟨b, rfl, hb⟩, _⟩ := h
  rw [squeeze_append, squeeze_blank (s := b) (by unfold blankChunk; rw [List.all_eq_true]; exact hb), List.append_nil]

/-- Texts of cells have only characters of the text of the witness. -/
theorem no_char_in_cells {w : Witness} {ch : Char} (hno : ∀ t ∈ w.tokens, ∀ s, dget t.data .t = some (.str s) → ch ∉ s)
    {text : Str} (h : TextOf w.tokens text) : ch ∉ text := by
  obtain ⟨l, hl, rfl⟩ := h
  intro hm
  obtain ⟨z, hz, hzm⟩ := List.mem_flatten.mp hm
  have : some (JVal.str z) ∈ w.tokens.map (fun t => dget t.data .t) := by
    rw [hl]; exact List.mem_map.mpr ⟨z, hz, rfl⟩
  obtain ⟨t, ht, hd⟩ := List.mem_map.mp this
  exact hno t ht z hd hzm

theorem printed_text {cc : CharClass} (hd : cc.space '-' = false) {P : Str → Str → Prop} (hP : ∀ s x, P s x → squeeze cc x = squeeze cc s)
    {Q : Option (List Token) → Str → Prop} (hn : ∀ x, Q none x → x = S "-") (hq : ∀ ts x, Q (some ts) x → ∃ s, TextOf ts s ∧ P s x) :
    ∀ {cells : List (Option (List Token))} {ys xs : List Str}, List.Forall₂ Q cells ys → List.Forall₂ CellTextOf cells xs →
      '-' ∉ xs.flatten → squeeze cc (ys.filter (· ≠ S "-")).flatten = squeeze cc xs.flatten ∧
        List.Forall₂ (fun c y => y = S "-" ↔ c = none) cells ys := by
  intro cells ys xs h h'
  induction h generalizing xs with
  | nil => cases h'; exact fun _ => ⟨rfl, .nil⟩
  | @cons c y cs ys a _ ih =>
    cases h' with
    | @cons _ x _ xs b h' =>
      intro hno
      rw [List.flatten_cons, List.mem_append, not_or] at hno
      obtain ⟨i1, i2⟩ := ih h' hno.2
      have hdash : squeeze cc (S "-") = ['-'] := by simp [squeeze, S, hd]
      cases c with
      | none =>
        obtain rfl := hn y a
        obtain rfl := TextOf.unique textOf_nil b
        refine ⟨?_, .cons ⟨fun _ => rfl, fun _ => rfl⟩ i2⟩
        rw [List.filter_cons_of_neg (by simp), i1]
        rfl
      | some ts =>
        obtain ⟨s, h1, h2⟩ := hq ts y a
        obtain rfl := TextOf.unique h1 b
        have hne : y ≠ S "-" := by
          rintro rfl
          have h3 := hP _ _ h2
          rw [hdash] at h3
          have : '-' ∈ squeeze cc s := by rw [← h3]; simp
          exact hno.1 (List.mem_filter.mp this).1
        refine ⟨?_, .cons ⟨fun e => absurd e hne, fun e => by cases e⟩ i2⟩
        rw [List.filter_cons_of_pos (by simpa using hne), List.flatten_cons, List.flatten_cons, squeeze_append, squeeze_append, i1, hP _ _ h2]

/-- C60: if no token has a `-`, then in both layouts `-` stands exactly where a witness has no tokens, and the other texts of a witness
make up its text, up to white space. -/
theorem C60_text_partial (env : Env) (hts : TopoSpec env.topo) (ws : List Witness) (hv : Valid ws)
    (hs : ∀ w ∈ ws, w.sigil ≠ []) (hx : HasTexts ws) (hno : ∀ w ∈ ws, ∀ t ∈ w.tokens, ∀ s, dget t.data .t = some (.str s) → '-' ∉ s)
    (o : Opts) (ho : ExactMatching o) (t : Table) (h : collateTable env ws o = .ok t)
    (cc : CharClass) (ha : AsciiSpaces cc) (hd : cc.space '-' = false) (f : WrapFn) (hf : WrapSpec f) :
    ∃ (rows : List (List Str)) (cols : List (Str × List Str)), printTable cc f (S "horizontal") t = .ok (.horizontal rows) ∧
      printTable cc f (S "vertical") t = .ok (.vertical cols) ∧
      List.Forall₂ (fun (w : Witness) row => ∃ cells text, row = w.sigil :: cells ∧ TextOf w.tokens text ∧
        squeeze cc (cells.filter (· ≠ S "-")).flatten = squeeze cc text ∧
        List.Forall₂ (fun (c : Column) x => x = S "-" ↔ dget c.tokens w.sigil = none) t.columns cells) ws rows ∧
      List.Forall₂ (fun (w : Witness) (col : Str × List Str) => ∃ text, col.1 = w.sigil ∧ TextOf w.tokens text ∧
        squeeze cc (col.2.filter (· ≠ S "-")).flatten = squeeze cc text ∧
        List.Forall₂ (fun (c : Column) x => x = S "-" ↔ dget c.tokens w.sigil = none) t.columns col.2) ws cols := by
  obtain ⟨rows, cols, h1, h2, _, h3, h4⟩ := C60_printed_table env hts ws hv hs hx o ho t h cc ha hd f hf
  have hF := cells_texts env hts ws hv hs o ho t h hx
  refine ⟨rows, cols, h1, h2, ?_, ?_⟩
  · clear h1 h2 h4 h hs hv hx
    generalize t.rows = rs at hF
    induction hF generalizing rows with
    | nil => cases h3; exact .nil
    | @cons w r ws rs a _ ih =>
      cases h3 with
      | cons b h3 =>
        refine .cons ?_ (ih (fun w hw => hno w (by simp [hw])) _ h3)
        obtain ⟨cells, rfl, h5⟩ := b
        obtain ⟨_, e, _, xs, h6, h7⟩ := a
        have h8 : List.Forall₂ (PrintedCell cc) r.cells cells := by rw [e]; exact List.forall₂_map_left_iff.mpr h5
        obtain ⟨h9, h10⟩ := printed_text hd (P := TrailingSpaceRemoved cc) (Q := PrintedCell cc) (fun s x hsx => squeeze_trailing hsx)
          (fun x hx => hx) (fun ts x hx => hx) h8 h6 (no_char_in_cells (hno w (by simp)) h7)
        rw [e] at h10
        exact ⟨cells, _, rfl, h7, h9, List.forall₂_map_left_iff.mp h10⟩
  · clear h1 h2 h3 h hs hv hx
    generalize t.rows = rs at hF
    induction hF generalizing cols with
    | nil => cases h4; exact .nil
    | @cons w r ws rs a _ ih =>
      cases h4 with
      | @cons _ col _ cols b h4 =>
        refine .cons ?_ (ih (fun w hw => hno w (by simp [hw])) _ h4)
        obtain ⟨hcol, h5⟩ := b
        obtain ⟨_, e, _, xs, h6, h7⟩ := a
        have h8 : List.Forall₂ (WrappedCell cc) r.cells col.2 := by rw [e]; exact List.forall₂_map_left_iff.mpr h5
        obtain ⟨h9, h10⟩ := printed_text hd (P := Wrapped cc) (Q := WrappedCell cc) (fun s x hsx => hsx.1)
          (fun x hx => hx) (fun ts x hx => hx) h8 h6 (no_char_in_cells (hno w (by simp)) h7)
        rw [e] at h10
        exact ⟨_, hcol, h7, h9, List.forall₂_map_left_iff.mp h10⟩

/-- `a b` and `a - b`. -/
def hyphenWitnesses : List Witness :=
  [⟨S "A", [⟨S "a", [(.t, .str (S "a ")), (.n, .str (S "a"))]⟩, ⟨S "b", [(.t, .str (S "b")), (.n, .str (S "b"))]⟩]⟩,
   ⟨S "B", [⟨S "a", [(.t, .str (S "a ")), (.n, .str (S "a"))]⟩, ⟨S "-", [(.t, .str (S "- ")), (.n, .str (S "-"))]⟩,
     ⟨S "b", [(.t, .str (S "b")), (.n, .str (S "b"))]⟩]⟩]

theorem hyphenWitnesses_valid : Valid hyphenWitnesses := valid_of_check (by decide) (by decide) (by decide) (by decide)

theorem hyphenWitnesses_texts : HasTexts hyphenWitnesses := by
  have h : ∀ w ∈ hyphenWitnesses, ∀ t ∈ w.tokens, dget t.data .t = some (.str (S "a ")) ∨ dget t.data .t = some (.str (S "b")) ∨
      dget t.data .t = some (.str (S "- ")) := by decide
  intro w hw t ht
  rcases h w hw t ht with h | h | h <;> exact ⟨_, h⟩

/-- C60, the limit: without that hypothesis the printed table does not tell a `-` in the text from an empty cell. The rows of `a b` and
`a - b` are printed alike though one has an empty cell where the other has a token. -/
theorem C60_hyphen_or_gap : Valid hyphenWitnesses ∧ HasTexts hyphenWitnesses ∧
    ((collateTable exampleEnv hyphenWitnesses {}).bind (fun t => printTable asciiClass simpleWrap (S "horizontal") t)) =
      .ok (.horizontal [[S "A", S "a", S "-", S "b"], [S "B", S "a", S "-", S "b"]]) ∧
    (collateTable exampleEnv hyphenWitnesses {}).map (fun t => t.rows.map (fun r => r.cells.map Option.isSome)) =
      .ok [[true, false, true], [true, true, true]] :=
  ⟨hyphenWitnesses_valid, hyphenWitnesses_texts, by decide +kernel, by decide +kernel⟩

/-- The hypotheses of C60 are met; a text of more than 20 characters is wrapped. -/
example : TopoSpec exampleEnv.topo ∧ Valid plainWitnesses ∧ HasTexts plainWitnesses ∧ (∀ w ∈ plainWitnesses, w.sigil ≠ []) ∧
    ExactMatching { segmentation := false } ∧ AsciiSpaces asciiClass ∧ asciiClass.space '-' = false ∧ WrapSpec simpleWrap ∧
    ((collateTable exampleEnv plainWitnesses { segmentation := false }).bind (fun t => printTable asciiClass simpleWrap (S "horizontal") t)) =
      .ok (.horizontal [[S "A", S "a", S "b"], [S "B", S "a", S "c"]]) ∧
    fill20 asciiClass simpleWrap (S "the quick brown fox jumps over the lazy dog") = .ok (S "the quick brown fox\njumps over the lazy\ndog") ∧
    fill20 asciiClass simpleWrap (S "abcdefghijklmnopqrstuvwxyz z") = .ok (S "abcdefghijklmnopqrst\nuvwxyz z") :=
  ⟨kahn_spec, plainWitnesses_valid, plainWitnesses_texts, by decide, ⟨rfl, rfl, rfl⟩, asciiClass_spaces, by decide, simpleWrap_spec,
    by decide +kernel, by decide +kernel, by decide +kernel⟩

/-! ### C61: the coloured HTML table -/

theorem html2Cells_ok {col : Column} : ∀ {ws : List Witness}, (∀ w ∈ ws, (∃ s, CellTextOf (dget col.tokens w.sigil) s) ∧
      dget col.tokens w.sigil ≠ some []) →
    ∃ l, html2Cells col ws = .ok l ∧ List.Forall₂ (fun (w : Witness) (p : Str × Bool) => p.2 = col.variant ∧
      (dget col.tokens w.sigil = none → p.1 = S "-") ∧ ∀ ts, dget col.tokens w.sigil = some ts → TextOf ts p.1) ws l
  | [], _ => ⟨[], rfl, .nil⟩
  | w :: ws, h => by
    obtain ⟨l, h1, h2⟩ := html2Cells_ok (ws := ws) (fun w hw => h w (by simp [hw]))
    obtain ⟨⟨s, h3⟩, h4⟩ := h w (by simp)
    have : ∃ p, html2Cell col w.sigil = .ok p ∧ p.2 = col.variant ∧
      (dget col.tokens w.sigil = none → p.1 = S "-") ∧ ∀ ts, dget col.tokens w.sigil = some ts → TextOf ts p.1 := by
      unfold html2Cell
      cases hd : dget col.tokens w.sigil with
      | none => exact ⟨_, rfl, rfl, fun _ => rfl, by simp⟩
      | some ts =>
        rw [hd] at h3 h4
        cases ts with
        | nil => exact absurd rfl h4
        | cons a ts =>
          have h5 : cellText (a :: ts) = .ok s := cellText_iff.mpr h3
          exact ⟨(s, col.variant), by show (cellText (a :: ts)).bind _ = _; rw [h5]; rfl, rfl, by simp, fun _ e => Option.some.inj e ▸ h3⟩
    obtain ⟨p, h5, h6⟩ := this
    exact ⟨p :: l, by unfold html2Cells; rw [h5, h1]; rfl, .cons h6 h2⟩

theorem html2Rows_ok {ws : List Witness} : ∀ {cols : List Column}, (∀ col ∈ cols, ∀ w ∈ ws, (∃ s, CellTextOf (dget col.tokens w.sigil) s) ∧
      dget col.tokens w.sigil ≠ some []) →
    ∃ l, html2Rows ws cols = .ok l ∧ List.Forall₂ (fun (col : Column) r => List.Forall₂ (fun (w : Witness) (p : Str × Bool) =>
      p.2 = col.variant ∧ (dget col.tokens w.sigil = none → p.1 = S "-") ∧
      ∀ ts, dget col.tokens w.sigil = some ts → TextOf ts p.1) ws r) cols l
  | [], _ => ⟨[], rfl, .nil⟩
  | col :: cols, h => by
    obtain ⟨l, h1, h2⟩ := html2Rows_ok (cols := cols) (fun c hc => h c (by simp [hc]))
    obtain ⟨r, h3, h4⟩ := html2Cells_ok (h col (by simp))
    exact ⟨r :: l, by unfold html2Rows; rw [h3, h1]; rfl, .cons h4 h2⟩

theorem html2Rows_congr {ws ws' : List Witness} (h : ws.map Witness.sigil = ws'.map Witness.sigil) (cols : List Column) :
    html2Rows ws cols = html2Rows ws' cols := by
  have key : ∀ (ws ws' : List Witness) (c : Column), ws.map Witness.sigil = ws'.map Witness.sigil → html2Cells c ws = html2Cells c ws' := by
    intro ws
    induction ws with
    | nil => intro ws' c h; cases ws' with
      | nil => rfl
      | cons _ _ => cases h
    | cons w ws ih =>
      intro ws' c h
      cases ws' with
      | nil => cases h
      | cons w' ws' =>
        simp only [List.map_cons, List.cons.injEq] at h
        unfold html2Cells
        rw [h.1, ih ws' c h.2]
  induction cols with
  | nil => rfl
  | cons c cols ih =>
    unfold html2Rows
    rw [key ws ws' c h, ih]

/-- C61. In the HTML table that `collate` shows for `output="html2"` there is a header row with the sigla and one row per column of
the alignment table; its cells, one per witness, are red if the column is variant and cyan if not and have the text of the witness in
the column (wrapped; `-` if it has none; a non-breaking space for white space only). For texts and sigla without `<`. -/
theorem C61_html2_partial (env : Env) (hts : TopoSpec env.topo) (ws : List Witness) (hv : Valid ws)
    (hs : ∀ w ∈ ws, w.sigil ≠ [] ∧ '<' ∉ w.sigil) (hx : HasTexts ws)
    (hno : ∀ w ∈ ws, ∀ t ∈ w.tokens, ∀ s, dget t.data .t = some (.str s) → '<' ∉ s) (o : Opts) (ho : ExactMatching o)
    (cc : CharClass) (ha : AsciiSpaces cc) (hd : cc.space '-' = false) (f : WrapFn) (hf : WrapSpec f) :
    ∃ t cells doc body, collateTable env ws o = .ok t ∧
      collate env ws { o with output := S "html2" } = .ok (.html2 (ws.map Witness.sigil) cells) ∧
      html2String cc f (ws.map Witness.sigil) cells = .ok doc ∧
      seenRows doc = ws.map (fun w => ⟨S "TH", w.sigil⟩) :: body ∧
      List.Forall₂ (fun (c : Column) row => List.Forall₂ (fun (w : Witness) x => ColouredCell cc c.variant (dget c.tokens w.sigil) x) ws row)
        t.columns body := by
  obtain ⟨t, ws', g, rk, h1, h2, rfl, hws⟩ := exists_table env hts ws hv o ho
  have hF := cells_texts env hts ws hv (fun w hw => (hs w hw).1) o ho _ h2 hx
  have hok : ∀ col ∈ (mkTable ws' g rk).columns, ∀ w ∈ ws, ((∃ s, CellTextOf (dget col.tokens w.sigil) s) ∧
      dget col.tokens w.sigil ≠ some []) ∧ ∀ s, CellTextOf (dget col.tokens w.sigil) s → '<' ∉ s := by
    intro col hcol w hw
    obtain ⟨r, hr, _, e, h3, xs, h4, h5⟩ := forall₂_mem_left hF w hw
    have hm : dget col.tokens w.sigil ∈ r.cells := by rw [e]; exact List.mem_map.mpr ⟨col, hcol, rfl⟩
    obtain ⟨x, hx, hxc⟩ := forall₂_mem_left h4 _ hm
    refine ⟨⟨⟨x, hxc⟩, h3 _ hm⟩, ?_⟩
    intro s hsc
    obtain rfl := TextOf.unique hsc hxc
    exact fun he => no_char_in_cells (hno w hw) h5 (List.mem_flatten.mpr ⟨s, hx, he⟩)
  obtain ⟨cells, h3, h4⟩ := html2Rows_ok (ws := ws) (fun c hc w hw => (hok c hc w hw).1)
  have hcells : ∀ r ∈ cells, ∀ p ∈ r, '<' ∉ p.1 := by
    intro r hr p hp
    obtain ⟨col, hcol, h5⟩ := forall₂_mem h4 r hr
    obtain ⟨w, hw, _, h6, h7⟩ := forall₂_mem h5 p hp
    cases hdg : dget col.tokens w.sigil with
    | none => rw [h6 hdg]; decide
    | some ts => exact (hok col hcol w hw).2 _ (by rw [hdg]; exact h7 ts hdg)
  generalize ht : (fun rows : List RowIn => ({ rows := rows, headerRow := some (.items ((ws.map Witness.sigil).map .text)) } : HtmlTable)) = T
  have hT : ∀ rows, (T rows).colAlign = none ∧ (T rows).colValign = none ∧ (T rows).colChar = none ∧ (T rows).colCharoff = none ∧
      (T rows).colStyles = none := by rw [← ht]; exact fun _ => ⟨rfl, rfl, rfl, rfl, rfl⟩
  obtain ⟨rows, yss, out, a1, a2, a3, a4⟩ := html2TableRows_ok hf ha (T []) (hT []).1 (hT []).2.1 (hT []).2.2.1 (hT []).2.2.2.1
    (hT []).2.2.2.2 cells hcells
  obtain ⟨rows', yss', out', b1, b2, b3, b4⟩ := html2TableRows_ok hf ha (T rows) (hT rows).1 (hT rows).2.1 (hT rows).2.2.1 (hT rows).2.2.2.1
    (hT rows).2.2.2.2 cells hcells
  obtain rfl : rows = rows' := Except.ok.inj (a1.symm.trans b1)
  clear a2 a3 a4 yss out
  generalize hhd : ((ws.map Witness.sigil).flatMap (fun x => ({ text := x, header := true } : TableCell).html)) = head
  have hdoc : html2String cc f (ws.map Witness.sigil) cells = .ok
      (S "<TABLE border=\"1\" style=\"border: 1px solid #000000; border-collapse: collapse;\" cellpadding=\"4\">\n" ++
        (S " <TR" ++ (S ">\n" ++ (head ++ (S " </TR>\n" ++ (out' ++ S "</TABLE>")))))) := by
    unfold html2String
    rw [a1, bind_ok]
    have hTr : ({ rows := rows, headerRow := some (.items ((ws.map Witness.sigil).map .text)) } : HtmlTable) = T rows := by rw [← ht]
    rw [hTr]
    unfold HtmlTable.html
    have hhead : (T rows).headerHtml = .ok (S " <TR" ++ (S ">\n" ++ (head ++ S " </TR>\n"))) := by
      rw [← hTr]
      unfold HtmlTable.headerHtml
      cases hw0 : ws with
      | nil => exact absurd hw0 hv.ne
      | cons w ws0 =>
        rw [hw0] at hhd
        show TableRow.html { cells := (List.map RowItem.text (List.map Witness.sigil (w :: ws0))), header := true } = _
        unfold TableRow.html
        rw [cellsHtml_plain _ rfl rfl rfl rfl rfl, ← hhd]
        simp [setAttr, attribsStr, List.flatMap_map, bind_ok]
    have hrows : (T rows).rowsHtml (T rows).rows = .ok out' := by rw [← hTr] at b2 ⊢; exact b2
    rw [hhead, hrows]
    rw [← hTr]
    simp only [bind_ok, List.flatMap_nil]
    simp [setAttr, S, attribsStr, dset]
  refine ⟨_, cells, _, yss'.map seenCells, h2, ?_, hdoc, ?_, ?_⟩
  · have h1' : collateRanked env ws { o with output := S "html2" } = .ok (ws', g, rk) := h1
    simp only [collate, h1', bind_ok]
    have e : (S "html2" : Str) ∉ [S "svg", S "svg_simple", S "graph", S "json", S "html"] := by decide
    simp only [List.mem_cons, List.not_mem_nil, or_false, not_or] at e
    simp only [render, e, or_self, if_false, if_true, html2Rows_congr hws, h3, bind_ok, hws]
  · have e0 : S "<TABLE border=\"1\" style=\"border: 1px solid #000000; border-collapse: collapse;\" cellpadding=\"4\">\n" =
        '<' :: (S "TABLE border=\"1\" style=\"border: 1px solid #000000; border-collapse: collapse;\" cellpadding=\"4\"" ++ '>' :: S "\n") := by
      decide
    rw [e0]
    show seenFrom none _ = _
    rw [List.cons_append, List.append_assoc, List.cons_append, seenFrom_tag (by decide), rowsOf, if_neg (by decide), if_neg (by decide),
      if_neg (by decide), if_neg (by decide)]
    show seenFrom none _ = _
    rw [seenFrom_skip (by decide), seen_row ((ws.map Witness.sigil).map (fun x => ⟨S "TH", shownText x⟩)) head none _ (fun s => by
      rw [← hhd, seen_head _ (by
        intro x hx
        obtain ⟨w, hw, rfl⟩ := List.mem_map.mp hx
        exact (hs w hw).2)]
      rfl), b4]
    congr 1
    · rw [List.map_map]
      apply List.map_congr_left
      intro w hw
      simp [shownText, (hs w hw).1]
    · have : seenFrom none (S "</TABLE>") = [] := by decide
      rw [this, List.append_nil]
  · rw [List.forall₂_map_right_iff]
    clear a1 b1 b2 b4 h3 hcells hdoc
    generalize (mkTable ws' g rk).columns = cols at h4
    induction h4 generalizing yss' with
    | nil => cases b3; exact .nil
    | @cons col r _ _ h5 h5t ih =>
      cases b3 with
      | @cons _ ys _ yss h6 h7 =>
        refine .cons ?_ (ih _ h7)
        unfold seenCells
        rw [List.forall₂_map_right_iff]
        clear ih h5t h7 hok hF hs hx hno hws h1 h2 hv hT ht hhd
        induction h5 generalizing ys with
        | nil => cases h6; exact .nil
        | @cons w p _ _ h8 _ ih =>
          cases h6 with
          | @cons _ q _ qs h9 h10 =>
            refine .cons ?_ (ih h10)
            obtain ⟨c1, c2, c3⟩ := h8
            obtain ⟨d1, d2, d3, _⟩ := h9
            refine ⟨by rw [← d3, c1], ?_⟩
            cases hdg : dget col.tokens w.sigil with
            | none =>
              rw [c2 hdg, fill20_dash hf hd] at d1
              show shownText q.1 = S "-"
              rw [← Except.ok.inj d1]
              rfl
            | some ts =>
              refine ⟨p.1, c3 ts hdg, ?_⟩
              unfold shownText
              by_cases hq : q.1 = []
              · right
                rw [if_pos hq]
                refine ⟨?_, rfl⟩
                rw [← d2.1, hq]; rfl
              · left
                rw [if_neg hq]
                exact ⟨d2, hq⟩

/-- One witness, `x <b> y`, in one token. -/
def markupWitnesses : List Witness := [⟨S "A", [⟨S "x", [(.t, .str (S "x <b> y")), (.n, .str (S "x"))]⟩]⟩]

theorem markupWitnesses_valid : Valid markupWitnesses := valid_of_check (by decide) (by decide) (by decide) (by decide)

theorem markupWitnesses_texts : HasTexts markupWitnesses := by
  have h : ∀ w ∈ markupWitnesses, ∀ t ∈ w.tokens, dget t.data .t = some (.str (S "x <b> y")) := by decide
  exact fun w hw t ht => ⟨_, h w hw t ht⟩

/-- The document that is shown for a list of witnesses. -/
def shownDocument (ws : List Witness) (o : Opts) : Py Str := do
  let t ← collateTable exampleEnv ws o
  let cells ← html2Rows ws t.columns
  html2String asciiClass simpleWrap (ws.map Witness.sigil) cells

/-- C61, the limit: texts are not escaped, so that something between `<` and `>` is not seen. -/
theorem C61_markup_not_escaped : Valid markupWitnesses ∧ HasTexts markupWitnesses ∧
    (shownDocument markupWitnesses {}).map seenRows =
      .ok [[⟨S "TH", S "A"⟩], [⟨S "TD bgcolor=\"00FFFF\"", S "x  y"⟩]] ∧
    ∀ s, TextOf (markupWitnesses.flatMap Witness.tokens) s → ¬ Wrapped asciiClass s (S "x  y") := by
  refine ⟨markupWitnesses_valid, markupWitnesses_texts, by decide +kernel, ?_⟩
  intro s h hw
  have h0 : TextOf (markupWitnesses.flatMap Witness.tokens) (S "x <b> y") := ⟨[S "x <b> y"], by decide, by decide⟩
  obtain rfl := TextOf.unique h h0
  exact absurd hw.1 (by decide)

/-- The hypotheses of C61 are met, and the table has both colours. -/
example : TopoSpec exampleEnv.topo ∧ Valid hyphenWitnesses ∧ HasTexts hyphenWitnesses ∧
    (∀ w ∈ hyphenWitnesses, w.sigil ≠ [] ∧ '<' ∉ w.sigil) ∧ ExactMatching { segmentation := false } ∧ AsciiSpaces asciiClass ∧
    asciiClass.space '-' = false ∧ WrapSpec simpleWrap ∧
    (shownDocument hyphenWitnesses { segmentation := false }).map seenRows =
      .ok [[⟨S "TH", S "A"⟩, ⟨S "TH", S "B"⟩], [⟨S "TD bgcolor=\"00FFFF\"", S "a"⟩, ⟨S "TD bgcolor=\"00FFFF\"", S "a"⟩],
        [⟨S "TD bgcolor=\"FF0000\"", S "-"⟩, ⟨S "TD bgcolor=\"FF0000\"", S "-"⟩],
        [⟨S "TD bgcolor=\"00FFFF\"", S "b"⟩, ⟨S "TD bgcolor=\"00FFFF\"", S "b"⟩]] :=
  ⟨kahn_spec, hyphenWitnesses_valid, hyphenWitnesses_texts, by decide, ⟨rfl, rfl, rfl⟩, asciiClass_spaces, by decide, simpleWrap_spec,
    by decide +kernel⟩

end CollateX
