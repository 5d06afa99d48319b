import Verif.Proofs.Display
import Verif.Proofs.Merge
/-
Property of `HTML.py`: C63 (the attributes and styles of columns).
-/

namespace CollateX
open Spec

namespace Spec

/-- The list of a row: its own if it has one, otherwise that of the table. -/
def columnList (own table : Option (List Str)) : List Str :=
  match own with
  | some (x :: xs) => x :: xs
  | _ => table.getD []

/-- The value of an attribute of the cell in column `i`: its own if it has one, otherwise that of its column. -/
def cellValue (own : Option Str) (column : List Str) (i : Nat) : Option Str :=
  match own with
  | some a => some a
  | none => column[i]?

/-- An attribute in a tag. One without a value or with an empty value is not shown. -/
def shownAttr (name : String) (value : Option Str) : Str :=
  match value with
  | none => []
  | some v => if v = [] then [] else S " " ++ S name ++ S "=\"" ++ v ++ S "\""

/-- The lists of column attributes. -/
structure Columns where
  align : List Str
  char : List Str
  charoff : List Str
  valign : List Str
  style : List Str

/-- The cell of an item. -/
def itemCell (header : Bool) : RowItem → TableCell
  | .text s => { text := s, header := header }
  | .cell c => c

/-- How the item in column `i` is to be seen. -/
def styledCell (cols : Columns) (header : Bool) (i : Nat) (x : RowItem) : SeenCell :=
  let c := itemCell header x
  { tag := (if c.header then S "TH" else S "TD") ++
      c.attribs.flatMap (fun p => S " " ++ p.1 ++ S "=\"" ++ p.2 ++ S "\"") ++
      shownAttr "bgcolor" c.bgcolor ++ shownAttr "width" c.width ++
      shownAttr "align" (cellValue c.align cols.align i) ++
      shownAttr "char" (cellValue c.char cols.char i) ++
      shownAttr "charoff" (cellValue c.charoff cols.charoff i) ++
      shownAttr "valign" (cellValue c.valign cols.valign i) ++
      shownAttr "style" (cellValue c.style cols.style i)
    text := if c.text = [] then S "&nbsp;" else c.text }

/-- The cells of a row, from column `i` on. -/
def styledFrom (cols : Columns) (header : Bool) : Nat → List RowItem → List SeenCell
  | _, [] => []
  | i, x :: xs => styledCell cols header i x :: styledFrom cols header (i + 1) xs

/-- The row that a row of the table or a header row is. -/
def rowOf (header : Bool) : RowIn → TableRow
  | .items l => { cells := l, header := header }
  | .row r => r

/-- The column attributes of a row by itself. -/
def ownColumns (r : TableRow) : Columns where
  align := r.colAlign.getD []
  char := r.colChar.getD []
  charoff := r.colCharoff.getD []
  valign := r.colValign.getD []
  style := r.colStyles.getD []

/-- The column attributes of a row in a table. -/
def columnsIn (t : HtmlTable) (r : TableRow) : Columns where
  align := columnList r.colAlign t.colAlign
  char := columnList r.colChar t.colChar
  charoff := columnList r.colCharoff t.colCharoff
  valign := columnList r.colValign t.colValign
  style := columnList r.colStyles t.colStyles

/-- The names of the attributes that a cell has of itself. -/
def cellNames : List Str := ["bgcolor", "width", "align", "char", "charoff", "valign", "style"].map S

/-- A row that can be shown with the given column attributes. -/
structure Showable (cols : Columns) (r : TableRow) : Prop where
  /-- no text stands in it twice -/
  texts : ∀ (i j : Nat) s, r.cells[i]? = some (.text s) → r.cells[j]? = some (.text s) → i = j
  /-- every list is empty or long enough -/
  long : ∀ l ∈ [cols.align, cols.char, cols.charoff, cols.valign, cols.style], l = [] ∨ r.cells.length ≤ l.length
  /-- the additional attributes of cells have other names -/
  names : ∀ c, RowItem.cell c ∈ r.cells → ∀ n ∈ cellNames, n ∉ c.attribs.map Prod.fst
  /-- no markup in tags and texts -/
  plain : ∀ c ∈ styledFrom cols r.header 0 r.cells, '>' ∉ c.tag ∧ '<' ∉ c.text
  plainRow : (∀ p ∈ r.attribs, '>' ∉ p.1 ∧ '>' ∉ p.2) ∧ ∀ v, r.bgcolor = some v → '>' ∉ v

end Spec

theorem attribsStr_append (d e : Dict Str Str) : attribsStr (d ++ e) = attribsStr d ++ attribsStr e := by
  induction d with
  | nil => rfl
  | cons p d ih => obtain ⟨k, v⟩ := p; simp [attribsStr, ih]

theorem attribsStr_flatMap (d : Dict Str Str) : attribsStr d = d.flatMap (fun p => S " " ++ p.1 ++ S "=\"" ++ p.2 ++ S "\"") := by
  induction d with
  | nil => rfl
  | cons p d ih => obtain ⟨k, v⟩ := p; simp [attribsStr, ih, S]

theorem attribsStr_setAttr {d : Dict Str Str} {k : String} (h : S k ∉ d.map Prod.fst) (v : Option Str) :
    attribsStr (setAttr d (S k) v) = attribsStr d ++ shownAttr k v := by
  unfold setAttr shownAttr
  split
  · rw [dset_of_not_mem h, attribsStr_append]
    simp [attribsStr, S]
  · rename_i hv
    cases v with
    | none => simp
    | some v =>
      cases v with
      | nil => simp
      | cons c cs => exact absurd rfl (hv c cs)

theorem keys_setAttr {d : Dict Str Str} {k k' : Str} {v : Option Str} (h : k' ∉ d.map Prod.fst) (hne : k' ≠ k) :
    k' ∉ (setAttr d k v).map Prod.fst := by
  unfold setAttr
  split
  · rw [mem_keys_dset]
    rintro (e | e)
    · exact hne e
    · exact h e
  · exact h

/-- The tag of a cell. -/
theorem cell_attribs {c : TableCell} (hn : ∀ n ∈ cellNames, n ∉ c.attribs.map Prod.fst) :
    attribsStr (setAttr (setAttr (setAttr (setAttr (setAttr (setAttr (setAttr c.attribs (S "bgcolor") c.bgcolor) (S "width") c.width)
      (S "align") c.align) (S "char") c.char) (S "charoff") c.charoff) (S "valign") c.valign) (S "style") c.style) =
    c.attribs.flatMap (fun p => S " " ++ p.1 ++ S "=\"" ++ p.2 ++ S "\"") ++ shownAttr "bgcolor" c.bgcolor ++ shownAttr "width" c.width ++
      shownAttr "align" c.align ++ shownAttr "char" c.char ++ shownAttr "charoff" c.charoff ++ shownAttr "valign" c.valign ++
      shownAttr "style" c.style := by
  have n1 := hn (S "bgcolor") (by decide)
  have n2 := hn (S "width") (by decide)
  have n3 := hn (S "align") (by decide)
  have n4 := hn (S "char") (by decide)
  have n5 := hn (S "charoff") (by decide)
  have n6 := hn (S "valign") (by decide)
  have n7 := hn (S "style") (by decide)
  rw [attribsStr_setAttr, attribsStr_setAttr, attribsStr_setAttr, attribsStr_setAttr, attribsStr_setAttr, attribsStr_setAttr,
    attribsStr_setAttr, attribsStr_flatMap]
  · exact n1
  · exact keys_setAttr n2 (by decide)
  · exact keys_setAttr (keys_setAttr n3 (by decide)) (by decide)
  · exact keys_setAttr (keys_setAttr (keys_setAttr n4 (by decide)) (by decide)) (by decide)
  · exact keys_setAttr (keys_setAttr (keys_setAttr (keys_setAttr n5 (by decide)) (by decide)) (by decide)) (by decide)
  · exact keys_setAttr (keys_setAttr (keys_setAttr (keys_setAttr (keys_setAttr n6 (by decide)) (by decide)) (by decide)) (by decide)) (by decide)
  · exact keys_setAttr (keys_setAttr (keys_setAttr (keys_setAttr (keys_setAttr (keys_setAttr n7 (by decide)) (by decide)) (by decide))
      (by decide)) (by decide)) (by decide)

theorem prefix_cellTag (h : Bool) (t : Str) :
    (S "TR").isPrefixOf ((if h then S "TH" else S "TD") ++ t) = false ∧ (S "/TR").isPrefixOf ((if h then S "TH" else S "TD") ++ t) = false ∧
    ((S "TD").isPrefixOf ((if h then S "TH" else S "TD") ++ t) || (S "TH").isPrefixOf ((if h then S "TH" else S "TD") ++ t)) = true := by
  cases h <;> refine ⟨?_, ?_, ?_⟩ <;> simp [S, List.isPrefixOf]

/-- A cell as it is seen. -/
theorem seen_cell {c : TableCell} (hn : ∀ n ∈ cellNames, n ∉ c.attribs.map Prod.fst) {rest : Str}
    (hr : c.attribs.flatMap (fun p => S " " ++ p.1 ++ S "=\"" ++ p.2 ++ S "\"") ++ shownAttr "bgcolor" c.bgcolor ++ shownAttr "width" c.width ++
      shownAttr "align" c.align ++ shownAttr "char" c.char ++ shownAttr "charoff" c.charoff ++ shownAttr "valign" c.valign ++
      shownAttr "style" c.style = rest)
    (ht : '>' ∉ (if c.header then S "TH" else S "TD") ++ rest) (hx : '<' ∉ (if c.text = [] then S "&nbsp;" else c.text))
    (row : List SeenCell) (s : Str) :
    seenFrom (some row) (c.html ++ s) =
      seenFrom (some (row ++ [⟨(if c.header then S "TH" else S "TD") ++ rest, if c.text = [] then S "&nbsp;" else c.text⟩])) s := by
  obtain ⟨p1, p2, p3⟩ := prefix_cellTag c.header rest
  generalize hX : (if c.text = [] then S "&nbsp;" else c.text) = X at hx ⊢
  have e : c.html ++ s = S "  " ++ ('<' :: (((if c.header then S "TH" else S "TD") ++ rest) ++
      '>' :: (X ++ '<' :: ((if c.header then S "/TH" else S "/TD") ++ '>' :: (S "\n" ++ s))))) := by
    unfold TableCell.html
    simp only [cell_attribs hn, hr, hX]
    cases c.header <;> simp [S]
  rw [e, seenFrom_skip (by decide), seenFrom_cell ht hx ?_ _ _ p1 p2 p3 ?_ ?_ ?_ ?_, seenFrom_skip (by decide)]
  · rfl
  all_goals cases c.header <;> decide

theorem findIdx_item {cells : List RowItem} {s : Str} (hu : ∀ (i j : Nat) s, cells[i]? = some (.text s) → cells[j]? = some (.text s) → i = j)
    {i : Nat} (h : cells[i]? = some (.text s)) : cells.findIdx (fun y => decide (y = .text s)) = i := by
  have hlt : cells.findIdx (fun y => decide (y = .text s)) < cells.length :=
    List.findIdx_lt_length_of_exists ⟨_, List.mem_of_getElem? h, by simp⟩
  have hg := List.findIdx_getElem (w := hlt)
  simp only [decide_eq_true_eq] at hg
  exact hu _ _ s (by rw [List.getElem?_eq_getElem hlt, hg]) h

theorem itemIndex_eq {cells : List RowItem} (hu : ∀ (i j : Nat) s, cells[i]? = some (.text s) → cells[j]? = some (.text s) → i = j)
    {i : Nat} {x : RowItem} (h : cells[i]? = some x) : itemIndex cells i x = i := by
  cases x with
  | text s => exact findIdx_item hu h
  | cell c => rfl

theorem applyCol_eq {l : Option (List Str)} {i n : Nat} (hi : i < n) (hl : l.getD [] = [] ∨ n ≤ (l.getD []).length) (v : Option Str) :
    applyCol l i v = .ok (cellValue v (l.getD []) i) := by
  cases v with
  | some a => unfold applyCol cellValue; split <;> simp_all
  | none =>
    cases l with
    | none => rw [applyCol_none]; simp [cellValue]
    | some l =>
      cases l with
      | nil => simp [applyCol, cellValue]
      | cons y ys =>
        simp only [Option.getD_some, reduceCtorEq, false_or] at hl
        have h := List.getElem?_eq_getElem (show i < (y :: ys).length by omega)
        simp only [cellValue, Option.getD_some, h]
        generalize (y :: ys)[i] = z at h
        unfold applyCol
        simp only [lgetE, h]
        rfl

theorem cellsHtml_seen {row : TableRow} (h : Showable (ownColumns row) row) :
    ∀ (xs : List RowItem) (i : Nat), (∀ j : Nat, (row.cells.drop i)[j]? = xs[j]?) →
      (∀ c ∈ styledFrom (ownColumns row) row.header i xs, '>' ∉ c.tag ∧ '<' ∉ c.text) → ∃ out, row.cellsHtml i xs = .ok out ∧
      ∀ acc s, seenFrom (some acc) (out ++ s) = seenFrom (some (acc ++ styledFrom (ownColumns row) row.header i xs)) s
  | [], i, _, _ => ⟨[], rfl, by simp [styledFrom]⟩
  | x :: xs, i, hd, hp => by
    obtain ⟨out, a1, a2⟩ := cellsHtml_seen h xs (i + 1) (fun j => by
      have := hd (j + 1)
      rw [List.getElem?_cons_succ] at this
      rw [← this]
      simp [List.getElem?_drop, Nat.add_comm, Nat.add_left_comm]) (fun c hc => hp c (by simp [styledFrom, hc]))
    have hi : row.cells[i]? = some x := by
      have := hd 0
      simpa [List.getElem?_drop] using this
    have hlt : i < row.cells.length := (List.getElem?_eq_some_iff.mp hi).1
    have hc := hp (styledCell (ownColumns row) row.header i x) (by simp [styledFrom])
    have hn : ∀ n ∈ cellNames, n ∉ (itemCell row.header x).attribs.map Prod.fst := by
      cases x with
      | text s => intro n _; simp [itemCell]
      | cell c => exact h.names c (List.mem_of_getElem? hi)
    have l1 := applyCol_eq hlt (h.long (row.colAlign.getD []) (by simp [ownColumns])) (itemCell row.header x).align
    have l2 := applyCol_eq hlt (h.long (row.colChar.getD []) (by simp [ownColumns])) (itemCell row.header x).char
    have l3 := applyCol_eq hlt (h.long (row.colCharoff.getD []) (by simp [ownColumns])) (itemCell row.header x).charoff
    have l4 := applyCol_eq hlt (h.long (row.colValign.getD []) (by simp [ownColumns])) (itemCell row.header x).valign
    have l5 := applyCol_eq hlt (h.long (row.colStyles.getD []) (by simp [ownColumns])) (itemCell row.header x).style
    generalize hq : ({ itemCell row.header x with
        align := cellValue (itemCell row.header x).align (ownColumns row).align i
        char := cellValue (itemCell row.header x).char (ownColumns row).char i
        charoff := cellValue (itemCell row.header x).charoff (ownColumns row).charoff i
        valign := cellValue (itemCell row.header x).valign (ownColumns row).valign i
        style := cellValue (itemCell row.header x).style (ownColumns row).style i } : TableCell) = q
    refine ⟨q.html ++ out, ?_, ?_⟩
    · subst hq
      unfold TableRow.cellsHtml
      cases x with
      | text s =>
        simp only [itemCell] at l1 l2 l3 l4 l5
        simp only [itemIndex_eq h.texts hi, l1, l2, l3, l4, l5, a1, bind_ok]
        rfl
      | cell c =>
        simp only [itemCell] at l1 l2 l3 l4 l5
        simp only [itemIndex_eq h.texts hi, l1, l2, l3, l4, l5, a1, bind_ok]
        rfl
    · intro acc s
      have hs : styledCell (ownColumns row) row.header i x = ⟨(if q.header then S "TH" else S "TD") ++
          (q.attribs.flatMap (fun p => S " " ++ p.1 ++ S "=\"" ++ p.2 ++ S "\"") ++ shownAttr "bgcolor" q.bgcolor ++ shownAttr "width" q.width ++
      shownAttr "align" q.align ++ shownAttr "char" q.char ++ shownAttr "charoff" q.charoff ++ shownAttr "valign" q.valign ++
      shownAttr "style" q.style), if q.text = [] then S "&nbsp;" else q.text⟩ := by
        subst hq
        simp only [styledCell, List.append_assoc]
      rw [hs] at hc
      rw [List.append_assoc, seen_cell (by subst hq; exact hn) rfl hc.1 hc.2, a2, ← hs]
      simp only [styledFrom, List.append_assoc, List.cons_append, List.nil_append]

/-- No tag is closed within the attributes. -/
theorem attribsStr_plain {d : Dict Str Str} (h : ∀ p ∈ d, '>' ∉ p.1 ∧ '>' ∉ p.2) : '>' ∉ attribsStr d := by
  induction d with
  | nil => simp [attribsStr]
  | cons p d ih =>
    obtain ⟨k, v⟩ := p
    have h1 := h (k, v) (by simp)
    have h2 := ih (fun p hp => h p (by simp [hp]))
    simp only [attribsStr, List.cons_append, List.mem_cons, List.mem_append, not_or]
    exact ⟨by decide, ⟨⟨⟨h1.1, by decide⟩, h1.2⟩, by decide⟩, h2⟩

theorem setAttr_plain {d : Dict Str Str} (h : ∀ p ∈ d, '>' ∉ p.1 ∧ '>' ∉ p.2) {k : Str} (hk : '>' ∉ k) {v : Option Str}
    (hv : ∀ x, v = some x → '>' ∉ x) : ∀ p ∈ setAttr d k v, '>' ∉ p.1 ∧ '>' ∉ p.2 := by
  unfold setAttr
  split
  · rename_i c cs
    intro p hp
    rcases mem_dset hp with hp | rfl
    · exact h p hp
    · exact ⟨hk, hv _ rfl⟩
  · exact h

/-- A row as it is seen. -/
theorem row_seen {row : TableRow} (h : Showable (ownColumns row) row) : ∃ out, row.html = .ok out ∧
    ∀ s, seenFrom none (out ++ s) = styledFrom (ownColumns row) row.header 0 row.cells :: seenFrom none s := by
  obtain ⟨cs, a1, a2⟩ := cellsHtml_seen h row.cells 0 (fun j => rfl) h.plain
  generalize hA : attribsStr (setAttr row.attribs (S "bgcolor") row.bgcolor) = A
  have hA' : '>' ∉ A := hA ▸ attribsStr_plain (setAttr_plain h.plainRow.1 (by decide) h.plainRow.2)
  refine ⟨S " <TR" ++ A ++ S ">\n" ++ cs ++ S " </TR>\n", ?_, ?_⟩
  · unfold TableRow.html
    rw [a1, hA]
    rfl
  · intro s
    have e : S " <TR" ++ A ++ S ">\n" ++ cs ++ S " </TR>\n" ++ s = S " " ++ ('<' :: ((S "TR" ++ A) ++ '>' :: (S "\n" ++ (cs ++
        (S " " ++ ('<' :: (S "/TR" ++ '>' :: (S "\n" ++ s)))))))) := by simp [S]
    have e1 : (S "TR").isPrefixOf (S "TR" ++ A) = true := by simp [S, List.isPrefixOf]
    have e2 : (S "TR").isPrefixOf (S "/TR") = false := by decide
    have e3 : (S "/TR").isPrefixOf (S "/TR") = true := by decide
    rw [e, seenFrom_skip (by decide), seenFrom_tag ?_]
    · rw [rowsOf, e1, if_pos rfl]
      show seenFrom (some []) _ = _
      rw [seenFrom_skip (by decide), a2, seenFrom_skip (by decide), seenFrom_tag (by decide), rowsOf, e2, e3, if_neg (by simp), if_pos rfl]
      show [] ++ _ :: seenFrom none _ = _
      rw [seenFrom_skip (by decide)]
      rfl
    · intro hm
      rcases List.mem_append.mp hm with hm | hm
      · exact absurd hm (by decide)
      · exact hA' hm

theorem inheritCol_getD (t r : Option (List Str)) : (inheritCol t r).getD [] = columnList r t := by
  unfold inheritCol columnList
  rcases t with _ | _ | ⟨x, xs⟩ <;> rcases r with _ | _ | ⟨y, ys⟩ <;> simp

theorem rowsHtml_seen {t : HtmlTable} : ∀ (rows : List RowIn), (∀ r ∈ rows, Showable (columnsIn t (rowOf false r)) (rowOf false r)) →
    ∃ out, t.rowsHtml rows = .ok out ∧ ∀ s, seenFrom none (out ++ s) =
      rows.map (fun r => styledFrom (columnsIn t (rowOf false r)) (rowOf false r).header 0 (rowOf false r).cells) ++ seenFrom none s
  | [], _ => ⟨[], rfl, fun s => rfl⟩
  | r :: rows, h => by
    obtain ⟨out, a1, a2⟩ := rowsHtml_seen rows (fun r hr => h r (by simp [hr]))
    have hr := h r (by simp)
    generalize hq : ({ rowOf false r with
      colAlign := inheritCol t.colAlign (rowOf false r).colAlign
      colChar := inheritCol t.colChar (rowOf false r).colChar
      colCharoff := inheritCol t.colCharoff (rowOf false r).colCharoff
      colValign := inheritCol t.colValign (rowOf false r).colValign
      colStyles := inheritCol t.colStyles (rowOf false r).colStyles } : TableRow) = q
    have hc : ownColumns q = columnsIn t (rowOf false r) := by
      subst hq
      simp only [ownColumns, columnsIn, inheritCol_getD]
    have hcells : q.cells = (rowOf false r).cells := by subst hq; rfl
    have hhead : q.header = (rowOf false r).header := by subst hq; rfl
    obtain ⟨o, b1, b2⟩ := row_seen (row := q) (by
      rw [hc]
      refine ⟨?_, ?_, ?_, ?_, ?_⟩
      · rw [hcells]; exact hr.texts
      · rw [hcells]; exact hr.long
      · rw [hcells]; exact hr.names
      · rw [hcells, hhead]; exact hr.plain
      · subst hq; exact hr.plainRow)
    refine ⟨o ++ out, ?_, ?_⟩
    · unfold HtmlTable.rowsHtml
      subst hq
      cases r with
      | items l =>
        simp only [rowOf] at b1
        simp only [b1, a1, bind_ok]
      | row r =>
        simp only [rowOf] at b1
        simp only [b1, a1, bind_ok]
    · intro s
      rw [List.append_assoc, b2, a2, hc, hcells, hhead]
      rfl

theorem colWidth_seen : ∀ (ws : List Str), (∀ w ∈ ws, '>' ∉ w) → ∀ s,
    seenFrom none (ws.flatMap (fun w => S "  <COL width=\"" ++ w ++ S "\">\n") ++ s) = seenFrom none s
  | [], _, s => rfl
  | w :: ws, h, s => by
    have ih := colWidth_seen ws (fun w hw => h w (by simp [hw])) s
    have hw := h w (by simp)
    have e : (w :: ws).flatMap (fun w => S "  <COL width=\"" ++ w ++ S "\">\n") ++ s = S "  " ++ ('<' :: ((S "COL width=\"" ++ (w ++ S "\"")) ++
      '>' :: (S "\n" ++ (ws.flatMap (fun w => S "  <COL width=\"" ++ w ++ S "\">\n") ++ s)))) := by simp [S]
    rw [e, seenFrom_skip (by decide), seenFrom_tag ?_]
    · have : ∀ x s, rowsOf none none (.tag (S "COL width=\"" ++ x) :: readHtml false [] s) = seenFrom none s := by
        intro x s
        rw [rowsOf]
        simp [S, List.isPrefixOf, seenFrom]
      rw [this, seenFrom_skip (by decide), ih]
    · intro hm
      rcases List.mem_append.mp hm with hm | hm
      · exact absurd hm (by decide)
      · rcases List.mem_append.mp hm with hm | hm
        · exact hw hm
        · exact absurd hm (by decide)

theorem table_seen (A : Str) (hA : '>' ∉ A) (s : Str) : seenFrom none (S "<TABLE" ++ A ++ S ">\n" ++ s) = seenFrom none s := by
  have e : S "<TABLE" ++ A ++ S ">\n" ++ s = '<' :: ((S "TABLE" ++ A) ++ '>' :: (S "\n" ++ s)) := by simp [S]
  rw [e, seenFrom_tag ?_]
  · have : ∀ s, rowsOf none none (.tag (S "TABLE" ++ A) :: readHtml false [] s) = seenFrom none s := by
      intro s
      rw [rowsOf]
      simp [S, List.isPrefixOf, seenFrom]
    rw [this, seenFrom_skip (by decide)]
  · intro hm
    rcases List.mem_append.mp hm with hm | hm
    · exact absurd hm (by decide)
    · exact hA hm

/-- C63. The HTML table with attributes and styles for the columns: every cell has its own attributes, and of those that it does not
have itself the ones of its own column, the lists of the row being preferred to those of the table. The header row has only its own lists.
For rows in which no text is repeated. -/
theorem C63_column_styles_partial (t : HtmlTable)
    (hr : ∀ r ∈ t.rows, Showable (columnsIn t (rowOf false r)) (rowOf false r))
    (hh : ∀ r, t.headerRow = some r → Showable (ownColumns (rowOf true r)) (rowOf true r))
    (ha : ∀ p ∈ t.attribs, '>' ∉ p.1 ∧ '>' ∉ p.2)
    (hv : ∀ x, some x ∈ [t.border, t.style, t.width, t.cellspacing, t.cellpadding] → '>' ∉ x) (hw : ∀ w ∈ t.colWidth, '>' ∉ w) :
    ∃ doc, t.html = .ok doc ∧ seenRows doc =
      (match t.headerRow with
        | none => []
        | some (.items []) => []
        | some r => [styledFrom (ownColumns (rowOf true r)) (rowOf true r).header 0 (rowOf true r).cells]) ++
      t.rows.map (fun r => styledFrom (columnsIn t (rowOf false r)) (rowOf false r).header 0 (rowOf false r).cells) := by
  obtain ⟨out, h1, h2⟩ := rowsHtml_seen t.rows hr
  generalize hH : (match t.headerRow with
        | none => []
        | some (.items []) => []
        | some r => [styledFrom (ownColumns (rowOf true r)) (rowOf true r).header 0 (rowOf true r).cells]) = H
  have head : ∃ hd, t.headerHtml = .ok hd ∧ ∀ s, seenFrom none (hd ++ s) = H ++ seenFrom none s := by
    unfold HtmlTable.headerHtml
    subst hH
    rcases hrow : t.headerRow with _ | (_ | ⟨x, xs⟩) | r
    · exact ⟨[], rfl, fun s => rfl⟩
    · exact ⟨[], rfl, fun s => rfl⟩
    · obtain ⟨o, b1, b2⟩ := row_seen (hh _ hrow)
      exact ⟨o, b1, fun s => b2 s⟩
    · obtain ⟨o, b1, b2⟩ := row_seen (hh _ hrow)
      exact ⟨o, b1, fun s => b2 s⟩
  obtain ⟨hd, g1, g2⟩ := head
  generalize hA : attribsStr (setAttr (setAttr (setAttr (setAttr (setAttr t.attribs (S "border") t.border) (S "style") t.style) (S "width") t.width)
        (S "cellspacing") t.cellspacing) (S "cellpadding") t.cellpadding) = A
  have hA' : '>' ∉ A := by
    rw [← hA]
    refine attribsStr_plain ?_
    refine setAttr_plain ?_ (by decide) (fun x hx => hv x (by simp [hx]))
    refine setAttr_plain ?_ (by decide) (fun x hx => hv x (by simp [hx]))
    refine setAttr_plain ?_ (by decide) (fun x hx => hv x (by simp [hx]))
    refine setAttr_plain ?_ (by decide) (fun x hx => hv x (by simp [hx]))
    exact setAttr_plain ha (by decide) (fun x hx => hv x (by simp [hx]))
  refine ⟨S "<TABLE" ++ A ++ S ">\n" ++ (t.colWidth.flatMap (fun w => S "  <COL width=\"" ++ w ++ S "\">\n") ++ (hd ++ (out ++ S "</TABLE>"))),
    ?_, ?_⟩
  · unfold HtmlTable.html
    rw [g1, h1]
    simp only [bind_ok, hA, List.append_assoc]
  · show seenFrom none _ = _
    rw [table_seen A hA', colWidth_seen _ hw, g2, h2]
    have e5 : seenFrom none (S "</TABLE>") = [] := by decide
    rw [e5, List.append_nil]

/-- C63, the limit: a text that stands in a row twice gets the style of its first column in both. -/
theorem C63_repeated_text :
    ({ rows := [.items [.text (S "a"), .text (S "a")]], colStyles := some [S "color: red", S "color: blue"] } : HtmlTable).html.map seenRows =
      .ok [[⟨S "TD style=\"color: red\"", S "a"⟩, ⟨S "TD style=\"color: red\"", S "a"⟩]] := by decide +kernel

/-- A table with two rows: one of texts, and one that has a list of its own, with a cell that has a style of its own and a cell whose
alignment is to be left out. -/
def styledTable : HtmlTable where
  rows := [.items [.text (S "a"), .text []],
    .row { cells := [.cell { text := S "c", style := some (S "color: green") }, .cell { text := S "c", align := some [] }]
           colAlign := some [S "right", S "center"] }]
  headerRow := some (.items [.text (S "X"), .text (S "Y")])
  colAlign := some [S "left", S "left"]
  colStyles := some [S "color: red", S "color: blue"]

/-- It meets the hypotheses of C63. -/
example : (∀ r ∈ styledTable.rows, Showable (columnsIn styledTable (rowOf false r)) (rowOf false r)) ∧
    (∀ r, styledTable.headerRow = some r → Showable (ownColumns (rowOf true r)) (rowOf true r)) := by
  refine ⟨?_, ?_⟩
  · intro r hr
    simp only [styledTable, List.mem_cons, List.not_mem_nil, or_false] at hr
    rcases hr with rfl | rfl
    · refine ⟨?_, by decide, ?_, by decide +kernel, ?_⟩
      · intro i j s h1 h2
        simp only [rowOf] at h1 h2
        rcases i with _ | _ | i <;> rcases j with _ | _ | j <;> simp_all [S]
      · intro c hc; simp [rowOf] at hc
      · exact ⟨fun p hp => absurd hp (by simp [rowOf]), fun v h => by simp [rowOf] at h⟩
    · refine ⟨?_, by decide, ?_, by decide +kernel, ?_⟩
      · intro i j s h1 h2
        simp only [rowOf] at h1 h2
        rcases i with _ | _ | i <;> rcases j with _ | _ | j <;> simp_all [S]
      · intro c hc; simp [rowOf] at hc; rcases hc with rfl | rfl <;> simp
      · exact ⟨fun p hp => absurd hp (by simp [rowOf]), fun v h => by simp [rowOf] at h⟩
  · intro r hr
    simp only [styledTable, Option.some.injEq] at hr
    subst hr
    refine ⟨?_, by decide, ?_, by decide +kernel, ?_⟩
    · intro i j s h1 h2
      simp only [rowOf] at h1 h2
      rcases i with _ | _ | i <;> rcases j with _ | _ | j <;> simp_all [S]
      all_goals (subst h1; simp at h2)
    · intro c hc; simp [rowOf] at hc
    · exact ⟨fun p hp => absurd hp (by simp [rowOf]), fun v h => by simp [rowOf] at h⟩

/-- What is seen of it. -/
example : styledTable.html.map seenRows =
    .ok [[⟨S "TH", S "X"⟩, ⟨S "TH", S "Y"⟩],
      [⟨S "TD align=\"left\" style=\"color: red\"", S "a"⟩, ⟨S "TD align=\"left\" style=\"color: blue\"", S "&nbsp;"⟩],
      [⟨S "TD align=\"right\" style=\"color: green\"", S "c"⟩, ⟨S "TD style=\"color: blue\"", S "c"⟩]] := by decide +kernel

end CollateX
