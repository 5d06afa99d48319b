import Verif.Proofs.TextWrap
import Verif.Proofs.Tokenizer
/-
Lemmas on the displayed forms: printed tables and HTML.
-/

namespace CollateX
open Spec

/-! ### Printed tables -/

theorem fill20_dash {cc : CharClass} {f : WrapFn} (hf : WrapSpec f) (hd : cc.space '-' = false) : fill20 cc f (S "-") = .ok (S "-") := by
  have e1 : munge (S "-") = ['-'] := by decide
  have hw := hf.whole ['-']
  have hn := hf.nonempty ['-']
  have e2 : f.split ['-'] = [['-']] := by
    cases h : f.split ['-'] with
    | nil => rw [h] at hw; cases hw
    | cons a l =>
      rw [h] at hw hn
      cases a with
      | nil => exact absurd rfl (hn [] (by simp))
      | cons c a =>
        simp only [List.flatten_cons, List.cons_append, List.cons.injEq, List.append_eq_nil_iff] at hw
        obtain ⟨rfl, rfl, hl⟩ := hw
        cases l with
        | nil => rfl
        | cons b l =>
          simp only [List.flatten_cons, List.append_eq_nil_iff] at hl
          exact absurd hl.1 (hn b (by simp))
  unfold fill20 wrapText
  rw [e1, e2]
  have hb : blankChunk cc ['-'] = false := by simp [blankChunk, hd]
  simp [wrapChunks, hb, fitChunks, longWord, dropBlank, joinLines, S]
  rfl

theorem printText_ok {c : Option (List Token)} (h : ∃ s, CellTextOf c s) (hne : c ≠ some []) :
    ∃ s, printText c = .ok s ∧ (c = none → s = S "-") ∧ ∀ ts, c = some ts → TextOf ts s := by
  obtain ⟨s, h⟩ := h
  unfold printText
  cases c with
  | none => exact ⟨S "-", rfl, fun _ => rfl, by simp⟩
  | some ts =>
    cases ts with
    | nil => exact absurd rfl hne
    | cons a ts => exact ⟨s, cellText_iff.mpr h, by simp, fun _ e => Option.some.inj e ▸ h⟩

theorem printCells_ok (cc : CharClass) : ∀ {cs : List (Option (List Token))}, (∀ c ∈ cs, (∃ s, CellTextOf c s) ∧ c ≠ some []) →
    cc.space '-' = false → ∃ xs, printCells cc cs = .ok xs ∧ List.Forall₂ (PrintedCell cc) cs xs
  | [], _, _ => ⟨[], rfl, .nil⟩
  | c :: cs, h, hd => by
    obtain ⟨s, h1, h2⟩ := printText_ok (h c (by simp)).1 (h c (by simp)).2
    obtain ⟨xs, h3, h4⟩ := printCells_ok cc (cs := cs) (fun c hc => h c (by simp [hc])) hd
    refine ⟨rstrip cc s :: xs, ?_, .cons ?_ h4⟩
    · unfold printCells; rw [h1, h3]; rfl
    · cases c with
      | none =>
        obtain rfl := h2.1 rfl
        unfold PrintedCell
        dsimp only
        simp [rstrip, S, hd]
      | some ts => exact ⟨s, h2.2 ts rfl, rstrip_spec cc s⟩

theorem printWrapped_ok {cc : CharClass} {f : WrapFn} (hf : WrapSpec f) (ha : AsciiSpaces cc) (hd : cc.space '-' = false) :
    ∀ {cs : List (Option (List Token))}, (∀ c ∈ cs, (∃ s, CellTextOf c s) ∧ c ≠ some []) →
    ∃ xs, printWrapped cc f cs = .ok xs ∧ List.Forall₂ (WrappedCell cc) cs xs
  | [], _ => ⟨[], rfl, .nil⟩
  | c :: cs, h => by
    obtain ⟨s, h1, h2⟩ := printText_ok (h c (by simp)).1 (h c (by simp)).2
    obtain ⟨xs, h3, h4⟩ := printWrapped_ok hf ha hd (cs := cs) (fun c hc => h c (by simp [hc]))
    cases c with
    | none =>
      obtain rfl := h2.1 rfl
      refine ⟨S "-" :: xs, ?_, .cons rfl h4⟩
      unfold printWrapped
      rw [h1, bind_ok, fill20_dash hf hd, h3]; rfl
    | some ts =>
      obtain ⟨r, h5, h6, _⟩ := fill20_ok hf ha s
      refine ⟨r :: xs, ?_, .cons ⟨s, h2.2 ts rfl, h6⟩ h4⟩
      unfold printWrapped
      rw [h1, bind_ok, h5, h3]; rfl

theorem printHorizontal_ok (cc : CharClass) (hd : cc.space '-' = false) : ∀ {rows : List Row},
    (∀ r ∈ rows, ∀ c ∈ r.cells, (∃ s, CellTextOf c s) ∧ c ≠ some []) → ∃ xs, printHorizontal cc rows = .ok xs ∧
      List.Forall₂ (fun (r : Row) x => ∃ cells, x = r.header :: cells ∧ List.Forall₂ (PrintedCell cc) r.cells cells) rows xs
  | [], _ => ⟨[], rfl, .nil⟩
  | r :: rows, h => by
    obtain ⟨xs, h1, h2⟩ := printCells_ok cc (h r (by simp)) hd
    obtain ⟨ys, h3, h4⟩ := printHorizontal_ok cc hd (rows := rows) (fun r hr => h r (by simp [hr]))
    exact ⟨(r.header :: xs) :: ys, by unfold printHorizontal; rw [h1, h3]; rfl, .cons ⟨xs, rfl, h2⟩ h4⟩

theorem printVertical_ok {cc : CharClass} {f : WrapFn} (hf : WrapSpec f) (ha : AsciiSpaces cc) (hd : cc.space '-' = false) :
    ∀ {rows : List Row}, (∀ r ∈ rows, ∀ c ∈ r.cells, (∃ s, CellTextOf c s) ∧ c ≠ some []) →
    ∃ xs, printVertical cc f rows = .ok xs ∧
      List.Forall₂ (fun (r : Row) x => x.1 = r.header ∧ List.Forall₂ (WrappedCell cc) r.cells x.2) rows xs
  | [], _ => ⟨[], rfl, .nil⟩
  | r :: rows, h => by
    obtain ⟨xs, h1, h2⟩ := printWrapped_ok hf ha hd (h r (by simp))
    obtain ⟨ys, h3, h4⟩ := printVertical_ok hf ha hd (rows := rows) (fun r hr => h r (by simp [hr]))
    exact ⟨(r.header, xs) :: ys, by unfold printVertical; rw [h1, h3]; rfl, .cons ⟨rfl, h2⟩ h4⟩

/-! ### Reading HTML -/

theorem readHtml_text {x : Str} (hx : '<' ∉ x) : ∀ (acc s : Str), readHtml false acc (x ++ s) = readHtml false (acc ++ x) s := by
  induction x with
  | nil => intro acc s; simp
  | cons c x ih =>
    intro acc s
    have hc : c ≠ '<' := fun e => hx (by simp [e])
    rw [List.cons_append, readHtml, if_neg hc, ih (fun e => hx (by simp [e]))]
    simp

theorem readHtml_tag {x : Str} (hx : '>' ∉ x) : ∀ (acc s : Str), readHtml true acc (x ++ s) = readHtml true (acc ++ x) s := by
  induction x with
  | nil => intro acc s; simp
  | cons c x ih =>
    intro acc s
    have hc : c ≠ '>' := fun e => hx (by simp [e])
    rw [List.cons_append, readHtml, if_neg hc, ih (fun e => hx (by simp [e]))]
    simp

/-- Reading a tag after some text. -/
theorem readHtml_piece {x t : Str} (hx : '<' ∉ x) (ht : '>' ∉ t) (acc s : Str) :
    readHtml false acc (x ++ '<' :: (t ++ '>' :: s)) = .text (acc ++ x) :: .tag t :: readHtml false [] s := by
  rw [readHtml_text hx, readHtml, if_pos rfl, readHtml_tag ht, readHtml, if_pos rfl, List.nil_append]

/-- Outside of cells the text is irrelevant. -/
theorem rowsOf_acc (row : Option (List SeenCell)) (s : Str) : ∀ acc acc' : Str,
    rowsOf row none (readHtml false acc s) = rowsOf row none (readHtml false acc' s) := by
  induction s with
  | nil => intro acc acc'; rfl
  | cons c s ih =>
    intro acc acc'
    unfold readHtml
    split
    · rfl
    · exact ih _ _

/-- What is seen of the rest of an HTML text outside of a cell. -/
def seenFrom (row : Option (List SeenCell)) (s : Str) : List (List SeenCell) := rowsOf row none (readHtml false [] s)

theorem seenFrom_skip {x : Str} (hx : '<' ∉ x) (row : Option (List SeenCell)) (s : Str) : seenFrom row (x ++ s) = seenFrom row s := by
  unfold seenFrom
  rw [readHtml_text hx]
  exact rowsOf_acc _ _ _ _

theorem seenFrom_tag {t : Str} (ht : '>' ∉ t) (row : Option (List SeenCell)) (s : Str) :
    seenFrom row ('<' :: (t ++ '>' :: s)) = rowsOf row none (.tag t :: readHtml false [] s) := by
  unfold seenFrom
  have := readHtml_piece (x := []) (by simp) ht [] s
  rw [List.nil_append] at this
  rw [this]
  rfl

/-- A whole cell. -/
theorem seenFrom_cell {t x u : Str} (ht : '>' ∉ t) (hx : '<' ∉ x) (hu : '>' ∉ u) (row : Option (List SeenCell)) (s : Str)
    (h1 : (S "TR").isPrefixOf t = false) (h2 : (S "/TR").isPrefixOf t = false)
    (h3 : ((S "TD").isPrefixOf t || (S "TH").isPrefixOf t) = true)
    (h4 : (S "TR").isPrefixOf u = false) (h5 : (S "/TR").isPrefixOf u = false)
    (h6 : ((S "TD").isPrefixOf u || (S "TH").isPrefixOf u) = false) (h7 : ((S "/TD").isPrefixOf u || (S "/TH").isPrefixOf u) = true) :
    seenFrom row ('<' :: (t ++ '>' :: (x ++ '<' :: (u ++ '>' :: s)))) = seenFrom (row.map (· ++ [⟨t, x⟩])) s := by
  rw [seenFrom_tag ht, readHtml_piece hx hu]
  rw [rowsOf, h1, h2, h3, if_neg (by simp), if_neg (by simp), if_pos rfl, rowsOf, rowsOf, h4, h5, h6, h7, if_neg (by simp), if_neg (by simp),
    if_neg (by simp), if_pos rfl]
  rfl

theorem nbsp_noTag : '<' ∉ S "&nbsp;" := by decide

/-- The text of a cell as it is written. -/
def shownText (s : Str) : Str := if s = [] then S "&nbsp;" else s

theorem shownText_noTag {s : Str} (h : '<' ∉ s) : '<' ∉ shownText s := by
  unfold shownText
  split
  · exact nbsp_noTag
  · exact h

theorem seen_td (variant : Bool) (x : Str) (hx : '<' ∉ x) (row : List SeenCell) (s : Str) :
    seenFrom (some row) (({ text := x, bgcolor := some (if variant then S "FF0000" else S "00FFFF") } : TableCell).html ++ s) =
      seenFrom (some (row ++ [⟨if variant then S "TD bgcolor=\"FF0000\"" else S "TD bgcolor=\"00FFFF\"", shownText x⟩])) s := by
  cases variant with
  | true =>
    have e : ({ text := x, bgcolor := some (S "FF0000") } : TableCell).html ++ s = S "  " ++
        ('<' :: (S "TD bgcolor=\"FF0000\"" ++ '>' :: (shownText x ++ '<' :: (S "/TD" ++ '>' :: (S "\n" ++ s))))) := by
      unfold TableCell.html shownText
      simp [setAttr, S, attribsStr, dset]
    rw [if_pos rfl, if_pos rfl, e, seenFrom_skip (by decide), seenFrom_cell (by decide) (shownText_noTag hx) (by decide) _ _ (by decide)
      (by decide) (by decide) (by decide) (by decide) (by decide) (by decide), seenFrom_skip (by decide)]
    rfl
  | false =>
    have e : ({ text := x, bgcolor := some (S "00FFFF") } : TableCell).html ++ s = S "  " ++
        ('<' :: (S "TD bgcolor=\"00FFFF\"" ++ '>' :: (shownText x ++ '<' :: (S "/TD" ++ '>' :: (S "\n" ++ s))))) := by
      unfold TableCell.html shownText
      simp [setAttr, S, attribsStr, dset]
    rw [if_neg (by simp), if_neg (by simp), e, seenFrom_skip (by decide), seenFrom_cell (by decide) (shownText_noTag hx) (by decide) _ _
      (by decide) (by decide) (by decide) (by decide) (by decide) (by decide) (by decide), seenFrom_skip (by decide)]
    rfl

theorem seen_th (x : Str) (hx : '<' ∉ x) (row : List SeenCell) (s : Str) :
    seenFrom (some row) (({ text := x, header := true } : TableCell).html ++ s) =
      seenFrom (some (row ++ [⟨S "TH", shownText x⟩])) s := by
  have e : ({ text := x, header := true } : TableCell).html ++ s = S "  " ++
      ('<' :: (S "TH" ++ '>' :: (shownText x ++ '<' :: (S "/TH" ++ '>' :: (S "\n" ++ s))))) := by
    unfold TableCell.html shownText
    simp [setAttr, S, attribsStr]
  rw [e, seenFrom_skip (by decide), seenFrom_cell (by decide) (shownText_noTag hx) (by decide) _ _ (by decide)
    (by decide) (by decide) (by decide) (by decide) (by decide) (by decide), seenFrom_skip (by decide)]
  rfl

theorem applyCol_none (col : Nat) (v : Option Str) : applyCol none col v = .ok v := by
  unfold applyCol
  split
  · contradiction
  · rfl

/-- A row without column attributes. -/
theorem cellsHtml_plain (r : TableRow) (h1 : r.colAlign = none) (h2 : r.colValign = none) (h3 : r.colChar = none) (h4 : r.colCharoff = none)
    (h5 : r.colStyles = none) : ∀ (i : Nat) (xs : List RowItem), r.cellsHtml i xs = .ok (xs.flatMap (fun x => match x with
      | .text s => ({ text := s, header := r.header } : TableCell).html
      | .cell c => c.html)) := by
  intro i xs
  induction xs generalizing i with
  | nil => rfl
  | cons x xs ih =>
    unfold TableRow.cellsHtml
    rw [h1, h2, h3, h4, h5]
    simp only [applyCol_none, bind_ok, ih]
    cases x <;> rfl

theorem seen_row (xs : List SeenCell) (cs : Str) (row : Option (List SeenCell)) (s : Str)
    (h : ∀ s, seenFrom (some []) (cs ++ s) = seenFrom (some xs) s) :
    seenFrom row (S " <TR" ++ (S ">\n" ++ (cs ++ (S " </TR>\n" ++ s)))) = xs :: seenFrom none s := by
  have e : S " <TR" ++ (S ">\n" ++ (cs ++ (S " </TR>\n" ++ s))) = S " " ++ ('<' :: (S "TR" ++ '>' :: (S "\n" ++ (cs ++
      (S " " ++ ('<' :: (S "/TR" ++ '>' :: (S "\n" ++ s)))))))) := by simp [S]
  rw [e, seenFrom_skip (by decide), seenFrom_tag (by decide)]
  have e1 : (S "TR").isPrefixOf (S "TR") = true := by decide
  have e2 : (S "TR").isPrefixOf (S "/TR") = false := by decide
  have e3 : (S "/TR").isPrefixOf (S "/TR") = true := by decide
  rw [rowsOf, e1, if_pos rfl]
  show seenFrom (some []) _ = _
  rw [seenFrom_skip (by decide), h, seenFrom_skip (by decide), seenFrom_tag (by decide), rowsOf, e2, e3, if_neg (by simp), if_pos rfl]
  show xs :: seenFrom none _ = _
  rw [seenFrom_skip (by decide)]

/-- The texts and colours of the cells, as they are seen. -/
def seenCells (l : List (Str × Bool)) : List SeenCell :=
  l.map (fun p => ⟨if p.2 then S "TD bgcolor=\"FF0000\"" else S "TD bgcolor=\"00FFFF\"", shownText p.1⟩)

section
variable {cc : CharClass} {f : WrapFn}

theorem html2TableCells_ok (hf : WrapSpec f) (ha : AsciiSpaces cc) : ∀ (l : List (Str × Bool)), (∀ p ∈ l, '<' ∉ p.1) →
    ∃ ys : List (Str × Bool), html2TableCells cc f l = .ok (ys.map (fun p =>
        .cell { text := p.1, bgcolor := some (if p.2 then S "FF0000" else S "00FFFF") })) ∧
      List.Forall₂ (fun (p q : Str × Bool) => fill20 cc f p.1 = .ok q.1 ∧ Wrapped cc p.1 q.1 ∧ p.2 = q.2 ∧ '<' ∉ q.1) l ys
  | [], _ => ⟨[], rfl, .nil⟩
  | (s, v) :: l, h => by
    obtain ⟨r, h1, h2, h3⟩ := fill20_ok hf ha s
    obtain ⟨ys, h4, h5⟩ := html2TableCells_ok hf ha l (fun p hp => h p (by simp [hp]))
    refine ⟨(r, v) :: ys, ?_, .cons ⟨h1, h2, rfl, ?_⟩ h5⟩
    · unfold html2TableCells; rw [h1, h4]; rfl
    · intro hm
      rcases h3 _ hm with e | e | e
      · exact absurd e (by decide)
      · exact absurd e (by decide)
      · exact h (s, v) (by simp) e

theorem seen_cells : ∀ (ys : List (Str × Bool)), (∀ p ∈ ys, '<' ∉ p.1) → ∀ (row : List SeenCell) (s : Str),
    seenFrom (some row) ((ys.flatMap (fun p => ({ text := p.1, bgcolor := some (if p.2 then S "FF0000" else S "00FFFF") } : TableCell).html)) ++ s)
      = seenFrom (some (row ++ seenCells ys)) s
  | [], _, row, s => by simp [seenCells]
  | p :: ys, h, row, s => by
    rw [List.flatMap_cons, List.append_assoc, seen_td _ _ (h p (by simp)), seen_cells ys (fun q hq => h q (by simp [hq]))]
    simp [seenCells]

theorem seen_head : ∀ (xs : List Str), (∀ x ∈ xs, '<' ∉ x) → ∀ (row : List SeenCell) (s : Str),
    seenFrom (some row) ((xs.flatMap (fun x => ({ text := x, header := true } : TableCell).html)) ++ s)
      = seenFrom (some (row ++ xs.map (fun x => ⟨S "TH", shownText x⟩))) s
  | [], _, row, s => by simp
  | x :: xs, h, row, s => by
    rw [List.flatMap_cons, List.append_assoc, seen_th _ (h x (by simp)), seen_head xs (fun q hq => h q (by simp [hq]))]
    simp

theorem html2TableRows_ok (hf : WrapSpec f) (ha : AsciiSpaces cc) (t : HtmlTable) (h1 : t.colAlign = none) (h2 : t.colValign = none)
    (h3 : t.colChar = none) (h4 : t.colCharoff = none) (h5 : t.colStyles = none) :
    ∀ (l : List (List (Str × Bool))), (∀ r ∈ l, ∀ p ∈ r, '<' ∉ p.1) →
    ∃ (rows : List RowIn) (yss : List (List (Str × Bool))) (out : Str), html2TableRows cc f l = .ok rows ∧ t.rowsHtml rows = .ok out ∧
      List.Forall₂ (List.Forall₂ (fun (p q : Str × Bool) => fill20 cc f p.1 = .ok q.1 ∧ Wrapped cc p.1 q.1 ∧ p.2 = q.2 ∧ '<' ∉ q.1)) l yss ∧
      ∀ s, seenFrom none (out ++ s) = yss.map seenCells ++ seenFrom none s
  | [], _ => ⟨[], [], [], rfl, rfl, .nil, fun s => rfl⟩
  | r :: l, h => by
    obtain ⟨ys, a1, a2⟩ := html2TableCells_ok hf ha r (h r (by simp))
    obtain ⟨rows, yss, out, b1, b2, b3, b4⟩ := html2TableRows_ok hf ha t h1 h2 h3 h4 h5 l (fun r hr => h r (by simp [hr]))
    have hno : ∀ p ∈ ys, '<' ∉ p.1 := by
      clear a1 h
      induction a2 with
      | nil => intro p hp; cases hp
      | cons x _ ih =>
        intro p hp
        rcases List.mem_cons.mp hp with rfl | hp
        · exact x.2.2.2
        · exact ih p hp
    refine ⟨_, ys :: yss, S " <TR" ++ (S ">\n" ++ (ys.flatMap (fun p =>
        ({ text := p.1, bgcolor := some (if p.2 then S "FF0000" else S "00FFFF") } : TableCell).html) ++ (S " </TR>\n" ++ out))),
      by unfold html2TableRows; rw [a1, b1]; rfl, ?_, .cons a2 b3, ?_⟩
    · unfold HtmlTable.rowsHtml
      rw [h1, h2, h3, h4, h5]
      simp only [inheritCol]
      unfold TableRow.html
      rw [cellsHtml_plain _ rfl rfl rfl rfl rfl, b2]
      simp only [bind_ok, List.flatMap_map, setAttr, attribsStr]
      simp
    · intro s
      have := seen_row (seenCells ys) (ys.flatMap (fun p => ({ text := p.1, bgcolor := some (if p.2 then S "FF0000" else S "00FFFF") } : TableCell).html))
        none (out ++ s) (fun s => by rw [seen_cells ys hno]; rfl)
      simp only [List.append_assoc]
      rw [this, b4]
      rfl

end

end CollateX
