import Verif.Props.Export
/-
C36 for texts with line ends: what becomes of carriage returns in the CSV output.
-/

namespace CollateX

open Spec

/-- The text `y` is the text `x` with all its line ends (`\r\n`, `\r` and `\n`) written as `\n`. -/
inductive Spec.LineEnds : Str → Str → Prop
  | nil : LineEnds [] []
  | crlf {x y} : LineEnds x y → LineEnds ('\r' :: '\n' :: x) ('\n' :: y)
  | cr {x y} : x.head? ≠ some '\n' → LineEnds x y → LineEnds ('\r' :: x) ('\n' :: y)
  | other {c x y} : c ≠ '\r' → LineEnds x y → LineEnds (c :: x) (c :: y)

theorem universalNewlines_cr {x : Str} (h : x.head? ≠ some '\n') : universalNewlines ('\r' :: x) = '\n' :: universalNewlines x := by
  rw [universalNewlines]
  intro cs e
  rw [e] at h
  simp at h

theorem universalNewlines_other {c : Char} (x : Str) (h : c ≠ '\r') : universalNewlines (c :: x) = c :: universalNewlines x := by
  rw [universalNewlines]
  · intro _ e; exact absurd e h
  · intro e; exact absurd e h

theorem lineEnds_universal : ∀ (n : Nat) (x : Str), x.length ≤ n → LineEnds x (universalNewlines x)
  | _, [], _ => .nil
  | 0, _ :: _, h => absurd h (by simp)
  | n + 1, c :: x, h => by
    simp only [List.length_cons, Nat.add_le_add_iff_right] at h
    by_cases hc : c = '\r'
    · subst hc
      by_cases hx : x.head? = some '\n'
      · cases x with
        | nil => cases hx
        | cons a x =>
          simp only [List.head?_cons, Option.some.injEq] at hx
          subst hx
          rw [universalNewlines]
          exact .crlf (lineEnds_universal n x (by simp at h; omega))
      · rw [universalNewlines_cr hx]
        exact .cr hx (lineEnds_universal n x h)
    · rw [universalNewlines_other x hc]
      exact .other hc (lineEnds_universal n x h)

/-- The text that stands for `x` is determined. -/
theorem lineEnds_eq {x y : Str} (h : LineEnds x y) : y = universalNewlines x := by
  induction h with
  | nil => rfl
  | crlf _ ih => rw [universalNewlines, ih]
  | cr hx _ ih => rw [universalNewlines_cr hx, ih]
  | other hc _ ih => rw [universalNewlines_other _ hc, ih]

theorem universalNewlines_append {b : Str} (hb : b.head? ≠ some '\n') (a : Str) :
    universalNewlines (a ++ b) = universalNewlines a ++ universalNewlines b := by
  suffices h : ∀ {x y}, LineEnds x y → universalNewlines (x ++ b) = y ++ universalNewlines b from
    h (lineEnds_universal _ a (Nat.le_refl _))
  intro x y h
  induction h with
  | nil => rfl
  | crlf _ ih => simp only [List.cons_append]; rw [universalNewlines, ih]
  | @cr x y hx _ ih =>
    simp only [List.cons_append]
    rw [universalNewlines_cr, ih]
    cases x with
    | nil => exact hb
    | cons a x => exact hx
  | other hc _ ih => simp only [List.cons_append]; rw [universalNewlines_other _ hc, ih]

theorem needsQuote_universal {d : Char} (hr : d ≠ '\r') (hn : d ≠ '\n') (s : Str) :
    csvNeedsQuote d (universalNewlines s) = csvNeedsQuote d s := by
  suffices h : ∀ {x y}, LineEnds x y → csvNeedsQuote d y = csvNeedsQuote d x from h (lineEnds_universal _ s (Nat.le_refl _))
  intro x y h
  induction h with
  | nil => rfl
  | crlf _ ih => simp [csvNeedsQuote]
  | cr _ _ ih => simp [csvNeedsQuote]
  | other _ _ ih =>
    unfold csvNeedsQuote at ih ⊢
    rw [List.any_cons, List.any_cons, ih]

theorem csvDouble_head {x : Str} (h : x.head? ≠ some '\n') : (csvDouble x).head? ≠ some '\n' := by
  cases x with
  | nil => simp [csvDouble]
  | cons c x =>
    unfold csvDouble
    split
    · simp
    · simpa using h

theorem csvDouble_universal (s : Str) : universalNewlines (csvDouble s) = csvDouble (universalNewlines s) := by
  suffices h : ∀ {x y}, LineEnds x y → universalNewlines (csvDouble x) = csvDouble y from h (lineEnds_universal _ s (Nat.le_refl _))
  intro x y h
  induction h with
  | nil => rfl
  | crlf _ ih =>
    show universalNewlines ('\r' :: '\n' :: csvDouble _) = '\n' :: csvDouble _
    rw [universalNewlines, ih]
  | cr hx _ ih =>
    show universalNewlines ('\r' :: csvDouble _) = '\n' :: csvDouble _
    rw [universalNewlines_cr (csvDouble_head hx), ih]
  | @other c x y hc _ ih =>
    unfold csvDouble
    by_cases hq : c = '"'
    · subst hq
      simp only [beq_self_eq_true, if_true]
      rw [universalNewlines_other _ hc, universalNewlines_other _ hc, ih]
    · simp only [beq_iff_eq, hq, if_false]
      rw [universalNewlines_other _ hc, ih]

theorem csvField_universal {d : Char} (hr : d ≠ '\r') (hn : d ≠ '\n') (x : Option Str) :
    universalNewlines (csvField d x) = csvField d (x.map universalNewlines) := by
  cases x with
  | none => rfl
  | some s =>
    unfold csvField
    simp only [Option.map_some]
    rw [needsQuote_universal hr hn]
    split
    · rw [universalNewlines_other _ (by decide), universalNewlines_append (by decide), csvDouble_universal]
      rfl
    · rfl

theorem csvJoin_universal {d : Char} (hr : d ≠ '\r') (hn : d ≠ '\n') : ∀ l : List Str,
    universalNewlines (csvJoin d l) = csvJoin d (l.map universalNewlines)
  | [] => rfl
  | [s] => rfl
  | s :: t :: l => by
    show universalNewlines (s ++ d :: csvJoin d (t :: l)) = universalNewlines s ++ d :: csvJoin d ((t :: l).map universalNewlines)
    rw [universalNewlines_append (by simpa using hn), universalNewlines_other _ hr, csvJoin_universal hr hn]

theorem universalNewlines_nil {s : Str} : universalNewlines s = [] ↔ s = [] := by
  constructor
  · intro h
    have := lineEnds_universal _ s (Nat.le_refl _)
    rw [h] at this
    cases this
    rfl
  · rintro rfl; rfl

/-- What is written for a record is what would be written for the record with its line ends replaced. -/
theorem csvRecord_universal {d : Char} (hr : d ≠ '\r') (hn : d ≠ '\n') (fields : List (Option Str)) :
    universalNewlines (csvRecord d fields) = universalNewlines (csvRecord d (fields.map (Option.map universalNewlines))) := by
  have hj : csvJoin d ((fields.map (Option.map universalNewlines)).map (csvField d)) = universalNewlines (csvJoin d (fields.map (csvField d))) := by
    rw [csvJoin_universal hr hn, List.map_map, List.map_map]
    congr 1
    exact List.map_congr_left (fun x _ => (csvField_universal hr hn x).symm)
  have hidem : ∀ s, universalNewlines (universalNewlines s) = universalNewlines s := by
    intro s
    suffices h : ∀ {x y}, LineEnds x y → universalNewlines y = y from h (lineEnds_universal _ s (Nat.le_refl _))
    intro x y h
    induction h with
    | nil => rfl
    | crlf _ ih => rw [universalNewlines_other _ (by decide), ih]
    | cr _ _ ih => rw [universalNewlines_other _ (by decide), ih]
    | other hc _ ih => rw [universalNewlines_other _ hc, ih]
  unfold csvRecord
  simp only
  rw [hj]
  by_cases h0 : csvJoin d (fields.map (csvField d)) = [] ∧ fields ≠ []
  · rw [if_pos h0, if_pos ⟨universalNewlines_nil.mpr h0.1, by simpa using h0.2⟩]
  · rw [if_neg h0, if_neg (by rw [universalNewlines_nil]; simpa using h0),
      universalNewlines_append (by decide), universalNewlines_append (by decide), hidem]

theorem no_cr_universal (s : Str) : '\r' ∉ universalNewlines s := by
  suffices h : ∀ {x y}, LineEnds x y → '\r' ∉ y from h (lineEnds_universal _ s (Nat.le_refl _))
  intro x y h
  induction h with
  | nil => simp
  | crlf _ ih => simpa using ih
  | cr _ _ ih => simpa using ih
  | other hc _ ih => simp only [List.mem_cons, not_or]; exact ⟨fun e => hc e.symm, ih⟩

theorem csvRows_lineEnds (d : Char) (hd : d ≠ '"') (hn : d ≠ '\n') (hr : d ≠ '\r') : ∀ {rows : List Row} {s : Str},
    csvRows d rows = .ok s →
    List.Forall₂ (fun r fields => ∃ h xs ys, fields = h :: ys ∧ LineEnds r.header h ∧ List.Forall₂ CellTextOf r.cells xs ∧
      List.Forall₂ LineEnds xs ys) rows (readCsvFrom d .start [] [] s)
  | [], s, h => by
    obtain rfl := Except.ok.inj h
    exact .nil
  | r :: rows, s, h => by
    unfold csvRows at h
    obtain ⟨xs, hxs, h⟩ := bind_eq_ok.mp h
    obtain ⟨rest, hrest, h⟩ := bind_eq_ok.mp h
    obtain rfl := Except.ok.inj h
    have hF := cellsToStrings_ok hxs
    rw [csvRecord_universal hr hn, List.map_cons, record_line hr _ _ (by
      intro y hy
      rw [← List.map_cons] at hy
      obtain ⟨z, _, rfl⟩ := List.mem_map.mp hy
      cases z with
      | none => simp
      | some z => exact no_cr_universal z) hd hn]
    refine .cons ⟨universalNewlines r.header, xs.map (fun o => o.getD []), xs.map (fun o => universalNewlines (o.getD [])), ?_,
      lineEnds_universal _ _ (Nat.le_refl _), ?_, ?_⟩ (csvRows_lineEnds d hd hn hr hrest)
    · rw [List.map_cons, List.map_map]
      congr 1
      refine List.map_congr_left (fun x _ => ?_)
      cases x <;> rfl
    · rw [List.forall₂_map_right_iff]
      exact hF
    · rw [List.forall₂_map_right_iff, List.forall₂_map_left_iff]
      exact List.forall₂_same.mpr (fun x _ => lineEnds_universal _ _ (Nat.le_refl _))

/-- C36 for every table. Reading the CSV (or TSV) output gives one record per row: the siglum and the text of each cell, in which the line
ends `\r\n` and `\r` have become `\n`. -/
theorem C36_line_ends (t : Table) (tsv : Bool) (s : Str) (h : exportCsv t tsv = .ok s) :
    List.Forall₂ (fun r fields => ∃ h xs ys, fields = h :: ys ∧ LineEnds r.header h ∧ List.Forall₂ CellTextOf r.cells xs ∧
      List.Forall₂ LineEnds xs ys) t.rows (readCsv (csvDelim tsv) s) := by
  cases tsv with
  | false => exact csvRows_lineEnds ',' (by decide) (by decide) (by decide) h
  | true => exact csvRows_lineEnds '\t' (by decide) (by decide) (by decide) h

/-- The line ends do change: a token `a\r` and a token `\r\nb` are read back with `\n`. -/
example : (exportCsv ⟨[], [⟨S "A", [some [⟨S "a", [(.t, .str (S "a\r"))]⟩], none, some [⟨S "b", [(.t, .str (S "\r\nb\""))]⟩]]⟩]⟩ false).map (readCsv ',') =
    .ok [[S "A", S "a\n", [], S "\nb\""]] := by decide +kernel

end CollateX
