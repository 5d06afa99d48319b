import Verif.Spec.Again
/-
Reading the texts of the witnesses from the JSON output, for C90.
-/

namespace CollateX.Spec

/-- Plain texts with their sigla, as input: `{'id': ..., 'content': ...}`. -/
def plainInput (texts : List (Str × Str)) : List WitnessData := texts.map (fun p => { id := some p.1, content := some p.2 })

/-- The text of a token: its field `t`. -/
def jsonTokenText : Json → Option Str
  | .obj l => (dget l (S "t")).bind stringOf
  | _ => none

/-- The text of a cell; an empty cell is `null`. -/
def jsonCellText : Json → Option Str
  | .null => some []
  | .arr l => (l.mapM jsonTokenText).map List.flatten
  | _ => none

/-- The texts of the cells of a row (or column). -/
def jsonLineTexts : Json → Option (List Str)
  | .arr l => l.mapM jsonCellText
  | _ => none

/-- The sigla and the texts of all cells. -/
def jsonCells : Json → Option (List Str × List (List Str))
  | .obj fields =>
    match dget fields (S "witnesses"), dget fields (S "table") with
    | some (.arr σs), some (.arr rows) => do
      let ids ← σs.mapM stringOf
      let cells ← rows.mapM jsonLineTexts
      some (ids, cells)
    | _, _ => none
  | _ => none

/-- The witnesses of a JSON output with a row for each witness: siglum and text. -/
def jsonTexts (v : Json) : Option (List (Str × Str)) := do
  let (ids, rows) ← jsonCells v
  if ids.length = rows.length then some (ids.zip (rows.map List.flatten)) else none

/-- The witnesses of a JSON output in vertical layout, with a list of cells for each column: siglum and text. -/
def jsonVerticalTexts (v : Json) : Option (List (Str × Str)) := do
  let (ids, cols) ← jsonCells v
  if ∀ c ∈ cols, c.length = ids.length then some (ids.zipIdx.map (fun p => (p.1, (cols.map (fun c => c.getD p.2 [])).flatten))) else none

end CollateX.Spec
