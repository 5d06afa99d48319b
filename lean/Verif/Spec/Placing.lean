import Verif.Model.Graph
/-
Placing a further text against the columns of a table.
-/

namespace CollateX.Spec
open CollateX

/-- The strings in a cell of a row. -/
def cellAt (r : Row) (j : Nat) : Option (List Str) := ((r.cells[j]?).join).map (List.map Token.str)

/-- The words that stand in column `j` of some rows. -/
def wordsAt (rows : List Row) (j : Nat) : List Str := rows.flatMap (fun r => (cellAt r j).getD [])

/-- The words of each column of a table. -/
def columnWords (t : Table) : List (List Str) := (List.range t.columns.length).map (wordsAt t.rows)

/-- A column of a table and a word put below it; either may be missing. -/
abbrev Place := Option (List Str) × Option Str

/-- The words of a text are put below the columns of a table, or between them, in order. -/
structure Placing (C : List (List Str)) (B : List Str) (pl : List Place) : Prop where
  first : pl.filterMap Prod.fst = C
  second : pl.filterMap Prod.snd = B
  full : ∀ c ∈ pl, c ≠ (none, none)

/-- The word is one of those in the column. -/
def fits : Place → Bool
  | (some ws, some a) => decide (a ∈ ws)
  | _ => false

/-- The places where the word is in the column less the other places. -/
def gain (pl : List Place) : Int := (pl.map (fun c => if fits c then (1 : Int) else -1)).sum

/-- In column `j`, the last row has a word that another row has, too. -/
def lastAgrees (t : Table) (j : Nat) : Bool :=
  match t.rows.getLast?.bind (fun r => cellAt r j) with
  | some ws => ws.any (fun a => decide (a ∈ wordsAt t.rows.dropLast j))
  | none => false

/-- The columns in which the last row agrees with another less the other columns. -/
def gainOfLast (t : Table) : Int := ((List.range t.columns.length).map (fun j => if lastAgrees t j then (1 : Int) else -1)).sum

end CollateX.Spec
