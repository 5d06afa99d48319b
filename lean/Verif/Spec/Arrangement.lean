import Verif.Model.Basic
/-
Arrangements of two texts in a table with two rows.
-/

namespace CollateX.Spec
open CollateX

/-- A column of a table with two rows. -/
abbrev Pairing := Option Str × Option Str

/-- An arrangement of two texts in two rows, without empty columns. -/
structure Arrangement (A B : List Str) (cols : List Pairing) : Prop where
  first : cols.filterMap Prod.fst = A
  second : cols.filterMap Prod.snd = B
  full : ∀ c ∈ cols, c ≠ (none, none)

/-- The columns with equal strings less the other columns. -/
def balance (cols : List Pairing) : Int := (cols.map (fun c => if c.1 = c.2 then (1 : Int) else -1)).sum

end CollateX.Spec
