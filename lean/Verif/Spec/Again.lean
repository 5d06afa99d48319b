import Verif.Spec.Json
import Verif.Model.Export
/-
The JSON output taken as input: from the value, and from the text.
-/

namespace CollateX.Spec

/-- The JSON output as input: for each witness, its siglum and the tokens of its row. -/
def inputOfTable (j : JsonTable) : List WitnessData :=
  List.zipWith (fun σ row => { id := some σ, tokens := some (row.filterMap id).flatten }) j.witnesses j.table

/-- The key with the given name. -/
def keyOf (s : Str) : Key :=
  if s = S "t" then .t else if s = S "n" then .n else if s = S "_sigil" then .sigil
  else if s = S "_token_array_position" then .pos else .other s

/-- A value of a record: strings and natural numbers are known, other values are opaque with the code `code v`. -/
def valueOf (code : Json → Str) : Json → JVal
  | .str s => .str s
  | .int (.ofNat n) => .nat n
  | v => .raw (code v)

/-- A token record. -/
def recordOf (code : Json → Str) : Json → Option TokenData
  | .obj l => some (l.map fun e => (keyOf e.1, valueOf code e.2))
  | _ => none

/-- The token records of a cell. -/
def jsonCellOf (code : Json → Str) : Json → Option (List TokenData)
  | .null => some []
  | .arr l => l.mapM (recordOf code)
  | _ => none

/-- The token records of a row. -/
def jsonRowOf (code : Json → Str) : Json → Option (List TokenData)
  | .arr l => (l.mapM (jsonCellOf code)).map List.flatten
  | _ => none

def stringOf : Json → Option Str
  | .str s => some s
  | _ => none

/-- The witnesses that the value of a JSON output describes: each siglum with the tokens of its row. -/
def inputOfJson (code : Json → Str) : Json → Option (List WitnessData)
  | .obj fields =>
    match dget fields (S "witnesses"), dget fields (S "table") with
    | some (.arr σs), some (.arr rows) => do
      let ids ← σs.mapM stringOf
      let tokens ← rows.mapM (jsonRowOf code)
      some (List.zipWith (fun σ ts => { id := some σ, tokens := some ts }) ids tokens)
    | _, _ => none
  | _ => none

/-- A record that is a dict: distinct keys, each with one representation, and opaque values that can be told from their codes. -/
structure IsRecord (raw : Str → Json) (code : Json → Str) (d : TokenData) : Prop where
  keys : (d.map Prod.fst).Nodup
  names : ∀ s v, (Key.other s, v) ∈ d → s ≠ S "t" ∧ s ≠ S "n" ∧ s ≠ S "_sigil" ∧ s ≠ S "_token_array_position"
  values : ∀ k r, (k, JVal.raw r) ∈ d → ∀ v, SameValue v (raw r) → valueOf code v = .raw r

end CollateX.Spec
