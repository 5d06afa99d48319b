import Verif.Spec.Json
import Verif.Model.Witness
/-
C120: what it means that a JSON value describes witnesses. Other entries may be there; the order of entries does not matter.
-/

namespace CollateX.Spec

/-- A token record as a JSON value. -/
def RecordOf (raw : Str → Json) (d : TokenData) (v : Json) : Prop :=
  ∃ l l', v = .obj l ∧ l.Perm l' ∧ List.Forall₂ (fun e a => KeyIs e.1 a.1 ∧ ReadsValue raw e.2 a.2) d l'

/-- A witness as a JSON value. -/
structure WitnessOf (raw : Str → Json) (w : WitnessData) (v : Json) : Prop where
  obj : ∃ l, v = .obj l ∧ (l.map Prod.fst).Nodup ∧
    (∀ x, (S "id", x) ∈ l ↔ ∃ s, w.id = some s ∧ x = .str s) ∧
    (∀ x, (S "content", x) ∈ l ↔ ∃ s, w.content = some s ∧ x = .str s) ∧
    (∀ x, (S "tokens", x) ∈ l → ∃ ds vs, w.tokens = some ds ∧ x = .arr vs ∧ List.Forall₂ (RecordOf raw) ds vs) ∧
    (w.tokens ≠ none → ∃ x, (S "tokens", x) ∈ l)

/-- The witnesses that a JSON value describes. -/
def DocumentOf (raw : Str → Json) (data : List WitnessData) (v : Json) : Prop :=
  ∃ l vs, v = .obj l ∧ (l.map Prod.fst).Nodup ∧ (S "witnesses", .arr vs) ∈ l ∧ List.Forall₂ (WitnessOf raw) data vs

/-- The JSON value of a witness, as a user would write it. -/
def witnessJson (raw : Str → Json) (w : WitnessData) : Json :=
  .obj ((w.id.toList.map fun s => (S "id", .str s)) ++ (w.content.toList.map fun s => (S "content", .str s)) ++
    (w.tokens.toList.map fun ds => (S "tokens", .arr (ds.map (recordJson raw)))))

/-- The JSON value of the input of a collation. -/
def inputJson (raw : Str → Json) (data : List WitnessData) : Json :=
  .obj [(S "witnesses", .arr (data.map (witnessJson raw)))]

/-- The same witnesses, but for the order of the entries of the token records. -/
def SameWitness (w w' : Witness) : Prop :=
  w'.sigil = w.sigil ∧ List.Forall₂ (fun t t' => t'.str = t.str ∧ t'.data.Perm t.data) w.tokens w'.tokens

end CollateX.Spec
