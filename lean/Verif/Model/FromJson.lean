import Verif.Model.Witness
import Verif.Model.JsonText
/-
`Collation.create_from_json` (core_classes.py 31–36). `json.load` is a parameter: what value a text is, if it is a JSON text. It is
assumed to give dicts as lists of all entries of the text; `dictOf` makes the dict of them.
-/

namespace CollateX

/-- A dict made from entries one after the other: a later entry with the same key replaces the value. -/
def dictOf (l : List (Str × Json)) : Dict Str Json := l.foldl (fun d e => dset d e.1 e.2) []

/-- The key of a token record with the given name. -/
def jsonKey (s : Str) : Key :=
  if s = S "t" then .t else if s = S "n" then .n else if s = S "_sigil" then .sigil
  else if s = S "_token_array_position" then .pos else .other s

/-- A value of a token record: strings and natural numbers, other values by their code. -/
def jsonValue (code : Json → Str) : Json → JVal
  | .str s => .str s
  | .int (.ofNat n) => .nat n
  | v => .raw (code v)

/-- Whether `'n' in tokendata` or `'t' in tokendata` for an item of a list. -/
def isTextKey : Json → Bool
  | .str s => s == S "n" || s == S "t"
  | _ => false

/-- core_classes.py 167–180, a token record. `in` looks for the letter in a string and for the item in a list; if it is found, taking the
item `'n'` or `'t'` of a string or a list is a TypeError, and otherwise there is a TokenError. For numbers `in` is a TypeError.
Simplification: `null` is a TypeError (in the code it makes an empty token whose data are None). -/
def jsonRecord (code : Json → Str) : Json → Py TokenData
  | .obj l => .ok ((dictOf l).map fun e => (jsonKey e.1, jsonValue code e.2))
  | .str s => .error (if s.contains 'n' || s.contains 't' then .typeError else .tokenError)
  | .arr vs => .error (if vs.any isTextKey then .typeError else .tokenError)
  | _ => .error .typeError

/-- core_classes.py 195–196, the items of `witnessdata['tokens']`. Simplification: an item that is no dict fails before a dict without text
that stands earlier. -/
def jsonRecords (code : Json → Str) : List Json → Py (List TokenData)
  | [] => .ok []
  | v :: vs => do
    let d ← jsonRecord code v
    let ds ← jsonRecords code vs
    .ok (d :: ds)

/-- core_classes.py 186–196, what is looked up in a witness: a missing `id` is a KeyError, a content that is no string a TypeError (from
`re.findall`), and `tokens` is looked at only if there is no `content`. Simplifications: a siglum that is no string and tokens that are
no list are TypeErrors. -/
def jsonWitness (code : Json → Str) : Json → Py WitnessData
  | .obj l =>
    match dget (dictOf l) (S "id") with
    | none => .error .keyError
    | some (.str σ) =>
      match dget (dictOf l) (S "content") with
      | some (.str c) => .ok { id := some σ, content := some c }
      | some _ => .error .typeError
      | none =>
        match dget (dictOf l) (S "tokens") with
        | some (.arr vs) => do
          let ds ← jsonRecords code vs
          .ok { id := some σ, tokens := some ds }
        | some _ => .error .typeError
        | none => .ok { id := some σ }
    | some _ => .error .typeError
  | _ => .error .typeError

/-- core_classes.py 25–27: the loop over the witnesses. -/
def addJsonWitnesses (code : Json → Str) (cc : CharClass) (c : Collation) : List Json → Py Collation
  | [] => .ok c
  | v :: vs => do
    let w ← jsonWitness code v
    let c' ← addWitness cc c w
    addJsonWitnesses code cc c' vs

/-- core_classes.py 22–28, `Collation.create_from_dict` on a value read by `json.load`, without limit. `witnesses[:None]` of the empty
string is the empty string; a character of another string has no item `'id'`. -/
def createFromValue (code : Json → Str) (cc : CharClass) : Json → Py Collation
  | .obj l =>
    match dget (dictOf l) (S "witnesses") with
    | none => .error .keyError
    | some (.arr vs) => addJsonWitnesses code cc [] vs
    | some (.str []) => .ok []
    | some _ => .error .typeError
  | _ => .error .typeError

/-- What `create_from_json` can be given ("json_data can be a string or a file"). -/
inductive JsonSource where
  | string (s : Str)
  | file (contents : Str)

/-- core_classes.py 33–36, `Collation.create_from_json`: `json.load(fp)` is `loads(fp.read())`, and a string has no method `read`. A text
that is not JSON is a JSONDecodeError, a kind of ValueError. -/
def createFromJson (load : Str → Option Json) (code : Json → Str) (cc : CharClass) : JsonSource → Py Collation
  | .string _ => .error .attributeError
  | .file s =>
    match load s with
    | none => .error .valueError
    | some v => createFromValue code cc v

end CollateX
