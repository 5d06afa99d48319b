import Verif.Model.Export
/-
The text of the JSON output: `json.dumps(json_output, sort_keys=True, indent=indent, ensure_ascii=False)` in core_functions.py 106 and 122.
`json.dumps` is modelled from the source of Python's `json.encoder` (`_make_iterencode`, `ESCAPE`, `ESCAPE_DCT`).

Simplifications: no floating point numbers; `indent` is `None` or a number of blanks (`_indent` is `' ' * indent`).
-/

namespace CollateX

/-- A JSON value. A dict is the list of its entries. -/
inductive Json where
  | null
  | bool (b : Bool)
  | int (i : Int)
  | str (s : Str)
  | arr (l : List Json)
  | obj (l : List (Str × Json))

/-- A digit of `'{0:04x}'`. -/
def hexDigit (n : Nat) : Char := if n < 10 then Char.ofNat (48 + n) else Char.ofNat (87 + n)

/-- `ESCAPE_DCT` of json/encoder.py, for a character matched by `ESCAPE`; every other character stands for itself. -/
def jsonChar (c : Char) : Str :=
  if c = '\\' then S "\\\\"
  else if c = '"' then S "\\\""
  else if c.toNat = 8 then S "\\b"
  else if c.toNat = 12 then S "\\f"
  else if c = '\n' then S "\\n"
  else if c = '\r' then S "\\r"
  else if c = '\t' then S "\\t"
  else if c.toNat < 32 then ['\\', 'u', '0', '0', hexDigit (c.toNat / 16), hexDigit (c.toNat % 16)]
  else [c]

/-- `py_encode_basestring` -/
def jsonString (s : Str) : Str := '"' :: s.flatMap jsonChar ++ ['"']

/-- `int.__repr__` -/
def jsonInt : Int → Str
  | .ofNat n => natStr n
  | .negSucc n => '-' :: natStr (n + 1)

/-- `newline_indent` -/
def jsonNewline (indent : Option Nat) (level : Nat) : Str :=
  match indent with
  | none => []
  | some k => '\n' :: List.replicate (k * level) ' '

/-- `separator`: `', '` without indentation, otherwise `','` and `newline_indent`. -/
def jsonSep (indent : Option Nat) (level : Nat) : Str :=
  match indent with
  | none => S ", "
  | some _ => ',' :: jsonNewline indent level

/-- `items = sorted(dct.items())`: insertion of an entry; keys are compared by code point. -/
def insertEntry (x : Str × Json) : List (Str × Json) → List (Str × Json)
  | [] => [x]
  | y :: ys => if strLt x.1 y.1 then x :: y :: ys else y :: insertEntry x ys

mutual
/-- `sort_keys=True`: all entries in order of their keys. (json.encoder sorts a dict when it comes to it; here all are sorted first.) -/
def Json.sortKeys : Json → Json
  | .arr l => .arr (sortKeysList l)
  | .obj l => .obj (sortKeysEntries l)
  | v => v
/-- The values of a list. -/
def sortKeysList : List Json → List Json
  | [] => []
  | v :: l => v.sortKeys :: sortKeysList l
/-- The entries of a dict. -/
def sortKeysEntries : List (Str × Json) → List (Str × Json)
  | [] => []
  | (k, v) :: l => insertEntry (k, v.sortKeys) (sortKeysEntries l)
end

mutual
/-- `_iterencode`, at the indentation level `level`. -/
def Json.text (indent : Option Nat) : Json → Nat → Str
  | .null, _ => S "null"
  | .bool b, _ => if b then S "true" else S "false"
  | .int i, _ => jsonInt i
  | .str s, _ => jsonString s
  | .arr [], _ => S "[]"
  | .arr (v :: l), level =>
    '[' :: jsonNewline indent (level + 1) ++ v.text indent (level + 1) ++ textItems indent l (level + 1) ++ jsonNewline indent level ++ [']']
  | .obj [], _ => S "{}"
  | .obj ((k, v) :: l), level =>
    '{' :: jsonNewline indent (level + 1) ++ jsonString k ++ S ": " ++ v.text indent (level + 1) ++ textEntries indent l (level + 1) ++
      jsonNewline indent level ++ ['}']
/-- The items of a list after the first. -/
def textItems (indent : Option Nat) : List Json → Nat → Str
  | [], _ => []
  | v :: l, level => jsonSep indent level ++ v.text indent level ++ textItems indent l level
/-- The entries of a dict after the first. -/
def textEntries (indent : Option Nat) : List (Str × Json) → Nat → Str
  | [], _ => []
  | (k, v) :: l, level => jsonSep indent level ++ jsonString k ++ S ": " ++ v.text indent level ++ textEntries indent l level
end

/-- `json.dumps(v, sort_keys=True, indent=indent, ensure_ascii=False)` -/
def jsonDumps (indent : Option Nat) (v : Json) : Str := v.sortKeys.text indent 0

/-- The string that a key of a token record is. -/
def Key.name : Key → Str
  | .t => S "t"
  | .n => S "n"
  | .sigil => S "_sigil"
  | .pos => S "_token_array_position"
  | .other s => s

/-- The JSON value that a value of a token record is. What an opaque value is, is a parameter. -/
def JVal.json (raw : Str → Json) : JVal → Json
  | .str s => .str s
  | .nat n => .int n
  | .raw r => raw r

/-- A token record. -/
def recordJson (raw : Str → Json) (d : TokenData) : Json := .obj (d.map fun e => (e.1.name, e.2.json raw))

/-- A cell. -/
def cellJson (raw : Str → Json) : Option (List TokenData) → Json
  | none => .null
  | some ds => .arr (ds.map (recordJson raw))

/-- core_functions.py 92–122: the dict `json_output`. -/
def JsonTable.json (raw : Str → Json) (t : JsonTable) : Json :=
  .obj ([(S "table", .arr (t.table.map fun row => .arr (row.map (cellJson raw)))), (S "witnesses", .arr (t.witnesses.map .str))] ++
    match t.status with
    | none => []
    | some bs => [(S "status", .arr (bs.map .bool))])

/-- The return value of both exporters. -/
def JsonTable.text (raw : Str → Json) (indent : Option Nat) (t : JsonTable) : Str := jsonDumps indent (t.json raw)

end CollateX
