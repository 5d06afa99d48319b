import Verif.Model.Collate
import Mathlib.Data.List.Forall2
/-
Specifications of the output formats: readers for them, and what a table is.
-/

namespace CollateX.Spec

/-- `s` is the text of the tokens `ts`: the concatenation of their `t` values, which are all strings. -/
def TextOf (ts : List Token) (s : Str) : Prop :=
  ∃ l : List Str, ts.map (fun t => dget t.data .t) = l.map (fun x => some (JVal.str x)) ∧ l.flatten = s

/-- The text of a cell: none for an empty cell. -/
def CellTextOf (c : Option (List Token)) (s : Str) : Prop := TextOf (c.getD []) s

/-- A table in which rows and columns say the same: distinct sigla, cells that are entries of the columns, columns that have only
entries of the rows and no empty entries. -/
structure GoodTable (t : Table) : Prop where
  sigla : (t.rows.map Row.header).Nodup
  cells : ∀ r ∈ t.rows, r.cells = t.columns.map (fun c => dget c.tokens r.header)
  keys : ∀ c ∈ t.columns, (c.tokens.map Prod.fst).Nodup ∧ ∀ σ ∈ c.tokens.map Prod.fst, σ ∈ t.rows.map Row.header
  full : ∀ c ∈ t.columns, ∀ σ ts, dget c.tokens σ = some ts → ts ≠ []

/-! ### A CSV reader -/

/-- The states of the reader: at the beginning of a field, in a field without quotes, in a quoted field, after a quote in a
quoted field. -/
inductive ReadState where
  | start | plain | quoted | quote

/-- A CSV reader: fields are separated by `d`, records end at a line feed, a field may be enclosed in quotes, in which case a
doubled quote stands for a quote. (Carriage returns are not handled.) The arguments after `d` are the state, the current
field, the current record and the input. -/
def readCsvFrom (d : Char) : ReadState → Str → List Str → Str → List (List Str)
  | .start, f, r, [] => if r = [] then [] else [r ++ [f]]
  | _, f, r, [] => [r ++ [f]]
  | .start, f, r, c :: cs =>
    if c = '"' then readCsvFrom d .quoted f r cs
    else if c = d then readCsvFrom d .start [] (r ++ [f]) cs
    else if c = '\n' then (r ++ [f]) :: readCsvFrom d .start [] [] cs
    else readCsvFrom d .plain (f ++ [c]) r cs
  | .plain, f, r, c :: cs =>
    if c = d then readCsvFrom d .start [] (r ++ [f]) cs
    else if c = '\n' then (r ++ [f]) :: readCsvFrom d .start [] [] cs
    else readCsvFrom d .plain (f ++ [c]) r cs
  | .quoted, f, r, c :: cs =>
    if c = '"' then readCsvFrom d .quote f r cs else readCsvFrom d .quoted (f ++ [c]) r cs
  | .quote, f, r, c :: cs =>
    if c = '"' then readCsvFrom d .quoted (f ++ [c]) r cs
    else if c = d then readCsvFrom d .start [] (r ++ [f]) cs
    else if c = '\n' then (r ++ [f]) :: readCsvFrom d .start [] [] cs
    else readCsvFrom d .plain (f ++ [c]) r cs

/-- The records of a CSV text. -/
def readCsv (d : Char) (s : Str) : List (List Str) := readCsvFrom d .start [] [] s

/-! ### Reading XML and TEI -/

/-- How a value is printed. -/
def Printed (v : JVal) (s : Str) : Prop :=
  match v with
  | .str x => s = x
  | .nat n => s = (toString n).toList
  | .raw r => s = r

/-- `s` is the concatenation of the printed `t` values of the tokens. -/
def PrintedText (ts : List Token) (s : Str) : Prop :=
  ∃ l : List Str, List.Forall₂ (fun t x => ∃ v, dget t.data .t = some v ∧ Printed v x) ts l ∧ l.flatten = s

/-- The words of a string that are separated by single blanks. -/
def splitBlanks : Str → List Str
  | [] => [[]]
  | c :: cs => if c = ' ' then [] :: splitBlanks cs else
    match splitBlanks cs with
    | [] => [[c]]
    | w :: ws => (c :: w) :: ws

/-- The `wit` attribute has a reference to `σ`. -/
def Lists (r : Rdg) (σ : Str) : Prop := '#' :: σ ∈ splitBlanks r.wit

instance (r : Rdg) (σ : Str) : Decidable (Lists r σ) := inferInstanceAs (Decidable (_ ∈ _))

/-- `n` is `s` without the white space at both ends. -/
def Stripped (cc : CharClass) (s n : Str) : Prop :=
  (∃ a b, s = a ++ n ++ b ∧ (∀ c ∈ a, cc.space c = true) ∧ ∀ c ∈ b, cc.space c = true) ∧
  (∀ c, n.head? = some c → cc.space c = false) ∧ ∀ c, n.getLast? = some c → cc.space c = false

/-- The text of one witness in a TEI apparatus: the text outside of `app` elements and the readings that list the witness. -/
def teiText (σ : Str) (nodes : List TeiNode) : Str :=
  nodes.flatMap (fun n => match n with
    | .text s => s
    | .app rdgs => rdgs.flatMap (fun r => if Lists r σ then r.text else []))

/-- The TEI output column by column: one node, and possibly a blank as separator. -/
def flatPieces (pieces : List (TeiNode × Bool)) : List TeiNode :=
  pieces.flatMap (fun p => p.1 :: (if p.2 then [.text [' ']] else []))

/-- What the node of a column should be: text if all the witnesses `sigla` have the same reading (up to white space at both ends), and
otherwise an `app` with distinct readings, in which every witness that has tokens in the column is listed in exactly one
reading, its own, and no other witness is listed. -/
structure TeiColumn (cc : CharClass) (sigla : List Str) (c : Column) (n : TeiNode) : Prop where
  text : ∀ s, n = .text s ↔ ∀ σ ∈ sigla, ∃ ts r, dget c.tokens σ = some ts ∧ TextOf ts r ∧ Stripped cc r s
  distinct : ∀ rdgs, n = .app rdgs → (rdgs.map Rdg.text).Nodup
  once : ∀ rdgs, n = .app rdgs → ∀ σ ts r, dget c.tokens σ = some ts → TextOf ts r →
    ∃ x ∈ rdgs, Stripped cc r x.text ∧ Lists x σ ∧ ∀ y ∈ rdgs, Lists y σ → y = x
  only : ∀ rdgs, n = .app rdgs → ∀ x ∈ rdgs, (∃ σ, Lists x σ) ∧ ∀ σ, Lists x σ → ∃ ts, dget c.tokens σ = some ts

/-- The text without white space. -/
def squeeze (cc : CharClass) (s : Str) : Str := s.filter (fun c => !cc.space c)

end CollateX.Spec
