import Verif.Model.JsonText
import Verif.Spec.Text
import Mathlib.Data.List.Forall2
/-
A JSON reader (RFC 8259), apart from the writer: first the text is cut into symbols, then the symbols are read as a value. Numbers with a
fraction or an exponent, and `\u` escapes of surrogates, are not read.
-/

namespace CollateX.Spec

/-- The symbols of a JSON text. -/
inductive JTok where
  | lb | rb | lc | rc | comma | colon
  | str (s : Str)
  | int (i : Int)
  | null
  | bool (b : Bool)
  deriving DecidableEq

/-- What has been read of the current symbol. -/
inductive JLex where
  | start
  | str (s : Str)
  | esc (s : Str)
  | uni (s : Str) (left value : Nat)
  | num (neg : Bool) (digits : Str)
  | word (w : Str)
  deriving DecidableEq

/-- The character after a backslash. -/
def escaped (c : Char) : Option Char :=
  if c = '"' ∨ c = '\\' ∨ c = '/' then some c
  else if c = 'b' then some (Char.ofNat 8)
  else if c = 'f' then some (Char.ofNat 12)
  else if c = 'n' then some '\n'
  else if c = 'r' then some '\r'
  else if c = 't' then some '\t'
  else none

/-- A hexadecimal digit. -/
def hexValue (c : Char) : Option Nat :=
  if '0' ≤ c ∧ c ≤ '9' then some (c.toNat - 48)
  else if 'a' ≤ c ∧ c ≤ 'f' then some (c.toNat - 87)
  else if 'A' ≤ c ∧ c ≤ 'F' then some (c.toNat - 55)
  else none

/-- The symbol that ends when a number or a word ends. -/
def JLex.done : JLex → Option (List JTok)
  | .start => some []
  | .num neg ds =>
    if ds = [] ∨ (ds.head? = some '0' ∧ ds ≠ ['0']) then none
    else let n : Int := (Nat.ofDigitChars 10 ds 0 : Nat)
      some [.int (if neg then -n else n)]
  | .word w => if w = S "null" then some [.null] else if w = S "true" then some [.bool true] else if w = S "false" then some [.bool false] else none
  | _ => none

/-- The beginning of a symbol: a symbol that is complete, or what has been read. -/
def JLex.begin (c : Char) : Option (List JTok × JLex) :=
  if c = '[' then some ([.lb], .start) else if c = ']' then some ([.rb], .start)
  else if c = '{' then some ([.lc], .start) else if c = '}' then some ([.rc], .start)
  else if c = ',' then some ([.comma], .start) else if c = ':' then some ([.colon], .start)
  else if c = ' ' ∨ c = '\n' ∨ c = '\t' ∨ c = '\r' then some ([], .start)
  else if c = '"' then some ([], .str [])
  else if c = '-' then some ([], .num true [])
  else if c.isDigit then some ([], .num false [c])
  else if c.isAlpha then some ([], .word [c])
  else none

/-- The symbols of a text. -/
def lexJson : JLex → Str → Option (List JTok)
  | st, [] => st.done
  | .str s, c :: cs =>
    if c = '"' then (lexJson .start cs).map (JTok.str s :: ·)
    else if c = '\\' then lexJson (.esc s) cs
    else if c.toNat < 32 then none
    else lexJson (.str (s ++ [c])) cs
  | .esc s, c :: cs =>
    match escaped c with
    | some d => lexJson (.str (s ++ [d])) cs
    | none => if c = 'u' then lexJson (.uni s 3 0) cs else none
  | .uni s left value, c :: cs =>
    match hexValue c with
    | none => none
    | some d =>
      match left with
      | 0 => if (16 * value + d).isValidChar then lexJson (.str (s ++ [Char.ofNat (16 * value + d)])) cs else none
      | left + 1 => lexJson (.uni s left (16 * value + d)) cs
  | .num neg ds, c :: cs =>
    if c.isDigit then lexJson (.num neg (ds ++ [c])) cs
    else do
      let a ← (JLex.num neg ds).done
      let (b, st) ← JLex.begin c
      let rest ← lexJson st cs
      some (a ++ b ++ rest)
  | .word w, c :: cs =>
    if c.isAlpha then lexJson (.word (w ++ [c])) cs
    else do
      let a ← (JLex.word w).done
      let (b, st) ← JLex.begin c
      let rest ← lexJson st cs
      some (a ++ b ++ rest)
  | .start, c :: cs => do
    let (b, st) ← JLex.begin c
    let rest ← lexJson st cs
    some (b ++ rest)

mutual
/-- A value at the beginning of a list of symbols, and the symbols after it. The number bounds the depth of the recursion. -/
def parseJson : Nat → List JTok → Option (Json × List JTok)
  | 0, _ => none
  | _ + 1, .null :: ts => some (.null, ts)
  | _ + 1, .bool b :: ts => some (.bool b, ts)
  | _ + 1, .int i :: ts => some (.int i, ts)
  | _ + 1, .str s :: ts => some (.str s, ts)
  | _ + 1, .lb :: .rb :: ts => some (.arr [], ts)
  | n + 1, .lb :: ts => do
    let (v, ts) ← parseJson n ts
    let (l, ts) ← parseItems n ts
    some (.arr (v :: l), ts)
  | _ + 1, .lc :: .rc :: ts => some (.obj [], ts)
  | n + 1, .lc :: .str k :: .colon :: ts => do
    let (v, ts) ← parseJson n ts
    let (l, ts) ← parseEntries n ts
    some (.obj ((k, v) :: l), ts)
  | _, _ => none
/-- More items and the end of the list. -/
def parseItems : Nat → List JTok → Option (List Json × List JTok)
  | 0, _ => none
  | _ + 1, .rb :: ts => some ([], ts)
  | n + 1, .comma :: ts => do
    let (v, ts) ← parseJson n ts
    let (l, ts) ← parseItems n ts
    some (v :: l, ts)
  | _, _ => none
/-- More entries and the end of the dict. -/
def parseEntries : Nat → List JTok → Option (List (Str × Json) × List JTok)
  | 0, _ => none
  | _ + 1, .rc :: ts => some ([], ts)
  | n + 1, .comma :: .str k :: .colon :: ts => do
    let (v, ts) ← parseJson n ts
    let (l, ts) ← parseEntries n ts
    some ((k, v) :: l, ts)
  | _, _ => none
end

/-- The value that a text is, if it is a JSON text. -/
def readJson (s : Str) : Option Json := do
  let ts ← lexJson .start s
  match parseJson ts.length ts with
  | some (v, []) => some v
  | _ => none

/-- The same value, but for the order of the entries of dicts. -/
inductive SameValue : Json → Json → Prop
  | null : SameValue .null .null
  | bool (b) : SameValue (.bool b) (.bool b)
  | int (i) : SameValue (.int i) (.int i)
  | str (s) : SameValue (.str s) (.str s)
  | arr {l m} : List.Forall₂ SameValue l m → SameValue (.arr l) (.arr m)
  | obj {l l' m} : l.Perm l' → l'.map Prod.fst = m.map Prod.fst → List.Forall₂ SameValue (l'.map Prod.snd) (m.map Prod.snd) →
      SameValue (.obj l) (.obj m)

/-- The value of a token record, as read. -/
def ReadsValue (raw : Str → Json) (x : JVal) (v : Json) : Prop :=
  match x with
  | .str s => v = .str s
  | .nat n => v = .int n
  | .raw r => SameValue v (raw r)

/-- The names that the fields of a token record have in the output. -/
inductive KeyIs : Key → Str → Prop where
  | t : KeyIs .t (S "t")
  | n : KeyIs .n (S "n")
  | sigil : KeyIs .sigil (S "_sigil")
  | pos : KeyIs .pos (S "_token_array_position")
  | other (s : Str) : KeyIs (.other s) s

/-- A token record, as read: its entries, in the order of their keys. -/
def ReadsRecord (raw : Str → Json) (d : TokenData) (v : Json) : Prop :=
  ∃ l l', v = .obj l ∧ l.Pairwise (fun a b => ¬ StrLt b.1 a.1) ∧ l.Perm l' ∧
    List.Forall₂ (fun e a => KeyIs e.1 a.1 ∧ ReadsValue raw e.2 a.2) d l'

/-- A cell, as read. -/
def ReadsCell (raw : Str → Json) (c : Option (List TokenData)) (v : Json) : Prop :=
  match c with
  | none => v = .null
  | some ds => ∃ l, v = .arr l ∧ List.Forall₂ (ReadsRecord raw) ds l

end CollateX.Spec
