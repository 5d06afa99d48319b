import Verif.Model.Basic
/-
Tokenizer, Token, Witness and Collation: `core_classes.py` 21–46 and 158–202.
-/

namespace CollateX

/-- Keys of a token record. The four keys that the code treats specially have their own constructor;
`other` stands for every other string. -/
inductive Key where
  | t | n | sigil | pos | other (name : Str)
  deriving DecidableEq, Repr

/-- Values of a token record: strings, naturals (positions), and anything else (opaque, given by its
`str()`). -/
inductive JVal where
  | str (s : Str) | nat (n : Nat) | raw (repr : Str)
  deriving DecidableEq, Repr

/-- A token record: the dict that comes from the user's JSON. -/
abbrev TokenData := Dict Key JVal

/-- `Token`, core_classes.py 165–181. `str` is `token_string`. Tokens are compared structurally; after
indexing (tokenindex.py 44–66) two different token objects differ in `_token_array_position`, so this is
object identity (assumption: no two tokens share one dict object). -/
structure Token where
  str : Str
  data : TokenData
  deriving DecidableEq, Repr

/-- core_classes.py 158–162, `WordPunctuationTokenizer.tokenize`: `re.findall(r'\w+\s*|\W+', contents)`.
At a word character the first alternative matches a maximal run of `\w` and then a maximal run of `\s`; otherwise the
second one matches a maximal run of `\W`. The first argument is fuel. -/
def tokenizeF (cc : CharClass) : Nat → Str → List Str
  | 0, _ => []
  | _, [] => []
  | fuel + 1, c :: cs =>
    if cc.word c then
      let rest := (c :: cs).dropWhile cc.word
      ((c :: cs).takeWhile cc.word ++ rest.takeWhile cc.space)
        :: tokenizeF cc fuel (rest.dropWhile cc.space)
    else
      (c :: cs).takeWhile (fun d => !cc.word d)
        :: tokenizeF cc fuel ((c :: cs).dropWhile (fun d => !cc.word d))

/-- core_classes.py 158–162, with enough fuel: every token consumes a character. -/
def tokenize (cc : CharClass) (s : Str) : List Str := tokenizeF cc s.length s

/-- `re.sub(r'\s+$', '', s)` (core_classes.py 193): remove the maximal run of white space at the end. -/
def rstrip (cc : CharClass) (s : Str) : Str := (s.reverse.dropWhile cc.space).reverse

/-- core_classes.py 167–178, the token string of a record: `n` if present, else `t`, else TokenError.
The `None` record ("empty token") is not modelled. -/
def tokenString (d : TokenData) : Py JVal :=
  match dget d .n with
  | some v => .ok v
  | none =>
    match dget d .t with
    | some v => .ok v
    | none => .error .tokenError

/-- A witness as given by the user: `{'id': ..., 'content': ...}` or `{'id': ..., 'tokens': [...]}`.
The siglum and the content are assumed to be strings, the tokens dicts. -/
structure WitnessData where
  id : Option Str
  content : Option Str := none
  tokens : Option (List TokenData) := none
  deriving DecidableEq, Repr

/-- `Witness`, core_classes.py 184–202 (the `content` attribute is not used by the collation). -/
structure Witness where
  sigil : Str
  tokens : List Token
  deriving DecidableEq, Repr

/-- core_classes.py 196–197: `for tk in witnessdata['tokens']: self._tokens.append(Token(tk))`. -/
def tokenValues : List TokenData → Py (List (JVal × TokenData))
  | [] => .ok []
  | d :: ds => do
    let v ← tokenString d
    let vs ← tokenValues ds
    .ok ((v, d) :: vs)

/-- core_classes.py 199: `' '.join([x.token_string for x in self._tokens])` raises TypeError unless all
token strings are strings. -/
def joinable : List (JVal × TokenData) → Py (List Token)
  | [] => .ok []
  | (.str s, d) :: vs => do
    let ts ← joinable vs
    .ok (⟨s, d⟩ :: ts)
  | _ :: _ => .error .typeError

/-- core_classes.py 193: the record of a plain-text token. -/
def plainToken (cc : CharClass) (s : Str) : Token :=
  ⟨rstrip cc s, [(.t, .str s), (.n, .str (rstrip cc s))]⟩

/-- core_classes.py 185–199, `Witness.__init__`. -/
def mkWitness (cc : CharClass) (w : WitnessData) : Py Witness :=
  match w.id with
  | none => .error .keyError
  | some id =>
    match w.content with
    | some c => .ok ⟨id, (tokenize cc c).map (plainToken cc)⟩
    | none =>
      match w.tokens with
      | some ds => do
        let vs ← tokenValues ds
        let ts ← joinable vs
        .ok ⟨id, ts⟩
      | none => .ok ⟨id, []⟩

/-- `Collation`: its list of witnesses. -/
abbrev Collation := List Witness

/-- core_classes.py 41–43, `Collation.add_witness`. An exception leaves the receiver as it was. -/
def addWitness (cc : CharClass) (c : Collation) (w : WitnessData) : Py Collation := do
  let w' ← mkWitness cc w
  .ok (c ++ [w'])

/-- core_classes.py 45–46, `Collation.add_plain_witness`. -/
def addPlainWitness (cc : CharClass) (c : Collation) (sigil content : Str) : Py Collation :=
  addWitness cc c { id := some sigil, content := some content }

/-- The loop of core_classes.py 26–28 and core_functions.py 37–38. -/
def addWitnesses (cc : CharClass) (c : Collation) : List WitnessData → Py Collation
  | [] => .ok c
  | w :: ws => do
    let c' ← addWitness cc c w
    addWitnesses cc c' ws

/-- core_classes.py 22–29, `Collation.create_from_dict`: `witnesses[:limit]` for `limit` absent or
non-negative. -/
def createFromDict (cc : CharClass) (ws : List WitnessData) (limit : Option Nat) : Py Collation :=
  addWitnesses cc [] (match limit with | none => ws | some n => ws.take n)

end CollateX
