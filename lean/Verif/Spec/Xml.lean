import Verif.Model.XmlText
import Verif.Spec.Export
/-
An XML reader for documents without document type, comments and CDATA sections: first the text is cut into tags and texts, then these are
read as a tree. Names are ASCII, attribute values are in double quotes, character references are decimal.
-/

namespace CollateX.Spec

/-- The characters that an XML 1.0 document may have (production 2). -/
def xmlLegal (c : Char) : Bool :=
  c.toNat = 9 || c.toNat = 10 || c.toNat = 13 || (32 ≤ c.toNat && c.toNat ≠ 0xFFFE && c.toNat ≠ 0xFFFF)

/-- Line ends (section 2.11): `\r\n` and `\r` are read as `\n`. -/
def xmlLines : Str → Str
  | [] => []
  | '\r' :: '\n' :: cs => '\n' :: xmlLines cs
  | '\r' :: cs => '\n' :: xmlLines cs
  | c :: cs => c :: xmlLines cs

/-- A character of a name. -/
def nameChar (c : Char) : Bool := c.isAlphanum || c == ':' || c == '_' || c == '-' || c == '.'

/-- The character that a reference stands for. -/
def reference (r : Str) : Option Char :=
  if r = S "amp" then some '&' else if r = S "lt" then some '<' else if r = S "gt" then some '>' else if r = S "quot" then some '"'
  else if r = S "apos" then some '\'' else
    match r with
    | '#' :: d :: ds =>
      if (d :: ds).all Char.isDigit ∧ (Nat.ofDigitChars 10 (d :: ds) 0).isValidChar ∧ xmlLegal (Char.ofNat (Nat.ofDigitChars 10 (d :: ds) 0)) then
        some (Char.ofNat (Nat.ofDigitChars 10 (d :: ds) 0))
      else none
    | _ => none

/-- A start tag, an end tag, a text. -/
inductive XEvent where
  | start (name : Str) (attrs : List (Str × Str))
  | stop (name : Str)
  | chars (s : Str)

/-- What has been read of the current tag or text. -/
inductive XState where
  | text (s : Str)
  | tref (s r : Str)
  | lt
  | pi (mark : Bool)
  | name (n : Str)
  | close (n : Str)
  | tag (n : Str) (as : List (Str × Str))
  | key (n : Str) (as : List (Str × Str)) (k : Str)
  | eq (n : Str) (as : List (Str × Str)) (k : Str)
  | val (n : Str) (as : List (Str × Str)) (k v : Str)
  | vref (n : Str) (as : List (Str × Str)) (k v r : Str)
  | slash (n : Str) (as : List (Str × Str))

/-- A text, unless it is empty. -/
def charsEvent (s : Str) : List XEvent := if s = [] then [] else [.chars s]

/-- The tags and texts of a document. -/
def lexXml : XState → Str → Option (List XEvent)
  | .text s, [] => some (charsEvent s)
  | _, [] => none
  | .text s, c :: cs =>
    if c = '<' then (lexXml .lt cs).map (charsEvent s ++ ·)
    else if c = '&' then lexXml (.tref s []) cs
    else lexXml (.text (s ++ [c])) cs
  | .tref s r, c :: cs =>
    if c = ';' then
      match reference r with
      | some d => lexXml (.text (s ++ [d])) cs
      | none => none
    else lexXml (.tref s (r ++ [c])) cs
  | .lt, c :: cs =>
    if c = '?' then lexXml (.pi false) cs
    else if c = '/' then lexXml (.close []) cs
    else if nameChar c then lexXml (.name [c]) cs
    else none
  | .pi mark, c :: cs => if mark = true ∧ c = '>' then lexXml (.text []) cs else lexXml (.pi (c = '?')) cs
  | .name n, c :: cs =>
    if nameChar c then lexXml (.name (n ++ [c])) cs
    else if c = ' ' then lexXml (.tag n []) cs
    else if c = '/' then lexXml (.slash n []) cs
    else if c = '>' then (lexXml (.text []) cs).map (XEvent.start n [] :: ·)
    else none
  | .close n, c :: cs =>
    if nameChar c then lexXml (.close (n ++ [c])) cs
    else if c = '>' ∧ n ≠ [] then (lexXml (.text []) cs).map (XEvent.stop n :: ·)
    else none
  | .tag n as, c :: cs =>
    if c = ' ' then lexXml (.tag n as) cs
    else if c = '/' then lexXml (.slash n as) cs
    else if c = '>' then (lexXml (.text []) cs).map (XEvent.start n as :: ·)
    else if nameChar c then lexXml (.key n as [c]) cs
    else none
  | .key n as k, c :: cs =>
    if nameChar c then lexXml (.key n as (k ++ [c])) cs
    else if c = '=' ∧ k ∉ as.map Prod.fst then lexXml (.eq n as k) cs
    else none
  | .eq n as k, c :: cs => if c = '"' then lexXml (.val n as k []) cs else none
  | .val n as k v, c :: cs =>
    if c = '"' then lexXml (.tag n (as ++ [(k, v)])) cs
    else if c = '&' then lexXml (.vref n as k v []) cs
    else if c = '<' then none
    else if c = '\n' ∨ c = '\t' then lexXml (.val n as k (v ++ [' '])) cs
    else lexXml (.val n as k (v ++ [c])) cs
  | .vref n as k v r, c :: cs =>
    if c = ';' then
      match reference r with
      | some d => lexXml (.val n as k (v ++ [d])) cs
      | none => none
    else lexXml (.vref n as k v (r ++ [c])) cs
  | .slash n as, c :: cs => if c = '>' then (lexXml (.text []) cs).map ([XEvent.start n as, XEvent.stop n] ++ ·) else none

/-- The nodes up to an end tag that does not belong to them, and what comes after them. The number bounds the depth of the recursion. -/
def parseXml : Nat → List XEvent → Option (List XNode × List XEvent)
  | 0, _ => none
  | k + 1, .chars s :: es => do
    let (l, es) ← parseXml k es
    some (.text s :: l, es)
  | k + 1, .start n as :: es => do
    let (children, es) ← parseXml k es
    match es with
    | .stop m :: es =>
      if m = n then do
        let (l, es) ← parseXml k es
        some (.elem n as children :: l, es)
      else none
    | _ => none
  | _ + 1, es => some ([], es)

/-- Is the node white space? -/
def blankNode : XNode → Bool
  | .text s => s.all (fun c => c = ' ' || c = '\t' || c = '\n')
  | _ => false

/-- The root element of a document, if the text is a well-formed document. -/
def readXml (s : Str) : Option XNode :=
  if s.all xmlLegal then do
    let es ← lexXml (.text []) (xmlLines s)
    let (l, rest) ← parseXml (es.length + 1) es
    match rest, l.filter (fun x => !blankNode x) with
    | [], [.elem n as children] => some (.elem n as children)
    | _, _ => none
  else none

/-- Neighbouring texts are one text and there are no empty texts; `s` is the text before. -/
def joinTexts : List XNode → Str → List XNode
  | [], s => if s = [] then [] else [.text s]
  | .text t :: l, s => joinTexts l (s ++ t)
  | .elem n as l' :: l, s => (if s = [] then [] else [.text s]) ++ .elem n as (joinTexts l' []) :: joinTexts l []

mutual
/-- The node with the line ends in its texts as they are read. -/
def linesNode : XNode → XNode
  | .text s => .text (xmlLines s)
  | .elem n as l => .elem n as (linesNodes l)
/-- The nodes. -/
def linesNodes : List XNode → List XNode
  | [] => []
  | x :: l => linesNode x :: linesNodes l
end

/-- The texts among the nodes. -/
def ownText (l : List XNode) : Str := l.flatMap (fun x => match x with | .text s => s | .elem _ _ _ => [])

/-- The text of a reading for a witness: the text of the element, if its only attribute `wit` has a reference to the witness. -/
def rdgText (σ : Str) : XNode → Str
  | .elem n [(k, v)] l => if n = S "rdg" ∧ k = S "wit" ∧ '#' :: σ ∈ splitBlanks v then ownText l else []
  | _ => []

/-- The text of a witness in a child of the root: a text, or the readings of the witness in an `app`. -/
def childText (σ : Str) : XNode → Str
  | .text s => s
  | .elem n _ l => if n = S "app" then l.flatMap (rdgText σ) else []

/-- The text of a witness in an apparatus. -/
def apparatusText (σ : Str) : XNode → Str
  | .elem _ _ l => l.flatMap (childText σ)
  | .text _ => []

/-- A reading: the `wit` attribute and the text of a `rdg` element. -/
def rdgEntry : XNode → Option (Str × Str)
  | .elem n [(k, v)] l => if n = S "rdg" ∧ k = S "wit" then some (v, ownText l) else none
  | _ => none

/-- The readings of an `app` element. -/
def appEntry : XNode → Option (List (Str × Str))
  | .elem n _ l => if n = S "app" then some (l.filterMap rdgEntry) else none
  | .text _ => none

/-- The `app` elements of an apparatus with their readings. -/
def apparatusApps : XNode → List (List (Str × Str))
  | .elem _ _ l => l.filterMap appEntry
  | .text _ => []

/-- A child of the root of the TEI output. -/
def teiChild : TeiNode → XNode
  | .text s => .text s
  | .app rdgs => .elem (S "app") [] (rdgs.map fun r => .elem (S "rdg") [(S "wit", r.wit)] [.text r.text])

/-- The characters of a node of the TEI output that come from the witnesses. -/
def teiChars : TeiNode → Str
  | .text s => s
  | .app rdgs => rdgs.flatMap fun r => r.wit ++ r.text

end CollateX.Spec
