import Verif.Model.Basic
/-
`textwrap.fill(text, 20)` of the Python library, as called in `core_classes.py` 154 and `display_module.py` 35 (default options:
`expand_tabs`, `replace_whitespace`, `drop_whitespace`, `break_long_words`, `break_on_hyphens`; no indentation, no `max_lines`).
-/

namespace CollateX

/-- What is left open: how a text is split into chunks (`wordsep_re`; the chunks together are the text, and none is empty), and
where a chunk that is too long is broken when there is room for `n` characters (after `n` characters, since Python 3.10 possibly
earlier, after a hyphen). -/
structure WrapFn where
  split : Str → List Str
  cut : Str → Nat → Nat

/-- `str.expandtabs(8)`; `col` is the column. -/
def expandTabs : Nat → Str → Str
  | _, [] => []
  | col, c :: cs =>
    if c = '\t' then List.replicate (8 - col % 8) ' ' ++ expandTabs (col + (8 - col % 8)) cs
    else if c = '\n' ∨ c = '\r' then c :: expandTabs 0 cs
    else c :: expandTabs (col + 1) cs

/-- `TextWrapper.unicode_whitespace_trans`: the six ASCII white space characters become blanks. -/
def blankOut (c : Char) : Char :=
  if c = '\t' ∨ c = '\n' ∨ c = '\x0b' ∨ c = '\x0c' ∨ c = '\r' then ' ' else c

/-- `TextWrapper._munge_whitespace` -/
def munge (s : Str) : Str := (expandTabs 0 s).map blankOut

/-- `chunk.strip() == ''` -/
def blankChunk (cc : CharClass) (s : Str) : Bool := s.all cc.space

/-- `TextWrapper._wrap_chunks`, the inner loop: as many chunks as fit into the line. -/
def fitChunks (width : Nat) : Nat → List Str → List Str × List Str
  | _, [] => ([], [])
  | cur, c :: cs =>
    if cur + c.length ≤ width then
      let r := fitChunks width (cur + c.length) cs
      (c :: r.1, r.2)
    else ([], c :: cs)

/-- `TextWrapper._handle_long_word`, called when the next chunk is longer than a line. -/
def longWord (f : WrapFn) (width : Nat) (p : List Str × List Str) : List Str × List Str :=
  match p.2 with
  | [] => p
  | c :: cs =>
    if width < c.length then
      let e := f.cut c (width - p.1.flatten.length)
      (p.1 ++ [c.take e], c.drop e :: cs)
    else p

/-- `if self.drop_whitespace and cur_line and cur_line[-1].strip() == '': del cur_line[-1]` -/
def dropBlank (cc : CharClass) (l : List Str) : List Str :=
  match l.getLast? with
  | none => l
  | some c => if blankChunk cc c then l.dropLast else l

/-- `TextWrapper._wrap_chunks`, the outer loop. `begun` says whether there is a line already. -/
def wrapChunks (cc : CharClass) (f : WrapFn) (width : Nat) : Nat → Bool → List Str → Py (List Str)
  | _, _, [] => .ok []
  | 0, _, _ :: _ => .error .outOfFuel
  | fuel + 1, begun, c :: cs => do
    let chunks := if blankChunk cc c && begun then cs else c :: cs
    let p := longWord f width (fitChunks width 0 chunks)
    let cur := dropBlank cc p.1
    if cur = [] then wrapChunks cc f width fuel begun p.2
    else do
      let rest ← wrapChunks cc f width fuel true p.2
      .ok (cur.flatten :: rest)

/-- `TextWrapper.wrap` -/
def wrapText (cc : CharClass) (f : WrapFn) (width : Nat) (s : Str) : Py (List Str) :=
  let chunks := f.split (munge s)
  wrapChunks cc f width (chunks.flatten.length + chunks.length) false chunks

/-- `"\n".join(lines)` -/
def joinLines : List Str → Str
  | [] => []
  | [l] => l
  | l :: ls => l ++ '\n' :: joinLines ls

/-- `textwrap.fill(text, 20)` -/
def fill20 (cc : CharClass) (f : WrapFn) (s : Str) : Py Str := do
  let ls ← wrapText cc f 20 s
  .ok (joinLines ls)

/-- `wordsep_re.split` for texts without hyphens and dashes: runs of blanks alternate with runs of other characters.
(Only for examples; the properties hold for any `WrapFn` with `WrapSpec`.) -/
def splitBlankRuns : Str → List Str
  | [] => []
  | c :: cs =>
    match splitBlankRuns cs with
    | [] => [[c]]
    | w :: ws => if (w.head? == some ' ') == (c == ' ') then (c :: w) :: ws else [c] :: w :: ws

/-- A wrapping for examples: texts are split at blanks, and a chunk that is too long is broken after `n` characters.
(As in Python before 3.10; only for examples.) -/
def simpleWrap : WrapFn := ⟨splitBlankRuns, fun _ n => n⟩

end CollateX
