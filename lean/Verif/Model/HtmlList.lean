import Verif.Model.Display
/-
The lists and links of `HTML.py`, lines 336–422. (`table` (416–418) is `str` of a `Table`, which is in Display.lean.)
-/

namespace CollateX

/-- The parameter `start` of `List`, HTML.py 350: a number or a string. -/
inductive ListStart where
  | num (n : Int)
  | str (s : Str)
  deriving DecidableEq, Repr

/-- `if self.start`: 0 and the empty string are false. -/
def ListStart.truth : ListStart → Bool
  | .num n => n != 0
  | .str s => s != []

/-- `'%s' % start` -/
def ListStart.shown : ListStart → Str
  | .num n => (toString n).toList
  | .str s => s

/-- HTML.py 350–361, a `List` apart from its dictionary of attributes, which may be shared (`htmlLists`). The lines are strings, or what
`str` makes of them; iterators that can be used up are left out. -/
structure HtmlList where
  lines : List Str
  ordered : Bool := false
  start : Option ListStart := none
  deriving DecidableEq, Repr

/-- HTML.py 365: `if self.start: self.attribs['start'] = self.start`. The values of the attributes are what `%s` shows of them. -/
def HtmlList.attribs (l : HtmlList) (d : Dict Str Str) : Dict Str Str :=
  match l.start with
  | some s => if s.truth then dset d (S "start") s.shown else d
  | none => d

/-- HTML.py 363–374, `List.__str__`: the HTML code, and the dictionary of attributes, which is changed. -/
def HtmlList.html (l : HtmlList) (d : Dict Str Str) : Str × Dict Str Str :=
  let d := l.attribs d
  let tag := if l.ordered then S "OL" else S "UL"
  (S "<" ++ tag ++ attribsStr d ++ S ">\n" ++ l.lines.flatMap (fun x => S " <LI>" ++ x ++ S "\n") ++ S "</" ++ tag ++ S ">\n", d)

/-- `str` of one list after another, all made with the same dictionary as `attribs`: HTML.py 358–361 keeps the dictionary itself if it is
not empty, otherwise every list gets a new one. -/
def htmlLists : List HtmlList → Dict Str Str → List Str
  | [], _ => []
  | l :: ls, [] => (l.html []).1 :: htmlLists ls []
  | l :: ls, d@(_ :: _) => (l.html d).1 :: htmlLists ls (l.html d).2

/-- HTML.py 410–414, `Link` and `link`. -/
def htmlLink (text url : Str) : Str := S "<a href=\"" ++ url ++ S "\">" ++ text ++ S "</a>"

end CollateX
