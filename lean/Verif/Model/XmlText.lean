import Verif.Model.Export
/-
The text of the XML and TEI output: `etree.tostring(app, encoding="unicode")` in core_functions.py 135–137 and `d.toxml()`, `d.toprettyxml()`
in 182–186, modelled from the sources of Python's `xml.etree.ElementTree` (`_serialize_xml`, `_escape_cdata`, `_escape_attrib`) and
`xml.dom.minidom` (`writexml`, `_write_data`).

Simplification: `_write_data` as in Python 3.13. Older versions also write `"` in texts as `&quot;`, which reads the same, and leave tab, line
feed and carriage return in attributes as they are.
-/

namespace CollateX

/-- A node of the tree: a text, or an element with its attributes and its children. In ElementTree `elem.text` is a text before the child
elements. -/
inductive XNode where
  | text (s : Str)
  | elem (name : Str) (attrs : List (Str × Str)) (children : List XNode)

/-- `_escape_cdata` -/
def cdataChar (c : Char) : Str :=
  if c = '&' then S "&amp;" else if c = '<' then S "&lt;" else if c = '>' then S "&gt;" else [c]

/-- `_escape_attrib` -/
def attrChar (c : Char) : Str :=
  if c = '&' then S "&amp;" else if c = '<' then S "&lt;" else if c = '>' then S "&gt;" else if c = '"' then S "&quot;"
  else if c = '\r' then S "&#13;" else if c = '\n' then S "&#10;" else if c = '\t' then S "&#09;" else [c]

/-- `' %s="%s"' % (k, _escape_attrib(v))` for each attribute. -/
def attrsText : List (Str × Str) → Str
  | [] => []
  | (k, v) :: l => ' ' :: k ++ S "=\"" ++ v.flatMap attrChar ++ '"' :: attrsText l

mutual
/-- `_serialize_xml` with `short_empty_elements=True`: an element that has neither text nor children ends in ` />`. -/
def XNode.serialize : XNode → Str
  | .text s => s.flatMap cdataChar
  | .elem n as [] => '<' :: n ++ attrsText as ++ S " />"
  | .elem n as (x :: l) => '<' :: n ++ attrsText as ++ '>' :: x.serialize ++ serializeAll l ++ S "</" ++ n ++ ['>']
/-- One after the other. -/
def serializeAll : List XNode → Str
  | [] => []
  | x :: l => x.serialize ++ serializeAll l
end

/-- core_functions.py 130–133: a `rdg`. An empty `text` is written like none. -/
def Rdg.etree (r : Rdg) : XNode := .elem (S "rdg") [(S "wit", r.wit)] (if r.text = [] then [] else [.text r.text])

/-- core_functions.py 125–137: the return value of `export_alignment_table_as_xml`. -/
def xmlString (apps : List (List Rdg)) : Str :=
  S "<root>" ++ (apps.map fun rdgs => (XNode.elem (S "app") [] (rdgs.map Rdg.etree)).serialize).flatten ++ S "</root>"

mutual
/-- `Text.writexml` and `Element.writexml`. -/
def XNode.writexml (addindent newl : Str) : XNode → Str → Str
  | .text s, indent => (indent ++ s ++ newl).flatMap cdataChar
  | .elem n as [], indent => indent ++ '<' :: n ++ attrsText as ++ S "/>" ++ newl
  | .elem n as [.text s], indent => indent ++ '<' :: n ++ attrsText as ++ '>' :: s.flatMap cdataChar ++ S "</" ++ n ++ '>' :: newl
  | .elem n as (x :: l), indent =>
    indent ++ '<' :: n ++ attrsText as ++ '>' :: newl ++ x.writexml addindent newl (indent ++ addindent) ++
      writexmlAll addindent newl l (indent ++ addindent) ++ indent ++ S "</" ++ n ++ '>' :: newl
/-- The child nodes. -/
def writexmlAll (addindent newl : Str) : List XNode → Str → Str
  | [], _ => []
  | x :: l, indent => x.writexml addindent newl indent ++ writexmlAll addindent newl l indent
end

/-- core_functions.py 173–180: a `rdg` with its text node. -/
def Rdg.minidom (r : Rdg) : XNode := .elem (S "rdg") [(S "wit", r.wit)] [.text r.text]

/-- core_functions.py 168–180: a child of the root. -/
def TeiNode.minidom : TeiNode → XNode
  | .text s => .text s
  | .app rdgs => .elem (S "app") [] (rdgs.map Rdg.minidom)

/-- core_functions.py 142–145: the root. -/
def teiTree (nodes : List TeiNode) : XNode :=
  .elem (S "cx:apparatus") [(S "xmlns:cx", S "http://interedition.eu/collatex/ns/1.0"), (S "xmlns", S "http://www.tei-c.org/ns/1.0")]
    (nodes.map TeiNode.minidom)

/-- core_functions.py 182–186: `toprettyxml()` (`indent="\t"`, `newl="\n"`) or `toxml()`, with `Document.writexml`. -/
def teiString (indent : Bool) (nodes : List TeiNode) : Str :=
  if indent then S "<?xml version=\"1.0\" ?>\n" ++ (teiTree nodes).writexml ['\t'] ['\n'] []
  else S "<?xml version=\"1.0\" ?>" ++ (teiTree nodes).writexml [] [] []

end CollateX
