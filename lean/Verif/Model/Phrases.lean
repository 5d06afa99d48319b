import Verif.Model.Graph
/-
`PhraseMatchDetector` of `transposition_handling.py`.
-/

namespace CollateX

/-- transposition_handling.py 83–86, the variables of `detect`. The lists `base_phrase` and `witness_phrase` are one list of pairs here;
`snapshots` are the phrase matches as they were when they were appended. -/
structure PhraseSt where
  snapshots : List (List (VId × Token))
  buffer : List (VId × Token)
  previous : VId

/-- transposition_handling.py 76–80, `_add_new_phrase_match_and_clear_buffer`. -/
def PhraseSt.flush (s : PhraseSt) : PhraseSt :=
  if s.buffer = [] then s else { s with snapshots := s.snapshots ++ [s.buffer], buffer := [] }

/-- transposition_handling.py 95–98, `is_near`. -/
def VGraph.isNear (g : VGraph) (u v : VId) : Bool :=
  g.hasEdge u v && (g.outEdges u).length == 1 && (g.inEdges v).length == 1

/-- transposition_handling.py 89–103, one round of the loop. -/
def phraseStep (linked : Dict Token VId) (g : VGraph) (s : PhraseSt) (t : Token) : PhraseSt :=
  match dget linked t with
  | none => s.flush
  | some v =>
    let s := if g.isNear s.previous v then s else s.flush
    { s with buffer := s.buffer ++ [(v, t)], previous := v }

/-- transposition_handling.py 88–103, the loop. -/
def phraseLoop (linked : Dict Token VId) (g : VGraph) (tokens : List Token) : PhraseSt :=
  tokens.foldl (phraseStep linked g) ⟨[], [], startV⟩

/-- transposition_handling.py 82–106, `detect`: the phrase matches as they are found. -/
def foundPhrases (linked : Dict Token VId) (g : VGraph) (tokens : List Token) : List (List (VId × Token)) :=
  (phraseLoop linked g tokens).flush.snapshots

/-- The same, as the caller reads it: under Python 3 a phrase match is a lazy `zip` over the two lists, which are cleared and filled
again (lines 78–80) and are the same lists for all phrase matches; the lists are not cleared after the last phrase (line 105). -/
def detectPhrases (linked : Dict Token VId) (g : VGraph) (tokens : List Token) : List (List (VId × Token)) :=
  (foundPhrases linked g tokens).map (fun _ => (phraseLoop linked g tokens).buffer)

end CollateX
