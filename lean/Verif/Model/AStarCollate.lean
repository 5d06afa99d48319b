import Verif.Model.AStarAligner
import Verif.Model.Graph
import Verif.Model.Transpositions
/-
`ExperimentalAstarAligner.collate`, with a match function in the place of the scorer.
-/

namespace CollateX

/-- experimental_astar_aligner.py 128–131: the positions of a match, as the token of the witness and the vertex of the token of the superbase
(KeyError if it has none). The code also looks up the vertex of a match that is overwritten later; this is left out. -/
def starEntry (t2v : Dict Token VId) (base tokens : List Token) (p : Nat × Nat) : Py (Token × VId) := do
  let b ← lgetE tokens p.1
  let a ← lgetE base p.2
  let v ← dgetE t2v a
  .ok (b, v)

/-- experimental_astar_aligner.py 38–61: one round of the loop of `collate`, for one more witness. The state is the graph, the vertices of the
tokens, and the superbase. The match function of the scorer is a parameter; `prepare_witness` (line 43) changes nothing else. -/
def starStep (kind : Token → Token → MatchKind) (s : VGraph × Dict Token VId × List Token) (w : Witness) :
    Py (VGraph × Dict Token VId × List Token) := do
  let r ← (EditInput.mk s.2.2 w.tokens kind).align
  let al ← mapE (starEntry s.2.1 s.2.2 w.tokens) r.1
  let mg := merge s.1 w.sigil w.tokens al
  .ok (mg.1, dupdate s.2.1 mg.2, r.2)

/-- The loop over the other witnesses. -/
def starLoop (kind : Token → Token → MatchKind) : List Witness → VGraph × Dict Token VId × List Token → Py (VGraph × Dict Token VId × List Token)
  | [], s => .ok s
  | w :: ws, s => do
    let s' ← starStep kind s w
    starLoop kind ws s'

/-- experimental_astar_aligner.py 21–61, `collate` on a fresh graph: the graph. With the scorer of `__init__` (line 17) it raises AttributeError at
line 32, because the scorer is given the collation in the place of the token index; here the match function is a parameter. -/
def starCollate (kind : Token → Token → MatchKind) (ws : Collation) : Py VGraph :=
  match ws with
  | [] => .error .indexError
  | w :: ws => do
    let mg := merge VGraph.init w.sigil w.tokens []
    let s ← starLoop kind ws (mg.1, mg.2, w.tokens)
    .ok s.1

end CollateX
