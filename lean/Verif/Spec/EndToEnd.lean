import Verif.Spec.Tokens
import Verif.Spec.NearProgram
import Mathlib.Data.List.Forall2
/-
What the cells of an output are, said of plain texts: the program that the model is proved to follow from the texts to the output, for C107.
-/

namespace CollateX.Spec

/-- The tokens and the words of plain texts: the tokens are the canonical pieces of the texts, the words are the tokens without the white space
at their end. -/
structure WordsOf (cc : CharClass) (texts : List Str) (tokens words : List (List Str)) : Prop where
  cut : List.Forall₂ (Tokenisation cc) texts tokens
  stripped : List.Forall₂ (List.Forall₂ (TrailingSpaceRemoved cc)) tokens words

/-- The tokens of a text are dealt out to the cells of its row, to each cell as many as the row has words there. The texts of the cells. -/
def deal : List (Option (List Str)) → List Str → List Str
  | [], _ => []
  | none :: cells, tokens => [] :: deal cells tokens
  | some ws :: cells, tokens => (tokens.take ws.length).flatten :: deal cells (tokens.drop ws.length)

/-- The texts of the cells of all rows. -/
def cellTexts (rows : List (List (Bool × Option (List Str)))) (tokens : List (List Str)) : List (List Str) :=
  List.zipWith (fun row ts => deal (row.map Prod.snd) ts) rows tokens

/-- The rows of the table by the short programs on lists of words: with near matching, with segmentation, and without either. -/
def rowsBy (near segmentation : Bool) (ratio : Str → Str → Nat) (words : List (List Str)) : List (List (Bool × Option (List Str))) :=
  if near then (workOf words).nearShown ratio
  else if segmentation then (workOf words).shownSegmented
  else (workOf words).shown

end CollateX.Spec
