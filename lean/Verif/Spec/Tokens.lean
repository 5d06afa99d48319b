import Verif.Model.Basic
/-
What a tokenisation of a text is, independently of how the code computes it.
-/

namespace CollateX.Spec

/-- A word token: a non-empty run of word characters followed by a (possibly empty) run of white space. -/
def WordTok (cc : CharClass) (t : Str) : Prop :=
  ∃ a b, t = a ++ b ∧ a ≠ [] ∧ (∀ c ∈ a, cc.word c = true) ∧ (∀ c ∈ b, cc.space c = true)

/-- A punctuation token: a non-empty run of non-word characters. -/
def PunctTok (cc : CharClass) (t : Str) : Prop := t ≠ [] ∧ ∀ c ∈ t, cc.word c = false

/-- The boundary between adjacent tokens `x` and `y` is where it has to be: white space stays with a word that
precedes it, a word is not cut in two, and a punctuation run is not cut in two. -/
def Boundary (cc : CharClass) (x y : Str) : Prop :=
  ∀ f, y.head? = some f →
    (WordTok cc x → cc.space f = false ∧ ∀ l, x.getLast? = some l → cc.word l = true → cc.word f = false) ∧
    (PunctTok cc x → cc.word f = true)

/-- All pairs of neighbours in a list are related. -/
def Adjacent {α : Type} (R : α → α → Prop) (l : List α) : Prop :=
  ∀ i x y, l[i]? = some x → l[i + 1]? = some y → R x y

/-- `ts` is the canonical tokenisation of `s`. -/
structure Tokenisation (cc : CharClass) (s : Str) (ts : List Str) : Prop where
  lossless : ts.flatten = s
  shape : ∀ t ∈ ts, WordTok cc t ∨ PunctTok cc t
  boundary : Adjacent (Boundary cc) ts

/-- `n` is `t` without its trailing white space. -/
def TrailingSpaceRemoved (cc : CharClass) (t n : Str) : Prop :=
  (∃ b, t = n ++ b ∧ ∀ c ∈ b, cc.space c = true) ∧ ∀ l, n.getLast? = some l → cc.space l = false

end CollateX.Spec
