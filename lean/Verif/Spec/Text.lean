import Verif.Model.Witness
/-
Specifications about sequences of strings: order, common prefixes, occurrences.
-/

namespace CollateX.Spec

/-- Lexicographic order of strings by code point. -/
def StrLt : Str → Str → Prop := List.Lex (fun a b => a.toNat < b.toNat)

/-- Lexicographic order of sequences of strings. -/
def SeqLt : List Str → List Str → Prop := List.Lex StrLt

/-- `L` is the length of the longest common prefix of `x` and `y`. -/
structure IsLCP {α : Type} (x y : List α) (L : Nat) : Prop where
  left : L ≤ x.length
  right : L ≤ y.length
  common : x.take L = y.take L
  longest : ∀ M, M ≤ x.length → M ≤ y.length → x.take M = y.take M → M ≤ L

/-- The position of the first token of witness `k`, counting one separator after each earlier witness. -/
def startOf (ws : List Witness) (k : Nat) : Nat := ((ws.take k).map (fun w => w.tokens.length + 1)).sum

/-- The token strings `s` occur in one of the witnesses, beginning at the global position `p`. -/
def OccursAt (ws : List Witness) (p : Nat) (s : List Str) : Prop :=
  ∃ (k i : Nat) (w : Witness), ws[k]? = some w ∧ p = startOf ws k + i ∧ i < w.tokens.length ∧
    s <+: (w.tokens.map Token.str).drop i

/-- A separator between two witnesses, as a string: a dollar sign and a decimal number less than `n`. -/
def IsSeparator (n : Nat) (s : Str) : Prop := ∃ i : Nat, i + 1 < n ∧ s = '$' :: (toString i).toList

/-- Input that can be collated: there is a witness, no witness is empty (or has 10^9 or more tokens), no two witnesses have the
same siglum, and no token looks like a separator. -/
structure Valid (ws : List Witness) : Prop where
  ne : ws ≠ []
  tokens : ∀ w ∈ ws, w.tokens ≠ [] ∧ w.tokens.length < 1000000000
  sigla : (ws.map Witness.sigil).Nodup
  sep : ∀ w ∈ ws, ∀ t ∈ w.tokens, ¬ IsSeparator ws.length t.str

end CollateX.Spec
