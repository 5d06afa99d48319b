import Verif.Model.SuffixText
/-
`linsuffarr.py` 62–80 and 708–774: a suffix array in a file.

`pickle.dumps` and `loads`, and the compression of `.gz` files, are taken to give back what was written. The file system is not
modelled: a file is what was written to it.
-/

namespace CollateX

/-- What is written to the file, linsuffarr.py 718–724 (without `vocSize`): the numbered text, the unit, the vocabulary, the suffix array, and for each
feature its name, its values and its default value. -/
structure SavedSA where
  string : List Nat
  unit : SAUnit
  voc : List Str
  SA : List Nat
  features : List (Str × List (Option Nat) × Option Nat)
  deriving DecidableEq, Repr

/-- linsuffarr.py 62–80, `_open`: only files with `.gz` are opened for bytes; all others, and the standard streams, are text files, which refuse bytes when
written, and give `loads` a string, which it refuses (TypeError in both cases). -/
def opensBytes (filename : Str) : Bool := (S ".gz").isSuffixOf filename

/-- linsuffarr.py 708–736, `toFile`: the content of the file. -/
def FeatSA.toFile (x : FeatSA) (unit : SAUnit) (filename : Str) : Py SavedSA :=
  if opensBytes filename then
    .ok ⟨x.sa.string, unit, x.sa.voc, x.sa.SA, x.features.map (fun e => (e.1, e.2.values, e.2.default))⟩
  else .error .typeError

/-- linsuffarr.py 767–770: the features, each as a feature of `addFeatureSA`. -/
def loadFeatures (x : FeatSA) : List (Str × List (Option Nat) × Option Nat) → FeatSA
  | [] => x
  | (name, values, default) :: l => loadFeatures (x.addFeatureSA (fun _ => values) default name) l

/-- linsuffarr.py 738–774, `fromFile`: the suffix array and its unit. The LCP values, a field of `SuffixArray` here, are in the code an attribute
that the feature `LCP` sets. (`nbSentences`, and `tokId`, which follows from the vocabulary, are left out.) -/
def fromFile (filename : Str) (c : SavedSA) : Py (FeatSA × SAUnit) :=
  if opensBytes filename then
    let lcp := match dget c.features (S "LCP") with
      | some (values, _) => values.map (fun v => v.getD 0)
      | none => []
    .ok (loadFeatures ⟨⟨c.voc, c.string, c.SA, lcp⟩, []⟩ c.features, c.unit)
  else .error .typeError

end CollateX
