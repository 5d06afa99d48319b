import Verif.Model.Find
import Verif.Model.Transpositions
/-
`linsuffarr.py`: the tokenisers of the suffix array, its texts and its features (411–906).

The values of features are natural numbers or None. `find` with features returns an iterator (906), here the list of what it gives.
-/

namespace CollateX

/-- `s.replace(old, new)` for an `old` that is not empty. The first argument is fuel. -/
def pyReplaceF (old new : Str) : Nat → Str → Str
  | 0, s => s
  | _ + 1, [] => []
  | fuel + 1, c :: s =>
    if old.isPrefixOf (c :: s) then new ++ pyReplaceF old new fuel ((c :: s).drop old.length)
    else c :: pyReplaceF old new fuel s

/-- `s.replace(old, new)` for an `old` that is not empty. -/
def pyReplace (old new s : Str) : Str := pyReplaceF old new s.length s

/-- `s.split(c)` for a single character. -/
def pySplit (c : Char) : Str → List Str
  | [] => [[]]
  | x :: s =>
    if x = c then [] :: pySplit c s
    else match pySplit c s with
      | [] => [[x]]
      | p :: ps => (x :: p) :: ps

/-- `sep.join(l)` -/
def pyJoin (sep : Str) : List Str → Str
  | [] => []
  | [x] => x
  | x :: y :: l => x ++ sep ++ pyJoin sep (y :: l)

/-- `UNIT_BYTE`, `UNIT_CHARACTER`, `UNIT_WORD`, linsuffarr.py 47–49. -/
inductive SAUnit where
  | byte | character | word
  deriving DecidableEq, Repr

/-- linsuffarr.py 600–642, `tokenize`, for a string (collatex itself gives a list of strings with `UNIT_BYTE`, which is returned as it is;
see `mkSuffixArray`). Strings have no `decode` in Python 3 (640). -/
def saTokenize : SAUnit → Str → Py (List Str)
  | .word, s => .ok ((pySplit ' ' (pyReplace ['\n'] [' ', '\n', ' '] s)).filter (fun t => decide (t ≠ [])))
  | .character, _ => .error .attributeError
  | .byte, s => .ok (s.map (fun c => [c]))

/-- linsuffarr.py 411–456, `SuffixArray(string, unit)`. -/
def saOfText (unit : SAUnit) (s : Str) : Py SuffixArray := do
  let l ← saTokenize unit s
  .ok (mkSuffixArray l)

/-- linsuffarr.py 412–417, `tokSep`. -/
def tokSep : SAUnit → Str
  | .word => [' ']
  | _ => []

/-- `voc[id]`, linsuffarr.py 671: `voc[0]` is None, which `join` refuses (TypeError). -/
def vocAt (voc : List Str) : Nat → Py Str
  | 0 => .error .typeError
  | i + 1 => lgetE voc i

/-- linsuffarr.py 670–680, the second part of `reprString`. -/
def reprIds (unit : SAUnit) (sa : SuffixArray) (ids : List Nat) (length : Nat) : Py Str := do
  let l ← mapE (vocAt sa.voc) (ids.take length)
  let res := pyJoin (tokSep unit) l
  match unit with
  | .word => .ok (pyReplace ['\n', ' '] ['\n'] (pyReplace [' ', '\n'] ['\n'] res))
  | _ => .ok res

/-- linsuffarr.py 644–680, `reprString` for an offset that is not negative; `UNIT_CHARACTER` does not get so far (`saTokenize`). -/
def reprString (unit : SAUnit) (sa : SuffixArray) (offset length : Nat) : Py Str :=
  let length := min length (sa.string.length - offset)
  reprIds unit sa ((sa.string.drop offset).take length) length

/-! ### Features -/

/-- A feature: the values in the order of the suffix array, the default value, and whether it comes from `addFeatureSA` (`true`) or
`addFeature` (`false`), which have different search methods. -/
structure Feature where
  values : List (Option Nat)
  default : Option Nat
  ofSA : Bool
  deriving DecidableEq, Repr

/-- A suffix array with its features by name; `features` also has their order. (A name that is used twice is listed twice in the code, and
one that replaces `LCP` changes `find`; neither is modelled.) -/
structure FeatSA where
  sa : SuffixArray
  features : Dict Str Feature
  deriving DecidableEq, Repr

/-- linsuffarr.py 448–453: a new suffix array has the feature LCP, unless `noLCPs` is set. -/
def featInit (noLCPs : Bool) (sa : SuffixArray) : FeatSA :=
  ⟨sa, if noLCPs then [] else [(S "LCP", ⟨sa.LCP.map some, none, true⟩)]⟩

/-- linsuffarr.py 458–547, `addFeatureSA`. -/
def FeatSA.addFeatureSA (x : FeatSA) (callback : FeatSA → List (Option Nat)) (default : Option Nat) (name : Str) : FeatSA :=
  { x with features := dset x.features name ⟨callback x, default, true⟩ }

/-- linsuffarr.py 579–584: the values of the features of the signature for every suffix. -/
def featArgs (x : FeatSA) (i : Nat) : List Feature → Py (List (Option Nat))
  | [] => .ok []
  | f :: fs => do
    let v ← lgetE f.values i
    let vs ← featArgs x i fs
    .ok (v :: vs)

/-- linsuffarr.py 549–598, `addFeature`: an argument that is not the name of a feature is an AttributeError (580). -/
def FeatSA.addFeature (x : FeatSA) (callback : List (Option Nat) → Option Nat) (signature : List Str) (default : Option Nat) (name : Str) :
    Py FeatSA := do
  let args ← mapE (fun n => match dget x.features n with
    | some f => .ok f
    | none => .error .attributeError) signature
  let values ← mapE (fun i => do
    let l ← featArgs x i args
    .ok (callback l)) (List.range x.sa.SA.length)
  .ok { x with features := dset x.features name ⟨values, default, false⟩ }

/-- linsuffarr.py 776–822, `_findOne`, for a pattern that has been split into tokens; line 786 needs the LCP values. -/
def FeatSA.findOne (x : FeatSA) (pattern : List Str) : Py (Option Nat) :=
  if dmem x.features (S "LCP") then
    match patIds x.sa.voc pattern with
    | none => .ok none
    | some pat => .ok (CollateX.findOne x.sa pat)
  else .error .attributeError

/-- linsuffarr.py 540–545 and 591–596, the method with the name of the feature. For the features of `addFeature` the index 0 counts as
`False`. -/
def FeatSA.feature (x : FeatSA) (name : Str) (pattern : List Str) : Py (Option Nat) :=
  match dget x.features name with
  | none => .error .attributeError
  | some f => do
    let res ← x.findOne pattern
    match res with
    | none => .ok f.default
    | some i => if f.ofSA ∨ i ≠ 0 then lgetE f.values i else .ok f.default

/-- linsuffarr.py 824–906, `find` with a non-empty list of features: a position and the values of the features. -/
def FeatSA.findWith (x : FeatSA) (pattern : List Str) (names : List Str) : Py (List (Nat × List (Option Nat))) := do
  let res ← x.findOne pattern
  match res with
  | none => .ok []
  | some middle => do
    let m := pattern.length
    let lower := goDown x.sa.LCP m middle
    let upper := goUp x.sa.LCP m (x.sa.SA.length - (middle + 1)) (middle + 1)
    let fs ← mapE (fun n => match dget x.features n with
      | some f => .ok ((f.values.take upper).drop lower)
      | none => .error .attributeError) names
    let pos := (x.sa.SA.take upper).drop lower
    .ok ((List.range ((fs.map List.length).foldl min pos.length)).map
      (fun i => (pos.getD i 0, fs.map (fun l => l.getD i none))))

/-- linsuffarr.py 682–706, `__str__` with bounds: position, text and features of every line (before padding and `repr`). Line 704 counts
the features from the first one, whatever `start` is. -/
def FeatSA.lines (x : FeatSA) (unit : SAUnit) (start end_ maxLen : Nat) : Py (List (Nat × Str × List (Option Nat))) :=
  let sas := (x.sa.SA.take end_).drop start
  mapE (fun (q : Nat × Nat) => do
    let suffix ← reprString unit x.sa q.2 maxLen
    let fs ← featArgs x q.1 (x.features.map Prod.snd)
    .ok (q.2, suffix.take maxLen, fs)) ((List.range sas.length).zip sas)

end CollateX
