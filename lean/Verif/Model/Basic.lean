/-
Basic vocabulary of the model: strings, Python exceptions as values, insertion-ordered dicts.
-/

namespace CollateX

/-- Python `str`: a list of characters. (Lone surrogates, which Python admits, are not modelled.) -/
abbrev Str := List Char

/-- Python exceptions, as values. `exception` is a bare `Exception(...)` (the message is dropped),
`unfeasible` is `networkx.NetworkXUnfeasible` (cyclic graph given to `topological_sort`),
`outOfFuel` cannot happen in Python: it marks a loop of the model that was cut short, and is shown
not to occur wherever it matters. -/
inductive PyErr where
  | tokenError | indexError | keyError | assertionError | typeError | attributeError
  | valueError | segmentationError | exception | unfeasible | rangeSetParseError | outOfFuel
  deriving DecidableEq, Repr

/-- The result of a Python computation. -/
abbrev Py (α : Type) := Except PyErr α

/-- Decidable equality of results, so that concrete runs can be compared by evaluation. -/
instance {α : Type} [DecidableEq α] : DecidableEq (Py α) := fun a b =>
  match a, b with
  | .ok x, .ok y => if h : x = y then isTrue (h ▸ rfl) else isFalse (fun e => h (Except.ok.inj e))
  | .error x, .error y =>
      if h : x = y then isTrue (h ▸ rfl) else isFalse (fun e => h (Except.error.inj e))
  | .ok _, .error _ => isFalse (fun e => by cases e)
  | .error _, .ok _ => isFalse (fun e => by cases e)

/-- Python `dict`: an association list in insertion order. -/
abbrev Dict (K V : Type) := List (K × V)

section Dict
variable {K V : Type} [DecidableEq K]

/-- `d.get(k)` -/
def dget : Dict K V → K → Option V
  | [], _ => none
  | (k', v) :: d, k => if k' = k then some v else dget d k

/-- `d[k] = v`: overwrite in place, or append at the end. -/
def dset : Dict K V → K → V → Dict K V
  | [], k, v => [(k, v)]
  | (k', v') :: d, k, v => if k' = k then (k', v) :: d else (k', v') :: dset d k v

/-- `del d[k]` for a key that is present (callers check presence first). -/
def ddel : Dict K V → K → Dict K V
  | [], _ => []
  | (k', v') :: d, k => if k' = k then d else (k', v') :: ddel d k

/-- `d[k]`: KeyError when absent. -/
def dgetE (d : Dict K V) (k : K) : Py V :=
  match dget d k with
  | some v => .ok v
  | none => .error .keyError

/-- `k in d` -/
def dmem (d : Dict K V) (k : K) : Bool := (dget d k).isSome

/-- `d.setdefault(k, []).append(a)` -/
def setdefaultAppend {A : Type} (d : Dict K (List A)) (k : K) (a : A) : Dict K (List A) :=
  match dget d k with
  | some l => dset d k (l ++ [a])
  | none => dset d k [a]

/-- `d.update(e)` -/
def dupdate (d e : Dict K V) : Dict K V := e.foldl (fun d p => dset d p.1 p.2) d

end Dict

/-- `list(set(l))`, up to order. -/
def distinct {α : Type} [DecidableEq α] : List α → List α
  | [] => []
  | a :: l => if a ∈ l then distinct l else a :: distinct l

/-- `l[i]` for a non-negative index: IndexError when out of range. -/
def lgetE {α : Type} (l : List α) (i : Nat) : Py α :=
  match l[i]? with
  | some v => .ok v
  | none => .error .indexError

/-- A string literal as a list of characters. -/
def S (s : String) : Str := s.toList

/-- Character classes used by the regular expressions of the code: `\w` and `\s`. The two are disjoint in
Python's `re`; everything else about them is left open, so the theorems hold for any such classification
(in particular for Unicode and for ASCII). `str.strip()` and `\s` agree on what is white space. -/
structure CharClass where
  word : Char → Bool
  space : Char → Bool
  disj : ∀ c, word c = true → space c = false

/-- The ASCII classes, for concrete examples. -/
def asciiClass : CharClass where
  word c := ('a'.toNat ≤ c.toNat && c.toNat ≤ 'z'.toNat) || ('A'.toNat ≤ c.toNat && c.toNat ≤ 'Z'.toNat)
    || ('0'.toNat ≤ c.toNat && c.toNat ≤ '9'.toNat) || c.toNat == '_'.toNat
  space c := c.toNat == 32 || (9 ≤ c.toNat && c.toNat ≤ 13)
  disj c h := by
    have e1 : 'a'.toNat = 97 := by decide
    have e2 : 'z'.toNat = 122 := by decide
    have e3 : 'A'.toNat = 65 := by decide
    have e4 : 'Z'.toNat = 90 := by decide
    have e5 : '0'.toNat = 48 := by decide
    have e6 : '9'.toNat = 57 := by decide
    have e7 : '_'.toNat = 95 := by decide
    simp only [e1, e2, e3, e4, e5, e6, e7, Bool.or_eq_true, Bool.and_eq_true, decide_eq_true_eq,
      beq_iff_eq, Bool.or_eq_false_iff, Bool.and_eq_false_iff, decide_eq_false_iff_not,
      beq_eq_false_iff_ne, ne_eq] at *
    omega

end CollateX
