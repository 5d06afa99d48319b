import Verif.Model.RangeOps
import Verif.Model.EditGraph
/-
The keys of Python dictionaries that define `__eq__` and `__hash__`: `MatchCoordinate` in `edit_graph_aligner.py` and `Block` in
`extended_suffix_array.py`.

The other modules take dictionaries to compare their keys as values; here the dictionary is a table of hash values.
-/

namespace CollateX

/-- Python's `dict` with keys that define `__hash__` and `__eq__`: the entries in the order of their insertion, distributed over `slots`
places. Simplification: which entries share a place is decided by the remainder of the hash value, there is no probing of other places
and the table does not grow. -/
structure HashTable (K V : Type) where
  slots : Nat
  entries : List (K × V)

/-- What a class of keys defines: `__hash__`, after the reduction to a machine word, and `__eq__` (stored key first). -/
structure HashKey (K : Type) where
  hash : K → Int
  eq : K → K → Bool

section
variable {K V : Type}

/-- The comparison of a stored key with the one that is looked for: the hash values first, then `__eq__`. -/
def HashKey.same (c : HashKey K) (stored k : K) : Bool := c.hash stored == c.hash k && c.eq stored k

/-- `d.get(k)`: only the entries in the place of `k` are compared. -/
def HashTable.get (c : HashKey K) (d : HashTable K V) (k : K) : Option V :=
  ((d.entries.filter (fun e => c.hash e.1 % (d.slots : Int) == c.hash k % (d.slots : Int))).find? (fun e => c.same e.1 k)).map Prod.snd

/-- The entries after `d[k] = v`: the value of the stored key is replaced, the stored key itself stays. -/
def setEntry (c : HashKey K) (slots : Nat) (k : K) (v : V) : List (K × V) → List (K × V)
  | [] => [(k, v)]
  | e :: l =>
    if c.hash e.1 % (slots : Int) == c.hash k % (slots : Int) && c.same e.1 k then (e.1, v) :: l else e :: setEntry c slots k v l

/-- `d[k] = v` -/
def HashTable.set (c : HashKey K) (d : HashTable K V) (k : K) (v : V) : HashTable K V :=
  { d with entries := setEntry c d.slots k v d.entries }

/-- `d[k] = v` for several keys and values, one after the other, into an empty dictionary. -/
def HashTable.ofList (c : HashKey K) (slots : Nat) (l : List (K × V)) : HashTable K V :=
  l.foldl (fun d e => d.set c e.1 e.2) ⟨slots, []⟩

end

/-- edit_graph_aligner.py 39–42, `MatchCoordinate`. -/
structure Coord where
  index : Int
  rank : Int
  deriving DecidableEq, Repr

/-- edit_graph_aligner.py 44–48, `__eq__` and `__hash__` of `MatchCoordinate`; `word` is what the interpreter makes of the number that
`__hash__` returns. -/
def coordKey (word : Int → Int) : HashKey Coord :=
  ⟨fun c => word (10 * c.index + c.rank), fun a b => a.index == b.index && a.rank == b.rank⟩

/-- edit_graph_aligner.py 105–107, `has_match`, on the table of hash values. -/
def hashedHas {V : Type} (word : Int → Int) (d : HashTable Coord V) (y x : Int) : Bool := (d.get (coordKey word) ⟨y, x⟩).isSome

/-- edit_graph_aligner.py 109–111, `get_match`, on the table of hash values. -/
def hashedGet {V : Type} (word : Int → Int) (d : HashTable Coord V) (y x : Int) : Py V :=
  match d.get (coordKey word) ⟨y, x⟩ with
  | some v => .ok v
  | none => .error .keyError

/-- extended_suffix_array.py 40–46, `__hash__` and `__eq__` of `Block`, whose only attribute is its range set; `hash` is Python's hash
function of strings. -/
def blockKey (hash : Str → Int) : HashKey RObj := ⟨fun r => hash (rangeStrStep r.autostep r.rset), fun a b => a.eq b⟩

end CollateX
