import Verif.Model.Basic
/-
Suffix array and LCP array: `linsuffarr.py` 83–136, 161–281, 297–403 and 411–456.

`array('i')` is a list of naturals (machine integers are not bounded here). Reading an array past its end gives 0 in the
model where Python raises IndexError; the model only reads inside the arrays (see `Verif/Proofs/Skew.lean`).
-/

namespace CollateX

/-- `a[i]` -/
def rd (a : List Nat) (i : Nat) : Nat := a.getD i 0

/-- linsuffarr.py 122–125: count occurrences. -/
def rpCount (r : List Nat) : List Nat → List Nat → List Nat
  | [], c => c
  | x :: xs, c => rpCount r xs (c.set (rd r x) (rd c (rd r x) + 1))

/-- linsuffarr.py 127–132: exclusive prefix sums. -/
def prefixSums : Nat → List Nat → List Nat
  | _, [] => []
  | sum, t :: ts => sum :: prefixSums (sum + t) ts

/-- linsuffarr.py 134–136: sort. -/
def rpWrite (r : List Nat) : List Nat → List Nat → List Nat → List Nat
  | [], _, b => b
  | x :: xs, c, b => rpWrite r xs (c.set (rd r x) (rd c (rd r x) + 1)) (b.set (rd c (rd r x)) x)

/-- linsuffarr.py 83–136, `_radixPass(a, b, r, n, K)`; returns the new contents of `b`. -/
def radixPass (a b r : List Nat) (n K : Nat) : List Nat :=
  rpWrite r (a.take n) (prefixSums 0 (rpCount r (a.take n) (List.replicate (K + 1) 0))) b

/-- linsuffarr.py 206–220: lexicographic names of the triples. The list is the rest of `SA12[:n02]`; `c` is the
previous triple (initially `[-1, -1, -1]`, here `none`). Returns `s12` and the number of names. -/
def nameLoop (s : List Nat) (n0 : Nat) :
    List Nat → Option (Nat × Nat × Nat) → Nat → List Nat → List Nat × Nat
  | [], _, name, s12 => (s12, name)
  | x :: xs, c, name, s12 =>
    let tr := (rd s x, rd s (x + 1), rd s (x + 2))
    let name' := if some tr ≠ c then name + 1 else name
    let c' := if some tr ≠ c then some tr else c
    if x % 3 = 1 then nameLoop s n0 xs c' name' (s12.set (x / 3) name')
    else nameLoop s n0 xs c' name' (s12.set (x / 3 + n0) name')

/-- linsuffarr.py 227–229: `for i, SA12_i in enumerate(SA12[:n02]): s12[SA12_i] = i + 1`. -/
def storeNames : List Nat → Nat → List Nat → List Nat
  | [], _, s12 => s12
  | x :: xs, i, s12 => storeNames xs (i + 1) (s12.set x (i + 1))

/-- linsuffarr.py 235–236: `for i, s12_i in enumerate(s12[:n02]): SA12[s12_i - 1] = i`. -/
def invertNames : List Nat → Nat → List Nat → List Nat
  | [], _, sa => sa
  | x :: xs, i, sa => invertNames xs (i + 1) (sa.set (x - 1) i)

/-- linsuffarr.py 252–255: the position of the current offset 12 suffix. -/
def pos12 (n0 x : Nat) : Nat := if x < n0 then x * 3 + 1 else (x - n0) * 3 + 2

/-- Python's `<=` on pairs. -/
def le2 (a b : Nat × Nat) : Bool := a.1 < b.1 || (a.1 == b.1 && a.2 ≤ b.2)

/-- Python's `<=` on triples. -/
def le3 (a b : Nat × Nat × Nat) : Bool := a.1 < b.1 || (a.1 == b.1 && le2 a.2 b.2)

/-- linsuffarr.py 259–262: is the current offset 12 suffix smaller? -/
def sfxLe (s s12 : List Nat) (n0 x j : Nat) : Bool :=
  let i := pos12 n0 x
  if x < n0 then
    le2 (rd s i, rd s12 (x + n0)) (rd s j, rd s12 (j / 3))
  else
    le3 (rd s i, rd s (i + 1), rd s12 (x - n0 + 1)) (rd s j, rd s (j + 1), rd s12 (j / 3 + n0))

/-- linsuffarr.py 247–284, the merge loop, for the entries `SA[k..n-1]`; `m` is `n - k`. -/
def mergeSA (s s12 SA12 SA0 : List Nat) (n0 n02 : Nat) : Nat → Nat → Nat → List Nat
  | 0, _, _ => []
  | m + 1, p, t =>
    if sfxLe s s12 n0 (rd SA12 t) (rd SA0 p) then
      if t + 1 = n02 then pos12 n0 (rd SA12 t) :: (SA0.take n0).drop p
      else pos12 n0 (rd SA12 t) :: mergeSA s s12 SA12 SA0 n0 n02 m p (t + 1)
    else
      if p + 1 = n0 then rd SA0 p :: ((SA12.take n02).drop t).map (pos12 n0)
      else rd SA0 p :: mergeSA s s12 SA12 SA0 n0 n02 m (p + 1) t

/-- linsuffarr.py 161–286, `_suffixArrayWithTrace(s, SA, n, K, ...)`; returns `SA[0..n-1]`. The first argument is
fuel for the recursion (the recursive call is on a shorter sequence). -/
def skew : Nat → List Nat → Nat → Nat → List Nat
  | 0, _, _, _ => []
  | fuel + 1, s, n, K =>
    let n0 := (n + 2) / 3
    let n1 := (n + 1) / 3
    let n2 := n / 3
    let n02 := n0 + n2
    let s12 := (List.range (n + (n0 - n1))).filter (fun i => i % 3 ≠ 0) ++ [0, 0, 0]
    let SA12 := List.replicate (n02 + 3) 0
    let SA12 := radixPass s12 SA12 (s.drop 2) n02 K
    let s12 := radixPass SA12 s12 (s.drop 1) n02 K
    let SA12 := radixPass s12 SA12 s n02 K
    let r := nameLoop s n0 (SA12.take n02) none 0 s12
    let s12 := r.1
    let name := r.2
    let q :=
      if name < n02 then
        let SA12 := skew fuel s12 n02 (name + 1) ++ SA12.drop n02
        (SA12, storeNames (SA12.take n02) 0 s12)
      else
        (invertNames (s12.take n02) 0 SA12, s12)
    let SA12 := q.1
    let s12 := q.2
    let s0 := ((SA12.take n02).filter (fun x => x < n0)).map (fun x => 3 * x)
    let SA0 := radixPass s0 (List.replicate n0 0) s n0 K
    mergeSA s s12 SA12 SA0 n0 n02 n 0 (n0 - n1)

/-- linsuffarr.py 338–345, the loop of `_longestCommonPrefix`: `k` more positions to compare, `i` done. -/
def lcpLoop (s : List Nat) (p q : Nat) : Nat → Nat → Nat
  | 0, i => i
  | k + 1, i => if rd s (p + i) ≠ rd s (q + i) then i else lcpLoop s p q k (i + 1)

/-- linsuffarr.py 297–351, `_longestCommonPrefix(s, s, p, q)`. -/
def longestCommonPrefix (s : List Nat) (p q : Nat) : Nat :=
  let len1 := s.length - p
  let len2 := s.length - q
  let (p, q, len2) := if len1 < len2 then (q, p, len1) else (p, q, len2)
  if len2 = 0 then 0 else lcpLoop s p q len2 0

/-- linsuffarr.py 384–403, `LCP`; `SA[i - 1]` for `i = 0` is the last entry, but entry 0 is overwritten with 0. -/
def lcpArray (s SA : List Nat) : List Nat :=
  match SA with
  | [] => []
  | x :: xs => 0 :: (List.zipWith (longestCommonPrefix s) (x :: xs) xs)

/-- Python's `<` on strings: lexicographic by code point. -/
def strLt : Str → Str → Bool
  | [], [] => false
  | [], _ :: _ => true
  | _ :: _, [] => false
  | a :: as, b :: bs => a.toNat < b.toNat || (a.toNat == b.toNat && strLt as bs)

/-- Insertion into a strictly sorted list. -/
def insertStr (x : Str) : List Str → List Str
  | [] => [x]
  | y :: ys => if strLt x y then x :: y :: ys else if strLt y x then y :: insertStr x ys else y :: ys

/-- `sorted(set(string))` -/
def sortedSet : List Str → List Str
  | [] => []
  | x :: xs => insertStr x (sortedSet xs)

/-- linsuffarr.py 430–432: `voc = [None] + sorted(set(string))`, `tokId`: the number of a token string. -/
def tokId (voc : List Str) (x : Str) : Nat := voc.idxOf x + 1

/-- linsuffarr.py 411–456, `SuffixArray.__init__` with `unit=UNIT_BYTE`: the numbered text, the suffix array and the LCP
array. -/
structure SuffixArray where
  voc : List Str
  string : List Nat
  SA : List Nat
  LCP : List Nat
  deriving DecidableEq, Repr

def mkSuffixArray (strings : List Str) : SuffixArray :=
  let voc := sortedSet strings
  let string := strings.map (tokId voc)
  let SA := skew (strings.length + 1) (string ++ [0, 0, 0]) strings.length (voc.length + 1)
  { voc := voc, string := string, SA := SA, LCP := lcpArray string SA }

end CollateX
