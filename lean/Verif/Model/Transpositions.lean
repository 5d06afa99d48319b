import Verif.Model.Phrases
/-
`TranspositionDetector` of `transposition_handling.py`.
-/

namespace CollateX

/-- A phrase match: pairs of a vertex and a token (`zip` is a list under Python 2). -/
abbrev PhraseMatch := List (VId × Token)

/-- `list.remove(x)`: the first occurrence; `ValueError` if there is none. -/
def removeE {α : Type} [BEq α] [LawfulBEq α] (l : List α) (x : α) : Py (List α) :=
  if x ∈ l then .ok (l.erase x) else .error .valueError

/-- `list.index(x)`: the first occurrence; `ValueError` if there is none. -/
def indexE {α : Type} [BEq α] [LawfulBEq α] (l : List α) (x : α) : Py Nat :=
  if x ∈ l then .ok (l.idxOf x) else .error .valueError

/-- `[f(x) for x in l]` where `f` may raise. -/
def mapE {α β : Type} (f : α → Py β) : List α → Py (List β)
  | [] => .ok []
  | a :: l => do
    let b ← f a
    let bs ← mapE f l
    .ok (b :: bs)

/-- `sorted(l, cmp=cmp)`: an element goes before the first of the following ones that is not smaller. -/
def insertCmp {α : Type} (cmp : α → α → Int) (x : α) : List α → List α
  | [] => [x]
  | y :: l => if cmp x y ≤ 0 then x :: y :: l else y :: insertCmp cmp x l

/-- `sorted(l, cmp=cmp)`, which is stable. -/
def sortCmp {α : Type} (cmp : α → α → Int) : List α → List α
  | [] => []
  | x :: l => insertCmp cmp x (sortCmp cmp l)

/-- transposition_handling.py 118–129, `compare_phrasematches`, for phrases with their ranks and indices. -/
def comparePhrases (a b : Nat × Nat × PhraseMatch) : Int :=
  let difference := (a.1 : Int) - b.1
  if difference ≠ 0 then difference else (a.2.1 : Int) - b.2.1

/-- transposition_handling.py 119–128: the rank of the first vertex and the index of a phrase. -/
def phraseKey (rk : Ranking) (pms : List PhraseMatch) (pm : PhraseMatch) : Py (Nat × Nat × PhraseMatch) := do
  let first ← lgetE pm 0
  let rank ← dgetE rk.byVertex first.1
  .ok (rank, pms.idxOf pm, pm)

/-- transposition_handling.py 131, `sorted` with `compare_phrasematches` (stable; a list of one element is not compared). The keys are
looked up once per phrase here and for every comparison there. -/
def graphOrder (rk : Ranking) (pms : List PhraseMatch) : Py (List PhraseMatch) :=
  if pms.length ≤ 1 then .ok pms else do
    let keys ← mapE (phraseKey rk pms) pms
    .ok ((sortCmp comparePhrases keys).map (fun k => k.2.2))

/-- transposition_handling.py 134–136, `phrasematch_to_index`. -/
def phraseIndex : List PhraseMatch → Nat → Dict (VId × Token) Nat → Py (Dict (VId × Token) Nat)
  | [], _, d => .ok d
  | pm :: l, i, d => do
    let first ← lgetE pm 0
    phraseIndex l (i + 1) (dset d first i)

/-- transposition_handling.py 146–148, the variables of the loop. -/
structure TransSt where
  graphIx : List Nat
  witnessIx : List Nat
  left : List PhraseMatch
  found : List PhraseMatch

/-- transposition_handling.py 153–158, `phrasematch_to_distance`. -/
def phraseDistances (graphIx witnessIx : List Nat) : List PhraseMatch → Nat → Dict (VId × Token) Nat → Py (Dict (VId × Token) Nat)
  | [], _, d => .ok d
  | pm :: l, i, d => do
    let g ← lgetE graphIx i
    let w ← lgetE witnessIx i
    let first ← lgetE pm 0
    phraseDistances graphIx witnessIx l (i + 1) (dset d first (((g : Int) - w).natAbs))

/-- transposition_handling.py 165–177, `comp2`, for phrases with their distances. -/
def compareDistances (a b : Nat × PhraseMatch) : Int :=
  let difference := (b.1 : Int) - a.1
  if difference ≠ 0 then difference else (a.2.length : Int) - b.2.length

/-- transposition_handling.py 165–179: the phrase of which the distance is greatest, the shortest and then the first of these. -/
def farthest (dist : Dict (VId × Token) Nat) (left : List PhraseMatch) : Py PhraseMatch := do
  let keys ← mapE (fun pm => do
    let first ← lgetE pm 0
    let d ← dgetE dist first
    .ok (d, pm)) left
  lgetE ((sortCmp compareDistances keys).map Prod.snd) 0

/-- transposition_handling.py 195–200, `_add_transposition`. -/
def addTransposition (index : Dict (VId × Token) Nat) (s : TransSt) (pm : PhraseMatch) : Py TransSt := do
  let first ← lgetE pm 0
  let i ← dgetE index first
  let left ← removeE s.left pm
  let graphIx ← removeE s.graphIx i
  let witnessIx ← removeE s.witnessIx i
  .ok ⟨graphIx, witnessIx, left, s.found ++ [pm]⟩

/-- transposition_handling.py 151–191, one round of the loop; `none` is `break`. -/
def transRound (order : List PhraseMatch) (index : Dict (VId × Token) Nat) (s : TransSt) : Py (Option TransSt) := do
  let dist ← phraseDistances s.graphIx s.witnessIx s.left 0 []
  if (dist.map Prod.snd).foldl max 0 = 0 then .ok none else do
    let pm ← farthest dist s.left
    let first ← lgetE pm 0
    let i ← dgetE index first
    let pos ← indexE s.graphIx i
    let w ← lgetE s.witnessIx pos
    let linked ← lgetE order w
    let s' ← addTransposition index s pm
    let d ← dgetE dist first
    let lfirst ← lgetE linked 0
    let ld ← dgetE dist lfirst
    if d = ld ∧ d > 1 then do
      let s'' ← addTransposition index s' linked
      .ok (some s'')
    else .ok (some s')

/-- transposition_handling.py 151–193, the loop. Python loops until `break`; the fuel is shown to suffice. -/
def transLoop (order : List PhraseMatch) (index : Dict (VId × Token) Nat) : Nat → TransSt → Py TransSt
  | 0, _ => .error .outOfFuel
  | n + 1, s => do
    match ← transRound order index s with
    | none => .ok s
    | some s' => transLoop order index n s'

/-- transposition_handling.py 112–193, `detect`, after the ranking of the graph. Under Python 3 `sorted` has no parameter `cmp`, which is
a `TypeError` for any phrase; what follows is the behaviour under Python 2.7 (both are listed in setup.py 34–38). -/
def detectTranspositions (py3 : Bool) (rk : Ranking) (pms : List PhraseMatch) : Py (List PhraseMatch) :=
  if pms = [] then .ok []
  else if py3 then .error .typeError
  else do
    let order ← graphOrder rk pms
    let index ← phraseIndex order 0 []
    let witnessIx ← mapE (fun pm => do
      let first ← lgetE pm 0
      dgetE index first) pms
    let s ← transLoop order index (pms.length + 1) ⟨List.range pms.length, witnessIx, pms, []⟩
    .ok s.found

end CollateX
