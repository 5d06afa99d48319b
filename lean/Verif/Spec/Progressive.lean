import Verif.Spec.Textbook
/-
Collating any number of texts, one after the other: a short program on lists of words, without token index, suffix array, blocks, graph or
score objects.
-/

namespace CollateX.Spec
open CollateX

/-- The texts collated so far. There is a node for every word that was not put together with an earlier one; node `n` has the word `words[n]`.
A text is a list of nodes. -/
structure Work where
  words : List Str
  rows : List (List Nat)
  deriving DecidableEq, Repr

namespace Work

/-- The nodes directly before a node in some text. -/
def before (w : Work) (n : Nat) : List Nat := w.rows.flatMap (fun r => ((r.zip r.tail).filter (fun p => p.2 = n)).map Prod.fst)

/-- The largest of some numbers. -/
def largest (l : List Nat) : Nat := l.foldr max 0

/-- The column of a node is the one after the last column of the nodes directly before it. (The first argument limits the number of steps.) -/
def columnIn (w : Work) : Nat → Nat → Nat
  | 0, _ => 0
  | k + 1, n => largest ((w.before n).map (w.columnIn k)) + 1

/-- The column of a node; the first column has the number one. -/
def column (w : Work) (n : Nat) : Nat := w.columnIn w.words.length n

/-- The number of columns. -/
def width (w : Work) : Nat := largest ((List.range w.words.length).map w.column)

/-- The nodes with a given word in the column after `x` others. -/
def fits (w : Work) (x : Nat) (b : Str) : List Nat := (List.range w.words.length).filter (fun n => w.column n = x + 1 && w.words[n]? = some b)

/-- Word `j` of a further text is in the column after `x` others. -/
def same (w : Work) (B : List Str) (x j : Nat) : Bool :=
  match B[j]? with
  | some b => !(w.fits x b).isEmpty
  | none => false

/-- `pick` chooses, among the nodes of a column that have the word of the further text, one. -/
def Picks (w : Work) (B : List Str) (pick : Nat × Nat → Nat) : Prop :=
  ∀ (x j : Nat) (b : Str), B[j]? = some b → w.fits x b ≠ [] → pick (x, j) ∈ w.fits x b

/-- The links of a further text with the columns. If several words of the text are linked to one node, the last of them keeps its link. -/
def links (w : Work) (B : List Str) (pick : Nat × Nat → Nat) : List (Nat × Nat) :=
  firstOf pick (aligned (w.same B) w.width B.length).2

/-- New nodes get the next numbers. -/
def numbered : Nat → List (Option Nat) → List Nat
  | _, [] => []
  | k, some n :: l => n :: numbered k l
  | k, none :: l => k :: numbered (k + 1) l

/-- For each word of a further text the node it is linked to. -/
def nodesFor (w : Work) (B : List Str) (pick : Nat × Nat → Nat) : List (Option Nat) :=
  (List.range B.length).map (fun j => ((w.links B pick).find? (fun p => p.2 = j)).map pick)

/-- A further text is collated. -/
def add (w : Work) (B : List Str) (pick : Nat × Nat → Nat) : Work where
  words := w.words ++ ((w.nodesFor B pick).zip B).filterMap (fun p => if p.1 = none then some p.2 else none)
  rows := w.rows ++ [numbered w.words.length (w.nodesFor B pick)]

/-- The node of a text in a column. -/
def nodeAt (w : Work) (r : List Nat) (x : Nat) : Option Nat := r.find? (fun n => w.column n = x)

/-- A column is variant unless all texts have the same node there. -/
def variantAt (w : Work) (x : Nat) : Bool :=
  !(List.range w.words.length).any (fun n => w.rows.all (fun r => w.nodeAt r x = some n))

/-- The table: for each text and each column the mark and the word. -/
def shown (w : Work) : List (List (Bool × Option (List Str))) :=
  w.rows.map (fun r => (List.range w.width).map (fun x =>
    (w.variantAt (x + 1), ((w.nodeAt r (x + 1)).bind (fun n => w.words[n]?)).map (fun s => [s]))))

/-- Each text has both nodes, the second directly after the first, or neither. -/
def glued (w : Work) (a b : Nat) : Bool := w.rows.all (fun r => (!r.contains a && !r.contains b) || (r.zip r.tail).contains (a, b))

/-- Each text is cut wherever a node and the next one do not always stand together. -/
def segments (w : Work) : List (List (List Nat)) := w.rows.map (fun r => r.splitBy w.glued)

/-- The first node of a segment. -/
def first (s : List Nat) : Nat := s.headD 0

/-- Each segment is one node, its first. -/
def heads (w : Work) : Work := ⟨w.words, w.segments.map (List.map first)⟩

/-- The table of segments: for each text and each column the mark and the words. -/
def shownSegmented (w : Work) : List (List (Bool × Option (List Str))) :=
  w.segments.map (fun r => (List.range w.heads.width).map (fun x =>
    (w.heads.variantAt (x + 1), (r.find? (fun s => w.heads.column (first s) = x + 1)).map (fun s => s.filterMap (fun n => w.words[n]?)))))

/-- No two nodes of a column have the same word. -/
def Untwinned (w : Work) : Prop := ((List.range w.words.length).map (fun n => (w.column n, w.words[n]?))).Nodup

instance (w : Work) : Decidable w.Untwinned := by unfold Untwinned; infer_instance

end Work

/-- Some texts have been collated one after the other. -/
inductive Worked : List (List Str) → Work → Prop
  | nil : Worked [] ⟨[], []⟩
  | add {ts : List (List Str)} {w : Work} (B : List Str) (pick : Nat × Nat → Nat) : Worked ts w → w.Picks B pick → Worked (ts ++ [B]) (w.add B pick)

/-- The choice of the first node that has the word. -/
def Work.firstFit (w : Work) (B : List Str) (p : Nat × Nat) : Nat :=
  match B[p.2]? with
  | some b => ((w.fits p.1 b).head?).getD 0
  | none => 0

/-- The same, with the first node that has the word chosen everywhere. -/
def workOf (ts : List (List Str)) : Work := ts.foldl (fun w B => w.add B (w.firstFit B)) ⟨[], []⟩

end CollateX.Spec
