import Verif.Model.AStarAligner
import Verif.Props.AStar
/-
The search of the A* aligner is the search of `astar.py` on the edit graph; its paths are edit scripts.
-/

namespace CollateX

namespace Spec
variable {α : Type}

/-- An edit script that turns the rest `a` of the first text into the rest `b` of the second: at each step a token of the first
is omitted, a token of the second is added, or a token of the first is put in the place of a token of the second. `x` tokens of the
first and `y` tokens of the second are already done; the list records (y, x) after each step, and the last number is the cost. -/
inductive Edit (gap : Int) (sub : α → α → Int) : Nat → Nat → List α → List α → List (Nat × Nat) → Int → Prop
  | done (y x : Nat) : Edit gap sub y x [] [] [] 0
  | skip {y x : Nat} {s : α} {a b : List α} {p : List (Nat × Nat)} {c : Int} :
      Edit gap sub y (x + 1) a b p c → Edit gap sub y x (s :: a) b ((y, x + 1) :: p) (gap + c)
  | add {y x : Nat} {t : α} {a b : List α} {p : List (Nat × Nat)} {c : Int} :
      Edit gap sub (y + 1) x a b p c → Edit gap sub y x a (t :: b) ((y + 1, x) :: p) (gap + c)
  | both {y x : Nat} {s t : α} {a b : List α} {p : List (Nat × Nat)} {c : Int} :
      Edit gap sub (y + 1) (x + 1) a b p c → Edit gap sub y x (s :: a) (t :: b) ((y + 1, x + 1) :: p) (sub s t + c)

end Spec

open Spec

variable {α : Type}

theorem visit_fst (I : EditInput α) (node : Nat × Nat) : ∀ (l : List (Nat × Nat)) (r : SearchSt (Nat × Nat) × List (Nat × Nat)),
    (l.foldl (I.visit node) r).1 = l.foldl (visitChild I.problem node) r.1
  | [], _ => rfl
  | c :: l, r => by rw [List.foldl_cons, visit_fst I node l, List.foldl_cons]; rfl

theorem loop_fst (I : EditInput α) : ∀ (f : Nat) (s : SearchSt (Nat × Nat)) (flags : List (Nat × Nat)),
    (I.loop f (s, flags)).map (fun r => r.1) = searchLoop I.problem f s
  | 0, _, _ => rfl
  | f + 1, s, flags => by
    rw [EditInput.loop, searchLoop]
    cases hs : sortByKey (fun x => s.g x + s.h x) s.heap with
    | nil => rfl
    | cons node rest =>
      simp only
      have he : I.problem.isEnd node = I.isEnd node := rfl
      rw [he]
      cases I.isEnd node with
      | true =>
        simp only [if_true]
        cases reconstruct s.parent (s.visited.length + 1) node [] <;> rfl
      | false =>
        simp only [Bool.false_eq_true, if_false]
        have h1 := visit_fst I node (I.children node) ({ s with heap := rest, visited := node :: s.visited }, flags)
        rw [show I.problem.children node = I.children node from rfl, ← h1, ← loop_fst I f _ ((I.children node).foldl (I.visit node)
          ({ s with heap := rest, visited := node :: s.visited }, flags)).2]

/-- Every flag is a cell in which the two tokens match fully. -/
theorem visit_flags (I : EditInput α) (node : Nat × Nat) : ∀ (l : List (Nat × Nat)) (r : SearchSt (Nat × Nat) × List (Nat × Nat)),
    (∀ e ∈ r.2, 0 < e.1 ∧ 0 < e.2 ∧ I.kindAt e.1 e.2 = .full) →
    ∀ e ∈ (l.foldl (I.visit node) r).2, 0 < e.1 ∧ 0 < e.2 ∧ I.kindAt e.1 e.2 = .full
  | [], _, h => h
  | c :: l, r, h => by
    rw [List.foldl_cons]
    refine visit_flags I node l _ ?_
    intro e he
    unfold EditInput.visit at he
    simp only at he
    split at he
    · exact h e he
    · split at he
      next hc =>
        rcases List.mem_cons.mp he with rfl | he
        · exact ⟨by rw [hc.1]; simp, by rw [hc.1]; simp, hc.2⟩
        · exact h e he
      · exact h e he

theorem loop_flags (I : EditInput α) : ∀ (f : Nat) (s : SearchSt (Nat × Nat)) (flags : List (Nat × Nat)) r,
    (∀ e ∈ flags, 0 < e.1 ∧ 0 < e.2 ∧ I.kindAt e.1 e.2 = .full) → I.loop f (s, flags) = .ok r →
    ∀ e ∈ r.2, 0 < e.1 ∧ 0 < e.2 ∧ I.kindAt e.1 e.2 = .full
  | 0, _, _, _, _, h => by cases h
  | f + 1, s, flags, r, hf, h => by
    rw [EditInput.loop] at h
    cases hs : sortByKey (fun x => s.g x + s.h x) s.heap with
    | nil => rw [hs] at h; cases h; exact hf
    | cons node rest =>
      rw [hs] at h
      simp only at h
      cases he : I.isEnd node with
      | true =>
        rw [he, if_pos rfl] at h
        cases hr : reconstruct s.parent (s.visited.length + 1) node [] with
        | error e => rw [hr] at h; cases h
        | ok p => rw [hr] at h; cases h; exact hf
      | false =>
        rw [he, if_neg (by simp)] at h
        exact loop_flags I f _ _ r (visit_flags I node _ _ hf) h

/-- Every diagonal step to a fully matching cell ends in a flagged cell. -/
def FlagsOn (I : EditInput α) (flags : List (Nat × Nat)) : Nat × Nat → List (Nat × Nat) → Prop
  | _, [] => True
  | n, e :: p => (e = (n.1 + 1, n.2 + 1) → I.kindAt e.1 e.2 = .full → e ∈ flags) ∧ FlagsOn I flags e p

theorem FlagsOn.snoc {I : EditInput α} {flags : List (Nat × Nat)} {e : Nat × Nat} : ∀ {p : List (Nat × Nat)} {n : Nat × Nat},
    FlagsOn I flags n p → (e = ((lastNode n p).1 + 1, (lastNode n p).2 + 1) → I.kindAt e.1 e.2 = .full → e ∈ flags) →
    FlagsOn I flags n (p ++ [e])
  | [], _, _, h => ⟨h, trivial⟩
  | _ :: _, _, h, h' => ⟨h.1, FlagsOn.snoc h.2 h'⟩

/-- A diagonal step along a parent pointer to a fully matching cell ends in a flagged cell. -/
def ParentFlags (I : EditInput α) (parent : Nat × Nat → Option (Nat × Nat)) (flags : List (Nat × Nat)) : Prop :=
  ∀ n m, parent n = some m → n = (m.1 + 1, m.2 + 1) → I.kindAt n.1 n.2 = .full → n ∈ flags

theorem ParentFlags.on {I : EditInput α} {start : Nat × Nat} {g : Nat × Nat → Int} {parent : Nat × Nat → Option (Nat × Nat)}
    {flags vis p : List (Nat × Nat)} {n : Nat × Nat} (hP : ParentFlags I parent flags)
    (h : ParentPath I.problem g parent start vis n p) : FlagsOn I flags start p := by
  induction h with
  | base vis h1 h2 => exact trivial
  | step h1 h2 h3 h4 ih =>
    refine ih.snoc ?_
    rw [h2.real.2.1]
    exact hP _ _ h1

theorem visit_parentFlags (I : EditInput α) (node : Nat × Nat) : ∀ (l : List (Nat × Nat))
    (r : SearchSt (Nat × Nat) × List (Nat × Nat)), ParentFlags I r.1.parent r.2 →
    ParentFlags I (l.foldl (I.visit node) r).1.parent (l.foldl (I.visit node) r).2
  | [], _, h => h
  | c :: l, r, h => by
    rw [List.foldl_cons]
    refine visit_parentFlags I node l _ ?_
    intro n m hn hd hk
    unfold EditInput.visit at hn ⊢
    simp only at hn ⊢
    unfold visitChild at hn
    by_cases hv : c ∈ r.1.visited
    · rw [if_pos hv] at hn ⊢
      exact h n m hn hd hk
    · rw [if_neg hv] at hn ⊢
      have old : r.1.parent n = some m → n ∈ (if c = (node.1 + 1, node.2 + 1) ∧ I.kindAt c.1 c.2 = .full then c :: r.2 else r.2) := by
        intro hn
        have := h n m hn hd hk
        split
        · exact List.mem_cons_of_mem _ this
        · exact this
      simp only at hn
      split at hn
      · have hn : assign r.1.parent c (some node) n = some m := hn
        unfold assign at hn
        split at hn
        next hc =>
          injection hn with hn
          subst hn
          subst hc
          rw [if_pos ⟨hd, hk⟩]
          simp
        next => exact old hn
      · exact old hn

theorem loop_parentFlags (I : EditInput α) {start : Nat × Nat} : ∀ (f : Nat) (s : SearchSt (Nat × Nat)) (flags : List (Nat × Nat)) p
    (flags' : List (Nat × Nat)), SearchInv I.problem start s → ParentFlags I s.parent flags →
    I.loop f (s, flags) = .ok (some p, flags') → FlagsOn I flags' start p
  | 0, _, _, _, _, _, _, h => by cases h
  | f + 1, s, flags, p, flags', J, hf, h => by
    rw [EditInput.loop] at h
    cases hs : sortByKey (fun x => s.g x + s.h x) s.heap with
    | nil => rw [hs] at h; cases h
    | cons node rest =>
      rw [hs] at h
      simp only at h
      have hnode : node ∈ s.heap := by rw [← mem_sortByKey (key := fun x => s.g x + s.h x), hs]; simp
      cases he : I.isEnd node with
      | true =>
        rw [he, if_pos rfl] at h
        obtain ⟨p', hp'⟩ := J.paths node hnode
        rw [reconstruct_ok hp' [] _ (Nat.lt_succ_self _), List.append_nil] at h
        cases h
        exact hf.on hp'
      | false =>
        rw [he, if_neg (by simp)] at h
        have h1 := visit_fst I node (I.children node) ({ s with heap := rest, visited := node :: s.visited }, flags)
        have J' := round_inv J hs he
        rw [show I.problem.children node = I.children node from rfl, ← h1] at J'
        exact loop_parentFlags I f _ _ p flags' J' (visit_parentFlags I node _ ({ s with heap := rest, visited := node :: s.visited }, flags) hf) h

theorem mem_children {I : EditInput α} {n m : Nat × Nat} : m ∈ I.children n ↔
    (n.1 < I.tokensB.length ∧ m = (n.1 + 1, n.2)) ∨ (n.2 < I.tokensA.length ∧ m = (n.1, n.2 + 1)) ∨
    (n.1 < I.tokensB.length ∧ n.2 < I.tokensA.length ∧ m = (n.1 + 1, n.2 + 1)) := by
  unfold EditInput.children
  by_cases h1 : n.1 < I.tokensB.length <;> by_cases h2 : n.2 < I.tokensA.length <;> simp [h1, h2]

/-- The costs of replacing, in half units. -/
def subCost (I : EditInput α) (a b : α) : Int := (I.kind a b).cost

/-- A path to the end node is an edit script. -/
theorem edit_of_path (I : EditInput α) : ∀ (p : List (Nat × Nat)) (y x : Nat), y ≤ I.tokensB.length → x ≤ I.tokensA.length →
    IsPath I.children (y, x) p → lastNode (y, x) p = (I.tokensB.length, I.tokensA.length) →
    Edit 2 (subCost I) y x (I.tokensA.drop x) (I.tokensB.drop y) p (pathCost I.cost (y, x) p)
  | [], y, x, _, _, _, h => by
    rw [lastNode] at h
    injection h with h1 h2
    rw [List.drop_of_length_le (by omega), List.drop_of_length_le (by omega), pathCost]
    exact .done y x
  | m :: p, y, x, hy, hx, hp, h => by
    obtain ⟨hm, hp⟩ := hp
    rw [lastNode] at h
    rw [pathCost]
    rcases mem_children.mp hm with ⟨h1, rfl⟩ | ⟨h1, rfl⟩ | ⟨h1, h2, rfl⟩
    · have ih := edit_of_path I p (y + 1) x h1 hx hp h
      simp only at h1
      rw [List.drop_eq_getElem_cons h1]
      have hc : I.cost (y, x) (y + 1, x) = 2 := by unfold EditInput.cost; simp
      rw [hc]
      exact .add ih
    · have ih := edit_of_path I p y (x + 1) hy h1 hp h
      simp only at h1
      rw [List.drop_eq_getElem_cons h1]
      have hc : I.cost (y, x) (y, x + 1) = 2 := by unfold EditInput.cost; simp
      rw [hc]
      exact .skip ih
    · have ih := edit_of_path I p (y + 1) (x + 1) h1 h2 hp h
      simp only at h1 h2
      rw [List.drop_eq_getElem_cons h1, List.drop_eq_getElem_cons h2]
      have hc : I.cost (y, x) (y + 1, x + 1) = subCost I I.tokensA[x] I.tokensB[y] := by
        unfold EditInput.cost EditInput.kindAt subCost
        simp [h1, h2]
      rw [hc]
      exact .both ih

/-- An edit script is a path to the end node. -/
theorem path_of_edit (I : EditInput α) {y x : Nat} {a b : List α} {p : List (Nat × Nat)} {c : Int}
    (h : Edit 2 (subCost I) y x a b p c) (ha : I.tokensA.drop x = a) (hb : I.tokensB.drop y = b) (hx : x ≤ I.tokensA.length)
    (hy : y ≤ I.tokensB.length) :
    IsPath I.children (y, x) p ∧ lastNode (y, x) p = (I.tokensB.length, I.tokensA.length) ∧ pathCost I.cost (y, x) p = c := by
  induction h with
  | done y x =>
    have := List.drop_eq_nil_iff.mp ha
    have := List.drop_eq_nil_iff.mp hb
    refine ⟨trivial, ?_, rfl⟩
    rw [lastNode, show y = I.tokensB.length by omega, show x = I.tokensA.length by omega]
  | @skip y x s a b p c _ ih =>
    have hl := congrArg List.length ha
    simp only [List.length_drop, List.length_cons] at hl
    have h2 : x < I.tokensA.length := by omega
    rw [List.drop_eq_getElem_cons h2] at ha
    injection ha with ha1 ha2
    obtain ⟨i1, i2, i3⟩ := ih ha2 hb (by omega) hy
    refine ⟨⟨mem_children.mpr (.inr (.inl ⟨h2, rfl⟩)), i1⟩, i2, ?_⟩
    rw [pathCost, i3]
    have hc : I.cost (y, x) (y, x + 1) = 2 := by unfold EditInput.cost; simp
    rw [hc]
  | @add y x t a b p c _ ih =>
    have hl := congrArg List.length hb
    simp only [List.length_drop, List.length_cons] at hl
    have h2 : y < I.tokensB.length := by omega
    rw [List.drop_eq_getElem_cons h2] at hb
    injection hb with hb1 hb2
    obtain ⟨i1, i2, i3⟩ := ih ha hb2 hx (by omega)
    refine ⟨⟨mem_children.mpr (.inl ⟨h2, rfl⟩), i1⟩, i2, ?_⟩
    rw [pathCost, i3]
    have hc : I.cost (y, x) (y + 1, x) = 2 := by unfold EditInput.cost; simp
    rw [hc]
  | @both y x s t a b p c _ ih =>
    have hl := congrArg List.length hb
    have hl' := congrArg List.length ha
    simp only [List.length_drop, List.length_cons] at hl hl'
    have h2 : y < I.tokensB.length := by omega
    have h3 : x < I.tokensA.length := by omega
    rw [List.drop_eq_getElem_cons h2] at hb
    rw [List.drop_eq_getElem_cons h3] at ha
    injection hb with hb1 hb2
    injection ha with ha1 ha2
    obtain ⟨i1, i2, i3⟩ := ih ha2 hb2 (by omega) (by omega)
    refine ⟨⟨mem_children.mpr (.inr (.inr ⟨h2, h3, rfl⟩)), i1⟩, i2, ?_⟩
    rw [pathCost, i3]
    have hc : I.cost (y, x) (y + 1, x + 1) = subCost I s t := by
      unfold EditInput.cost EditInput.kindAt subCost
      simp [h2, h3, ha1, hb1]
    rw [hc]

/-- Some edit script always exists. -/
theorem exists_edit (gap : Int) (sub : α → α → Int) : ∀ (a b : List α) (y x : Nat), ∃ p c, Edit gap sub y x a b p c
  | [], [], y, x => ⟨_, _, .done y x⟩
  | _ :: a, b, y, x => by
    obtain ⟨p, c, h⟩ := exists_edit gap sub a b y (x + 1)
    exact ⟨_, _, .skip h⟩
  | [], _ :: b, y, x => by
    obtain ⟨p, c, h⟩ := exists_edit gap sub [] b (y + 1) x
    exact ⟨_, _, .add h⟩

theorem MatchKind.cost_nonneg (k : MatchKind) : 0 ≤ k.cost := by cases k <;> decide

/-- The heuristic is consistent. -/
theorem edit_consistent (I : EditInput α) : Consistent I.problem.children I.problem.cost I.problem.heuristic I.problem.isEnd := by
  constructor
  · intro a b hb
    have hk := MatchKind.cost_nonneg (I.kindAt b.1 b.2)
    show I.heuristic a ≤ I.cost a b + I.heuristic b
    have hb : b ∈ I.children a := hb
    unfold EditInput.heuristic EditInput.cost
    rcases mem_children.mp hb with ⟨_, rfl⟩ | ⟨_, rfl⟩ | ⟨_, _, rfl⟩
    · simp only; split
      · omega
      · rw [if_neg (by omega)]; omega
    · simp only; split
      · omega
      · rw [if_neg (by omega)]; omega
    · simp only at hk ⊢
      rw [if_neg (by omega)]
      split <;> omega
  · intro a b ha hb
    have ha : I.isEnd a = true := ha
    have hb : I.isEnd b = true := hb
    unfold EditInput.isEnd at ha hb
    simp only [decide_eq_true_eq] at ha hb
    rw [Prod.ext (ha.1.trans hb.1.symm) (ha.2.trans hb.2.symm)]

/-- The nodes of the edit graph. -/
def editNodes (I : EditInput α) : List (Nat × Nat) :=
  (List.range (I.tokensB.length + 1)).flatMap (fun y => (List.range (I.tokensA.length + 1)).map (fun x => (y, x)))

theorem mem_editNodes {I : EditInput α} {n : Nat × Nat} : n ∈ editNodes I ↔ n.1 ≤ I.tokensB.length ∧ n.2 ≤ I.tokensA.length := by
  unfold editNodes
  simp only [List.mem_flatMap, List.mem_range, List.mem_map]
  constructor
  · rintro ⟨y, hy, x, hx, rfl⟩; simp only; omega
  · intro h; exact ⟨n.1, by omega, n.2, by omega, rfl⟩

theorem length_editNodes (I : EditInput α) : (editNodes I).length = (I.tokensA.length + 1) * (I.tokensB.length + 1) := by
  unfold editNodes
  rw [List.length_flatMap]
  simp [Nat.mul_comm]

/-- The search succeeds, and with what. -/
theorem search_ok (I : EditInput α) (h : I.tokensA = [] ↔ I.tokensB = []) : ∃ p flags, I.search = .ok (some p, flags) ∧
    search I.problem ((I.tokensA.length + 1) * (I.tokensB.length + 1) + 1) (0, 0) = .ok (some p) ∧
    (∀ e ∈ flags, 0 < e.1 ∧ 0 < e.2 ∧ I.kindAt e.1 e.2 = .full) ∧ FlagsOn I flags (0, 0) p := by
  obtain ⟨r, h1, h2⟩ := C49_finds_path I.problem (0, 0) (editNodes I) (mem_editNodes.mpr ⟨by simp, by simp⟩)
    (by
      intro a ha b hb
      have hb : b ∈ I.children a := hb
      rw [mem_editNodes] at ha ⊢
      rcases mem_children.mp hb with ⟨_, rfl⟩ | ⟨_, rfl⟩ | ⟨_, _, rfl⟩ <;> simp only <;> omega)
    ((I.tokensA.length + 1) * (I.tokensB.length + 1) + 1) (by rw [length_editNodes]; omega)
  obtain ⟨q, c, hq⟩ := exists_edit 2 (subCost I) I.tokensA I.tokensB 0 0
  obtain ⟨q1, q2, _⟩ := path_of_edit I hq rfl rfl (by simp) (by simp)
  obtain ⟨p, rfl⟩ := h2.mpr ⟨q, q1, by rw [q2]; show I.isEnd _ = true; simp [EditInput.isEnd]⟩
  have hl := loop_fst I ((I.tokensA.length + 1) * (I.tokensB.length + 1) + 1)
    { g := fun _ => 0, h := fun _ => 0, parent := fun _ => none, heap := [(0, 0)], visited := [] } []
  have hs : I.search = I.loop ((I.tokensA.length + 1) * (I.tokensB.length + 1) + 1)
      ({ g := fun _ => 0, h := fun _ => 0, parent := fun _ => none, heap := [(0, 0)], visited := [] }, []) := by
    unfold EditInput.search
    rw [if_neg]
    rintro (⟨h3, h4⟩ | ⟨h3, h4⟩)
    · exact h4 (h.mp h3)
    · exact h3 (h.mpr h4)
  have h1' := h1
  unfold search at h1
  rw [h1] at hl
  rw [← hs] at hl
  cases hr : I.search with
  | error e => rw [hr] at hl; cases hl
  | ok r =>
    rw [hr] at hl
    obtain ⟨o, flags⟩ := r
    have ho : o = some p := by injection hl
    subst ho
    rw [hs] at hr
    refine ⟨p, flags, rfl, h1', ?_, loop_parentFlags I _ _ _ p flags (start_inv _) (by intro n m h; cases h) hr⟩
    exact loop_flags I _ _ _ (some p, flags) (by simp) hr

end CollateX
