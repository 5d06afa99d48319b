import Verif.Proofs.AStarAligner
import Verif.Proofs.Merge
import Mathlib.Data.List.Forall2
/-
C68, C69: the aligner based on best-first search.
-/

namespace CollateX

open Spec

variable {α : Type}

/-- The costs of the scorer, in half units: nothing for a full match, 0.5 for a near match, 2 otherwise. -/
def Spec.halfUnits : MatchKind → Int
  | .full => 0
  | .near => 1
  | .no => 4

/-- C68: whatever the match function, the search of the A* aligner ends with an edit script from the first text to the second, and no
edit script is cheaper. (A gap costs 1, that is two half units.) -/
theorem C68_cheapest_script (I : EditInput α) (ha : I.tokensA ≠ []) (hb : I.tokensB ≠ []) : ∃ p flags c,
    I.search = .ok (some p, flags) ∧ Edit 2 (fun a b => halfUnits (I.kind a b)) 0 0 I.tokensA I.tokensB p c ∧
    ∀ p' c', Edit 2 (fun a b => halfUnits (I.kind a b)) 0 0 I.tokensA I.tokensB p' c' → c ≤ c' := by
  have hsub : (fun a b => halfUnits (I.kind a b)) = subCost I := by
    funext a b
    unfold subCost
    cases I.kind a b <;> rfl
  rw [hsub]
  obtain ⟨p, flags, h1, h2, h3, _⟩ := search_ok I ⟨fun h => absurd h ha, fun h => absurd h hb⟩
  obtain ⟨r1, r2⟩ := C49_real_path _ _ _ _ h2
  have r2 : I.isEnd (lastNode (0, 0) p) = true := r2
  unfold EditInput.isEnd at r2
  simp only [decide_eq_true_eq] at r2
  refine ⟨p, flags, _, h1, edit_of_path I p 0 0 (by simp) (by simp) r1 (Prod.ext r2.1 r2.2), ?_⟩
  intro p' c' h'
  obtain ⟨q1, q2, q3⟩ := path_of_edit I h' rfl rfl (by simp) (by simp)
  rw [← q3]
  refine C49_least_cost _ _ _ _ h2 (edit_consistent I) p' q1 ?_
  rw [q2]
  show I.isEnd _ = true
  simp [EditInput.isEnd]

/-- The heuristic is computed with the length of the second text in the place of the length of the first, so that at the end it is
not zero if the texts differ in length: it promises more cost than there is left. The search is cheapest all the same. -/
theorem C68_heuristic_not_admissible : ∃ I : EditInput Nat, ∃ n, I.isEnd n = true ∧ 0 < I.heuristic n :=
  ⟨⟨[1, 2], [1], fun _ _ => .no⟩, (1, 2), by decide, by decide⟩

/-- One empty text: the aligner fails. -/
theorem C68_empty_text (I : EditInput α) (h : (I.tokensA = [] ∧ I.tokensB ≠ []) ∨ (I.tokensA ≠ [] ∧ I.tokensB = [])) :
    I.align = .error .indexError := by
  unfold EditInput.align EditInput.search
  rw [if_pos h]
  rfl

/-- The nodes after `n`. -/
theorem path_later {I : EditInput α} : ∀ {p : List (Nat × Nat)} {n : Nat × Nat}, IsPath I.children n p →
    ∀ e ∈ p, n.1 ≤ e.1 ∧ n.2 ≤ e.2
  | [], _, _ => by intro e he; cases he
  | m :: p, n, h => by
    have h1 : n.1 ≤ m.1 ∧ n.2 ≤ m.2 := by
      rcases mem_children.mp h.1 with ⟨_, rfl⟩ | ⟨_, rfl⟩ | ⟨_, _, rfl⟩ <;> simp only <;> omega
    intro e he
    rcases List.mem_cons.mp he with rfl | he
    · exact h1
    · have := path_later h.2 e he
      omega

/-- What holds of the alignment during the walk along the path, when `(y, x)` has been reached. -/
structure WalkInv (I : EditInput α) (n : Nat × Nat) (al : Dict Nat Nat) : Prop where
  full : ∀ j i, (j, i) ∈ al → I.kindAt (j + 1) (i + 1) = .full
  below : ∀ j i, (j, i) ∈ al → j < n.1 ∧ i < n.2
  sorted : ∀ j i j' i', (j, i) ∈ al → (j', i') ∈ al → j < j' → i ≤ i'
  nodup : (al.map Prod.fst).Nodup

theorem walk_inv {I : EditInput α} {flags : List (Nat × Nat)}
    (hf : ∀ e ∈ flags, 0 < e.1 ∧ 0 < e.2 ∧ I.kindAt e.1 e.2 = .full) : ∀ (p : List (Nat × Nat)) (n : Nat × Nat) (al : Dict Nat Nat)
    (sb : List α) (lx ly : Nat), IsPath I.children n p → WalkInv I n al →
    WalkInv I (lastNode n p) (I.walk flags p (al, sb, lx, ly)).1
  | [], n, al, sb, lx, ly, _, h => h
  | e :: p, n, al, sb, lx, ly, hp, h => by
    have h1 : n.1 ≤ e.1 ∧ n.2 ≤ e.2 := path_later hp e (by simp)
    rw [lastNode, EditInput.walk]
    split
    next he =>
      obtain ⟨f1, f2, f3⟩ := hf e he
      refine walk_inv hf p e _ _ _ _ hp.2 ⟨?_, ?_, ?_, nodup_keys_dset h.nodup _ _⟩
      · intro j i hji
        rcases mem_dset hji with hji | hji
        · exact h.full j i hji
        · injection hji with hj hi
          rw [hj, hi, Nat.sub_add_cancel f1, Nat.sub_add_cancel f2]
          exact f3
      · intro j i hji
        rcases mem_dset hji with hji | hji
        · have := h.below j i hji
          omega
        · injection hji with hj hi
          omega
      · intro j i j' i' hji hji' hlt
        rcases mem_dset hji with hji | hji <;> rcases mem_dset hji' with hji' | hji'
        · exact h.sorted j i j' i' hji hji' hlt
        · have := h.below j i hji
          injection hji' with hj hi
          omega
        · have := h.below j' i' hji'
          injection hji with hj hi
          omega
        · injection hji with hj hi
          injection hji' with hj' hi'
          omega
    next he =>
      refine walk_inv hf p e _ _ _ _ hp.2 ⟨h.full, ?_, h.sorted, h.nodup⟩
      intro j i hji
      have := h.below j i hji
      omega

/-- What is aligned stays aligned. -/
theorem walk_keeps {I : EditInput α} {flags : List (Nat × Nat)} {j : Nat} : ∀ (p : List (Nat × Nat)) (al : Dict Nat Nat)
    (sb : List α) (lx ly : Nat), j ∈ al.map Prod.fst → j ∈ (I.walk flags p (al, sb, lx, ly)).1.map Prod.fst
  | [], _, _, _, _, h => h
  | e :: p, al, sb, lx, ly, h => by
    rw [EditInput.walk]
    split
    · refine walk_keeps p _ _ _ _ ?_
      rw [keys_dset]
      split
      · exact h
      · simp [h]
    · exact walk_keeps p _ _ _ _ h

theorem walk_aligns {I : EditInput α} {flags : List (Nat × Nat)} : ∀ (p : List (Nat × Nat)) (n : Nat × Nat) (al : Dict Nat Nat)
    (sb : List α) (lx ly : Nat), FlagsOn I flags n p → ∀ k j i : Nat, (n :: p)[k]? = some (j, i) → (n :: p)[k + 1]? = some (j + 1, i + 1) →
    I.kindAt (j + 1) (i + 1) = .full → j ∈ (I.walk flags p (al, sb, lx, ly)).1.map Prod.fst
  | [], n, al, sb, lx, ly, _, k, j, i, _, h, _ => by cases h
  | e :: p, n, al, sb, lx, ly, hF, k, j, i, h1, h2, hk => by
    cases k with
    | zero =>
      simp only [List.getElem?_cons_zero, Option.some.injEq] at h1
      have h3 : some e = some (j + 1, i + 1) := h2
      injection h3 with h3
      subst h1
      subst h3
      rw [EditInput.walk, if_pos (hF.1 rfl hk)]
      refine walk_keeps p _ _ _ _ ?_
      rw [keys_dset]
      simp only [Nat.add_sub_cancel]
      split
      next h => simpa using h
      · simp
    | succ k =>
      have h1 : (e :: p)[k]? = some (j, i) := h1
      have h2 : (e :: p)[k + 1]? = some (j + 1, i + 1) := h2
      rw [EditInput.walk]
      split <;> exact walk_aligns p e _ _ _ _ hF.2 k j i h1 h2 hk

/-- C69, what holds of the alignment: it is a partial function from the tokens of the second text to the tokens of the first; it
relates only tokens that match fully; it does not cross; and every token that the cheapest script found replaces by a fully matching
one is aligned. What is missing: two tokens of the second text may be aligned with the same token (`C69_two_on_one`), and the new
superbase is not complete (`C69_superbase_loses`). -/
theorem C69_alignment_partial (I : EditInput α) (ha : I.tokensA ≠ []) (hb : I.tokensB ≠ []) : ∃ p flags al sb,
    I.search = .ok (some p, flags) ∧ I.align = .ok (al, sb) ∧ (al.map Prod.fst).Nodup ∧
    (∀ j i, (j, i) ∈ al → ∃ a b, I.tokensA[i]? = some a ∧ I.tokensB[j]? = some b ∧ I.kind a b = .full) ∧
    (∀ j i j' i', (j, i) ∈ al → (j', i') ∈ al → j < j' → i ≤ i') ∧
    (∀ (k j i : Nat) (a b : α), ((0, 0) :: p)[k]? = some (j, i) → p[k]? = some (j + 1, i + 1) → I.tokensA[i]? = some a →
      I.tokensB[j]? = some b → I.kind a b = .full → ∃ i', (j, i') ∈ al) := by
  obtain ⟨p, flags, h1, h2, h3, h4⟩ := search_ok I ⟨fun h => absurd h ha, fun h => absurd h hb⟩
  obtain ⟨r1, r2⟩ := C49_real_path _ _ _ _ h2
  have r2 : I.isEnd (lastNode (0, 0) p) = true := r2
  unfold EditInput.isEnd at r2
  simp only [decide_eq_true_eq] at r2
  have W := walk_inv h3 p (0, 0) [] [] 0 0 r1 ⟨by simp, by simp, by simp, by simp⟩
  refine ⟨p, flags, _, _, h1, by unfold EditInput.align; rw [h1]; rfl, W.nodup, ?_, W.sorted, ?_⟩
  · intro j i hji
    have hf := W.full j i hji
    have hl := W.below j i hji
    have e1 : i < I.tokensA.length := by omega
    have e2 : j < I.tokensB.length := by omega
    refine ⟨I.tokensA[i], I.tokensB[j], List.getElem?_eq_getElem e1, List.getElem?_eq_getElem e2, ?_⟩
    unfold EditInput.kindAt at hf
    simpa [e1, e2] using hf
  · intro k j i a b hk1 hk2 hia hjb hab
    have := walk_aligns p (0, 0) [] [] 0 0 h4 k j i hk1 hk2 (by unfold EditInput.kindAt; simp [hia, hjb, hab])
    obtain ⟨⟨j', i'⟩, hm, rfl⟩ := List.mem_map.mp this
    exact ⟨i', hm⟩

/-- The tokens of `l` stand in `m` in this order, each as itself or as one that `R` relates to it. -/
def Spec.Embedded (R : α → α → Prop) (l m : List α) : Prop := ∃ k : List α, List.Forall₂ (fun b s => b = s ∨ R s b) l k ∧ k.Sublist m

theorem _root_.CollateX.Spec.Embedded.append {R : α → α → Prop} {l m l' m' : List α} (h : Embedded R l m) (h' : Embedded R l' m') :
    Embedded R (l ++ l') (m ++ m') := by
  obtain ⟨k, h1, h2⟩ := h
  obtain ⟨k', h1', h2'⟩ := h'
  exact ⟨k ++ k', List.rel_append h1 h1', h2.append h2'⟩

theorem _root_.CollateX.Spec.Embedded.refl (R : α → α → Prop) (l : List α) : Embedded R l l :=
  ⟨l, List.forall₂_same.mpr (fun _ _ => Or.inl rfl), List.Sublist.refl _⟩

theorem _root_.CollateX.Spec.Embedded.grow {R : α → α → Prop} {l m : List α} (h : Embedded R l m) (m' : List α) : Embedded R l (m ++ m') := by
  obtain ⟨k, h1, h2⟩ := h
  exact ⟨k, h1, h2.trans (List.sublist_append_left m m')⟩

theorem take_split {l : List α} {a b : Nat} (h : a ≤ b) : l.take b = l.take a ++ (l.take b).drop a := by
  conv_lhs => rw [← List.take_append_drop a (l.take b)]
  rw [List.take_take, Nat.min_eq_left h]

theorem take_succ' {l : List α} {a : Nat} (h : 0 < a) : l.take a = l.take (a - 1) ++ (l[a - 1]?).toList := by
  obtain ⟨b, rfl⟩ : ∃ b, a = b + 1 := ⟨a - 1, by omega⟩
  rw [List.take_succ]
  rfl

/-- What holds of the superbase when the last match was in column `lx` and row `ly`. -/
structure SuperInv (I : EditInput α) (sb : List α) (lx ly : Nat) : Prop where
  first : (I.tokensA.take lx).Sublist sb
  second : Embedded (fun a b => I.kind a b = .full) (I.tokensB.take ly) sb
  only : ∀ t ∈ sb, t ∈ I.tokensA ∨ t ∈ I.tokensB

/-- A segment is complete up to, but not with, the given cell. -/
theorem super_segment {I : EditInput α} {sb : List α} {lx ly x y : Nat} (h : SuperInv I sb lx ly) (hx : lx ≤ x) (hy : ly ≤ y) :
    (I.tokensA.take (x - 1)).Sublist (I.addSegment lx ly x y sb) ∧
    Embedded (fun a b => I.kind a b = .full) (I.tokensB.take (y - 1)) (I.addSegment lx ly x y sb) ∧
    (I.tokensA.take lx).Sublist (I.addSegment lx ly x y sb) ∧
    Embedded (fun a b => I.kind a b = .full) (I.tokensB.take ly) (I.addSegment lx ly x y sb) ∧
    ∀ t ∈ I.addSegment lx ly x y sb, t ∈ I.tokensA ∨ t ∈ I.tokensB := by
  unfold EditInput.addSegment
  split
  · refine ⟨?_, ?_, ?_, ?_, ?_⟩
    · refine List.Sublist.trans ?_ (List.sublist_append_left _ _)
      by_cases hlx : lx ≤ x - 1
      · have key := h.first.append (List.Sublist.refl ((I.tokensA.take (x - 1)).drop lx))
        rwa [← take_split hlx] at key
      · refine List.Sublist.trans ?_ (List.sublist_append_left _ _)
        exact (List.take_sublist_take_left (by omega)).trans h.first
    · by_cases hly : ly ≤ y - 1
      · have key := (h.second.grow ((I.tokensA.take (x - 1)).drop lx)).append (Embedded.refl _ ((I.tokensB.take (y - 1)).drop ly))
        rwa [← take_split hly] at key
      · have e : y - 1 = ly - 1 := by omega
        obtain ⟨k, h1, h2⟩ := h.second
        refine Embedded.grow (Embedded.grow ?_ _) _
        refine ⟨k.take (y - 1), ?_, (List.take_sublist _ _).trans h2⟩
        have := List.forall₂_take (y - 1) h1
        rwa [List.take_take, Nat.min_eq_left (by omega)] at this
    · exact (h.first.trans (List.sublist_append_left _ _)).trans (List.sublist_append_left _ _)
    · exact (h.second.grow _).grow _
    · intro t ht
      rcases List.mem_append.mp ht with ht | ht
      · rcases List.mem_append.mp ht with ht | ht
        · exact h.only t ht
        · exact .inl (List.mem_of_mem_take (List.mem_of_mem_drop ht))
      · exact .inr (List.mem_of_mem_take (List.mem_of_mem_drop ht))
  · refine ⟨(List.take_sublist_take_left (by omega)).trans h.first, ?_, h.first, h.second, h.only⟩
    obtain ⟨k, h1, h2⟩ := h.second
    refine ⟨k.take (y - 1), ?_, (List.take_sublist _ _).trans h2⟩
    have := List.forall₂_take (y - 1) h1
    rwa [List.take_take, Nat.min_eq_left (by omega)] at this

theorem walk_super {I : EditInput α} {flags : List (Nat × Nat)}
    (hf : ∀ e ∈ flags, 0 < e.1 ∧ 0 < e.2 ∧ I.kindAt e.1 e.2 = .full) : ∀ (p : List (Nat × Nat)) (n : Nat × Nat) (al : Dict Nat Nat)
    (sb : List α) (lx ly : Nat), IsPath I.children n p → lx ≤ n.2 → ly ≤ n.1 → SuperInv I sb lx ly →
    (I.walk flags p (al, sb, lx, ly)).2.2.1 ≤ (lastNode n p).2 ∧ (I.walk flags p (al, sb, lx, ly)).2.2.2 ≤ (lastNode n p).1 ∧
    SuperInv I (I.walk flags p (al, sb, lx, ly)).2.1 (I.walk flags p (al, sb, lx, ly)).2.2.1 (I.walk flags p (al, sb, lx, ly)).2.2.2
  | [], n, al, sb, lx, ly, _, hx, hy, h => ⟨hx, hy, h⟩
  | e :: p, n, al, sb, lx, ly, hp, hx, hy, h => by
    have h1 : n.1 ≤ e.1 ∧ n.2 ≤ e.2 := path_later hp e (by simp)
    rw [lastNode, EditInput.walk]
    split
    next he =>
      obtain ⟨f1, f2, f3⟩ := hf e he
      obtain ⟨s1, s2, s3, s4, s5⟩ := super_segment h (show lx ≤ e.2 by omega) (show ly ≤ e.1 by omega)
      have hm : ∃ a b, I.tokensA[e.2 - 1]? = some a ∧ I.tokensB[e.1 - 1]? = some b ∧ I.kind a b = .full := by
        unfold EditInput.kindAt at f3
        split at f3
        next a b ha hb => exact ⟨a, b, ha, hb, f3⟩
        · cases f3
      obtain ⟨a, b, ha, hb, hab⟩ := hm
      refine walk_super hf p e _ _ _ _ hp.2 le_rfl le_rfl ⟨?_, ?_, ?_⟩
      · rw [take_succ' f2]
        exact s1.append (List.Sublist.refl _)
      · rw [take_succ' f1, ha, hb]
        exact s2.append ⟨[a], .cons (.inr hab) .nil, List.Sublist.refl _⟩
      · intro t ht
        rcases List.mem_append.mp ht with ht | ht
        · exact s5 t ht
        · rw [ha] at ht
          simp only [Option.toList_some, List.mem_singleton] at ht
          subst ht
          exact .inl (List.mem_of_getElem? ha)
    next he => exact walk_super hf p e _ _ _ _ hp.2 (by omega) (by omega) h

/-- C69, what holds of the new superbase: it consists of tokens of the two texts; the first text without its last token is a
subsequence of it; and so is the second text without its last token, if fully matching tokens are taken to be the same. (The last tokens may
be lost, `C69_superbase_loses`.) -/
theorem C69_superbase_partial (I : EditInput α) (ha : I.tokensA ≠ []) (hb : I.tokensB ≠ []) : ∃ al sb, I.align = .ok (al, sb) ∧
    (∀ t ∈ sb, t ∈ I.tokensA ∨ t ∈ I.tokensB) ∧ I.tokensA.dropLast.Sublist sb ∧
    Embedded (fun a b => I.kind a b = .full) I.tokensB.dropLast sb := by
  obtain ⟨p, flags, h1, h2, h3, h4⟩ := search_ok I ⟨fun h => absurd h ha, fun h => absurd h hb⟩
  obtain ⟨r1, r2⟩ := C49_real_path _ _ _ _ h2
  have r2 : I.isEnd (lastNode (0, 0) p) = true := r2
  unfold EditInput.isEnd at r2
  simp only [decide_eq_true_eq] at r2
  obtain ⟨w1, w2, w3⟩ := walk_super h3 p (0, 0) [] [] 0 0 r1 le_rfl le_rfl ⟨by simp, ⟨[], by simp, by simp⟩, by simp⟩
  rw [r2.2] at w1
  rw [r2.1] at w2
  obtain ⟨s1, s2, _, _, s5⟩ := super_segment w3 w1 w2
  refine ⟨_, _, by unfold EditInput.align; rw [h1]; rfl, s5, ?_, ?_⟩
  · rw [List.dropLast_eq_take]; exact s1
  · rw [List.dropLast_eq_take]; exact s2

/-- Two texts whose tokens match if they are equal. -/
def wordsInput (a b : List Nat) : EditInput Nat := ⟨a, b, fun s t => if s = t then .full else .no⟩

/-- One token against two equal ones: both are aligned with it, because the cell is flagged when the diagonal step is considered,
not when it is taken. -/
theorem C69_two_on_one : ∃ sb, (wordsInput [1] [1, 1]).align = .ok ([(0, 0), (1, 0)], sb) := ⟨[1, 1], by decide +kernel⟩

/-- The new superbase is not a common supersequence: the last tokens of both texts are lost if they do not match. -/
theorem C69_superbase_loses : ∃ al, (wordsInput [1, 2] [1, 3]).align = .ok (al, [1]) := ⟨[(0, 0)], by decide +kernel⟩

/-- A case of both theorems: with an omission, an addition and a near match. -/
example : let I : EditInput Nat := ⟨[1, 9, 3, 5], [1, 3, 7, 6], fun s t => if s = t then .full else if t = s + 1 then .near else .no⟩
    I.search.toOption.bind (·.1) = some [(1, 1), (1, 2), (2, 3), (3, 3), (4, 4)] ∧
    I.align = .ok ([(0, 0), (1, 2)], [1, 9, 3, 7]) := by
  decide +kernel

end CollateX
