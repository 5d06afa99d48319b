import Verif.Proofs.Cut
import Verif.Proofs.NoTwins
/-
The best way through a point of the table, when several nodes may stand in a column; and the parts of a short program before and after a node
that stands in every text.
-/

namespace CollateX
open Spec

/-! ### The best way through a point -/

section
variable {M : Nat → Nat → Bool}

/-- Going on in the same column. -/
def sidewaysWay (M : Nat → Nat → Bool) (i j : Nat) : Int × List (Nat × Nat) :=
  if 0 < j && M i (j - 1) && M i j then ((aligned M (i + 1) j).1 + 1, (i, j) :: (aligned M (i + 1) j).2)
  else ((aligned M (i + 1) j).1 - 1, (aligned M (i + 1) j).2)

theorem aligned_any (M : Nat → Nat → Bool) (i j : Nat) : aligned M (i + 1) (j + 1) =
    bestWay (togetherWay M i j) ((aligned M i (j + 1)).1 - 1, (aligned M i (j + 1)).2) (sidewaysWay M i j) := by
  show alignRow M i (aligned M i) (j + 1) = _
  rw [alignRow_succ]
  rfl

theorem sidewaysWay_ge (M : Nat → Nat → Bool) (i j : Nat) : (aligned M (i + 1) j).1 - 1 ≤ (sidewaysWay M i j).1 := by
  unfold sidewaysWay
  split <;> simp only <;> omega

theorem aligned_left_any (M : Nat → Nat → Bool) (i j : Nat) : ∀ x, (aligned M i j).1 - x ≤ (aligned M (i + x) j).1
  | 0 => by simp
  | x + 1 => by
    have ih := aligned_left_any M i j x
    have : (aligned M (i + x) j).1 - 1 ≤ (aligned M (i + x + 1) j).1 := by
      cases j with
      | zero =>
        cases hx : i + x with
        | zero => simp [aligned_zero_left, aligned_zero_right]
        | succ n => simp only [aligned_zero_right]; push_cast; omega
      | succ j =>
        rw [aligned_any]
        exact (bestWay_le _ _ _).2.1
    push_cast
    rw [← Nat.add_assoc]
    omega

theorem aligned_right_any (M : Nat → Nat → Bool) (i j : Nat) : ∀ y, (aligned M i j).1 - y ≤ (aligned M i (j + y)).1
  | 0 => by simp
  | y + 1 => by
    have ih := aligned_right_any M i j y
    have : (aligned M i (j + y)).1 - 1 ≤ (aligned M i (j + y + 1)).1 := by
      cases i with
      | zero => simp only [aligned_zero_left]; push_cast; omega
      | succ i =>
        rw [aligned_any]
        exact (sidewaysWay_ge M i (j + y)).trans (bestWay_le _ _ _).2.2
    push_cast
    rw [← Nat.add_assoc]
    omega

theorem sidewaysWay_le {V : Int} {i j x y : Nat} (h : V + (aligned (shiftBy M i j) (x + 1) y).1 ≤ (aligned M (i + (x + 1)) (j + y)).1) :
    V + (sidewaysWay (shiftBy M i j) x y).1 ≤ (sidewaysWay M (i + x) (j + y)).1 := by
  rw [← Nat.add_assoc] at h
  unfold sidewaysWay
  by_cases h1 : (0 < y && shiftBy M i j x (y - 1) && shiftBy M i j x y) = true
  · rw [if_pos h1, if_pos]
    · simp only; omega
    · simp only [Bool.and_eq_true, decide_eq_true_eq, shiftBy] at h1 ⊢
      obtain ⟨⟨h2, h3⟩, h4⟩ := h1
      refine ⟨⟨by omega, ?_⟩, h4⟩
      rw [show j + y - 1 = j + (y - 1) by omega]
      exact h3
  · rw [if_neg h1]
    split <;> simp only <;> omega

theorem aligned_super_any (M : Nat → Nat → Bool) (i j : Nat) :
    ∀ x y, (aligned M i j).1 + (aligned (shiftBy M i j) x y).1 ≤ (aligned M (i + x) (j + y)).1
  | 0, y => by
    have := aligned_right_any M i j y
    simp only [aligned_zero_left]
    show _ ≤ (aligned M i (j + y)).1
    omega
  | x + 1, 0 => by
    have := aligned_left_any M i j (x + 1)
    simp only [aligned_zero_right]
    show _ ≤ (aligned M (i + (x + 1)) j).1
    push_cast at this
    omega
  | x + 1, y + 1 => by
    have h1 := togetherWay_le (aligned_super_any M i j x y)
    have h2 := aligned_super_any M i j x (y + 1)
    have h3 := sidewaysWay_le (aligned_super_any M i j (x + 1) y)
    rw [aligned_any, ← Nat.add_assoc, ← Nat.add_assoc, aligned_any]
    have k := bestWay_le (togetherWay M (i + x) (j + y)) ((aligned M (i + x) (j + y + 1)).1 - 1, (aligned M (i + x) (j + y + 1)).2)
      (sidewaysWay M (i + x) (j + y))
    rw [← Nat.add_assoc] at h2
    simp only at k
    rcases bestWay_cases (togetherWay (shiftBy M i j) x y) ((aligned (shiftBy M i j) x (y + 1)).1 - 1, (aligned (shiftBy M i j) x (y + 1)).2)
      (sidewaysWay (shiftBy M i j) x y) with ⟨e, _⟩ | ⟨e, _⟩ | ⟨e, _⟩ <;> rw [e] <;> omega

/-- The best way beyond two linked words is the best way up to them and the best way from them on, if in the column of the linked words no two
neighbouring words of the further text could stand. -/
theorem aligned_through_any {i j : Nat} (h : ∀ y : Nat, M i y = true → M i (y + 1) = false) : ∀ x y, (i, j) ∈ (aligned M (i + 1 + x) (j + 1 + y)).2 →
    aligned M (i + 1 + x) (j + 1 + y) = ((aligned M (i + 1) (j + 1)).1 + (aligned (shiftBy M (i + 1) (j + 1)) x y).1,
      shiftLinks (i + 1) (j + 1) (aligned (shiftBy M (i + 1) (j + 1)) x y).2 ++ (aligned M (i + 1) (j + 1)).2)
  | 0, 0, _ => by simp [aligned_zero_left, shiftLinks]
  | 0, y + 1, hm => by
    have hs := aligned_any M i (j + 1 + y)
    have out : ∀ k, (i, j) ∉ (aligned M i k).2 := fun k hk => by have := (aligned_falling M i k).1 _ hk; simp at this
    have ht : (i, j) ∉ (togetherWay M i (j + 1 + y)).2 := by
      unfold togetherWay
      split
      · rw [List.mem_cons, not_or]
        refine ⟨?_, out _⟩
        intro e
        have := congrArg Prod.snd e
        simp only at this
        omega
      · exact out _
    have hside : sidewaysWay M i (j + 1 + y) = ((aligned M (i + 1) (j + 1 + y)).1 - 1, (aligned M (i + 1) (j + 1 + y)).2) := by
      unfold sidewaysWay
      rw [if_neg]
      intro hc
      simp only [Bool.and_eq_true, decide_eq_true_eq] at hc
      have := h _ hc.1.2
      rw [show j + 1 + y - 1 + 1 = j + 1 + y by omega, hc.2] at this
      cases this
    rw [show i + 1 + 0 = i + 1 from rfl, ← Nat.add_assoc] at hm ⊢
    rw [hs, hside] at hm ⊢
    rcases bestWay_cases (togetherWay M i (j + 1 + y)) ((aligned M i (j + 1 + y + 1)).1 - 1, (aligned M i (j + 1 + y + 1)).2)
      ((aligned M (i + 1) (j + 1 + y)).1 - 1, (aligned M (i + 1) (j + 1 + y)).2) with ⟨e, _⟩ | ⟨e, _⟩ | ⟨e, _⟩
    · rw [e] at hm; exact (ht hm).elim
    · rw [e] at hm; exact (out _ hm).elim
    · rw [e] at hm ⊢
      have ih := aligned_through_any h 0 y hm
      rw [show i + 1 + 0 = i + 1 from rfl] at ih
      rw [ih]
      simp only [aligned_zero_left, shiftLinks, List.map_nil, List.nil_append, Prod.mk.injEq, and_true]
      push_cast
      omega
  | x + 1, 0, hm => by
    have hs := aligned_any M (i + 1 + x) j
    have out : ∀ k, (i, j) ∉ (aligned M k j).2 := fun k hk => by have := (aligned_falling M k j).1 _ hk; simp at this
    have ht : (i, j) ∉ (togetherWay M (i + 1 + x) j).2 := by
      unfold togetherWay
      split
      · rw [List.mem_cons, not_or]
        refine ⟨?_, out _⟩
        intro e
        have := congrArg Prod.fst e
        simp only at this
        omega
      · exact out _
    have hside : (i, j) ∉ (sidewaysWay M (i + 1 + x) j).2 := by
      unfold sidewaysWay
      split
      · rw [List.mem_cons, not_or]
        refine ⟨?_, out _⟩
        intro e
        have := congrArg Prod.fst e
        simp only at this
        omega
      · exact out _
    rw [show j + 1 + 0 = j + 1 from rfl, ← Nat.add_assoc] at hm ⊢
    rw [hs] at hm ⊢
    rcases bestWay_cases (togetherWay M (i + 1 + x) j) ((aligned M (i + 1 + x) (j + 1)).1 - 1, (aligned M (i + 1 + x) (j + 1)).2)
      (sidewaysWay M (i + 1 + x) j) with ⟨e, _⟩ | ⟨e, _⟩ | ⟨e, _⟩
    · rw [e] at hm; exact (ht hm).elim
    · rw [e] at hm ⊢
      have ih := aligned_through_any h x 0 hm
      rw [show j + 1 + 0 = j + 1 from rfl] at ih
      rw [ih]
      cases x with
      | zero =>
        simp [aligned_zero_left, aligned_zero_right, shiftLinks]
        omega
      | succ x =>
        simp only [aligned_zero_right, shiftLinks, List.map_nil, List.nil_append, Prod.mk.injEq, and_true]
        push_cast
        omega
    · rw [e] at hm; exact (hside hm).elim
  | x + 1, y + 1, hm => by
    rw [← Nat.add_assoc, ← Nat.add_assoc] at hm ⊢
    have s1 := togetherWay_le (aligned_super_any M (i + 1) (j + 1) x y)
    have s2 := aligned_super_any M (i + 1) (j + 1) x (y + 1)
    have s3 := sidewaysWay_le (aligned_super_any M (i + 1) (j + 1) (x + 1) y)
    have hs := aligned_any M (i + 1 + x) (j + 1 + y)
    have hs' := aligned_any (shiftBy M (i + 1) (j + 1)) x y
    rw [← Nat.add_assoc] at s2
    rw [hs] at hm ⊢
    rw [hs']
    rcases bestWay_cases (togetherWay M (i + 1 + x) (j + 1 + y)) ((aligned M (i + 1 + x) (j + 1 + y + 1)).1 - 1, (aligned M (i + 1 + x) (j + 1 + y + 1)).2)
      (sidewaysWay M (i + 1 + x) (j + 1 + y)) with ⟨e, e1, e2⟩ | ⟨e, e1, e2⟩ | ⟨e, e1, e2⟩ <;>
      rw [e] at hm ⊢ <;> simp only at e1 e2
    · -- together
      have hm' : (i, j) ∈ (aligned M (i + 1 + x) (j + 1 + y)).2 := by
        unfold togetherWay at hm
        split at hm
        · rcases List.mem_cons.mp hm with e | hm
          · have := congrArg Prod.fst e
            simp only at this
            omega
          · exact hm
        · exact hm
      have ih := aligned_through_any h x y hm'
      have heq : togetherWay M (i + 1 + x) (j + 1 + y) = ((aligned M (i + 1) (j + 1)).1 + (togetherWay (shiftBy M (i + 1) (j + 1)) x y).1,
          shiftLinks (i + 1) (j + 1) (togetherWay (shiftBy M (i + 1) (j + 1)) x y).2 ++ (aligned M (i + 1) (j + 1)).2) := by
        unfold togetherWay
        rw [ih, show shiftBy M (i + 1) (j + 1) x y = M (i + 1 + x) (j + 1 + y) from rfl]
        split
        · simp only [shiftLinks, List.map_cons, List.cons_append, Prod.mk.injEq, and_true]
          omega
        · simp only [Prod.mk.injEq, and_true]
          omega
      have h1 := congrArg Prod.fst heq
      simp only at h1
      rw [bestWay_first (by simp only; omega) (by omega)]
      exact heq
    · have ih := aligned_through_any h x (y + 1) hm
      rw [← Nat.add_assoc] at ih
      have h1 := congrArg Prod.fst ih
      simp only at h1
      rw [bestWay_second (by simp only; omega) (by simp only; omega), ih]
      simp only [Prod.mk.injEq, and_true]
      omega
    · have hm' : (i, j) ∈ (aligned M (i + 1 + x + 1) (j + 1 + y)).2 := by
        unfold sidewaysWay at hm
        split at hm
        · rcases List.mem_cons.mp hm with e | hm
          · have := congrArg Prod.fst e
            simp only at this
            omega
          · exact hm
        · exact hm
      have ih := aligned_through_any h (x + 1) y hm'
      rw [← Nat.add_assoc] at ih
      have heq : sidewaysWay M (i + 1 + x) (j + 1 + y) = ((aligned M (i + 1) (j + 1)).1 + (sidewaysWay (shiftBy M (i + 1) (j + 1)) x y).1,
          shiftLinks (i + 1) (j + 1) (sidewaysWay (shiftBy M (i + 1) (j + 1)) x y).2 ++ (aligned M (i + 1) (j + 1)).2) := by
        by_cases hy : y = 0
        · subst hy
          have h1 := congrArg Prod.fst ih
          simp only [aligned_zero_right, Nat.add_zero] at h1
          have s0 := aligned_left_any M (i + 1) (j + 1) x
          have e0 : sidewaysWay (shiftBy M (i + 1) (j + 1)) x 0 = ((aligned (shiftBy M (i + 1) (j + 1)) (x + 1) 0).1 - 1,
              (aligned (shiftBy M (i + 1) (j + 1)) (x + 1) 0).2) := by
            unfold sidewaysWay
            simp
          rw [e0]
          by_cases hc : (0 < j + 1 + 0 && M (i + 1 + x) (j + 1 + 0 - 1) && M (i + 1 + x) (j + 1 + 0)) = true
          · exfalso
            have hM : M (i + 1 + x) (j + 1) = true := by
              simp only [Bool.and_eq_true] at hc
              exact hc.2
            have e3 : (togetherWay M (i + 1 + x) (j + 1 + 0)).1 = (aligned M (i + 1 + x) (j + 1)).1 + 1 := by
              unfold togetherWay
              rw [if_pos (by exact hM)]
            have e4 : (sidewaysWay M (i + 1 + x) (j + 1 + 0)).1 = (aligned M (i + 1 + x + 1) (j + 1)).1 + 1 := by
              unfold sidewaysWay
              rw [if_pos hc]
            omega
          · unfold sidewaysWay
            rw [if_neg hc, ih]
            simp only [Prod.mk.injEq, and_true]
            omega
        · unfold sidewaysWay
          rw [ih, show shiftBy M (i + 1) (j + 1) x y = M (i + 1 + x) (j + 1 + y) from rfl,
            show shiftBy M (i + 1) (j + 1) x (y - 1) = M (i + 1 + x) (j + 1 + y - 1) by unfold shiftBy; congr 1; omega,
            show decide (0 < y) = true by simpa using Nat.pos_of_ne_zero hy, show decide (0 < j + 1 + y) = true by simp]
          split
          · simp only [shiftLinks, List.map_cons, List.cons_append, Prod.mk.injEq, and_true]
            omega
          · simp only [Prod.mk.injEq, and_true]
            omega
      have h1 := congrArg Prod.fst heq
      simp only at h1
      rw [bestWay_third (by omega) (by simp only; omega)]
      exact heq

/-- The last pair of words, if linked. -/
theorem aligned_at_any {i j : Nat} (h : ∀ y : Nat, M i y = true → M i (y + 1) = false) (hm : (i, j) ∈ (aligned M (i + 1) (j + 1)).2) :
    (aligned M (i + 1) (j + 1)).2 = (i, j) :: (aligned M i j).2 := by
  have o1 : ∀ k, (i, j) ∉ (aligned M i k).2 := fun k hk => by have := (aligned_falling M i k).1 _ hk; simp at this
  have o2 : ∀ k, (i, j) ∉ (aligned M k j).2 := fun k hk => by have := (aligned_falling M k j).1 _ hk; simp at this
  have hside : sidewaysWay M i j = ((aligned M (i + 1) j).1 - 1, (aligned M (i + 1) j).2) := by
    unfold sidewaysWay
    rw [if_neg]
    intro hc
    simp only [Bool.and_eq_true, decide_eq_true_eq] at hc
    have := h _ hc.1.2
    rw [show j - 1 + 1 = j by omega, hc.2] at this
    cases this
  rw [aligned_any, hside] at hm ⊢
  rcases bestWay_cases (togetherWay M i j) ((aligned M i (j + 1)).1 - 1, (aligned M i (j + 1)).2)
      ((aligned M (i + 1) j).1 - 1, (aligned M (i + 1) j).2) with ⟨e, _⟩ | ⟨e, _⟩ | ⟨e, _⟩ <;> rw [e] at hm ⊢
  · unfold togetherWay at hm ⊢
    split
    · rfl
    · rename_i hc
      rw [if_neg hc] at hm
      exact (o1 _ hm).elim
  · exact (o1 _ hm).elim
  · exact (o2 _ hm).elim

end

end CollateX
