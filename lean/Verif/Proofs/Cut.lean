import Verif.Proofs.Columns
/-
The short program for two texts, cut at a pair of linked words.
-/

namespace CollateX
open Spec

/-- No two neighbouring words of the second text are the same word of the first. -/
def Single (M : Nat → Nat → Bool) : Prop := ∀ i j, M i j = true → M i (j + 1) = false

/-- The best of three ways. -/
def bestWay (t f s : Int × List (Nat × Nat)) : Int × List (Nat × Nat) :=
  if s.1 > (if f.1 > t.1 then f else t).1 then s else (if f.1 > t.1 then f else t)

/-- Putting the last two words together. -/
def togetherWay (M : Nat → Nat → Bool) (i j : Nat) : Int × List (Nat × Nat) :=
  if M i j then ((aligned M i j).1 + 1, (i, j) :: (aligned M i j).2) else ((aligned M i j).1 - 1, (aligned M i j).2)

theorem aligned_zero_left (M : Nat → Nat → Bool) (j : Nat) : aligned M 0 j = (-(j : Int), []) := rfl

theorem aligned_zero_right (M : Nat → Nat → Bool) (i : Nat) : aligned M (i + 1) 0 = (-((i : Int) + 1), []) := rfl

theorem aligned_step {M : Nat → Nat → Bool} (h : Single M) (i j : Nat) : aligned M (i + 1) (j + 1) =
    bestWay (togetherWay M i j) ((aligned M i (j + 1)).1 - 1, (aligned M i (j + 1)).2) ((aligned M (i + 1) j).1 - 1, (aligned M (i + 1) j).2) := by
  show alignRow M i (aligned M i) (j + 1) = _
  rw [alignRow_succ]
  have h0 : (decide (0 < j) && M i (j - 1) && M i j) = false := by
    cases j with
    | zero => rfl
    | succ j =>
      cases hm : M i j with
      | false => simp [hm]
      | true => simp [hm, h i j hm]
  simp only [h0, Bool.false_eq_true, if_false]
  rfl

theorem bestWay_cases (t f s : Int × List (Nat × Nat)) : (bestWay t f s = t ∧ f.1 ≤ t.1 ∧ s.1 ≤ t.1) ∨ (bestWay t f s = f ∧ t.1 < f.1 ∧ s.1 ≤ f.1) ∨
    (bestWay t f s = s ∧ t.1 < s.1 ∧ f.1 < s.1) := by
  unfold bestWay
  split <;> split at * <;> simp_all <;> omega

theorem bestWay_first {t f s : Int × List (Nat × Nat)} (h1 : f.1 ≤ t.1) (h2 : s.1 ≤ t.1) : bestWay t f s = t := by
  unfold bestWay
  rw [if_neg (by omega : ¬ f.1 > t.1), if_neg (by omega : ¬ s.1 > t.1)]

theorem bestWay_second {t f s : Int × List (Nat × Nat)} (h1 : t.1 < f.1) (h2 : s.1 ≤ f.1) : bestWay t f s = f := by
  unfold bestWay
  rw [if_pos (show f.1 > t.1 from h1), if_neg (by omega : ¬ s.1 > f.1)]

theorem bestWay_third {t f s : Int × List (Nat × Nat)} (h1 : t.1 < s.1) (h2 : f.1 < s.1) : bestWay t f s = s := by
  unfold bestWay
  by_cases h : f.1 > t.1
  · rw [if_pos h, if_pos (show s.1 > f.1 from h2)]
  · rw [if_neg h, if_pos (show s.1 > t.1 from h1)]

theorem bestWay_le (t f s : Int × List (Nat × Nat)) : t.1 ≤ (bestWay t f s).1 ∧ f.1 ≤ (bestWay t f s).1 ∧ s.1 ≤ (bestWay t f s).1 := by
  rcases bestWay_cases t f s with ⟨h, _, _⟩ | ⟨h, _, _⟩ | ⟨h, _, _⟩ <;> rw [h] <;> omega

/-- What is looked at is only which words before are the same. -/
theorem aligned_local {M M' : Nat → Nat → Bool} : ∀ (i j : Nat), (∀ x < i, ∀ y < j, M x y = M' x y) → aligned M i j = aligned M' i j
  | 0, _, _ => rfl
  | i + 1, 0, _ => rfl
  | i + 1, j + 1, h => by
    have h1 := aligned_local i j (fun x hx y hy => h x (by omega) y (by omega))
    have h2 := aligned_local i (j + 1) (fun x hx y hy => h x (by omega) y (by omega))
    have h3 := aligned_local (i + 1) j (fun x hx y hy => h x (by omega) y (by omega))
    have h3' : alignRow M i (aligned M i) j = alignRow M' i (aligned M' i) j := h3
    show alignRow M i (aligned M i) (j + 1) = alignRow M' i (aligned M' i) (j + 1)
    rw [alignRow_succ, alignRow_succ, h1, h2, h3', h i (by omega) j (by omega), h i (by omega) (j - 1) (by omega)]

section
variable {M : Nat → Nat → Bool} {i j : Nat}

/-- The words from `i` and `j` on. -/
def shiftBy (M : Nat → Nat → Bool) (i j : Nat) : Nat → Nat → Bool := fun x y => M (i + x) (j + y)

theorem Single.shift (h : Single M) (i j : Nat) : Single (shiftBy M i j) := fun x y hm => h (i + x) (j + y) hm

/-- Gaps at the beginning lose a point each. -/
theorem aligned_left_le (h : Single M) (i j : Nat) : ∀ x, (aligned M i j).1 - x ≤ (aligned M (i + x) j).1
  | 0 => by simp
  | x + 1 => by
    have ih := aligned_left_le h i j x
    have : (aligned M (i + x) j).1 - 1 ≤ (aligned M (i + x + 1) j).1 := by
      cases j with
      | zero =>
        cases hx : i + x with
        | zero => simp [aligned_zero_left, aligned_zero_right]
        | succ n => simp only [aligned_zero_right]; push_cast; omega
      | succ j =>
        rw [aligned_step h]
        exact (bestWay_le _ _ _).2.1
    push_cast
    rw [← Nat.add_assoc]
    omega

theorem aligned_right_le (h : Single M) (i j : Nat) : ∀ y, (aligned M i j).1 - y ≤ (aligned M i (j + y)).1
  | 0 => by simp
  | y + 1 => by
    have ih := aligned_right_le h i j y
    have : (aligned M i (j + y)).1 - 1 ≤ (aligned M i (j + y + 1)).1 := by
      cases i with
      | zero => simp only [aligned_zero_left]; push_cast; omega
      | succ i =>
        rw [aligned_step h]
        exact (bestWay_le _ _ _).2.2
    push_cast
    rw [← Nat.add_assoc]
    omega

theorem togetherWay_le {V : Int} {x y : Nat} (h : V + (aligned (shiftBy M i j) x y).1 ≤ (aligned M (i + x) (j + y)).1) :
    V + (togetherWay (shiftBy M i j) x y).1 ≤ (togetherWay M (i + x) (j + y)).1 := by
  unfold togetherWay
  rw [show shiftBy M i j x y = M (i + x) (j + y) from rfl]
  split <;> simp only <;> omega

/-- A way through a point is not better than the best way. -/
theorem aligned_super (h : Single M) (i j : Nat) : ∀ x y, (aligned M i j).1 + (aligned (shiftBy M i j) x y).1 ≤ (aligned M (i + x) (j + y)).1
  | 0, y => by
    have := aligned_right_le h i j y
    simp only [aligned_zero_left]
    show _ ≤ (aligned M i (j + y)).1
    omega
  | x + 1, 0 => by
    have := aligned_left_le h i j (x + 1)
    simp only [aligned_zero_right]
    show _ ≤ (aligned M (i + (x + 1)) j).1
    push_cast at this
    omega
  | x + 1, y + 1 => by
    have h1 := togetherWay_le (aligned_super h i j x y)
    have h2 := aligned_super h i j x (y + 1)
    have h3 := aligned_super h i j (x + 1) y
    rw [aligned_step (h.shift i j), ← Nat.add_assoc, ← Nat.add_assoc, aligned_step h]
    have k := bestWay_le (togetherWay M (i + x) (j + y)) ((aligned M (i + x) (j + y + 1)).1 - 1, (aligned M (i + x) (j + y + 1)).2)
      ((aligned M (i + x + 1) (j + y)).1 - 1, (aligned M (i + x + 1) (j + y)).2)
    rw [← Nat.add_assoc] at h2 h3
    simp only at k
    rcases bestWay_cases (togetherWay (shiftBy M i j) x y) ((aligned (shiftBy M i j) x (y + 1)).1 - 1, (aligned (shiftBy M i j) x (y + 1)).2)
      ((aligned (shiftBy M i j) (x + 1) y).1 - 1, (aligned (shiftBy M i j) (x + 1) y).2) with ⟨e, _⟩ | ⟨e, _⟩ | ⟨e, _⟩ <;> rw [e] <;> omega

/-- The links from `i` and `j` on, counted from the beginning. -/
def shiftLinks (i j : Nat) (l : List (Nat × Nat)) : List (Nat × Nat) := l.map (fun p => (i + p.1, j + p.2))

/-- If two words are linked, the best way beyond them is the best way up to them and the best way from them on. -/
theorem aligned_through (h : Single M) (i j : Nat) : ∀ x y, (i, j) ∈ (aligned M (i + 1 + x) (j + 1 + y)).2 →
    aligned M (i + 1 + x) (j + 1 + y) = ((aligned M (i + 1) (j + 1)).1 + (aligned (shiftBy M (i + 1) (j + 1)) x y).1,
      shiftLinks (i + 1) (j + 1) (aligned (shiftBy M (i + 1) (j + 1)) x y).2 ++ (aligned M (i + 1) (j + 1)).2)
  | 0, 0, _ => by simp [aligned_zero_left, shiftLinks]
  | 0, y + 1, hm => by
    have hs := aligned_step h i (j + 1 + y)
    have out : ∀ k, (i, j) ∉ (aligned M i k).2 := fun k hk => by have := (aligned_falling M i k).1 _ hk; simp at this
    have ht : (i, j) ∉ (togetherWay M i (j + 1 + y)).2 := by
      unfold togetherWay
      split
      · rw [List.mem_cons, not_or]
        refine ⟨?_, out _⟩
        intro e
        have := congrArg Prod.snd e
        simp only at this
        omega
      · exact out _
    rw [show i + 1 + 0 = i + 1 from rfl, ← Nat.add_assoc] at hm ⊢
    rw [hs] at hm ⊢
    rcases bestWay_cases (togetherWay M i (j + 1 + y)) ((aligned M i (j + 1 + y + 1)).1 - 1, (aligned M i (j + 1 + y + 1)).2)
      ((aligned M (i + 1) (j + 1 + y)).1 - 1, (aligned M (i + 1) (j + 1 + y)).2) with ⟨e, _⟩ | ⟨e, _⟩ | ⟨e, _⟩
    · rw [e] at hm; exact (ht hm).elim
    · rw [e] at hm; exact (out _ hm).elim
    · rw [e] at hm ⊢
      have ih := aligned_through h i j 0 y hm
      rw [show i + 1 + 0 = i + 1 from rfl] at ih
      rw [ih]
      simp only [aligned_zero_left, shiftLinks, List.map_nil, List.nil_append, Prod.mk.injEq, and_true]
      push_cast
      omega
  | x + 1, 0, hm => by
    have hs := aligned_step h (i + 1 + x) j
    have out : ∀ k, (i, j) ∉ (aligned M k j).2 := fun k hk => by have := (aligned_falling M k j).1 _ hk; simp at this
    have ht : (i, j) ∉ (togetherWay M (i + 1 + x) j).2 := by
      unfold togetherWay
      split
      · rw [List.mem_cons, not_or]
        refine ⟨?_, out _⟩
        intro e
        have := congrArg Prod.fst e
        simp only at this
        omega
      · exact out _
    rw [show j + 1 + 0 = j + 1 from rfl, ← Nat.add_assoc] at hm ⊢
    rw [hs] at hm ⊢
    rcases bestWay_cases (togetherWay M (i + 1 + x) j) ((aligned M (i + 1 + x) (j + 1)).1 - 1, (aligned M (i + 1 + x) (j + 1)).2)
      ((aligned M (i + 1 + x + 1) j).1 - 1, (aligned M (i + 1 + x + 1) j).2) with ⟨e, _⟩ | ⟨e, _⟩ | ⟨e, _⟩
    · rw [e] at hm; exact (ht hm).elim
    · rw [e] at hm ⊢
      have ih := aligned_through h i j x 0 hm
      rw [show j + 1 + 0 = j + 1 from rfl] at ih
      rw [ih]
      cases x with
      | zero =>
        simp [aligned_zero_left, aligned_zero_right, shiftLinks]
        omega
      | succ x =>
        simp only [aligned_zero_right, shiftLinks, List.map_nil, List.nil_append, Prod.mk.injEq, and_true]
        push_cast
        omega
    · rw [e] at hm; exact (out _ hm).elim
  | x + 1, y + 1, hm => by
    rw [← Nat.add_assoc, ← Nat.add_assoc] at hm ⊢
    have s1 := togetherWay_le (aligned_super h (i + 1) (j + 1) x y)
    have s2 := aligned_super h (i + 1) (j + 1) x (y + 1)
    have s3 := aligned_super h (i + 1) (j + 1) (x + 1) y
    have hs := aligned_step h (i + 1 + x) (j + 1 + y)
    have hs' := aligned_step (h.shift (i + 1) (j + 1)) x y
    rw [← Nat.add_assoc] at s2 s3
    rw [hs] at hm ⊢
    rw [hs']
    rcases bestWay_cases (togetherWay M (i + 1 + x) (j + 1 + y)) ((aligned M (i + 1 + x) (j + 1 + y + 1)).1 - 1, (aligned M (i + 1 + x) (j + 1 + y + 1)).2)
      ((aligned M (i + 1 + x + 1) (j + 1 + y)).1 - 1, (aligned M (i + 1 + x + 1) (j + 1 + y)).2) with ⟨e, e1, e2⟩ | ⟨e, e1, e2⟩ | ⟨e, e1, e2⟩ <;>
      rw [e] at hm ⊢ <;> simp only at e1 e2
    · -- together
      have hm' : (i, j) ∈ (aligned M (i + 1 + x) (j + 1 + y)).2 := by
        unfold togetherWay at hm
        split at hm
        · rcases List.mem_cons.mp hm with e | hm
          · have := congrArg Prod.fst e
            simp only at this
            omega
          · exact hm
        · exact hm
      have ih := aligned_through h i j x y hm'
      have heq : togetherWay M (i + 1 + x) (j + 1 + y) = ((aligned M (i + 1) (j + 1)).1 + (togetherWay (shiftBy M (i + 1) (j + 1)) x y).1,
          shiftLinks (i + 1) (j + 1) (togetherWay (shiftBy M (i + 1) (j + 1)) x y).2 ++ (aligned M (i + 1) (j + 1)).2) := by
        unfold togetherWay
        rw [ih, show shiftBy M (i + 1) (j + 1) x y = M (i + 1 + x) (j + 1 + y) from rfl]
        split
        · simp only [shiftLinks, List.map_cons, List.cons_append, Prod.mk.injEq, and_true]
          omega
        · simp only [Prod.mk.injEq, and_true]
          omega
      have h1 := congrArg Prod.fst heq
      simp only at h1
      rw [bestWay_first (by simp only; omega) (by simp only; omega)]
      exact heq
    · have ih := aligned_through h i j x (y + 1) hm
      rw [← Nat.add_assoc] at ih
      have h1 := congrArg Prod.fst ih
      simp only at h1
      rw [bestWay_second (by simp only; omega) (by simp only; omega), ih]
      simp only [Prod.mk.injEq, and_true]
      omega
    · have ih := aligned_through h i j (x + 1) y hm
      rw [← Nat.add_assoc] at ih
      have h1 := congrArg Prod.fst ih
      simp only at h1
      rw [bestWay_third (by simp only; omega) (by simp only; omega), ih]
      simp only [Prod.mk.injEq, and_true]
      omega

/-- The last pair of words, if linked. -/
theorem aligned_at (h : Single M) (i j : Nat) (hm : (i, j) ∈ (aligned M (i + 1) (j + 1)).2) :
    (aligned M (i + 1) (j + 1)).2 = (i, j) :: (aligned M i j).2 := by
  have o1 : ∀ k, (i, j) ∉ (aligned M i k).2 := fun k hk => by have := (aligned_falling M i k).1 _ hk; simp at this
  have o2 : ∀ k, (i, j) ∉ (aligned M k j).2 := fun k hk => by have := (aligned_falling M k j).1 _ hk; simp at this
  rw [aligned_step h] at hm ⊢
  rcases bestWay_cases (togetherWay M i j) ((aligned M i (j + 1)).1 - 1, (aligned M i (j + 1)).2)
      ((aligned M (i + 1) j).1 - 1, (aligned M (i + 1) j).2) with ⟨e, _⟩ | ⟨e, _⟩ | ⟨e, _⟩ <;> rw [e] at hm ⊢
  · unfold togetherWay at hm ⊢
    split
    · rfl
    · rename_i hc
      rw [if_neg hc] at hm
      exact (o1 _ hm).elim
  · exact (o1 _ hm).elim
  · exact (o2 _ hm).elim

end

/-! ### Links -/

theorem aligned_strict {M : Nat → Nat → Bool} (h : Single M) : ∀ i j, (aligned M i j).2.Pairwise (fun p q => q.1 < p.1 ∧ q.2 < p.2)
  | 0, _ => List.Pairwise.nil
  | _ + 1, 0 => List.Pairwise.nil
  | i + 1, j + 1 => by
    rw [aligned_step h]
    rcases bestWay_cases (togetherWay M i j) ((aligned M i (j + 1)).1 - 1, (aligned M i (j + 1)).2)
      ((aligned M (i + 1) j).1 - 1, (aligned M (i + 1) j).2) with ⟨e, _⟩ | ⟨e, _⟩ | ⟨e, _⟩ <;> rw [e]
    · unfold togetherWay
      split
      · exact List.pairwise_cons.mpr ⟨fun q hq => (aligned_falling M i j).1 q hq, aligned_strict h i j⟩
      · exact aligned_strict h i j
    · exact aligned_strict h i (j + 1)
    · exact aligned_strict h (i + 1) j

theorem firstOf_eq_self {key : Nat × Nat → Nat} : ∀ {l : List (Nat × Nat)}, l.Pairwise (fun p q => key q ≠ key p) → firstOf key l = l
  | [], _ => rfl
  | p :: l, h => by
    obtain ⟨h1, h2⟩ := List.pairwise_cons.mp h
    rw [firstOf, firstOf_eq_self h2, List.filter_eq_self.mpr]
    intro q hq
    simpa using h1 q hq

/-- No two neighbouring words are equal. -/
def Spec.NoDoubles (B : List Str) : Prop := ∀ (i : Nat) (a : Str), B[i]? = some a → B[i + 1]? ≠ some a

theorem sameAt_iff {A B : List Str} {i j : Nat} : sameAt A B i j = true ↔ ∃ a, A[i]? = some a ∧ B[j]? = some a := by
  unfold sameAt
  cases h1 : A[i]? with
  | none => simp
  | some a =>
    cases h2 : B[j]? with
    | none => simp
    | some b => simp only [decide_eq_true_eq, Option.some.injEq]; constructor
                · rintro rfl; exact ⟨_, rfl, rfl⟩
                · rintro ⟨c, rfl, rfl⟩; rfl

theorem single_of_noDoubles (A : List Str) {B : List Str} (h : NoDoubles B) : Single (sameAt A B) := by
  intro i j hm
  obtain ⟨a, h1, h2⟩ := sameAt_iff.mp hm
  cases hs : sameAt A B i (j + 1) with
  | false => rfl
  | true =>
    obtain ⟨b, h3, h4⟩ := sameAt_iff.mp hs
    obtain rfl := Option.some.inj (h1.symm.trans h3)
    exact (h j a h2 h4).elim

theorem linked_eq (A : List Str) {B : List Str} (h : NoDoubles B) : linked A B = (aligned (sameAt A B) A.length B.length).2.reverse := by
  unfold linked
  rw [firstOf_eq_self]
  refine (aligned_strict (single_of_noDoubles A h) _ _).imp ?_
  intro p q hpq
  omega

theorem noDoubles_take {B : List Str} (h : NoDoubles B) (n : Nat) : NoDoubles (B.take n) := by
  intro i a h1 h2
  rw [List.getElem?_take] at h1 h2
  split at h1 <;> split at h2
  · exact h i a h1 h2
  all_goals simp_all

theorem noDoubles_drop {B : List Str} (h : NoDoubles B) (n : Nat) : NoDoubles (B.drop n) := by
  intro i a h1 h2
  rw [List.getElem?_drop] at h1 h2
  exact h _ a h1 h2

/-- The links, cut at one of them. -/
theorem linked_cut {A B : List Str} (h : NoDoubles B) {i j : Nat} (hm : (i, j) ∈ linked A B) :
    linked A B = linked (A.take i) (B.take j) ++ (i, j) :: shiftLinks (i + 1) (j + 1) (linked (A.drop (i + 1)) (B.drop (j + 1))) := by
  have hb := (linked_rising A B).2 _ hm
  simp only at hb
  have hS := single_of_noDoubles A h
  rw [linked_eq A h, List.mem_reverse] at hm
  rw [linked_eq A h, linked_eq _ (noDoubles_take h j), linked_eq _ (noDoubles_drop h (j + 1))]
  obtain ⟨x, hx⟩ : ∃ x, A.length = i + 1 + x := ⟨A.length - (i + 1), by omega⟩
  obtain ⟨y, hy⟩ : ∃ y, B.length = j + 1 + y := ⟨B.length - (j + 1), by omega⟩
  rw [hx, hy] at hm
  have h1 := aligned_through hS i j x y hm
  have hm2 : (i, j) ∈ (aligned (sameAt A B) (i + 1) (j + 1)).2 := by
    rw [h1] at hm
    simp only [List.mem_append] at hm
    rcases hm with hm | hm
    · unfold shiftLinks at hm
      obtain ⟨p, _, e⟩ := List.mem_map.mp hm
      have := congrArg Prod.fst e
      simp only at this
      omega
    · exact hm
  have h2 := aligned_at hS i j hm2
  have h3 : aligned (sameAt A B) i j = aligned (sameAt (A.take i) (B.take j)) i j := by
    apply aligned_local
    intro x hx y hy
    unfold sameAt
    rw [List.getElem?_take_of_lt hx, List.getElem?_take_of_lt hy]
  have h4 : shiftBy (sameAt A B) (i + 1) (j + 1) = sameAt (A.drop (i + 1)) (B.drop (j + 1)) := by
    funext x y
    unfold shiftBy sameAt
    rw [List.getElem?_drop, List.getElem?_drop]
  rw [hx, hy, h1]
  simp only
  rw [h2, h3, h4, List.length_take, List.length_take, Nat.min_eq_left (by omega), Nat.min_eq_left (by omega), List.length_drop, List.length_drop,
    hx, hy, Nat.add_sub_cancel_left, Nat.add_sub_cancel_left]
  simp [shiftLinks, List.map_reverse]

/-! ### Columns -/

theorem columnsFrom_take {A B : List Str} {i j : Nat} {L : List (Nat × Nat)} : ∀ {l : List (Nat × Nat)} {a b : Nat},
    (∀ p ∈ l, p.1 < i ∧ p.2 < j) → columnsFrom A B (l ++ (i, j) :: L) a b =
      columnsFrom (A.take i) (B.take j) l a b ++ (false, A[i]?, B[j]?) :: columnsFrom A B L (i + 1) (j + 1)
  | [], a, b, _ => rfl
  | (x, y) :: l, a, b, h => by
    obtain ⟨hx, hy⟩ := h (x, y) (by simp)
    simp only at hx hy
    rw [List.cons_append, columnsFrom, columnsFrom, columnsFrom_take (fun p hp => h p (by simp [hp])), List.getElem?_take_of_lt hx,
      List.getElem?_take_of_lt hy, List.take_take, List.take_take, Nat.min_eq_left (by omega), Nat.min_eq_left (by omega)]
    simp

theorem columnsFrom_shift {A B : List Str} {m n : Nat} : ∀ (l : List (Nat × Nat)) (a b : Nat),
    columnsFrom A B (shiftLinks m n l) (m + a) (n + b) = columnsFrom (A.drop m) (B.drop n) l a b
  | [], a, b => by
    simp only [shiftLinks, List.map_nil, columnsFrom]
    rw [List.drop_drop, List.drop_drop]
  | (x, y) :: l, a, b => by
    have ih := columnsFrom_shift (A := A) (B := B) (m := m) (n := n) l (x + 1) (y + 1)
    simp only [shiftLinks, List.map_cons, columnsFrom] at ih ⊢
    rw [Nat.add_assoc, Nat.add_assoc, ih, List.getElem?_drop, List.getElem?_drop]
    congr 2
    · rw [List.take_drop, List.drop_drop]
    · rw [List.take_drop, List.drop_drop]

/-- The collation of two texts, cut at two linked words. -/
theorem collation_cut {A B : List Str} (h : NoDoubles B) {i j : Nat} (hm : (i, j) ∈ linked A B) :
    collation A B = collation (A.take i) (B.take j) ++ (false, A[i]?, B[j]?) :: collation (A.drop (i + 1)) (B.drop (j + 1)) := by
  unfold collation
  rw [linked_cut h hm, columnsFrom_take]
  · have := columnsFrom_shift (A := A) (B := B) (m := i + 1) (n := j + 1) (linked (A.drop (i + 1)) (B.drop (j + 1))) 0 0
    rw [Nat.add_zero, Nat.add_zero] at this
    rw [this]
  · intro p hp
    have := (linked_rising (A.take i) (B.take j)).2 p hp
    simp only [List.length_take] at this
    omega

theorem beside_marked {A B : List Str} {k : Nat} {c : MarkedPair} (h : (beside A B)[k]? = some c) : c.1 = true := by
  unfold beside at h
  rw [List.getElem?_map] at h
  obtain ⟨d, _, rfl⟩ := Option.map_eq_some_iff.mp h
  rfl

/-- A column that is not marked belongs to a link. -/
theorem columnsFrom_unmarked {A B : List Str} : ∀ {l : List (Nat × Nat)} {a b k : Nat} {c : MarkedPair},
    (columnsFrom A B l a b)[k]? = some c → c.1 = false → ∃ l1 i j l2, l = l1 ++ (i, j) :: l2 ∧
      (l1.Pairwise (fun p q => p.1 < q.1 ∧ p.2 < q.2) → (∀ p ∈ l1, p.1 < i ∧ p.2 < j) →
        k = (columnsFrom (A.take i) (B.take j) l1 a b).length)
  | [], a, b, k, c, h, hc => by
    rw [columnsFrom] at h
    rw [beside_marked h] at hc
    cases hc
  | (x, y) :: l, a, b, k, c, h, hc => by
    rw [columnsFrom] at h
    by_cases h1 : k < (beside ((A.take x).drop a) ((B.take y).drop b)).length
    · rw [List.getElem?_append_left h1] at h
      rw [beside_marked h] at hc
      cases hc
    · rw [List.getElem?_append_right (by omega)] at h
      by_cases h2 : k = (beside ((A.take x).drop a) ((B.take y).drop b)).length
      · exact ⟨[], x, y, l, rfl, fun _ _ => h2⟩
      · obtain ⟨k', hk'⟩ : ∃ k', k - (beside ((A.take x).drop a) ((B.take y).drop b)).length = k' + 1 :=
          ⟨k - (beside ((A.take x).drop a) ((B.take y).drop b)).length - 1, by omega⟩
        rw [hk', List.getElem?_cons_succ] at h
        obtain ⟨l1, i, j, l2, rfl, hl⟩ := columnsFrom_unmarked h hc
        refine ⟨(x, y) :: l1, i, j, l2, rfl, ?_⟩
        intro hp hb
        obtain ⟨hx, hy⟩ := hb (x, y) (by simp)
        simp only at hx hy
        have := hl (List.pairwise_cons.mp hp).2 (fun p hp => hb p (by simp [hp]))
        rw [columnsFrom, List.length_append, List.length_cons, ← this, List.take_take, List.take_take, Nat.min_eq_left (by omega),
          Nat.min_eq_left (by omega)]
        omega

/-- A column that is not marked cuts the collation. -/
theorem collation_at {A B : List Str} (h : NoDoubles B) {k : Nat} {c : MarkedPair} (hc : (collation A B)[k]? = some c) (hv : c.1 = false) :
    ∃ i j, i < A.length ∧ j < B.length ∧ c = (false, A[i]?, B[j]?) ∧ (collation A B).take k = collation (A.take i) (B.take j) ∧
      (collation A B).drop (k + 1) = collation (A.drop (i + 1)) (B.drop (j + 1)) := by
  obtain ⟨l1, i, j, l2, hl, hk⟩ := columnsFrom_unmarked hc hv
  have hm : (i, j) ∈ linked A B := by rw [hl]; simp
  have hr := linked_rising A B
  have hcut := collation_cut h hm
  have hlc := linked_cut h hm
  have hr1 := hr.1
  rw [hl, List.pairwise_append] at hr1
  have hb : ∀ p ∈ l1, p.1 < i ∧ p.2 < j := fun p hp => hr1.2.2 p hp (i, j) (by simp)
  have h1 : l1 = linked (A.take i) (B.take j) := by
    have hb' : ∀ p ∈ linked (A.take i) (B.take j), p.1 < i ∧ p.2 < j := by
      intro p hp
      have := (linked_rising (A.take i) (B.take j)).2 p hp
      simp only [List.length_take] at this
      omega
    have e := hl.symm.trans hlc
    have key : ∀ {u v u' v' : List (Nat × Nat)}, (∀ p ∈ u, p.1 < i) → (∀ p ∈ u', p.1 < i) → u ++ (i, j) :: v = u' ++ (i, j) :: v' → u = u' := by
      intro u
      induction u with
      | nil =>
        intro v u' v' _ hu' e
        cases u' with
        | nil => rfl
        | cons p u' =>
          have := hu' p (by simp)
          rw [List.nil_append, List.cons_append] at e
          rw [← (List.cons.inj e).1] at this
          simp at this
      | cons p u ih =>
        intro v u' v' hu hu' e
        cases u' with
        | nil =>
          have := hu p (by simp)
          rw [List.nil_append, List.cons_append] at e
          rw [(List.cons.inj e).1] at this
          simp at this
        | cons q u' =>
          rw [List.cons_append, List.cons_append] at e
          obtain ⟨e1, e2⟩ := List.cons.inj e
          rw [e1, ih (fun p hp => hu p (by simp [hp])) (fun p hp => hu' p (by simp [hp])) e2]
    exact key (fun p hp => (hb p hp).1) (fun p hp => (hb' p hp).1) e
  have hk' := hk hr1.1 hb
  rw [h1] at hk'
  have hk2 : k = (collation (A.take i) (B.take j)).length := hk'
  have hij := hr.2 _ hm
  refine ⟨i, j, hij.1, hij.2, ?_, ?_, ?_⟩
  · rw [hcut, hk2, List.getElem?_append_right (le_refl _), Nat.sub_self, List.getElem?_cons_zero] at hc
    exact (Option.some.inj hc).symm
  · rw [hcut, hk2, List.take_left]
  · rw [hcut, hk2, List.drop_append, List.drop_eq_nil_of_le (by omega), Nat.add_sub_cancel_left]
    rfl

end CollateX
