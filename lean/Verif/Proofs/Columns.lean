import Verif.Proofs.Textbook
/-
The columns of two texts, computed from ranks.
-/

namespace CollateX
open Spec

/-! ### The links are in order -/

/-- Links within bounds, the later ones first. -/
def Falling (i j : Nat) (l : List (Nat × Nat)) : Prop :=
  (∀ p ∈ l, p.1 < i ∧ p.2 < j) ∧ l.Pairwise (fun p q => q.1 ≤ p.1 ∧ q.2 < p.2)

theorem Falling.mono {i j i' j' : Nat} {l : List (Nat × Nat)} (h : Falling i j l) (hi : i ≤ i') (hj : j ≤ j') : Falling i' j' l :=
  ⟨fun p hp => by have := h.1 p hp; omega, h.2⟩

theorem Falling.cons {i j : Nat} {l : List (Nat × Nat)} (h : Falling (i + 1) j l) : Falling (i + 1) (j + 1) ((i, j) :: l) := by
  refine ⟨?_, List.pairwise_cons.mpr ⟨?_, h.2⟩⟩
  · intro p hp
    rcases List.mem_cons.mp hp with rfl | hp
    · simp
    · have := h.1 p hp; omega
  · intro p hp
    have := h.1 p hp
    simp only
    omega

theorem aligned_falling (M : Nat → Nat → Bool) : ∀ i j, Falling i j (aligned M i j).2
  | 0, j => ⟨(fun p hp => by cases hp), List.Pairwise.nil⟩
  | i + 1, 0 => ⟨(fun p hp => by cases hp), List.Pairwise.nil⟩
  | i + 1, j + 1 => by
    have h1 := aligned_falling M i j
    have h2 := aligned_falling M i (j + 1)
    have h3 := aligned_falling M (i + 1) j
    show Falling (i + 1) (j + 1) (alignRow M i (aligned M i) (j + 1)).2
    have h3' : Falling (i + 1) j (alignRow M i (aligned M i) j).2 := h3
    rw [alignRow_succ]
    have ite_P : ∀ (c : Prop) [Decidable c] (u v : Int × List (Nat × Nat)), Falling (i + 1) (j + 1) u.2 → Falling (i + 1) (j + 1) v.2 →
        Falling (i + 1) (j + 1) (if c then u else v).2 := by
      intro c _ u v hu hv
      split
      · exact hu
      · exact hv
    refine ite_P _ _ _ (ite_P _ _ _ ?_ ?_) (ite_P _ _ _ ?_ (ite_P _ _ _ ?_ ?_))
    · exact h3'.cons
    · exact h3'.mono (by omega) (by omega)
    · exact h2.mono (by omega) (by omega)
    · exact (h1.mono (Nat.le_succ i) (Nat.le_refl j)).cons
    · exact h1.mono (by omega) (by omega)

theorem firstOf_falling {i j : Nat} : ∀ {l : List (Nat × Nat)}, Falling i j l →
    (firstOf Prod.fst l).Pairwise (fun p q => q.1 < p.1 ∧ q.2 < p.2)
  | [], _ => List.Pairwise.nil
  | p :: l, h => by
    refine List.pairwise_cons.mpr ⟨?_, (firstOf_falling (i := i) (j := j) ⟨fun q hq => h.1 q (by simp [hq]), (List.pairwise_cons.mp h.2).2⟩).filter _⟩
    intro q hq
    obtain ⟨h1, h2⟩ := List.mem_filter.mp hq
    have := (List.pairwise_cons.mp h.2).1 q (mem_of_firstOf h1)
    simp only [ne_eq, decide_not, Bool.not_eq_true', decide_eq_false_iff_not] at h2
    omega

/-- The links, from the first to the last, within the two texts. -/
theorem linked_rising (A B : List Str) : (linked A B).Pairwise (fun p q => p.1 < q.1 ∧ p.2 < q.2) ∧
    ∀ p ∈ linked A B, p.1 < A.length ∧ p.2 < B.length := by
  have h := aligned_falling (sameAt A B) A.length B.length
  refine ⟨?_, ?_⟩
  · unfold linked
    rw [List.pairwise_reverse]
    exact firstOf_falling h
  · intro p hp
    unfold linked at hp
    exact h.1 p (mem_of_firstOf (List.mem_reverse.mp hp))

/-! ### Ranks and columns -/

section
variable {A B : List Str} {RA RB : Nat → Nat} {col : Nat → MarkedPair}

theorem rising_of_step {R : Nat → Nat} {n : Nat} (h : ∀ i < n, R i < R (i + 1)) : ∀ {i j : Nat}, i < j → j ≤ n → R i < R j := by
  intro i j hij hj
  induction j with
  | zero => omega
  | succ j ih =>
    have := h j (by omega)
    by_cases e : i = j
    · rw [e]; exact this
    · have := ih (by omega) (by omega)
      omega

/-- What the columns are, by rank. -/
structure RankedColumns (A B : List Str) (RA RB : Nat → Nat) (col : Nat → MarkedPair) (L : List (Nat × Nat)) (N : Nat) : Prop where
  first : ∀ i < A.length, (col (RA (i + 1))).2.1 = A[i]?
  second : ∀ j < B.length, (col (RB (j + 1))).2.2 = B[j]?
  noFirst : ∀ k, 1 ≤ k → k ≤ N → (∀ i < A.length, RA (i + 1) ≠ k) → (col k).2.1 = none
  noSecond : ∀ k, 1 ≤ k → k ≤ N → (∀ j < B.length, RB (j + 1) ≠ k) → (col k).2.2 = none
  mark : ∀ k, 1 ≤ k → k ≤ N → ((col k).1 = false ↔ ∃ p ∈ L, RA (p.1 + 1) = k)
  stepA : ∀ i < A.length, (∀ p ∈ L, p.1 ≠ i) → RA (i + 1) = RA i + 1
  stepB : ∀ j < B.length, (∀ p ∈ L, p.2 ≠ j) → RB (j + 1) = RB j + 1
  stepL : ∀ p ∈ L, RA (p.1 + 1) = max (RA p.1) (RB p.2) + 1 ∧ RB (p.2 + 1) = RA (p.1 + 1)
  inside : ∀ p ∈ L, p.1 < A.length ∧ p.2 < B.length
  last : N = max (RA A.length) (RB B.length)

variable {L : List (Nat × Nat)} {N : Nat}

theorem RankedColumns.risingA (h : RankedColumns A B RA RB col L N) : ∀ {i j : Nat}, i < j → j ≤ A.length → RA i < RA j := by
  apply rising_of_step
  intro i hi
  by_cases hl : ∃ p ∈ L, p.1 = i
  · obtain ⟨p, hp, rfl⟩ := hl
    have := (h.stepL p hp).1
    omega
  · have := h.stepA i hi (fun p hp e => hl ⟨p, hp, e⟩)
    omega

theorem RankedColumns.risingB (h : RankedColumns A B RA RB col L N) : ∀ {i j : Nat}, i < j → j ≤ B.length → RB i < RB j := by
  apply rising_of_step
  intro i hi
  by_cases hl : ∃ p ∈ L, p.2 = i
  · obtain ⟨p, hp, rfl⟩ := hl
    have := h.stepL p hp
    omega
  · have := h.stepB i hi (fun p hp e => hl ⟨p, hp, e⟩)
    omega

/-- The ranks before the next link. -/
theorem RankedColumns.climb (h : RankedColumns A B RA RB col L N) {a b i j r : Nat} (hi : i ≤ A.length)
    (hj : j ≤ B.length) (ha : RA a = r) (hb : RB b = r) (hLa : ∀ p ∈ L, p.1 < a ∨ i ≤ p.1) (hLb : ∀ p ∈ L, p.2 < b ∨ j ≤ p.2) :
    (∀ d, a + d ≤ i → RA (a + d) = r + d) ∧ ∀ d, b + d ≤ j → RB (b + d) = r + d := by
  constructor
  · intro d
    induction d with
    | zero => intro _; exact ha
    | succ d ih =>
      intro hd
      have := h.stepA (a + d) (by omega) (fun p hp e => by have := hLa p hp; omega)
      rw [show a + (d + 1) = a + d + 1 by omega, this, ih (by omega)]
      omega
  · intro d
    induction d with
    | zero => intro _; exact hb
    | succ d ih =>
      intro hd
      have := h.stepB (b + d) (by omega) (fun p hp e => by have := hLb p hp; omega)
      rw [show b + (d + 1) = b + d + 1 by omega, this, ih (by omega)]
      omega

/-- The columns before the next link. -/
theorem RankedColumns.beside (h : RankedColumns A B RA RB col L N) {a b i j r R : Nat} (hai : a ≤ i) (hi : i ≤ A.length) (hbj : b ≤ j)
    (hj : j ≤ B.length) (ha : RA a = r) (hb : RB b = r) (hLa : ∀ p ∈ L, p.1 < a ∨ i ≤ p.1) (hLb : ∀ p ∈ L, p.2 < b ∨ j ≤ p.2)
    (hR : R = r + max (i - a) (j - b)) (hAi : i < A.length → R < RA (i + 1)) (hBj : j < B.length → R < RB (j + 1)) (hRN : R ≤ N) :
    (List.range' (r + 1) (R - r)).map col = Spec.beside ((A.take i).drop a) ((B.take j).drop b) := by
  obtain ⟨hA, hB⟩ := h.climb hi hj ha hb hLa hLb
  have hA' : ∀ i' < A.length, RA (i' + 1) ≤ r ∨ (a ≤ i' ∧ i' < i ∧ RA (i' + 1) = r + 1 + (i' - a)) ∨ R < RA (i' + 1) := by
    intro i' hi'
    by_cases h1 : i' < a
    · left
      by_cases h2 : i' + 1 = a
      · rw [h2, ha]
      · have := h.risingA (i := i' + 1) (j := a) (by omega) (by omega)
        omega
    · by_cases h2 : i' < i
      · right; left
        refine ⟨by omega, h2, ?_⟩
        have := hA (i' + 1 - a) (by omega)
        rw [show a + (i' + 1 - a) = i' + 1 by omega] at this
        omega
      · right; right
        by_cases h3 : i' = i
        · subst h3; exact hAi hi'
        · have := h.risingA (i := i + 1) (j := i' + 1) (by omega) (by omega)
          have := hAi (by omega)
          omega
  have hB' : ∀ j' < B.length, RB (j' + 1) ≤ r ∨ (b ≤ j' ∧ j' < j ∧ RB (j' + 1) = r + 1 + (j' - b)) ∨ R < RB (j' + 1) := by
    intro j' hj'
    by_cases h1 : j' < b
    · left
      by_cases h2 : j' + 1 = b
      · rw [h2, hb]
      · have := h.risingB (i := j' + 1) (j := b) (by omega) (by omega)
        omega
    · by_cases h2 : j' < j
      · right; left
        refine ⟨by omega, h2, ?_⟩
        have := hB (j' + 1 - b) (by omega)
        rw [show b + (j' + 1 - b) = j' + 1 by omega] at this
        omega
      · right; right
        by_cases h3 : j' = j
        · subst h3; exact hBj hj'
        · have := h.risingB (i := j + 1) (j := j' + 1) (by omega) (by omega)
          have := hBj (by omega)
          omega
  unfold Spec.beside
  have e : max ((A.take i).drop a).length ((B.take j).drop b).length = R - r := by
    simp only [List.length_drop, List.length_take]
    omega
  rw [e, List.range'_eq_map_range, List.map_map]
  apply List.map_congr_left
  intro d hd
  rw [List.mem_range] at hd
  simp only [Function.comp]
  have e1 : (col (r + 1 + d)).1 = true := by
    rw [← Bool.not_eq_false]
    intro hc
    obtain ⟨p, hp, he⟩ := (h.mark _ (by omega) (by omega)).mp hc
    have hpa := hLa p hp
    have hp1 := (h.inside p hp).1
    rcases hA' p.1 hp1 with q | q | q <;> omega
  have e2 : (col (r + 1 + d)).2.1 = ((A.take i).drop a)[d]? := by
    rw [List.getElem?_drop, List.getElem?_take]
    by_cases hdi : a + d < i
    · rw [if_pos hdi]
      have := hA (d + 1) (by omega)
      have h2 := h.first (a + d) (by omega)
      rw [show a + d + 1 = a + (d + 1) by omega, this] at h2
      rw [← h2, show r + 1 + d = r + (d + 1) by omega]
    · rw [if_neg hdi]
      apply h.noFirst _ (by omega) (by omega)
      intro i' hi' he
      rcases hA' i' hi' with q | q | q <;> omega
  have e3 : (col (r + 1 + d)).2.2 = ((B.take j).drop b)[d]? := by
    rw [List.getElem?_drop, List.getElem?_take]
    by_cases hdi : b + d < j
    · rw [if_pos hdi]
      have := hB (d + 1) (by omega)
      have h2 := h.second (b + d) (by omega)
      rw [show b + d + 1 = b + (d + 1) by omega, this] at h2
      rw [← h2, show r + 1 + d = r + (d + 1) by omega]
    · rw [if_neg hdi]
      apply h.noSecond _ (by omega) (by omega)
      intro i' hi' he
      rcases hB' i' hi' with q | q | q <;> omega
  rw [← e2, ← e3, ← e1]

/-- The columns from some link on. -/
theorem RankedColumns.from (h : RankedColumns A B RA RB col L N) : ∀ (l : List (Nat × Nat)) (a b r : Nat),
    (∀ p ∈ l, a ≤ p.1 ∧ b ≤ p.2) → l.Pairwise (fun p q => p.1 < q.1 ∧ p.2 < q.2) → (∀ p, p ∈ L ↔ (p ∈ L ∧ p.1 < a ∧ p.2 < b) ∨ p ∈ l) →
    a ≤ A.length → b ≤ B.length → RA a = r → RB b = r → (List.range' (r + 1) (N - r)).map col = columnsFrom A B l a b
  | [], a, b, r, _, _, hL, ha, hb, hra, hrb => by
    have hLa : ∀ p ∈ L, p.1 < a ∧ p.2 < b := by
      intro p hp
      rcases (hL p).mp hp with q | q
      · exact q.2
      · cases q
    have hN := h.last
    obtain ⟨hA, hB⟩ := h.climb (a := a) (b := b) (i := A.length) (j := B.length) (by omega) (by omega) hra hrb
      (fun p hp => Or.inl (hLa p hp).1) (fun p hp => Or.inl (hLa p hp).2)
    have hA := hA (A.length - a) (by omega)
    have hB := hB (B.length - b) (by omega)
    rw [show a + (A.length - a) = A.length by omega] at hA
    rw [show b + (B.length - b) = B.length by omega] at hB
    have := h.beside (R := N) (a := a) (b := b) (i := A.length) (j := B.length) ha (by omega) hb (by omega)
      hra hrb (fun p hp => Or.inl (hLa p hp).1) (fun p hp => Or.inl (hLa p hp).2) (by omega) (by omega) (by omega) (by omega)
    rw [this, List.take_length, List.take_length]
    rfl
  | (i, j) :: l, a, b, r, hge, hpw, hL, ha, hb, hra, hrb => by
    have hm : (i, j) ∈ L := (hL _).mpr (Or.inr (by simp))
    obtain ⟨hi, hj⟩ := h.inside (i, j) hm
    obtain ⟨hai, hbj⟩ := hge (i, j) (by simp)
    simp only at hi hj hai hbj
    obtain ⟨hp1, hp2⟩ := List.pairwise_cons.mp hpw
    have hLa : ∀ p ∈ L, (p.1 < a ∧ p.2 < b) ∨ (i ≤ p.1 ∧ j ≤ p.2) := by
      intro p hp
      rcases (hL p).mp hp with q | q
      · exact Or.inl q.2
      · rcases List.mem_cons.mp q with rfl | q
        · exact Or.inr ⟨Nat.le_refl _, Nat.le_refl _⟩
        · have := hp1 p q
          exact Or.inr ⟨by omega, by omega⟩
    obtain ⟨hA, hB⟩ := h.climb (a := a) (b := b) (i := i) (j := j) (by omega) (by omega) hra hrb
      (fun p hp => by have := hLa p hp; omega) (fun p hp => by have := hLa p hp; omega)
    have hA := hA (i - a) (by omega)
    have hB := hB (j - b) (by omega)
    rw [show a + (i - a) = i by omega] at hA
    rw [show b + (j - b) = j by omega] at hB
    obtain ⟨s1, s2⟩ := h.stepL (i, j) hm
    simp only at s1 s2
    have hN := h.last
    have hiN : RA (i + 1) ≤ N := by
      by_cases e : i + 1 = A.length
      · rw [e]; omega
      · have := h.risingA (i := i + 1) (j := A.length) (by omega) (by omega)
        omega
    have hbs := h.beside (R := r + max (i - a) (j - b)) (a := a) (b := b) (i := i) (j := j) hai (by omega) hbj (by omega)
      hra hrb (fun p hp => by have := hLa p hp; omega) (fun p hp => by have := hLa p hp; omega) rfl (by omega) (by omega) (by omega)
    have hrest := RankedColumns.from h l (i + 1) (j + 1) (RA (i + 1)) (by
        intro p hp
        have := hp1 p hp
        omega) hp2 (by
        intro p
        constructor
        · intro hp
          rcases (hL p).mp hp with q | q
          · exact Or.inl ⟨hp, by omega, by omega⟩
          · rcases List.mem_cons.mp q with rfl | q
            · exact Or.inl ⟨hp, by simp, by simp⟩
            · exact Or.inr q
        · rintro (q | q)
          · exact q.1
          · exact (hL p).mpr (Or.inr (by simp [q]))) (by omega) (by omega) rfl s2
    have e : N - r = (r + max (i - a) (j - b) - r) + (1 + (N - RA (i + 1))) := by omega
    rw [e, ← List.range'_append_1, List.map_append, hbs]
    unfold columnsFrom
    congr 1
    rw [show r + 1 + (r + max (i - a) (j - b) - r) = RA (i + 1) by omega, Nat.add_comm 1, List.range'_succ, List.map_cons, hrest]
    congr 1
    have m1 := (h.mark (RA (i + 1)) (by omega) hiN).mpr ⟨(i, j), hm, rfl⟩
    have m2 := h.first i hi
    have m3 := h.second j hj
    rw [s2] at m3
    rw [← m1, ← m2, ← m3]

end

end CollateX
