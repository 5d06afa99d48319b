import Verif.Proofs.CutMany
/-
The best way through a table in which a block of words stands in a diagonal.
-/

namespace CollateX
open Spec

/-- The block of `k` words from row `a` and column `b` on: its words are the same in the same places and nowhere else, and no word before it is the
same as one after it. -/
structure Divides (M : Nat → Nat → Bool) (a b k : Nat) : Prop where
  block : ∀ d < k, M (a + d) (b + d) = true
  first : ∀ d < k, ∀ y, y ≠ b + d → M (a + d) y = false
  second : ∀ d < k, ∀ x, x ≠ a + d → M x (b + d) = false
  before : ∀ x < a, ∀ y, b + k ≤ y → M x y = false
  after : ∀ x, a + k ≤ x → ∀ y < b, M x y = false

/-- No more than this is gained on the way from the parts before the block to a point beside the parts after it. -/
def gainBeyond (a b k i j : Int) : Int := max (max (min (a - i) (a + b - j)) (min (b - j) (a + b - i))) (2 * min (min (i - a) (j - b)) k - max (i - a) (j - b))

theorem max_step {c x y x' y' : Int} (h1 : x + c ≤ x') (h2 : y + c ≤ y') : max x y + c ≤ max x' y' := by
  omega

theorem gainBeyond_both (a b k i j : Int) : gainBeyond a b k i j - 1 ≤ gainBeyond a b k (i + 1) (j + 1) := by
  unfold gainBeyond
  exact max_step (c := -1) (max_step (c := -1) (by omega) (by omega)) (by omega)

theorem gainBeyond_first (a b k i j : Int) : gainBeyond a b k i j - 1 ≤ gainBeyond a b k (i + 1) j := by
  unfold gainBeyond
  exact max_step (c := -1) (max_step (c := -1) (by omega) (by omega)) (by omega)

theorem gainBeyond_second (a b k i j : Int) : gainBeyond a b k i j - 1 ≤ gainBeyond a b k i (j + 1) := by
  unfold gainBeyond
  exact max_step (c := -1) (max_step (c := -1) (by omega) (by omega)) (by omega)

theorem gainBeyond_same {a b k i j : Int} (h1 : i - a = j - b) (h2 : a ≤ i) (h3 : i < a + k) :
    gainBeyond a b k i j + 1 ≤ gainBeyond a b k (i + 1) (j + 1) := by
  unfold gainBeyond
  omega

theorem bestWay_shift (c : Int) (g : List (Nat × Nat) → List (Nat × Nat)) (t f s : Int × List (Nat × Nat)) :
    bestWay (c + t.1, g t.2) (c + f.1, g f.2) (c + s.1, g s.2) = (c + (bestWay t f s).1, g (bestWay t f s).2) := by
  rcases bestWay_cases t f s with ⟨e, h1, h2⟩ | ⟨e, h1, h2⟩ | ⟨e, h1, h2⟩
  · rw [e, bestWay_first] <;> simp only <;> omega
  · rw [e, bestWay_second] <;> simp only <;> omega
  · rw [e, bestWay_third] <;> simp only <;> omega

section
variable {M : Nat → Nat → Bool} {a b k : Nat} (D : Divides M a b k)
include D

/-- Beside the parts before and after the block only the block itself is the same. -/
theorem Divides.only {i j : Nat} (h1 : a ≤ i ∨ b ≤ j) (h2 : i < a + k ∨ j < b + k) (h : M i j = true) : ∃ d < k, i = a + d ∧ j = b + d := by
  rcases Nat.lt_or_ge i a with hi | hi
  · exfalso
    rcases Nat.lt_or_ge j (b + k) with hj | hj
    · have := D.second (j - b) (by omega) i (by omega)
      rw [show b + (j - b) = j by omega, h] at this
      cases this
    · rw [D.before i hi j hj] at h
      cases h
  · rcases Nat.lt_or_ge i (a + k) with hk | hk
    · refine ⟨i - a, by omega, by omega, ?_⟩
      by_contra hj
      have := D.first (i - a) (by omega) j (by omega)
      rw [show a + (i - a) = i by omega, h] at this
      cases this
    · exfalso
      rcases Nat.lt_or_ge j b with hj | hj
      · rw [D.after i hk j hj] at h
        cases h
      · have := D.second (j - b) (by omega) i (by omega)
        rw [show b + (j - b) = j by omega, h] at this
        cases this

theorem Divides.sideways {i j : Nat} (h1 : a ≤ i ∨ b ≤ j) (h2 : i < a + k ∨ j < b + k) :
    sidewaysWay M i j = ((aligned M (i + 1) j).1 - 1, (aligned M (i + 1) j).2) := by
  unfold sidewaysWay
  rw [if_neg]
  intro h
  simp only [Bool.and_eq_true, decide_eq_true_eq] at h
  obtain ⟨⟨h3, h4⟩, h5⟩ := h
  obtain ⟨d, hd, rfl, rfl⟩ := D.only h1 h2 h5
  rw [D.first d hd _ (by omega)] at h4
  cases h4

/-- No way past the parts before the block is better than a way along the block or beside it. -/
theorem Divides.le : ∀ i j, (a ≤ i ∨ b ≤ j) → (i ≤ a + k ∨ j ≤ b + k) → (aligned M i j).1 ≤ (aligned M a b).1 + gainBeyond a b k i j
  | 0, j, h1, _ => by
    have := aligned_left_any M 0 b a
    rw [Nat.zero_add, aligned_zero_left] at this
    simp only [aligned_zero_left] at this ⊢
    unfold gainBeyond
    rcases h1 with h1 | h1
    · obtain rfl : a = 0 := by omega
      simp only [aligned_zero_left]
      omega
    · omega
  | i + 1, 0, h1, _ => by
    have := aligned_right_any M a 0 b
    rw [Nat.zero_add] at this
    simp only [aligned_zero_right] at this ⊢
    have ha : (aligned M a 0).1 = -(a : Int) := by
      cases a with
      | zero => rfl
      | succ n => rw [aligned_zero_right]; push_cast; omega
    rw [ha] at this
    unfold gainBeyond
    rcases h1 with h1 | h1
    · push_cast; omega
    · obtain rfl : b = 0 := by omega
      rw [ha]
      push_cast
      omega
  | i + 1, j + 1, h1, h2 => by
    by_cases e1 : i + 1 ≤ a ∧ j + 1 = b
    · have := aligned_left_any M (i + 1) b (a - (i + 1))
      rw [show i + 1 + (a - (i + 1)) = a by omega] at this
      rw [e1.2]
      unfold gainBeyond
      push_cast at this ⊢
      omega
    · by_cases e2 : i + 1 = a ∧ j + 1 ≤ b
      · have := aligned_right_any M a (j + 1) (b - (j + 1))
        rw [show j + 1 + (b - (j + 1)) = b by omega] at this
        rw [e2.1]
        unfold gainBeyond
        push_cast at this ⊢
        omega
      · have k1 : a ≤ i ∨ b ≤ j := by omega
        have k2 : i < a + k ∨ j < b + k := by omega
        have ih1 := Divides.le i j k1 (by omega)
        have ih2 := Divides.le i (j + 1) (by omega) (by omega)
        have ih3 := Divides.le (i + 1) j (by omega) (by omega)
        clear h1 h2 e1 e2
        rw [aligned_any, D.sideways k1 k2]
        have g1 := gainBeyond_both a b k i j
        have g2 := gainBeyond_first a b k i (j + 1)
        have g3 := gainBeyond_second a b k (i + 1) j
        push_cast at ih1 ih2 ih3 ⊢
        rcases bestWay_cases (togetherWay M i j) ((aligned M i (j + 1)).1 - 1, (aligned M i (j + 1)).2)
          ((aligned M (i + 1) j).1 - 1, (aligned M (i + 1) j).2) with ⟨e, _⟩ | ⟨e, _⟩ | ⟨e, _⟩ <;> rw [e] <;> try simp only
        · unfold togetherWay
          split
          · rename_i hm
            obtain ⟨d, hd, rfl, rfl⟩ := D.only k1 k2 hm
            have g4 := gainBeyond_same (a := a) (b := b) (k := k) (i := (a + d : Nat)) (j := (b + d : Nat)) (by push_cast; omega) (by push_cast; omega)
              (by push_cast; omega)
            simp only
            omega
          · simp only
            omega
        · omega
        · omega

/-- The best way along the block. -/
theorem Divides.along : ∀ d ≤ k, aligned M (a + d) (b + d) =
    ((aligned M a b).1 + d, shiftLinks a b ((List.range d).reverse.map (fun x => (x, x))) ++ (aligned M a b).2)
  | 0, _ => by simp [shiftLinks]
  | d + 1, hd => by
    have ih := Divides.along d (by omega)
    have b1 := D.le (a + d) (b + d + 1) (by omega) (by omega)
    have b2 := D.le (a + d + 1) (b + d) (by omega) (by omega)
    unfold gainBeyond at b1 b2
    rw [← Nat.add_assoc, ← Nat.add_assoc, aligned_any, D.sideways (by omega) (by omega)]
    have ht : togetherWay M (a + d) (b + d) = ((aligned M (a + d) (b + d)).1 + 1, (a + d, b + d) :: (aligned M (a + d) (b + d)).2) := by
      unfold togetherWay
      rw [if_pos (D.block d (by omega))]
    rw [ht]
    push_cast at b1 b2
    rw [bestWay_first]
    · rw [ih]
      simp only [Prod.mk.injEq]
      refine ⟨by push_cast; omega, ?_⟩
      rw [List.range_succ]
      simp [shiftLinks]
    · rw [ih]; simp only; omega
    · rw [ih]; simp only; omega

/-- Beyond the block, beside one of the texts. -/
theorem Divides.beside_first (hk : 0 < k) : ∀ y, min a y < 2 * k → aligned M (a + k) (b + k + y) =
    ((aligned M a b).1 + k - y, shiftLinks a b ((List.range k).reverse.map (fun x => (x, x))) ++ (aligned M a b).2)
  | 0, _ => by rw [Nat.add_zero, D.along k (Nat.le_refl _)]; simp
  | y + 1, hy => by
    have ih := Divides.beside_first hk y (by omega)
    obtain ⟨k', rfl⟩ : ∃ k', k = k' + 1 := ⟨k - 1, by omega⟩
    have b1 := D.le (a + k') (b + (k' + 1) + y) (by omega) (by omega)
    have b2 := D.le (a + k') (b + (k' + 1) + y + 1) (by omega) (by omega)
    unfold gainBeyond at b1 b2
    have ht : togetherWay M (a + k') (b + (k' + 1) + y) =
        ((aligned M (a + k') (b + (k' + 1) + y)).1 - 1, (aligned M (a + k') (b + (k' + 1) + y)).2) := by
      unfold togetherWay
      rw [if_neg]
      rw [D.first k' (by omega) _ (by omega)]
      simp
    have hs := D.sideways (i := a + k') (j := b + (k' + 1) + y) (by omega) (by omega)
    rw [← Nat.add_assoc (b + (k' + 1)), show a + (k' + 1) = a + k' + 1 by omega, aligned_any, ht, hs]
    rw [show a + (k' + 1) = a + k' + 1 by omega] at ih
    rw [bestWay_third]
    · rw [ih]
      simp only [Prod.mk.injEq, and_true]
      push_cast
      omega
    · rw [ih]; simp only; push_cast at b1 ⊢; omega
    · rw [ih]; simp only; push_cast at b2 ⊢; omega

theorem Divides.beside_second (hk : 0 < k) : ∀ x, min b x < 2 * k → aligned M (a + k + x) (b + k) =
    ((aligned M a b).1 + k - x, shiftLinks a b ((List.range k).reverse.map (fun x => (x, x))) ++ (aligned M a b).2)
  | 0, _ => by rw [Nat.add_zero, D.along k (Nat.le_refl _)]; simp
  | x + 1, hx => by
    have ih := Divides.beside_second hk x (by omega)
    obtain ⟨k', rfl⟩ : ∃ k', k = k' + 1 := ⟨k - 1, by omega⟩
    have b1 := D.le (a + (k' + 1) + x) (b + k') (by omega) (by omega)
    have b2 := D.le (a + (k' + 1) + x + 1) (b + k') (by omega) (by omega)
    unfold gainBeyond at b1 b2
    have ht : togetherWay M (a + (k' + 1) + x) (b + k') = ((aligned M (a + (k' + 1) + x) (b + k')).1 - 1, (aligned M (a + (k' + 1) + x) (b + k')).2) := by
      unfold togetherWay
      rw [if_neg]
      rw [D.second k' (by omega) _ (by omega)]
      simp
    have hs := D.sideways (i := a + (k' + 1) + x) (j := b + k') (by omega) (by omega)
    rw [← Nat.add_assoc (a + (k' + 1)), show b + (k' + 1) = b + k' + 1 by omega, aligned_any, ht, hs]
    rw [show b + (k' + 1) = b + k' + 1 by omega] at ih
    rw [bestWay_second]
    · rw [ih]
      simp only [Prod.mk.injEq, and_true]
      push_cast
      omega
    · rw [ih]; simp only; push_cast at b1 ⊢; omega
    · rw [ih]; simp only; push_cast at b2 ⊢; omega

/-- The best way: the best way before the block, the block, and the best way after it. -/
theorem Divides.through (hk : 0 < k) : ∀ x y, min a y < 2 * k → min b x < 2 * k → aligned M (a + k + x) (b + k + y) =
    ((aligned M a b).1 + k + (aligned (shiftBy M (a + k) (b + k)) x y).1,
      shiftLinks (a + k) (b + k) (aligned (shiftBy M (a + k) (b + k)) x y).2 ++
        (shiftLinks a b ((List.range k).reverse.map (fun x => (x, x))) ++ (aligned M a b).2))
  | 0, y, h1, _ => by
    rw [Nat.add_zero, D.beside_first hk y h1]
    simp only [aligned_zero_left, shiftLinks, List.map_nil, List.nil_append, Prod.mk.injEq, and_true]
    omega
  | x + 1, 0, _, h2 => by
    rw [Nat.add_zero (b + k), D.beside_second hk (x + 1) h2]
    simp only [aligned_zero_right, shiftLinks, List.map_nil, List.nil_append, Prod.mk.injEq, and_true]
    push_cast
    omega
  | x + 1, y + 1, h1, h2 => by
    have ih1 := Divides.through hk x y (by omega) (by omega)
    have ih2 := Divides.through hk x (y + 1) (by omega) (by omega)
    have ih3 := Divides.through hk (x + 1) y (by omega) (by omega)
    set P := shiftLinks a b ((List.range k).reverse.map (fun x => (x, x))) ++ (aligned M a b).2
    set V := (aligned M a b).1
    have ht : togetherWay M (a + k + x) (b + k + y) = (V + k + (togetherWay (shiftBy M (a + k) (b + k)) x y).1,
        shiftLinks (a + k) (b + k) (togetherWay (shiftBy M (a + k) (b + k)) x y).2 ++ P) := by
      unfold togetherWay
      rw [show shiftBy M (a + k) (b + k) x y = M (a + k + x) (b + k + y) from rfl, ih1]
      split
      · simp only [Prod.mk.injEq]
        exact ⟨by omega, by simp [shiftLinks]⟩
      · simp only [Prod.mk.injEq]
        exact ⟨by omega, trivial⟩
    have hs : sidewaysWay M (a + k + x) (b + k + y) = (V + k + (sidewaysWay (shiftBy M (a + k) (b + k)) x y).1,
        shiftLinks (a + k) (b + k) (sidewaysWay (shiftBy M (a + k) (b + k)) x y).2 ++ P) := by
      have hc : (decide (0 < b + k + y) && M (a + k + x) (b + k + y - 1) && M (a + k + x) (b + k + y)) =
          (decide (0 < y) && shiftBy M (a + k) (b + k) x (y - 1) && shiftBy M (a + k) (b + k) x y) := by
        cases y with
        | zero =>
          have : M (a + k + x) (b + k - 1) = false := by
            have := D.second (k - 1) (by omega) (a + k + x) (by omega)
            rwa [show b + (k - 1) = b + k - 1 by omega] at this
          simp [this]
        | succ y =>
          rw [show b + k + (y + 1) - 1 = b + k + y by omega]
          simp [shiftBy]
      unfold sidewaysWay
      rw [hc, show a + k + x + 1 = a + k + (x + 1) by omega, ih3]
      split
      · simp only [Prod.mk.injEq]
        exact ⟨by omega, by simp [shiftLinks]⟩
      · simp only [Prod.mk.injEq]
        exact ⟨by omega, trivial⟩
    rw [← Nat.add_assoc, ← Nat.add_assoc, aligned_any, aligned_any, ht, hs, Nat.add_assoc (b + k) y 1, ih2]
    rw [show V + k + (aligned (shiftBy M (a + k) (b + k)) x (y + 1)).1 - 1 = V + k + ((aligned (shiftBy M (a + k) (b + k)) x (y + 1)).1 - 1) by omega]
    exact bestWay_shift (V + k) (fun l => shiftLinks (a + k) (b + k) l ++ P) _
      ((aligned (shiftBy M (a + k) (b + k)) x (y + 1)).1 - 1, (aligned (shiftBy M (a + k) (b + k)) x (y + 1)).2) _

end

end CollateX
