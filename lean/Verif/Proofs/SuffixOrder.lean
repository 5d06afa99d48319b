import Verif.Proofs.Radix
import Mathlib.Tactic.Common
/-
The order of the suffixes of a zero-padded sequence.
-/

namespace CollateX

/-- Suffix `i` of the sequence `f` is smaller than suffix `j`. -/
def SLt (f : Nat → Nat) (i j : Nat) : Prop := ∃ k, (∀ m < k, f (i + m) = f (j + m)) ∧ f (i + k) < f (j + k)

/-- Positive before `n`, zero from `n` on. -/
structure Pad (f : Nat → Nat) (n : Nat) : Prop where
  pos : ∀ i < n, 1 ≤ f i
  zero : ∀ i, n ≤ i → f i = 0

theorem slt_step (f : Nat → Nat) (i j : Nat) : SLt f i j ↔ f i < f j ∨ (f i = f j ∧ SLt f (i + 1) (j + 1)) := by
  constructor
  · rintro ⟨k, h1, h2⟩
    cases k with
    | zero => left; exact h2
    | succ k =>
      right
      refine ⟨h1 0 (by omega), k, ?_, ?_⟩
      · intro m hm
        have := h1 (m + 1) (by omega)
        rw [show i + 1 + m = i + (m + 1) by omega, show j + 1 + m = j + (m + 1) by omega]
        exact this
      · rw [show i + 1 + k = i + (k + 1) by omega, show j + 1 + k = j + (k + 1) by omega]
        exact h2
  · rintro (h | ⟨h, k, h1, h2⟩)
    · exact ⟨0, by simp, h⟩
    · refine ⟨k + 1, ?_, ?_⟩
      · intro m hm
        cases m with
        | zero => exact h
        | succ m =>
          have := h1 m (by omega)
          rw [show i + 1 + m = i + (m + 1) by omega, show j + 1 + m = j + (m + 1) by omega] at this
          exact this
      · rw [show i + 1 + k = i + (k + 1) by omega, show j + 1 + k = j + (k + 1) by omega] at h2
        exact h2

theorem slt_irrefl (f : Nat → Nat) (i : Nat) : ¬ SLt f i i := by
  rintro ⟨k, _, h⟩
  omega

theorem slt_trans {f : Nat → Nat} {i j l : Nat} : SLt f i j → SLt f j l → SLt f i l := by
  rintro ⟨a, ha1, ha2⟩ ⟨b, hb1, hb2⟩
  rcases Nat.lt_trichotomy a b with h | h | h
  · exact ⟨a, fun m hm => by rw [ha1 m hm, hb1 m (by omega)], by rw [← hb1 a h]; exact ha2⟩
  · subst h
    exact ⟨a, fun m hm => by rw [ha1 m hm, hb1 m hm], by omega⟩
  · exact ⟨b, fun m hm => by rw [ha1 m (by omega), hb1 m hm], by rw [ha1 b h]; exact hb2⟩

theorem slt_asymm {f : Nat → Nat} {i j : Nat} (h : SLt f i j) : ¬ SLt f j i := fun h' => slt_irrefl f i (slt_trans h h')

theorem slt_total {f : Nat → Nat} {n : Nat} (hf : Pad f n) : ∀ (d i j : Nat), d = n - i → i ≤ n → j ≤ n → i ≠ j →
    SLt f i j ∨ SLt f j i := by
  intro d
  induction d with
  | zero =>
    intro i j hd hi hj hne
    have : i = n := by omega
    subst this
    left
    rw [slt_step]
    left
    rw [hf.zero i (Nat.le_refl _)]
    exact hf.pos j (by omega)
  | succ d ih =>
    intro i j hd hi hj hne
    rw [slt_step f i j, slt_step f j i]
    by_cases h1 : f i < f j
    · exact Or.inl (Or.inl h1)
    · by_cases h2 : f j < f i
      · exact Or.inr (Or.inl h2)
      · have he : f i = f j := by omega
        have hin : i < n := by omega
        have hjn : j < n := by
          by_contra hc
          have := hf.zero j (by omega)
          have := hf.pos i hin
          omega
        rcases ih (i + 1) (j + 1) (by omega) (by omega) (by omega) (by omega) with h | h
        · exact Or.inl (Or.inr ⟨he, h⟩)
        · exact Or.inr (Or.inr ⟨he.symm, h⟩)

theorem not_slt_end {f : Nat → Nat} {n : Nat} (hf : Pad f n) (i : Nat) : ¬ SLt f i n := by
  rintro ⟨k, _, h⟩
  rw [hf.zero (n + k) (by omega)] at h
  omega

/-! ### Triples -/

def tripleAt (f : Nat → Nat) (x : Nat) : Nat × Nat × Nat := (f x, f (x + 1), f (x + 2))

def TLt (f : Nat → Nat) (x y : Nat) : Prop :=
  f x < f y ∨ (f x = f y ∧ (f (x + 1) < f (y + 1) ∨ (f (x + 1) = f (y + 1) ∧ f (x + 2) < f (y + 2))))

theorem slt_step3 (f : Nat → Nat) (x y : Nat) :
    SLt f x y ↔ TLt f x y ∨ (tripleAt f x = tripleAt f y ∧ SLt f (x + 3) (y + 3)) := by
  rw [slt_step f x y, slt_step f (x + 1) (y + 1), slt_step f (x + 1 + 1) (y + 1 + 1)]
  unfold TLt tripleAt
  simp only [Prod.mk.injEq, Nat.add_assoc, Nat.reduceAdd]
  tauto

theorem tlt_or_eq (f : Nat → Nat) (x y : Nat) : TLt f x y ∨ tripleAt f x = tripleAt f y ∨ TLt f y x := by
  unfold TLt tripleAt
  simp only [Prod.mk.injEq]
  omega

theorem tlt_not_eq {f : Nat → Nat} {x y : Nat} (h : TLt f x y) : tripleAt f x ≠ tripleAt f y := by
  unfold TLt at h
  unfold tripleAt
  simp only [ne_eq, Prod.mk.injEq]
  omega

theorem tlt_asymm {f : Nat → Nat} {x y : Nat} (h : TLt f x y) : ¬ TLt f y x := by
  unfold TLt at *
  omega

theorem tlt_trans {f : Nat → Nat} {x y z : Nat} (h : TLt f x y) (h' : TLt f y z) : TLt f x z := by
  unfold TLt at *
  omega

def TLe (f : Nat → Nat) (x y : Nat) : Prop := TLt f x y ∨ tripleAt f x = tripleAt f y

theorem tlt_congr_right {f : Nat → Nat} {x y z : Nat} (h : tripleAt f y = tripleAt f z) : TLt f x y ↔ TLt f x z := by
  unfold tripleAt at h
  simp only [Prod.mk.injEq] at h
  unfold TLt
  omega

theorem tlt_congr_left {f : Nat → Nat} {x y z : Nat} (h : tripleAt f y = tripleAt f z) : TLt f y x ↔ TLt f z x := by
  unfold tripleAt at h
  simp only [Prod.mk.injEq] at h
  unfold TLt
  omega

/-- Equal triples of different suffixes do not reach the end. -/
theorem triple_inside {f : Nat → Nat} {n : Nat} (hf : Pad f n) {x y : Nat} (hx : x ≤ n) (hy : y ≤ n) (hne : x ≠ y)
    (h : tripleAt f x = tripleAt f y) : x + 3 ≤ n ∧ y + 3 ≤ n := by
  unfold tripleAt at h
  simp only [Prod.mk.injEq] at h
  have key : ∀ a, f a = 0 ↔ n ≤ a := by
    intro a
    constructor
    · intro ha
      by_contra hc
      have := hf.pos a (by omega)
      omega
    · exact hf.zero a
  have k0 := key x
  have k1 := key (x + 1)
  have k2 := key (x + 2)
  have l0 := key y
  have l1 := key (y + 1)
  have l2 := key (y + 2)
  omega

end CollateX
