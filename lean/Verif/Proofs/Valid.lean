import Verif.Spec.Text
import Verif.Proofs.TokenIndexOK
/-
The specification's notions in terms of the proofs' notions.
-/

namespace CollateX

theorem off_eq_startOf (ws : List Witness) (k : Nat) : off ws k = Spec.startOf ws k := by
  induction ws generalizing k with
  | nil => cases k <;> rfl
  | cons w ws ih =>
    cases k with
    | zero => rfl
    | succ k => simp [off, ih, Spec.startOf]


theorem natDigits_eq : ∀ (f n : Nat), n < f → natDigits f n = Nat.toDigits 10 n
  | 0, _, h => by omega
  | f + 1, n, h => by
    have hd : ∀ d, d < 10 → Char.ofNat (48 + d) = Nat.digitChar d := by decide
    unfold natDigits
    by_cases h10 : n < 10
    · rw [if_pos h10, Nat.toDigits_of_lt_base h10, hd n h10]
    · rw [if_neg h10, natDigits_eq f (n / 10) (by omega), hd _ (Nat.mod_lt _ (by omega)),
        Nat.toDigits_of_base_le (n := n) (by omega) (by omega)]

theorem natStr_eq (n : Nat) : natStr n = (toString n).toList := by
  show _ = (String.ofList (Nat.toDigits 10 n)).toList
  rw [String.toList_ofList]
  exact natDigits_eq _ _ (by omega)

theorem markerStr_eq (n : Nat) : markerStr n = '$' :: (toString n).toList := by rw [← natStr_eq]; rfl

open Spec in
theorem _root_.CollateX.Spec.Valid.noCollision {ws : List Witness} (h : Valid ws) : NoCollision ws := by
  intro w hw t ht i hi he
  exact h.sep w hw t ht ⟨i, hi, by rw [he, markerStr_eq]⟩

open Spec in
theorem _root_.CollateX.Spec.Valid.tokenIndex {ws : List Witness} (h : Valid ws) :
    ∃ ti, mkTokenIndex ws = .ok ti ∧ ti.ws = indexed 0 ws ∧ Layout ti ∧ BlocksOK ti :=
  tokenIndex_valid h.tokens h.ne h.sigla h.noCollision

end CollateX
