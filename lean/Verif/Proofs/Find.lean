import Verif.Model.Find
import Verif.Proofs.Blocks
import Mathlib.Data.List.Lex
/-
Search in the suffix array.
-/

namespace CollateX

theorem patIds_some {voc : List Str} {p : List Str} : (∀ x ∈ p, x ∈ voc) → patIds voc p = some (p.map (tokId voc)) := by
  induction p with
  | nil => intro _; rfl
  | cons x xs ih =>
    intro h
    rw [patIds, if_pos (h x (by simp)), ih (fun y hy => h y (by simp [hy]))]
    rfl

theorem patIds_none {voc : List Str} {p : List Str} : (∃ x ∈ p, x ∉ voc) → patIds voc p = none := by
  induction p with
  | nil => rintro ⟨x, h, _⟩; simp at h
  | cons x xs ih =>
    rintro ⟨y, hy, hn⟩
    rw [patIds]
    by_cases hx : x ∈ voc
    · rw [if_pos hx]
      rcases List.mem_cons.mp hy with rfl | hy
      · exact absurd hx hn
      · rw [ih ⟨y, hy, hn⟩]
    · rw [if_neg hx]

theorem rd_inside {l : List Nat} {i : Nat} (h : i < l.length) : rd l i = l[i] := rd_eq (List.getElem?_eq_getElem h)

theorem rd_outside {l : List Nat} {i : Nat} (h : l.length ≤ i) : rd l i = 0 := by
  unfold rd; rw [List.getD_eq_getElem?_getD, List.getElem?_eq_none h]; rfl

/-- Suffixes in suffix order are in lexicographic order. -/
theorem drop_lt_of_slt {l : List Nat} (hpos : ∀ x ∈ l, 1 ≤ x) {i j : Nat} (h : SLt (rd l) i j) : l.drop i < l.drop j := by
  obtain ⟨k, h1, h2⟩ := h
  induction k generalizing i j with
  | zero =>
    rw [Nat.add_zero, Nat.add_zero] at h2
    by_cases hj : j < l.length
    · by_cases hi : i < l.length
      · rw [List.drop_eq_getElem_cons hi, List.drop_eq_getElem_cons hj, List.cons_lt_cons_iff]
        left
        rw [rd_inside hi, rd_inside hj] at h2
        exact h2
      · rw [List.drop_eq_nil_of_le (by omega), List.drop_eq_getElem_cons hj]
        exact List.nil_lt_cons _ _
    · rw [rd_outside (i := j) (by omega)] at h2
      omega
  | succ k ih =>
    have h0 := h1 0 (by omega)
    rw [Nat.add_zero, Nat.add_zero] at h0
    have hrec := ih (i := i + 1) (j := j + 1) (fun m hm => by
      have := h1 (m + 1) (by omega)
      rwa [show i + (m + 1) = i + 1 + m by omega, show j + (m + 1) = j + 1 + m by omega] at this)
      (by rwa [show i + 1 + k = i + (k + 1) by omega, show j + 1 + k = j + (k + 1) by omega])
    by_cases hj : j < l.length
    · have hy := hpos _ (List.getElem_mem hj)
      rw [rd_inside hj] at h0
      by_cases hi : i < l.length
      · rw [rd_inside hi] at h0
        rw [List.drop_eq_getElem_cons hi, List.drop_eq_getElem_cons hj, List.cons_lt_cons_iff]
        exact .inr ⟨h0, hrec⟩
      · rw [rd_outside (i := i) (by omega)] at h0
        omega
    · rw [List.drop_eq_nil_of_le (as := l) (i := j + 1) (by omega)] at hrec
      exact absurd hrec (List.not_lt_nil _)

theorem take_mono {m : Nat} : ∀ {a b : List Nat}, a < b → a.take m < b.take m ∨ a.take m = b.take m := by
  induction m with
  | zero => intro a b _; simp
  | succ m ih =>
    intro a b h
    cases b with
    | nil => exact absurd h (List.not_lt_nil _)
    | cons y b =>
      cases a with
      | nil => left; simp
      | cons x a =>
        rw [List.cons_lt_cons_iff] at h
        simp only [List.take_succ_cons, List.cons_lt_cons_iff, List.cons.injEq]
        rcases h with h | ⟨rfl, h⟩
        · exact .inl (.inl h)
        · rcases ih h with h | h
          · exact .inl (.inr ⟨rfl, h⟩)
          · exact .inr ⟨rfl, h⟩

/-- The dichotomy. -/
theorem findLoop_ok (sa : SuffixArray) (pat : List Nat) (K : Nat → List Nat)
    (hK : ∀ i, K i = (sa.string.drop (rd sa.SA i)).take pat.length)
    (hmono : ∀ i j, i < j → j < sa.SA.length → K i ≤ K j) :
    ∀ (fuel lower upper : Nat), upper - lower < fuel → upper ≤ sa.SA.length → (∀ i < lower, K i < pat) →
      (∀ i, upper ≤ i → i < sa.SA.length → pat < K i) →
      match findLoop sa pat fuel lower upper with
      | none => ∀ i < sa.SA.length, K i ≠ pat
      | some mid => mid < sa.SA.length ∧ K mid = pat := by
  intro fuel
  induction fuel with
  | zero => intro lower upper h; omega
  | succ fuel ih =>
    intro lower upper hf hu hlo hup
    rw [findLoop]
    by_cases hgt : upper - lower > 0
    · rw [if_pos hgt]
      simp only
      rw [← hK]
      by_cases hlt : pat < K ((lower + upper) / 2)
      · rw [if_pos hlt]
        refine ih lower ((lower + upper) / 2) (by omega) (by omega) hlo ?_
        intro i hi hil
        by_cases he : i = (lower + upper) / 2
        · subst he; exact hlt
        · exact lt_of_lt_of_le hlt (hmono _ _ (by omega) hil)
      · rw [if_neg hlt]
        by_cases hlt2 : K ((lower + upper) / 2) < pat
        · rw [if_pos hlt2]
          refine ih ((lower + upper) / 2 + 1) upper (by omega) hu ?_ hup
          intro i hi
          by_cases he : i = (lower + upper) / 2
          · subst he; exact hlt2
          · exact lt_of_le_of_lt (hmono _ _ (by omega) (by omega)) hlt2
        · rw [if_neg hlt2]
          exact ⟨by omega, le_antisymm (not_lt.mp hlt) (not_lt.mp hlt2)⟩
    · rw [if_neg hgt]
      intro i hi he
      by_cases hil : i < lower
      · have := hlo i hil; rw [he] at this; exact lt_irrefl _ this
      · have := hup i (by omega) hi; rw [he] at this; exact lt_irrefl _ this

theorem goDown_ok (lcp : List Nat) (m : Nat) (P : Nat → Prop) (n : Nat)
    (hstep : ∀ i, i + 1 < n → P (i + 1) → (rd lcp (i + 1) ≥ m ↔ P i)) (hconv : ∀ i j, i < j → ¬ P j → ∀ k, j < k → P k → ¬ P i) :
    ∀ l, l < n → P l → goDown lcp m l ≤ l ∧ (∀ i, goDown lcp m l ≤ i → i ≤ l → P i) ∧ ∀ i < goDown lcp m l, ¬ P i := by
  intro l
  induction l with
  | zero => intro _ h; exact ⟨by simp [goDown], fun i _ hi => by have : i = 0 := by omega
                                                                 subst this; exact h, fun i hi => by simp [goDown] at hi⟩
  | succ l ih =>
    intro hl hP
    rw [goDown]
    split
    · rename_i h
      obtain ⟨h1, h2, h3⟩ := ih (by omega) ((hstep l hl hP).mp h)
      refine ⟨by omega, ?_, h3⟩
      intro i hi hil
      by_cases he : i = l + 1
      · subst he; exact hP
      · exact h2 i hi (by omega)
    · rename_i h
      have hn : ¬ P l := fun hp => h ((hstep l hl hP).mpr hp)
      refine ⟨Nat.le_refl _, fun i h1 h2 => by have : i = l + 1 := by omega
                                               subst this; exact hP, ?_⟩
      intro i hi
      by_cases he : i = l
      · subst he; exact hn
      · exact hconv i l (by omega) hn (l + 1) (by omega) hP

theorem goUp_ok (lcp : List Nat) (m : Nat) (P : Nat → Prop) (n : Nat)
    (hstep : ∀ i, i + 1 < n → P i → (rd lcp (i + 1) ≥ m ↔ P (i + 1)))
    (hconv : ∀ i j k, i < j → j < k → k < n → P i → ¬ P j → ¬ P k) :
    ∀ k u, u + 1 + k = n → P u → u + 1 ≤ goUp lcp m k (u + 1) ∧ goUp lcp m k (u + 1) ≤ n ∧
      (∀ i, u ≤ i → i < goUp lcp m k (u + 1) → P i) ∧ ∀ i, goUp lcp m k (u + 1) ≤ i → i < n → ¬ P i := by
  intro k
  induction k with
  | zero =>
    intro u hu hP
    refine ⟨by simp [goUp], by simp [goUp]; omega, fun i h1 h2 => ?_, fun i h1 h2 => ?_⟩
    · simp only [goUp] at h2
      have : i = u := by omega
      subst this; exact hP
    · simp only [goUp] at h1; omega
  | succ k ih =>
    intro u hu hP
    rw [goUp]
    split
    · rename_i h
      obtain ⟨h1, h2, h3, h4⟩ := ih (u + 1) (by omega) ((hstep u (by omega) hP).mp h)
      refine ⟨by omega, h2, ?_, h4⟩
      intro i hi hil
      by_cases he : i = u
      · subst he; exact hP
      · exact h3 i (by omega) hil
    · rename_i h
      have hn : ¬ P (u + 1) := fun hp => h ((hstep u (by omega) hP).mpr hp)
      refine ⟨Nat.le_refl _, by omega, fun i h1 h2 => ?_, ?_⟩
      · have : i = u := by omega
        subst this; exact hP
      · intro i hi hin
        by_cases he : i = u + 1
        · subst he; exact hn
        · exact hconv u (u + 1) i (by omega) (by omega) hin hP hn

end CollateX
