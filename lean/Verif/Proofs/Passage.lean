import Verif.Props.SingleChange
import Mathlib.Tactic.Push
/-
Best arrangements of two texts with a common passage, for C97.
-/

namespace CollateX
open Spec

/-- The text in the first row. -/
abbrev upper (cols : List Pairing) : List Str := cols.filterMap Prod.fst

/-- The text in the second row. -/
abbrev lower (cols : List Pairing) : List Str := cols.filterMap Prod.snd

theorem balance_append (c d : List Pairing) : balance (c ++ d) = balance c + balance d := by
  unfold balance
  rw [List.map_append, List.sum_append]

theorem upper_inBoth (l : List Str) : upper (inBoth l) = l := by
  unfold upper inBoth
  rw [List.filterMap_map]
  exact List.filterMap_some

theorem lower_inBoth (l : List Str) : lower (inBoth l) = l := by
  unfold lower inBoth
  rw [List.filterMap_map]
  exact List.filterMap_some

theorem balance_inBoth (l : List Str) : balance (inBoth l) = l.length := by
  induction l with
  | nil => rfl
  | cons s l ih =>
    have : inBoth (s :: l) = [(some s, some s)] ++ inBoth l := rfl
    rw [this, balance_append, ih, List.length_cons]
    simp [balance]
    omega

/-- Strings in the first row only. -/
def onlyUpper (l : List Str) : List Pairing := l.map (fun s => (some s, none))

/-- Strings in the second row only. -/
def onlyLower (l : List Str) : List Pairing := l.map (fun s => (none, some s))

theorem upper_onlyUpper (l : List Str) : upper (onlyUpper l) = l := by
  unfold upper onlyUpper
  rw [List.filterMap_map]
  exact List.filterMap_some

theorem lower_onlyUpper (l : List Str) : lower (onlyUpper l) = [] := by
  unfold lower onlyUpper
  rw [List.filterMap_map]
  exact List.filterMap_eq_nil_iff.mpr fun _ _ => rfl

theorem upper_onlyLower (l : List Str) : upper (onlyLower l) = [] := by
  unfold upper onlyLower
  rw [List.filterMap_map]
  exact List.filterMap_eq_nil_iff.mpr fun _ _ => rfl

theorem lower_onlyLower (l : List Str) : lower (onlyLower l) = l := by
  unfold lower onlyLower
  rw [List.filterMap_map]
  exact List.filterMap_some

theorem balance_onlyUpper (l : List Str) : balance (onlyUpper l) = -(l.length : Int) := by
  induction l with
  | nil => rfl
  | cons s l ih =>
    have : onlyUpper (s :: l) = [(some s, none)] ++ onlyUpper l := rfl
    rw [this, balance_append, ih, List.length_cons]
    simp [balance]

theorem balance_onlyLower (l : List Str) : balance (onlyLower l) = -(l.length : Int) := by
  induction l with
  | nil => rfl
  | cons s l ih =>
    have : onlyLower (s :: l) = [(none, some s)] ++ onlyLower l := rfl
    rw [this, balance_append, ih, List.length_cons]
    simp [balance]

/-- A cut through both rows, at the beginning of the passage in one of the rows. -/
theorem cut_before (A' B' : List Str) : ∀ (cols : List Pairing) (A1 B1 : List Str), upper cols = A1 ++ A' → lower cols = B1 ++ B' →
    ∃ U M a b, cols = U ++ M ∧ A1 = upper U ++ a ∧ B1 = lower U ++ b ∧ upper M = a ++ A' ∧ lower M = b ++ B' ∧ (a = [] ∨ b = [])
  | cols, [], B1, h1, h2 => ⟨[], cols, [], B1, rfl, rfl, rfl, h1, h2, Or.inl rfl⟩
  | cols, s :: A1, [], h1, h2 => ⟨[], cols, s :: A1, [], rfl, rfl, rfl, h1, h2, Or.inr rfl⟩
  | [], s :: A1, t :: B1, h1, h2 => by simp at h1
  | (none, none) :: cols, s :: A1, t :: B1, h1, h2 => by
    obtain ⟨U, M, a, b, e, e1, e2, e3, e4, e5⟩ := cut_before A' B' cols (s :: A1) (t :: B1) h1 h2
    exact ⟨(none, none) :: U, M, a, b, by rw [e]; rfl, e1, e2, e3, e4, e5⟩
  | (some u, none) :: cols, s :: A1, t :: B1, h1, h2 => by
    simp only [upper, List.filterMap_cons, List.cons_append, List.cons.injEq] at h1
    obtain ⟨U, M, a, b, e, e1, e2, e3, e4, e5⟩ := cut_before A' B' cols A1 (t :: B1) h1.2 h2
    refine ⟨(some u, none) :: U, M, a, b, by rw [e]; rfl, ?_, e2, e3, e4, e5⟩
    simp only [upper, List.filterMap_cons, List.cons_append]
    rw [h1.1, e1]
  | (none, some v) :: cols, s :: A1, t :: B1, h1, h2 => by
    simp only [lower, List.filterMap_cons, List.cons_append, List.cons.injEq] at h2
    obtain ⟨U, M, a, b, e, e1, e2, e3, e4, e5⟩ := cut_before A' B' cols (s :: A1) B1 h1 h2.2
    refine ⟨(none, some v) :: U, M, a, b, by rw [e]; rfl, e1, ?_, e3, e4, e5⟩
    simp only [lower, List.filterMap_cons, List.cons_append]
    rw [h2.1, e2]
  | (some u, some v) :: cols, s :: A1, t :: B1, h1, h2 => by
    simp only [upper, List.filterMap_cons, List.cons_append, List.cons.injEq] at h1
    simp only [lower, List.filterMap_cons, List.cons_append, List.cons.injEq] at h2
    obtain ⟨U, M, a, b, e, e1, e2, e3, e4, e5⟩ := cut_before A' B' cols A1 B1 h1.2 h2.2
    refine ⟨(some u, some v) :: U, M, a, b, by rw [e]; rfl, ?_, ?_, e3, e4, e5⟩
    · simp only [upper, List.filterMap_cons, List.cons_append]
      rw [h1.1, e1]
    · simp only [lower, List.filterMap_cons, List.cons_append]
      rw [h2.1, e2]

/-- A cut through both rows, at the end of the passage in one of the rows. -/
theorem cut_after (P Q : List Str) (cols : List Pairing) (A2 B2 : List Str) (h1 : upper cols = P ++ A2) (h2 : lower cols = Q ++ B2) :
    ∃ M W a b, cols = M ++ W ∧ A2 = a ++ upper W ∧ B2 = b ++ lower W ∧ upper M = P ++ a ∧ lower M = Q ++ b ∧ (a = [] ∨ b = []) := by
  obtain ⟨U, M, a, b, e, e1, e2, e3, e4, e5⟩ := cut_before P.reverse Q.reverse cols.reverse A2.reverse B2.reverse
    (by unfold upper at h1 ⊢; rw [List.filterMap_reverse, h1, List.reverse_append])
    (by unfold lower at h2 ⊢; rw [List.filterMap_reverse, h2, List.reverse_append])
  refine ⟨M.reverse, U.reverse, a.reverse, b.reverse, ?_, ?_, ?_, ?_, ?_, ?_⟩
  · rw [← List.reverse_append, ← e, List.reverse_reverse]
  · unfold upper
    rw [List.filterMap_reverse, ← List.reverse_append, ← e1, List.reverse_reverse]
  · unfold lower
    rw [List.filterMap_reverse, ← List.reverse_append, ← e2, List.reverse_reverse]
  · unfold upper at e3 ⊢
    rw [List.filterMap_reverse, e3, List.reverse_append, List.reverse_reverse]
  · unfold lower at e4 ⊢
    rw [List.filterMap_reverse, e4, List.reverse_append, List.reverse_reverse]
  · rcases e5 with rfl | rfl
    · exact Or.inl rfl
    · exact Or.inr rfl

theorem first_match : ∀ (M : List Pairing), (∀ c ∈ M, c.1 ≠ c.2) ∨
    ∃ M1 c M2, M = M1 ++ c :: M2 ∧ c.1 = c.2 ∧ ∀ d ∈ M1, d.1 ≠ d.2
  | [] => Or.inl (by simp)
  | c :: M => by
    by_cases hc : c.1 = c.2
    · exact Or.inr ⟨[], c, M, rfl, hc, by simp⟩
    · rcases first_match M with h | ⟨M1, d, M2, e, h1, h2⟩
      · left
        intro d hd
        rcases List.mem_cons.mp hd with rfl | hd
        · exact hc
        · exact h d hd
      · refine Or.inr ⟨c :: M1, d, M2, by rw [e]; rfl, h1, ?_⟩
        intro d hd
        rcases List.mem_cons.mp hd with rfl | hd
        · exact hc
        · exact h2 d hd

theorem balance_no_match {M : List Pairing} (h : ∀ c ∈ M, c.1 ≠ c.2) : balance M = -(M.length : Int) := by
  rw [balance_eq, List.countP_eq_zero.mpr]
  · simp
  · intro c hc
    simpa using h c hc

theorem unique_place {x : Str} : ∀ {l1 l2 l3 l4 : List Str}, l1 ++ x :: l2 = l3 ++ x :: l4 → x ∉ l3 → x ∉ l4 → l1 = l3 ∧ l2 = l4
  | [], l2, [], l4, h, _, _ => by simpa using h
  | [], l2, s :: l3, l4, h, h3, _ => by
    simp only [List.nil_append, List.cons_append, List.cons.injEq] at h
    exact absurd (by rw [h.1]; simp) h3
  | s :: l1, l2, [], l4, h, _, h4 => by
    simp only [List.nil_append, List.cons_append, List.cons.injEq] at h
    exact absurd (by rw [← h.2]; simp) h4
  | s :: l1, l2, t :: l3, l4, h, h3, h4 => by
    simp only [List.cons_append, List.cons.injEq] at h
    obtain ⟨e1, e2⟩ := unique_place h.2 (fun hx => h3 (by simp [hx])) h4
    exact ⟨by rw [h.1, e1], e2⟩

/-- If a string of the passage is aligned, no arrangement surpasses the one that aligns the whole passage. -/
theorem passage_bound : ∀ (n : Nat) (X : List Str), X.length ≤ n → ∀ (M : List Pairing) (a1 b1 a2 b2 : List Str),
    upper M = a1 ++ (X ++ a2) → lower M = b1 ++ (X ++ b2) → (a1 = [] ∨ b1 = []) → (a2 = [] ∨ b2 = []) → X.Nodup →
    (∀ x ∈ X, x ∉ a1 ∧ x ∉ a2 ∧ x ∉ b1 ∧ x ∉ b2) → (∀ c ∈ M, c.1 = c.2 → ∃ x ∈ X, c = (some x, some x)) →
    (∃ c ∈ M, c.1 = c.2) →
    balance M ≤ (X.length : Int) - a1.length - b1.length - a2.length - b2.length ∧
    (balance M = (X.length : Int) - a1.length - b1.length - a2.length - b2.length →
      ∃ M1 M2, M = M1 ++ (inBoth X ++ M2) ∧ upper M1 = a1 ∧ lower M1 = b1 ∧ upper M2 = a2 ∧ lower M2 = b2)
  | n, X, hX, M, a1, b1, a2, b2, hu, hl, h1, h2, hn, hd, hm, hex => by
    rcases first_match M with h0 | ⟨M1, c, M', e, hc, hM1⟩
    · obtain ⟨c, hc, he⟩ := hex
      exact absurd he (h0 c hc)
    obtain ⟨x, hx, rfl⟩ := hm c (by rw [e]; simp) hc
    obtain ⟨X1, X3, rfl⟩ := List.append_of_mem hx
    obtain ⟨d1, d2, d3, d4⟩ := hd x hx
    have hn' := List.nodup_append.mp hn
    have nx1 : x ∉ X1 := fun h => hn'.2.2 x h x (by simp) rfl
    have nx3 : x ∉ X3 := (List.nodup_cons.mp hn'.2.1).1
    have eu : upper M = upper M1 ++ x :: upper M' := by
      rw [e]
      simp [upper]
    have el : lower M = lower M1 ++ x :: lower M' := by
      rw [e]
      simp [lower]
    rw [hu] at eu
    rw [hl] at el
    obtain ⟨u1, u2⟩ := unique_place (x := x) (l1 := upper M1) (l2 := upper M') (l3 := a1 ++ X1) (l4 := X3 ++ a2)
      (by rw [← eu]; simp) (by simp [d1, nx1]) (by simp [d2, nx3])
    obtain ⟨v1, v2⟩ := unique_place (x := x) (l1 := lower M1) (l2 := lower M') (l3 := b1 ++ X1) (l4 := X3 ++ b2)
      (by rw [← el]; simp) (by simp [d3, nx1]) (by simp [d4, nx3])
    have bM1 := balance_no_match hM1
    have len1 : (upper M1).length ≤ M1.length := List.length_filterMap_le _ _
    have len2 : (lower M1).length ≤ M1.length := List.length_filterMap_le _ _
    rw [u1, List.length_append] at len1
    rw [v1, List.length_append] at len2
    have l1 : a1.length = 0 ∨ b1.length = 0 := by
      rcases h1 with rfl | rfl <;> simp
    have l2 : a2.length = 0 ∨ b2.length = 0 := by
      rcases h2 with rfl | rfl <;> simp
    have eb : balance M = balance M1 + 1 + balance M' := by
      rw [e, show M1 ++ (some x, some x) :: M' = M1 ++ (inBoth [x] ++ M') from rfl, balance_append, balance_append, balance_inBoth]
      simp
      omega
    have tail : balance M' ≤ (X3.length : Int) - a2.length - b2.length ∧
        (balance M' = (X3.length : Int) - a2.length - b2.length →
          ∃ M2, M' = inBoth X3 ++ M2 ∧ upper M2 = a2 ∧ lower M2 = b2) := by
      by_cases hex' : ∃ c ∈ M', c.1 = c.2
      · cases n with
        | zero => simp at hX
        | succ n =>
          have ih := passage_bound n X3 (by simp at hX; omega) M' [] [] a2 b2 (by simpa using u2) (by simpa using v2) (Or.inl rfl) h2
            (List.nodup_cons.mp hn'.2.1).2 (by
              intro y hy
              obtain ⟨_, f2, _, f4⟩ := hd y (by simp [hy])
              exact ⟨by simp, f2, by simp, f4⟩) (by
              intro d hd' he
              obtain ⟨y, hy, rfl⟩ := hm d (by rw [e]; simp [hd']) he
              have hy2 : y ∈ upper M' := List.mem_filterMap.mpr ⟨_, hd', rfl⟩
              rw [u2] at hy2
              rcases List.mem_append.mp hy2 with h | h
              · exact ⟨y, h, rfl⟩
              · exact absurd h (hd y hy).2.1) hex'
          simp only [List.length_nil, Nat.cast_zero, Int.sub_zero] at ih
          refine ⟨ih.1, fun he => ?_⟩
          obtain ⟨N1, N2, f1, f2, f3, f4, f5⟩ := ih.2 he
          have hN1 : N1 = [] := by
            cases N1 with
            | nil => rfl
            | cons d N1 =>
              obtain ⟨d1, d2⟩ := d
              have g1 : d1 = none := by
                cases d1 with
                | none => rfl
                | some s => simp [upper] at f2
              have g2 : d2 = none := by
                cases d2 with
                | none => rfl
                | some s => simp [lower] at f3
              subst g1 g2
              obtain ⟨y, _, hy⟩ := hm (none, none) (by rw [e, f1]; simp) rfl
              cases hy
          rw [hN1, List.nil_append] at f1
          exact ⟨N2, f1, f4, f5⟩
      · push Not at hex'
        have b' := balance_no_match hex'
        have k1 : (upper M').length ≤ M'.length := List.length_filterMap_le _ _
        have k2 : (lower M').length ≤ M'.length := List.length_filterMap_le _ _
        rw [u2, List.length_append] at k1
        rw [v2, List.length_append] at k2
        refine ⟨by omega, fun he => ?_⟩
        have hX3 : X3 = [] := List.length_eq_zero_iff.mp (by omega)
        subst hX3
        exact ⟨M', rfl, by simpa using u2, by simpa using v2⟩
    rw [List.length_append, List.length_cons]
    refine ⟨by omega, fun he => ?_⟩
    have hX1 : X1 = [] := List.length_eq_zero_iff.mp (by omega)
    subst hX1
    obtain ⟨M2, f1, f2, f3⟩ := tail.2 (by simp only [List.length_nil] at he len1 len2; omega)
    refine ⟨M1, M2, ?_, by simpa using u1, by simpa using v1, f2, f3⟩
    rw [e, f1]
    rfl

/-- A best arrangement of two texts with a common passage aligns the passage, and what stands before and after it as well as possible. -/
theorem best_passage {A1 X A2 B1 B2 : List Str} {cols : List Pairing} (hX : X ≠ []) (hn : X.Nodup)
    (hd : ∀ x ∈ X, x ∉ A1 ∧ x ∉ A2 ∧ x ∉ B1 ∧ x ∉ B2) (h12 : ∀ s ∈ A1, s ∉ B2) (h21 : ∀ s ∈ A2, s ∉ B1)
    (hl1 : min A1.length B2.length < 2 * X.length) (hl2 : min A2.length B1.length < 2 * X.length)
    (ha : Arrangement (A1 ++ (X ++ A2)) (B1 ++ (X ++ B2)) cols)
    (hbest : ∀ cols', Arrangement (A1 ++ (X ++ A2)) (B1 ++ (X ++ B2)) cols' → balance cols' ≤ balance cols) :
    ∃ L R, cols = L ++ (inBoth X ++ R) ∧ Arrangement A1 B1 L ∧ Arrangement A2 B2 R ∧
      (∀ L', Arrangement A1 B1 L' → balance L' ≤ balance L) ∧ ∀ R', Arrangement A2 B2 R' → balance R' ≤ balance R := by
  obtain ⟨U, N, a1, b1, e, u1, v1, u2, v2, o1⟩ := cut_before (X ++ A2) (X ++ B2) cols A1 B1 ha.first ha.second
  obtain ⟨M, W, a2, b2, e', u3, v3, u4, v4, o2⟩ := cut_after (a1 ++ X) (b1 ++ X) N A2 B2 (by rw [u2]; simp) (by rw [v2]; simp)
  rw [List.append_assoc] at u4 v4
  subst e'
  have full : ∀ c ∈ cols, c ≠ (none, none) := ha.full
  have hnew : Arrangement (A1 ++ (X ++ A2)) (B1 ++ (X ++ B2))
      (U ++ (onlyUpper a1 ++ (onlyLower b1 ++ (inBoth X ++ (onlyUpper a2 ++ (onlyLower b2 ++ W)))))) := by
    refine ⟨?_, ?_, ?_⟩
    · simp only [List.filterMap_append, upper_onlyUpper, upper_onlyLower, upper_inBoth]
      rw [u1, u3]
      simp
    · simp only [List.filterMap_append, lower_onlyUpper, lower_onlyLower, lower_inBoth]
      rw [v1, v3]
      simp
    · intro c hc h0
      subst h0
      simp only [List.mem_append] at hc
      rcases hc with h | h | h | h | h | h | h
      · exact full _ (by rw [e]; simp [h]) rfl
      · obtain ⟨s, _, hs⟩ := List.mem_map.mp h; cases hs
      · obtain ⟨s, _, hs⟩ := List.mem_map.mp h; cases hs
      · obtain ⟨s, _, hs⟩ := List.mem_map.mp h; cases hs
      · obtain ⟨s, _, hs⟩ := List.mem_map.mp h; cases hs
      · obtain ⟨s, _, hs⟩ := List.mem_map.mp h; cases hs
      · exact full _ (by rw [e]; simp [h]) rfl
  have hb := hbest _ hnew
  rw [e] at hb
  simp only [balance_append, balance_onlyUpper, balance_onlyLower, balance_inBoth] at hb
  have l1 : a1.length = 0 ∨ b1.length = 0 := by
    rcases o1 with rfl | rfl <;> simp
  have l2 : a2.length = 0 ∨ b2.length = 0 := by
    rcases o2 with rfl | rfl <;> simp
  have hXl : 0 < X.length := List.length_pos_iff.mpr hX
  have le1 : a1.length ≤ A1.length := by rw [u1]; simp
  have le2 : b1.length ≤ B1.length := by rw [v1]; simp
  have le3 : a2.length ≤ A2.length := by rw [u3]; simp
  have le4 : b2.length ≤ B2.length := by rw [v3]; simp
  have m1 : ∀ s ∈ a1, s ∈ A1 := fun s hs => by rw [u1]; simp [hs]
  have m2 : ∀ s ∈ b1, s ∈ B1 := fun s hs => by rw [v1]; simp [hs]
  have m3 : ∀ s ∈ a2, s ∈ A2 := fun s hs => by rw [u3]; simp [hs]
  have m4 : ∀ s ∈ b2, s ∈ B2 := fun s hs => by rw [v3]; simp [hs]
  have hd' : ∀ x ∈ X, x ∉ a1 ∧ x ∉ a2 ∧ x ∉ b1 ∧ x ∉ b2 := fun x hx =>
    ⟨fun h => (hd x hx).1 (m1 x h), fun h => (hd x hx).2.1 (m3 x h), fun h => (hd x hx).2.2.1 (m2 x h), fun h => (hd x hx).2.2.2 (m4 x h)⟩
  have hm : ∀ c ∈ M, c.1 = c.2 → ∃ x ∈ X, c = (some x, some x) := by
    rintro ⟨c1, c2⟩ hc he
    simp only at he
    subst he
    cases c1 with
    | none => exact absurd rfl (full _ (by rw [e]; simp [hc]))
    | some s =>
      have hu : s ∈ upper M := List.mem_filterMap.mpr ⟨_, hc, rfl⟩
      have hl : s ∈ lower M := List.mem_filterMap.mpr ⟨_, hc, rfl⟩
      rw [u4] at hu
      rw [v4] at hl
      by_cases hs : s ∈ X
      · exact ⟨s, hs, rfl⟩
      · exfalso
        simp only [List.mem_append, hs, false_or] at hu hl
        rcases hu with hu | hu <;> rcases hl with hl | hl
        · rcases o1 with rfl | rfl
          · simp at hu
          · simp at hl
        · exact h12 s (m1 s hu) (m4 s hl)
        · exact h21 s (m3 s hu) (m2 s hl)
        · rcases o2 with rfl | rfl
          · simp at hu
          · simp at hl
  by_cases hex : ∃ c ∈ M, c.1 = c.2
  · obtain ⟨p1, p2⟩ := passage_bound X.length X (Nat.le_refl _) M a1 b1 a2 b2 u4 v4 o1 o2 hn hd' hm hex
    obtain ⟨M1, M2, f, f1, f2, f3, f4⟩ := p2 (by omega)
    have hcols : cols = (U ++ M1) ++ (inBoth X ++ (M2 ++ W)) := by
      rw [e, f]
      simp
    have arrL : Arrangement A1 B1 (U ++ M1) := by
      refine ⟨?_, ?_, fun c hc => full c (by rw [hcols]; exact List.mem_append_left _ hc)⟩
      · rw [List.filterMap_append, u1, ← f1]
      · rw [List.filterMap_append, v1, ← f2]
    have arrR : Arrangement A2 B2 (M2 ++ W) := by
      refine ⟨?_, ?_, fun c hc => full c (by rw [hcols]; exact List.mem_append_right _ (List.mem_append_right _ hc))⟩
      · rw [List.filterMap_append, u3, ← f3]
      · rw [List.filterMap_append, v3, ← f4]
    have glue : ∀ {L' R'}, Arrangement A1 B1 L' → Arrangement A2 B2 R' →
        Arrangement (A1 ++ (X ++ A2)) (B1 ++ (X ++ B2)) (L' ++ (inBoth X ++ R')) := by
      intro L' R' hL hR
      refine ⟨?_, ?_, ?_⟩
      · rw [List.filterMap_append, List.filterMap_append, hL.first, hR.first, ← upper, upper_inBoth]
      · rw [List.filterMap_append, List.filterMap_append, hL.second, hR.second, ← lower, lower_inBoth]
      · intro c hc h0
        subst h0
        simp only [List.mem_append] at hc
        rcases hc with h | h | h
        · exact hL.full _ h rfl
        · obtain ⟨s, _, hs⟩ := List.mem_map.mp h; cases hs
        · exact hR.full _ h rfl
    refine ⟨U ++ M1, M2 ++ W, hcols, arrL, arrR, ?_, ?_⟩
    · intro L' hL
      have := hbest _ (glue hL arrR)
      rw [hcols, balance_append, balance_append (U ++ M1)] at this
      omega
    · intro R' hR
      have := hbest _ (glue arrL hR)
      rw [hcols] at this
      simp only [balance_append] at this ⊢
      omega
  · exfalso
    push Not at hex
    have b' := balance_no_match hex
    have k1 : (upper M).length ≤ M.length := List.length_filterMap_le _ _
    have k2 : (lower M).length ≤ M.length := List.length_filterMap_le _ _
    rw [u4, List.length_append, List.length_append] at k1
    rw [v4, List.length_append, List.length_append] at k2
    omega

end CollateX
