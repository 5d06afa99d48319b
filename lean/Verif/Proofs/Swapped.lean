import Verif.Proofs.Cut
import Verif.Proofs.Passage
/-
Two passages that changed places.
-/

namespace CollateX
open Spec

/-- With equal strings counted once for each word of the second row and a column for each word of the first. -/
theorem balance_le_lower : ∀ {cols : List Pairing}, (∀ c ∈ cols, c ≠ (none, none)) →
    balance cols ≤ 2 * ((lower cols).length : Int) - (upper cols).length
  | [], _ => by simp [balance, lower, upper]
  | (c1, c2) :: cols, h => by
    have ih := balance_le_lower (cols := cols) (fun c hc => h c (by simp [hc]))
    have h0 := h (c1, c2) (by simp)
    have hb : balance ((c1, c2) :: cols) = (if c1 = c2 then 1 else -1) + balance cols := by simp [balance]
    rw [hb]
    unfold lower upper at ih ⊢
    rw [List.filterMap_cons, List.filterMap_cons]
    cases c1 <;> cases c2
    · exact absurd rfl h0
    · simp only [List.length_cons]; rw [if_neg (by simp)]; push_cast; omega
    · simp only [List.length_cons]; rw [if_neg (by simp)]; push_cast; omega
    · simp only [List.length_cons]; split <;> (push_cast; omega)

theorem balance_le_upper : ∀ {cols : List Pairing}, (∀ c ∈ cols, c ≠ (none, none)) →
    balance cols ≤ 2 * ((upper cols).length : Int) - (lower cols).length
  | [], _ => by simp [balance, lower, upper]
  | (c1, c2) :: cols, h => by
    have ih := balance_le_upper (cols := cols) (fun c hc => h c (by simp [hc]))
    have h0 := h (c1, c2) (by simp)
    have hb : balance ((c1, c2) :: cols) = (if c1 = c2 then 1 else -1) + balance cols := by simp [balance]
    rw [hb]
    unfold lower upper at ih ⊢
    rw [List.filterMap_cons, List.filterMap_cons]
    cases c1 <;> cases c2
    · exact absurd rfl h0
    · simp only [List.length_cons]; rw [if_neg (by simp)]; push_cast; omega
    · simp only [List.length_cons]; rw [if_neg (by simp)]; push_cast; omega
    · simp only [List.length_cons]; split <;> (push_cast; omega)

/-- An arrangement in which a word of the second passage agrees. -/
theorem crossing_second {X Y' Y'' X' : List Str} {cols : List Pairing} {s : Str} (ha : Arrangement (X ++ Y') (Y' ++ Y'' ++ X') cols)
    (hc : (some s, some s) ∈ cols) (hX : s ∉ X) (hX' : s ∉ X') (hn : (Y' ++ Y'').Nodup) :
    balance cols ≤ 2 * (Y'.length : Int) - X.length - (Y' ++ Y'').length - X'.length := by
  obtain ⟨U, W, rfl⟩ := List.append_of_mem hc
  have h1 := ha.first
  have h2 := ha.second
  rw [List.filterMap_append, List.filterMap_cons] at h1 h2
  simp only at h1 h2
  have hmem : s ∈ Y' := by
    have : s ∈ X ++ Y' := by rw [← h1]; simp
    rcases List.mem_append.mp this with h | h
    · exact absurd h hX
    · exact h
  obtain ⟨Y1, Y2, rfl⟩ := List.append_of_mem hmem
  have hn' := List.nodup_append.mp hn
  have hn1 := List.nodup_append.mp hn'.1
  have hs1 : s ∉ Y1 := fun h => hn1.2.2 s h s (by simp) rfl
  have hs2 : s ∉ Y2 := (List.nodup_cons.mp hn1.2.1).1
  have hs3 : s ∉ Y'' := fun h => hn'.2.2 s (by simp) s h rfl
  obtain ⟨e1, e2⟩ := unique_place (x := s) (l1 := U.filterMap Prod.fst) (l2 := W.filterMap Prod.fst) (l3 := X ++ Y1) (l4 := Y2)
    (by rw [h1]; simp) (by simp [hX, hs1]) hs2
  obtain ⟨e3, e4⟩ := unique_place (x := s) (l1 := U.filterMap Prod.snd) (l2 := W.filterMap Prod.snd) (l3 := Y1) (l4 := Y2 ++ Y'' ++ X')
    (by rw [h2]; simp) hs1 (by simp [hs2, hs3, hX'])
  have hU := balance_le_lower (cols := U) (fun c hc => ha.full c (by simp [hc]))
  have hW := balance_le_upper (cols := W) (fun c hc => ha.full c (by simp [hc]))
  have e1' : (upper U).length = _ := congrArg List.length e1
  have e2' : (upper W).length = _ := congrArg List.length e2
  have e3' : (lower U).length = _ := congrArg List.length e3
  have e4' : (lower W).length = _ := congrArg List.length e4
  have hb : balance (U ++ (some s, some s) :: W) = balance U + (1 + balance W) := by
    rw [balance_append]
    simp [balance]
  rw [hb]
  simp only [List.length_append, List.length_cons] at e1' e2' e3' e4' ⊢
  push_cast
  omega

theorem onlyLower_of_upper_nil : ∀ {M : List Pairing}, (∀ c ∈ M, c ≠ (none, none)) → upper M = [] → M = onlyLower (lower M)
  | [], _, _ => rfl
  | (some a, c2) :: M, _, h => by simp [upper] at h
  | (none, none) :: M, hf, _ => absurd rfl (hf _ (by simp))
  | (none, some b) :: M, hf, h => by
    have := onlyLower_of_upper_nil (M := M) (fun c hc => hf c (by simp [hc])) (by simpa [upper] using h)
    conv => lhs; rw [this]
    simp [lower, onlyLower]

theorem onlyUpper_of_lower_nil : ∀ {M : List Pairing}, (∀ c ∈ M, c ≠ (none, none)) → lower M = [] → M = onlyUpper (upper M)
  | [], _, _ => rfl
  | (c1, some a) :: M, _, h => by simp [lower] at h
  | (none, none) :: M, hf, _ => absurd rfl (hf _ (by simp))
  | (some b, none) :: M, hf, h => by
    have := onlyUpper_of_lower_nil (M := M) (fun c hc => hf c (by simp [hc])) (by simpa [lower] using h)
    conv => lhs; rw [this]
    simp [upper, onlyUpper]

theorem length_ge_upper (M : List Pairing) : (upper M).length ≤ M.length := List.length_filterMap_le _ _
theorem length_ge_lower (M : List Pairing) : (lower M).length ≤ M.length := List.length_filterMap_le _ _

/-- The arrangement in which the first passage agrees. -/
def firstKept (X Y Y' : List Str) : List Pairing := onlyLower Y ++ (inBoth X ++ onlyUpper Y')

theorem firstKept_arrangement (X Y Y' : List Str) : Arrangement (X ++ Y') (Y ++ X) (firstKept X Y Y') := by
  refine ⟨?_, ?_, ?_⟩
  · show upper _ = _
    unfold firstKept upper
    rw [List.filterMap_append, List.filterMap_append]
    have h1 := upper_onlyLower Y
    have h2 := upper_inBoth X
    have h3 := upper_onlyUpper Y'
    unfold upper at h1 h2 h3
    rw [h1, h2, h3, List.nil_append]
  · show lower _ = _
    unfold firstKept lower
    rw [List.filterMap_append, List.filterMap_append]
    have h1 := lower_onlyLower Y
    have h2 := lower_inBoth X
    have h3 := lower_onlyUpper Y'
    unfold lower at h1 h2 h3
    rw [h1, h2, h3, List.append_nil]
  · intro c hc h0
    subst h0
    simp only [firstKept, List.mem_append] at hc
    rcases hc with h | h | h <;> (obtain ⟨s, _, hs⟩ := List.mem_map.mp h; cases hs)

theorem balance_firstKept (X Y Y' : List Str) : balance (firstKept X Y Y') = (X.length : Int) - Y.length - Y'.length := by
  unfold firstKept
  rw [balance_append, balance_append, balance_onlyLower, balance_inBoth, balance_onlyUpper]
  omega

/-- No arrangement is better than that in which the longer passage agrees. -/
theorem swap_unique {X Y' Y'' : List Str} {cols : List Pairing} (hn : (X ++ (Y' ++ Y'')).Nodup) (hl : Y'.length < X.length)
    (ha : Arrangement (X ++ Y') (Y' ++ Y'' ++ X) cols)
    (hb : (X.length : Int) - (Y' ++ Y'').length - Y'.length ≤ balance cols) : cols = firstKept X (Y' ++ Y'') Y' := by
  obtain ⟨hX, hY, hXY⟩ := List.nodup_append.mp hn
  have full : ∀ c ∈ cols, c ≠ (none, none) := ha.full
  have e1 : upper cols = X ++ Y' := ha.first
  have e2 : lower cols = Y' ++ Y'' ++ X := ha.second
  have hin : ∀ c ∈ cols, c.1 = c.2 → ∃ x ∈ X, c = (some x, some x) := by
    rintro ⟨c1, c2⟩ hc h
    simp only at h
    subst h
    cases c1 with
    | none => exact absurd rfl (full _ hc)
    | some s =>
      have hs : s ∈ X ++ Y' := by rw [← e1]; exact List.mem_filterMap.mpr ⟨_, hc, rfl⟩
      by_cases hsX : s ∈ X
      · exact ⟨s, hsX, rfl⟩
      · have := crossing_second ha hc hsX hsX hY
        have hll : Y'.length ≤ (Y' ++ Y'').length := by simp
        omega
  have hex : ∃ c ∈ cols, c.1 = c.2 := by
    by_contra h
    push Not at h
    have h1 := balance_no_match h
    have h2 := length_ge_lower cols
    rw [e2] at h2
    simp only [List.length_append] at h2 hb
    push_cast at hb
    omega
  obtain ⟨h1, h2⟩ := passage_bound X.length X le_rfl cols [] (Y' ++ Y'') Y' [] (by rw [e1]; simp) (by rw [e2]; simp) (Or.inl rfl) (Or.inr rfl) hX
    (fun x hx => ⟨by simp, fun h => hXY x hx x (by simp [h]) rfl, fun h => hXY x hx x h rfl, by simp⟩) hin hex
  simp only [List.length_nil] at h1 h2
  obtain ⟨M1, M2, e, u1, v1, u2, v2⟩ := h2 (by omega)
  have f1 := onlyLower_of_upper_nil (M := M1) (fun c hc => full c (by rw [e]; simp [hc])) u1
  have f2 := onlyUpper_of_lower_nil (M := M2) (fun c hc => full c (by rw [e]; simp [hc])) v2
  rw [v1] at f1
  rw [u2] at f2
  rw [e, f1, f2]
  rfl

/-- A bound for all arrangements of two passages in either order, each with a part of the second at the end. -/
theorem swap_bound {X' X'' Y' Y'' : List Str} {cols : List Pairing} (hn : ((X' ++ X'') ++ (Y' ++ Y'')).Nodup)
    (ha : Arrangement (X' ++ X'' ++ Y') (Y' ++ Y'' ++ X') cols) :
    balance cols ≤ 2 * (Y'.length : Int) - (X' ++ X'').length - (Y' ++ Y'').length - X'.length ∨
    balance cols ≤ 2 * (X'.length : Int) - (X' ++ X'').length - (Y' ++ Y'').length - Y'.length ∨
    balance cols ≤ -((X' ++ X'').length : Int) - Y'.length := by
  obtain ⟨hX, hY, hXY⟩ := List.nodup_append.mp hn
  by_cases hex : ∃ c ∈ cols, c.1 = c.2
  · obtain ⟨⟨c1, c2⟩, hc, h⟩ := hex
    simp only at h
    subst h
    cases c1 with
    | none => exact absurd rfl (ha.full _ hc)
    | some s =>
      have hs : s ∈ X' ++ X'' ++ Y' := by rw [← ha.first]; exact List.mem_filterMap.mpr ⟨_, hc, rfl⟩
      by_cases hsX : s ∈ X' ++ X''
      · right; left
        have h1 : Arrangement (Y' ++ Y'' ++ X') (X' ++ X'' ++ Y') (cols.map Prod.swap) := by
          refine ⟨?_, ?_, ?_⟩
          · rw [List.filterMap_map, ← ha.second]; rfl
          · rw [List.filterMap_map, ← ha.first]; rfl
          · intro c hc h0
            subst h0
            obtain ⟨d, hd, e⟩ := List.mem_map.mp hc
            have : d = (none, none) := Prod.swap_injective e
            exact ha.full d hd this
        have h2 : balance (cols.map Prod.swap) = balance cols := by
          unfold balance
          rw [List.map_map]
          congr 1
          apply List.map_congr_left
          intro c _
          simp [eq_comm]
        have := crossing_second h1 (s := s) (List.mem_map.mpr ⟨_, hc, rfl⟩) (fun h => hXY s hsX s h rfl)
          (fun h => hXY s hsX s (by simp [h]) rfl) hX
        omega
      · left
        exact crossing_second ha hc hsX (fun h => hsX (by simp [h])) hY
  · right; right
    push Not at hex
    have h1 := balance_no_match hex
    have h2 := length_ge_upper cols
    have e1 : upper cols = _ := ha.first
    rw [e1] at h2
    simp only [List.length_append] at h2 ⊢
    push_cast
    omega

/-! ### Arrangements and the short program -/

/-- The places of the columns with equal strings. -/
def wayLinks : List Pairing → Nat → Nat → List (Nat × Nat)
  | [], _, _ => []
  | (some a, some b) :: l, i, j => if a = b then (i, j) :: wayLinks l (i + 1) (j + 1) else wayLinks l (i + 1) (j + 1)
  | (some _, none) :: l, i, j => wayLinks l (i + 1) j
  | (none, some _) :: l, i, j => wayLinks l i (j + 1)
  | (none, none) :: l, i, j => wayLinks l i j

theorem wayLinks_append : ∀ (l l' : List Pairing) (i j : Nat),
    wayLinks (l ++ l') i j = wayLinks l i j ++ wayLinks l' (i + (upper l).length) (j + (lower l).length)
  | [], l', i, j => by simp [wayLinks, upper, lower]
  | (some a, some b) :: l, l', i, j => by
    have ih := wayLinks_append l l' (i + 1) (j + 1)
    have hu : upper ((some a, some b) :: l) = a :: upper l := rfl
    have hl : lower ((some a, some b) :: l) = b :: lower l := rfl
    rw [hu, hl, List.cons_append, wayLinks, wayLinks, ih]
    simp only [List.length_cons]
    rw [show i + 1 + (upper l).length = i + ((upper l).length + 1) by omega, show j + 1 + (lower l).length = j + ((lower l).length + 1) by omega]
    split <;> rfl
  | (some a, none) :: l, l', i, j => by
    have ih := wayLinks_append l l' (i + 1) j
    have hu : upper ((some a, none) :: l) = a :: upper l := rfl
    have hl : lower ((some a, none) :: l) = lower l := rfl
    rw [hu, hl, List.cons_append, wayLinks, wayLinks, ih]
    simp only [List.length_cons]
    rw [show i + 1 + (upper l).length = i + ((upper l).length + 1) by omega]
  | (none, some b) :: l, l', i, j => by
    have ih := wayLinks_append l l' i (j + 1)
    have hu : upper ((none, some b) :: l) = upper l := rfl
    have hl : lower ((none, some b) :: l) = b :: lower l := rfl
    rw [hu, hl, List.cons_append, wayLinks, wayLinks, ih]
    simp only [List.length_cons]
    rw [show j + 1 + (lower l).length = j + ((lower l).length + 1) by omega]
  | (none, none) :: l, l', i, j => by
    have ih := wayLinks_append l l' i j
    have hu : upper ((none, none) :: l) = upper l := rfl
    have hl : lower ((none, none) :: l) = lower l := rfl
    rw [hu, hl, List.cons_append, wayLinks, wayLinks, ih]

theorem arrangement_snoc {A B : List Str} {cols : List Pairing} (h : Arrangement A B cols) {c : Pairing} (hc : c ≠ (none, none)) :
    Arrangement (A ++ c.1.toList) (B ++ c.2.toList) (cols ++ [c]) := by
  refine ⟨?_, ?_, ?_⟩
  · rw [List.filterMap_append, h.first]
    obtain ⟨c1, c2⟩ := c
    cases c1 <;> rfl
  · rw [List.filterMap_append, h.second]
    obtain ⟨c1, c2⟩ := c
    cases c2 <;> rfl
  · intro d hd
    rcases List.mem_append.mp hd with h' | h'
    · exact h.full d h'
    · rw [List.mem_singleton.mp h']; exact hc

theorem balance_snoc (cols : List Pairing) (c : Pairing) : balance (cols ++ [c]) = balance cols + if c.1 = c.2 then 1 else -1 := by
  rw [balance_append]
  simp [balance]

/-- The short program finds an arrangement with its score and its links. -/
theorem aligned_arrangement {A B : List Str} (h : NoDoubles B) : ∀ i j, i ≤ A.length → j ≤ B.length →
    ∃ cols, Arrangement (A.take i) (B.take j) cols ∧ balance cols = (aligned (sameAt A B) i j).1 ∧
      wayLinks cols 0 0 = (aligned (sameAt A B) i j).2.reverse
  | 0, j, hi, hj => by
    refine ⟨onlyLower (B.take j), ⟨?_, ?_, ?_⟩, ?_, ?_⟩
    · exact upper_onlyLower _
    · exact lower_onlyLower _
    · intro c hc h0
      subst h0
      obtain ⟨s, _, hs⟩ := List.mem_map.mp hc
      cases hs
    · rw [balance_onlyLower, aligned_zero_left, List.length_take, Nat.min_eq_left hj]
    · rw [aligned_zero_left, List.reverse_nil]
      generalize B.take j = l
      have : ∀ (l : List Str) (a b : Nat), wayLinks (onlyLower l) a b = [] := by
        intro l
        induction l with
        | nil => intros; rfl
        | cons s l ih => intro a b; exact ih a (b + 1)
      exact this _ _ _
  | i + 1, 0, hi, hj => by
    refine ⟨onlyUpper (A.take (i + 1)), ⟨?_, ?_, ?_⟩, ?_, ?_⟩
    · exact upper_onlyUpper _
    · exact lower_onlyUpper _
    · intro c hc h0
      subst h0
      obtain ⟨s, _, hs⟩ := List.mem_map.mp hc
      cases hs
    · rw [balance_onlyUpper, aligned_zero_right, List.length_take, Nat.min_eq_left hi]
      push_cast
      omega
    · rw [aligned_zero_right, List.reverse_nil]
      have : ∀ (l : List Str) (a b : Nat), wayLinks (onlyUpper l) a b = [] := by
        intro l
        induction l with
        | nil => intros; rfl
        | cons s l ih => intro a b; exact ih (a + 1) b
      exact this _ _ _
  | i + 1, j + 1, hi, hj => by
    obtain ⟨c1, a1, b1, w1⟩ := aligned_arrangement (A := A) h i j (by omega) (by omega)
    obtain ⟨c2, a2, b2, w2⟩ := aligned_arrangement (A := A) h i (j + 1) (by omega) hj
    obtain ⟨c3, a3, b3, w3⟩ := aligned_arrangement (A := A) h (i + 1) j hi (by omega)
    have tA : A.take (i + 1) = A.take i ++ [A[i]] := by rw [List.take_append_getElem]
    have tB : B.take (j + 1) = B.take j ++ [B[j]] := by rw [List.take_append_getElem]
    have len : ∀ {c : List Pairing} {x y : Nat}, x ≤ A.length → y ≤ B.length → Arrangement (A.take x) (B.take y) c →
        (upper c).length = x ∧ (lower c).length = y := by
      intro c x y hx hy ha
      have e1 : upper c = _ := ha.first
      have e2 : lower c = _ := ha.second
      rw [e1, e2, List.length_take, List.length_take]
      omega
    rw [aligned_step (single_of_noDoubles A h)]
    rcases bestWay_cases (togetherWay (sameAt A B) i j) ((aligned (sameAt A B) i (j + 1)).1 - 1, (aligned (sameAt A B) i (j + 1)).2)
      ((aligned (sameAt A B) (i + 1) j).1 - 1, (aligned (sameAt A B) (i + 1) j).2) with ⟨e, _⟩ | ⟨e, _⟩ | ⟨e, _⟩
    · rw [e]
      refine ⟨c1 ++ [(some A[i], some B[j])], ?_, ?_, ?_⟩
      · have := arrangement_snoc a1 (c := (some A[i], some B[j])) (by simp)
        rw [tA, tB]
        exact this
      · rw [balance_snoc, b1]
        unfold togetherWay
        by_cases hab : A[i] = B[j]
        · rw [if_pos (by simpa using hab), if_pos (sameAt_iff.mpr ⟨A[i], List.getElem?_eq_getElem _, by rw [hab]; exact List.getElem?_eq_getElem _⟩)]
        · rw [if_neg (by simpa using hab), if_neg]
          · rfl
          · intro hs
            obtain ⟨a, k1, k2⟩ := sameAt_iff.mp hs
            rw [List.getElem?_eq_getElem (by omega)] at k1 k2
            exact hab ((Option.some.inj k1).trans (Option.some.inj k2).symm)
      · obtain ⟨l1, l2⟩ := len (by omega) (by omega) a1
        rw [wayLinks_append, w1, l1, l2, Nat.zero_add, Nat.zero_add]
        unfold togetherWay
        by_cases hab : A[i] = B[j]
        · rw [if_pos (sameAt_iff.mpr ⟨A[i], List.getElem?_eq_getElem _, by rw [hab]; exact List.getElem?_eq_getElem _⟩)]
          simp [wayLinks, hab]
        · rw [if_neg]
          · simp [wayLinks, hab]
          · intro hs
            obtain ⟨a, k1, k2⟩ := sameAt_iff.mp hs
            rw [List.getElem?_eq_getElem (by omega)] at k1 k2
            exact hab ((Option.some.inj k1).trans (Option.some.inj k2).symm)
    · rw [e]
      refine ⟨c2 ++ [(some A[i], none)], ?_, ?_, ?_⟩
      · have := arrangement_snoc a2 (c := (some A[i], none)) (by simp)
        rw [tA]
        simpa using this
      · rw [balance_snoc, b2]
        simp
        omega
      · rw [wayLinks_append, w2]
        simp [wayLinks]
    · rw [e]
      refine ⟨c3 ++ [(none, some B[j])], ?_, ?_, ?_⟩
      · have := arrangement_snoc a3 (c := (none, some B[j])) (by simp)
        rw [tB]
        simpa using this
      · rw [balance_snoc, b3]
        simp
        omega
      · rw [wayLinks_append, w3]
        simp [wayLinks]

/-- No arrangement has a higher score. -/
theorem aligned_ge {A B : List Str} (h : NoDoubles B) : ∀ (cols : List Pairing) (i j : Nat), i ≤ A.length → j ≤ B.length →
    Arrangement (A.take i) (B.take j) cols → balance cols ≤ (aligned (sameAt A B) i j).1 := by
  intro cols
  induction cols using List.reverseRecOn with
  | nil =>
    intro i j hi hj ha
    have e1 := congrArg List.length ha.first
    have e2 := congrArg List.length ha.second
    simp only [List.filterMap_nil, List.length_nil, List.length_take] at e1 e2
    obtain rfl : i = 0 := by omega
    obtain rfl : j = 0 := by omega
    simp [balance, aligned_zero_left]
  | append_singleton cols c ih =>
    intro i j hi hj ha
    obtain ⟨c1, c2⟩ := c
    have hf := ha.full (c1, c2) (by simp)
    have e1 := ha.first
    have e2 := ha.second
    rw [List.filterMap_append] at e1 e2
    have hfull : ∀ c ∈ cols, c ≠ (none, none) := fun c hc => ha.full c (by simp [hc])
    rw [balance_snoc]
    have cut : ∀ {T l : List Str} {x : Nat} {a : Str}, x ≤ T.length → l ++ [a] = T.take x → ∃ y, x = y + 1 ∧ l = T.take y ∧ T[y]? = some a := by
      intro T l x a hx e
      have hl := congrArg List.length e
      simp only [List.length_append, List.length_cons, List.length_nil, List.length_take, Nat.min_eq_left hx] at hl
      refine ⟨l.length, by omega, ?_, ?_⟩
      · have := congrArg (List.take l.length) e
        rw [List.take_left, List.take_take, Nat.min_eq_left (by omega)] at this
        exact this
      · have := congrArg (fun t => t[l.length]?) e
        simp only [List.getElem?_concat_length] at this
        rw [List.getElem?_take_of_lt (by omega)] at this
        exact this.symm
    cases c1 with
    | none =>
      cases c2 with
      | none => exact absurd rfl hf
      | some b =>
        obtain ⟨j', rfl, k1, k2⟩ := cut hj e2
        have := ih i j' hi (by omega) ⟨by simpa using e1, k1, hfull⟩
        have k := aligned_right_le (single_of_noDoubles A h) i j' 1
        rw [if_neg (by simp)]
        push_cast at k
        omega
    | some a =>
      obtain ⟨i', rfl, k1, k2⟩ := cut hi e1
      cases c2 with
      | none =>
        have := ih i' j (by omega) hj ⟨k1, by simpa using e2, hfull⟩
        have k := aligned_left_le (single_of_noDoubles A h) i' j 1
        rw [if_neg (by simp)]
        push_cast at k
        omega
      | some b =>
        obtain ⟨j', rfl, l1, l2⟩ := cut hj e2
        have := ih i' j' (by omega) (by omega) ⟨k1, l1, hfull⟩
        rw [aligned_step (single_of_noDoubles A h)]
        have k := (bestWay_le (togetherWay (sameAt A B) i' j') ((aligned (sameAt A B) i' (j' + 1)).1 - 1, (aligned (sameAt A B) i' (j' + 1)).2)
          ((aligned (sameAt A B) (i' + 1) j').1 - 1, (aligned (sameAt A B) (i' + 1) j').2)).1
        have kt : (aligned (sameAt A B) i' j').1 + (if (some a : Option Str) = some b then 1 else -1) ≤ (togetherWay (sameAt A B) i' j').1 := by
          unfold togetherWay
          by_cases hab : a = b
          · subst hab
            rw [if_pos rfl, if_pos (sameAt_iff.mpr ⟨a, k2, l2⟩)]
          · rw [if_neg (by simpa using hab)]
            split <;> simp only <;> omega
        simp only at k kt ⊢
        omega

/-! ### Columns -/

/-- A column with its mark. -/
def marked (c : Pairing) : MarkedPair := (decide (c.1 ≠ c.2), c.1, c.2)

theorem wayLinks_onlyLower : ∀ (l : List Str) (a b : Nat), wayLinks (onlyLower l) a b = []
  | [], _, _ => rfl
  | _ :: l, a, b => wayLinks_onlyLower l a (b + 1)

theorem wayLinks_onlyUpper : ∀ (l : List Str) (a b : Nat), wayLinks (onlyUpper l) a b = []
  | [], _, _ => rfl
  | _ :: l, a, b => wayLinks_onlyUpper l (a + 1) b

theorem wayLinks_inBoth (s : Str) (X : List Str) (i j : Nat) : wayLinks (inBoth (s :: X)) i j = (i, j) :: wayLinks (inBoth X) (i + 1) (j + 1) := by
  show wayLinks ((some s, some s) :: inBoth X) i j = _
  rw [wayLinks, if_pos rfl]

theorem wayLinks_firstKept (X Y Y' : List Str) : wayLinks (firstKept X Y Y') 0 0 = wayLinks (inBoth X) 0 Y.length := by
  unfold firstKept
  rw [wayLinks_append, wayLinks_append, wayLinks_onlyLower, wayLinks_onlyUpper, upper_onlyLower, lower_onlyLower]
  simp

theorem beside_nil_left (Y : List Str) : beside [] Y = (onlyLower Y).map marked := by
  unfold beside onlyLower
  apply List.ext_getElem?
  intro k
  by_cases hk : k < Y.length
  · simp [hk, marked]
  · simp [Nat.not_lt.mp hk]

theorem beside_nil_right (Y : List Str) : beside Y [] = (onlyUpper Y).map marked := by
  unfold beside onlyUpper
  apply List.ext_getElem?
  intro k
  by_cases hk : k < Y.length
  · simp [hk, marked]
  · simp [Nat.not_lt.mp hk]

theorem columnsFrom_run {A B : List Str} : ∀ (X : List Str) (i j : Nat) (A2 B2 : List Str), A.drop i = X ++ A2 → B.drop j = X ++ B2 →
    columnsFrom A B (wayLinks (inBoth X) i j) i j = (inBoth X).map marked ++ beside A2 B2
  | [], i, j, A2, B2, h1, h2 => by
    show columnsFrom A B [] i j = _
    rw [columnsFrom, h1, h2]
    rfl
  | s :: X, i, j, A2, B2, h1, h2 => by
    have e1 : A.drop (i + 1) = X ++ A2 := by rw [← List.drop_drop, h1]; rfl
    have e2 : B.drop (j + 1) = X ++ B2 := by rw [← List.drop_drop, h2]; rfl
    have g1 : A[i]? = some s := by rw [← Nat.add_zero i, ← List.getElem?_drop, h1]; rfl
    have g2 : B[j]? = some s := by rw [← Nat.add_zero j, ← List.getElem?_drop, h2]; rfl
    have d1 : (A.take i).drop i = [] := List.drop_eq_nil_of_le (by simp)
    have d2 : (B.take j).drop j = [] := List.drop_eq_nil_of_le (by simp)
    rw [wayLinks_inBoth, columnsFrom, columnsFrom_run X (i + 1) (j + 1) A2 B2 e1 e2, d1, d2, g1, g2]
    simp [beside, inBoth, marked]

/-- Links along a passage: what stands before it, the passage, what stands after it. -/
theorem columnsFrom_passage {A1 X A2 B1 B2 : List Str} (hX : X ≠ []) :
    columnsFrom (A1 ++ (X ++ A2)) (B1 ++ (X ++ B2)) (wayLinks (inBoth X) A1.length B1.length) 0 0 =
      beside A1 B1 ++ ((inBoth X).map marked ++ beside A2 B2) := by
  match X, hX with
  | s :: X, _ =>
    have e1 : (A1 ++ (s :: X ++ A2)).drop (A1.length + 1) = X ++ A2 := by rw [← List.drop_drop, List.drop_left]; rfl
    have e2 : (B1 ++ (s :: X ++ B2)).drop (B1.length + 1) = X ++ B2 := by rw [← List.drop_drop, List.drop_left]; rfl
    rw [wayLinks_inBoth, columnsFrom, columnsFrom_run X _ _ A2 B2 e1 e2, List.take_left, List.take_left]
    simp [inBoth, marked]

theorem noDoubles_of_nodup {B : List Str} (h : B.Nodup) : NoDoubles B := by
  intro i a h1 h2
  have := getElem_unique h h1 h2
  omega

/-- The longer passage agrees, or the one that stands first in the first text if they have the same length. -/
theorem linked_swap {X Y : List Str} (hn : (X ++ Y).Nodup) (hl : Y.length ≤ X.length) (hX : X ≠ []) :
    linked (X ++ Y) (Y ++ X) = wayLinks (inBoth X) 0 Y.length := by
  have hn' : (Y ++ X).Nodup := (List.perm_append_comm.nodup_iff).mp hn
  have hd := noDoubles_of_nodup hn'
  rw [linked_eq _ hd]
  have hXp : 0 < X.length := List.length_pos_iff.mpr hX
  have tk : ∀ l : List Str, l.take l.length = l := fun l => List.take_length
  rcases Nat.lt_or_ge Y.length X.length with hlt | hge
  · obtain ⟨cols, ha, hb, hw⟩ := aligned_arrangement (A := X ++ Y) hd (X ++ Y).length (Y ++ X).length le_rfl le_rfl
    have hge := aligned_ge (A := X ++ Y) hd (firstKept X Y Y) (X ++ Y).length (Y ++ X).length le_rfl le_rfl
      (by rw [tk, tk]; exact firstKept_arrangement X Y Y)
    rw [tk, tk] at ha
    rw [balance_firstKept] at hge
    have := swap_unique (X := X) (Y' := Y) (Y'' := []) (by simpa using hn) hlt (by simpa using ha) (by simp only [List.append_nil]; omega)
    rw [← hw, this, wayLinks_firstKept, List.append_nil]
  · have hYp : 0 < Y.length := by omega
    obtain ⟨X', x, rfl⟩ : ∃ X' x, X = X' ++ [x] := ⟨_, _, (List.dropLast_append_getLast hX).symm⟩
    have hY : Y ≠ [] := List.length_pos_iff.mp hYp
    obtain ⟨Y', y, rfl⟩ : ∃ Y' y, Y = Y' ++ [y] := ⟨_, _, (List.dropLast_append_getLast hY).symm⟩
    have hlen : X'.length = Y'.length := by simp only [List.length_append, List.length_cons, List.length_nil] at hl hge; omega
    generalize hA : X' ++ [x] ++ (Y' ++ [y]) = A at hn ⊢
    generalize hB : Y' ++ [y] ++ (X' ++ [x]) = B at hn' hd ⊢
    have lA : A.length = 2 * Y'.length + 1 + 1 := by rw [← hA]; simp only [List.length_append, List.length_cons, List.length_nil]; omega
    have lB : B.length = 2 * Y'.length + 1 + 1 := by rw [← hB]; simp only [List.length_append, List.length_cons, List.length_nil]; omega
    have tA : A.take (2 * Y'.length + 1) = X' ++ [x] ++ Y' := by
      rw [← hA, show X' ++ [x] ++ (Y' ++ [y]) = (X' ++ [x] ++ Y') ++ [y] by simp]
      exact List.take_left' (by simp only [List.length_append, List.length_cons, List.length_nil]; omega)
    have tB : B.take (2 * Y'.length + 1) = Y' ++ [y] ++ X' := by
      rw [← hB, show Y' ++ [y] ++ (X' ++ [x]) = (Y' ++ [y] ++ X') ++ [x] by simp]
      exact List.take_left' (by simp only [List.length_append, List.length_cons, List.length_nil]; omega)
    have hn1 : (X' ++ [x] ++ (Y' ++ [y])).Nodup := by rw [hA]; exact hn
    obtain ⟨c1, a1, b1, w1⟩ := aligned_arrangement (A := A) hd (2 * Y'.length + 1) (2 * Y'.length + 1 + 1) (by omega) (by omega)
    obtain ⟨c2, a2, b2, _⟩ := aligned_arrangement (A := A) hd (2 * Y'.length + 1 + 1) (2 * Y'.length + 1) (by omega) (by omega)
    obtain ⟨c3, a3, b3, _⟩ := aligned_arrangement (A := A) hd (2 * Y'.length + 1) (2 * Y'.length + 1) (by omega) (by omega)
    have hge := aligned_ge (A := A) hd (firstKept (X' ++ [x]) (Y' ++ [y]) Y') (2 * Y'.length + 1) (2 * Y'.length + 1 + 1) (by omega) (by omega)
      (by rw [tA, ← lB, tk, ← hB]; exact firstKept_arrangement _ _ _)
    rw [balance_firstKept] at hge
    rw [tA, ← lB, tk, ← hB] at a1
    rw [tB, ← lA, tk, ← hA] at a2
    rw [tA, tB] at a3
    have k2 := swap_bound (X' := X') (X'' := [x]) (Y' := Y' ++ [y]) (Y'' := []) (by simpa using hn1) (by simpa using a2)
    have k3 := swap_bound (X' := X') (X'' := [x]) (Y' := Y') (Y'' := [y]) hn1 a3
    have hM : sameAt A B (2 * Y'.length + 1) (2 * Y'.length + 1) = false := by
      rw [Bool.eq_false_iff]
      intro h
      obtain ⟨a, h1, h2⟩ := sameAt_iff.mp h
      have e1 : A[2 * Y'.length + 1]? = some y := by
        rw [← hA, show X' ++ [x] ++ (Y' ++ [y]) = (X' ++ [x] ++ Y') ++ [y] by simp]
        rw [List.getElem?_append_right (by simp only [List.length_append, List.length_cons, List.length_nil]; omega)]
        rw [show 2 * Y'.length + 1 - (X' ++ [x] ++ Y').length = 0 by simp only [List.length_append, List.length_cons, List.length_nil]; omega]
        rfl
      have e2 : B[2 * Y'.length + 1]? = some x := by
        rw [← hB, show Y' ++ [y] ++ (X' ++ [x]) = (Y' ++ [y] ++ X') ++ [x] by simp]
        rw [List.getElem?_append_right (by simp only [List.length_append, List.length_cons, List.length_nil]; omega)]
        rw [show 2 * Y'.length + 1 - (Y' ++ [y] ++ X').length = 0 by simp only [List.length_append, List.length_cons, List.length_nil]; omega]
        rfl
      rw [e1] at h1
      rw [e2] at h2
      have : x = y := (Option.some.inj h2).trans (Option.some.inj h1).symm
      exact (List.nodup_append.mp hn1).2.2 x (by simp) y (by simp) this
    rw [lA, lB, aligned_step (single_of_noDoubles A hd), bestWay_second]
    · simp only
      rw [← w1]
      have := swap_unique (X := X' ++ [x]) (Y' := Y') (Y'' := [y]) hn1 (by simp; omega) a1 (by rw [b1]; exact hge)
      rw [this, wayLinks_firstKept]
    · unfold togetherWay
      rw [hM]
      simp only [Bool.false_eq_true, if_false]
      simp only [List.length_append, List.length_cons, List.length_nil] at hge k3
      push_cast at hge k3
      omega
    · simp only [List.length_append, List.length_cons, List.length_nil] at hge k2 ⊢
      push_cast at hge k2
      omega

theorem collation_swap_first {X Y : List Str} (hn : (X ++ Y).Nodup) (hl : Y.length ≤ X.length) (hX : X ≠ []) :
    collation (X ++ Y) (Y ++ X) = (onlyLower Y ++ (inBoth X ++ onlyUpper Y)).map marked := by
  unfold collation
  rw [linked_swap hn hl hX]
  have := columnsFrom_passage (A1 := []) (X := X) (A2 := Y) (B1 := Y) (B2 := []) hX
  rw [List.append_nil, List.nil_append] at this
  refine this.trans ?_
  rw [beside_nil_left, beside_nil_right]
  simp

/-- The longer passage agrees, if it stands second in the first text. -/
theorem collation_swap_second {X Y : List Str} (hn : (X ++ Y).Nodup) (hl : X.length < Y.length) :
    collation (X ++ Y) (Y ++ X) = (onlyUpper X ++ (inBoth Y ++ onlyLower X)).map marked := by
  have hn' : (Y ++ X).Nodup := (List.perm_append_comm.nodup_iff).mp hn
  have hd := noDoubles_of_nodup hn'
  have hY : Y ≠ [] := List.length_pos_iff.mp (by omega)
  have tk : ∀ l : List Str, l.take l.length = l := fun l => List.take_length
  have swapped : ∀ {A B : List Str} {cols : List Pairing}, Arrangement A B cols →
      Arrangement B A (cols.map Prod.swap) ∧ balance (cols.map Prod.swap) = balance cols := by
    intro A B cols ha
    refine ⟨⟨?_, ?_, ?_⟩, ?_⟩
    · rw [List.filterMap_map, ← ha.second]; rfl
    · rw [List.filterMap_map, ← ha.first]; rfl
    · intro c hc h0
      subst h0
      obtain ⟨d, hd, e⟩ := List.mem_map.mp hc
      exact ha.full d hd (Prod.swap_injective e)
    · unfold balance
      rw [List.map_map]
      congr 1
      apply List.map_congr_left
      intro c _
      simp [eq_comm]
  obtain ⟨cols, ha, hb, hw⟩ := aligned_arrangement (A := X ++ Y) hd (X ++ Y).length (Y ++ X).length le_rfl le_rfl
  rw [tk, tk] at ha
  obtain ⟨sw, sb⟩ := swapped (firstKept_arrangement Y X X)
  have hge := aligned_ge (A := X ++ Y) hd ((firstKept Y X X).map Prod.swap) (X ++ Y).length (Y ++ X).length le_rfl le_rfl (by rw [tk, tk]; exact sw)
  rw [sb, balance_firstKept] at hge
  obtain ⟨sa, sb'⟩ := swapped ha
  have := swap_unique (X := Y) (Y' := X) (Y'' := []) (by simpa using hn') hl (by simpa using sa) (by simp only [List.append_nil]; omega)
  rw [List.append_nil] at this
  have hcols : cols = onlyUpper X ++ (inBoth Y ++ onlyLower X) := by
    have h2 := congrArg (List.map Prod.swap) this
    rw [List.map_map] at h2
    simp only [Prod.swap_swap_eq, List.map_id] at h2
    rw [h2]
    simp [firstKept, onlyLower, onlyUpper, inBoth, Function.comp_def]
  unfold collation
  rw [linked_eq _ hd, ← hw, hcols, wayLinks_append, wayLinks_append, wayLinks_onlyUpper, wayLinks_onlyLower, upper_onlyUpper, lower_onlyUpper,
    List.nil_append, List.append_nil, Nat.zero_add, List.length_nil]
  have := columnsFrom_passage (A1 := X) (X := Y) (A2 := []) (B1 := []) (B2 := X) hY
  rw [List.append_nil, List.nil_append] at this
  refine this.trans ?_
  rw [beside_nil_left, beside_nil_right]
  simp

/-! ### A common word at the beginning or at the end -/

/-- A passage that every best arrangement has is linked. -/
theorem passage_linked {A1 X A2 B1 B2 : List Str} (hX : X ≠ []) (hn : X.Nodup) (hd : ∀ x ∈ X, x ∉ A1 ∧ x ∉ A2 ∧ x ∉ B1 ∧ x ∉ B2)
    (h12 : ∀ s ∈ A1, s ∉ B2) (h21 : ∀ s ∈ A2, s ∉ B1) (hl1 : min A1.length B2.length < 2 * X.length)
    (hl2 : min A2.length B1.length < 2 * X.length) (hB : NoDoubles (B1 ++ (X ++ B2))) :
    ∃ l l', linked (A1 ++ (X ++ A2)) (B1 ++ (X ++ B2)) = l ++ (wayLinks (inBoth X) A1.length B1.length ++ l') := by
  have tk : ∀ l : List Str, l.take l.length = l := fun l => List.take_length
  obtain ⟨cols, ha, hb, hw⟩ := aligned_arrangement (A := A1 ++ (X ++ A2)) hB _ _ le_rfl le_rfl
  have hbest : ∀ cols', Arrangement (A1 ++ (X ++ A2)) (B1 ++ (X ++ B2)) cols' → balance cols' ≤ balance cols := by
    intro cols' h
    rw [hb]
    exact aligned_ge hB cols' _ _ le_rfl le_rfl (by rw [tk, tk]; exact h)
  rw [tk, tk] at ha
  obtain ⟨L, R, e, hL, hR, _⟩ := best_passage hX hn hd h12 h21 hl1 hl2 ha hbest
  have e1 : upper L = A1 := hL.first
  have e2 : lower L = B1 := hL.second
  rw [linked_eq _ hB, ← hw, e, wayLinks_append, wayLinks_append, e1, e2, Nat.zero_add, Nat.zero_add]
  exact ⟨_, _, rfl⟩

theorem collation_nil : collation [] [] = [] := by decide +kernel

theorem collation_cons {s : Str} {A B : List Str} (hA : s ∉ A) (hB : s ∉ B) (hd : NoDoubles (s :: B)) :
    collation (s :: A) (s :: B) = marked (some s, some s) :: collation A B := by
  obtain ⟨l, l', e⟩ := passage_linked (A1 := []) (X := [s]) (A2 := A) (B1 := []) (B2 := B) (by simp) (by simp) (by simp [hA, hB]) (by simp) (by simp)
    (by simp) (by simp) hd
  have := collation_cut (A := s :: A) hd (i := 0) (j := 0) (by
    have e' : linked (s :: A) (s :: B) = _ := e
    rw [e', wayLinks_inBoth]
    simp)
  rw [this]
  simp [collation_nil, marked]

theorem collation_concat {s : Str} {A B : List Str} (hA : s ∉ A) (hB : s ∉ B) (hd : NoDoubles (B ++ [s])) :
    collation (A ++ [s]) (B ++ [s]) = collation A B ++ [marked (some s, some s)] := by
  obtain ⟨l, l', e⟩ := passage_linked (A1 := A) (X := [s]) (A2 := []) (B1 := B) (B2 := []) (by simp) (by simp) (by simp [hA, hB]) (by simp) (by simp)
    (by simp) (by simp) (by simpa using hd)
  have := collation_cut (A := A ++ [s]) hd (i := A.length) (j := B.length) (by
    have e' : linked (A ++ [s]) (B ++ [s]) = _ := e
    rw [e', wayLinks_inBoth]
    simp)
  rw [this]
  simp [collation_nil, marked]

theorem collation_prefix : ∀ {P A B : List Str}, (P ++ A).Nodup → (P ++ B).Nodup → collation (P ++ A) (P ++ B) = (inBoth P).map marked ++ collation A B
  | [], A, B, _, _ => rfl
  | s :: P, A, B, h1, h2 => by
    rw [List.cons_append] at h1 h2 ⊢
    rw [List.cons_append]
    obtain ⟨k1, k2⟩ := List.nodup_cons.mp h1
    obtain ⟨l1, l2⟩ := List.nodup_cons.mp h2
    rw [collation_cons k1 l1 (noDoubles_of_nodup h2), collation_prefix k2 l2]
    rfl

theorem collation_suffix {Q : List Str} : ∀ {A B : List Str}, (A ++ Q).Nodup → (B ++ Q).Nodup →
    collation (A ++ Q) (B ++ Q) = collation A B ++ (inBoth Q).map marked := by
  induction Q with
  | nil => intro A B _ _; simp [inBoth]
  | cons s Q ih =>
    intro A B h1 h2
    have e1 : A ++ s :: Q = (A ++ [s]) ++ Q := by simp
    have e2 : B ++ s :: Q = (B ++ [s]) ++ Q := by simp
    rw [e1] at h1 ⊢
    rw [e2] at h2 ⊢
    rw [ih h1 h2]
    have n1 := (List.nodup_append.mp h1).1
    have n2 := (List.nodup_append.mp h2).1
    rw [collation_concat (fun h => (List.nodup_append.mp n1).2.2 s h s (by simp) rfl) (fun h => (List.nodup_append.mp n2).2.2 s h s (by simp) rfl)
      (noDoubles_of_nodup n2)]
    simp [inBoth]

end CollateX
