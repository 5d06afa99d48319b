import Verif.Proofs.CutMany
import Mathlib.Data.List.Sort
/-
The parts of a short program before and after a node that stands in every text.
-/

namespace CollateX
open Spec

/-- A node stands in some text. -/
def Spec.Work.Used (W : Work) (n : Nat) : Prop := ∃ r ∈ W.rows, n ∈ r

/-- What holds of texts that have been collated. -/
structure Sound (W : Work) : Prop where
  bound : ∀ n, W.Used n → n < W.words.length
  column : ∀ n, W.Used n → W.column n = Work.largest ((W.before n).map W.column) + 1
  dense : ∀ n < W.words.length, ∃ m, W.Used m ∧ W.column n ≤ W.column m

/-! ### Columns -/

theorem largest_ext {l m : List Nat} (h : ∀ x, x ∈ l ↔ x ∈ m) : Work.largest l = Work.largest m := by
  apply Nat.le_antisymm
  · rcases Nat.eq_zero_or_pos (Work.largest l) with h0 | h0
    · omega
    · exact le_largest ((h _).mp (largest_mem h0))
  · rcases Nat.eq_zero_or_pos (Work.largest m) with h0 | h0
    · omega
    · exact le_largest ((h _).mpr (largest_mem h0))

theorem largest_le {l : List Nat} {b : Nat} (h : ∀ x ∈ l, x ≤ b) : Work.largest l ≤ b := by
  rcases Nat.eq_zero_or_pos (Work.largest l) with h0 | h0
  · omega
  · exact h _ (largest_mem h0)

section
variable {W V : Work}

theorem used_of_before {k n : Nat} (h : k ∈ W.before n) : W.Used k ∧ W.Used n := by
  obtain ⟨r, hr, i, h1, h2⟩ := mem_before.mp h
  exact ⟨⟨r, hr, List.mem_of_getElem? h1⟩, ⟨r, hr, List.mem_of_getElem? h2⟩⟩

/-- The columns are what is one more than the largest before. -/
theorem column_of {c : Nat → Nat} (hb : ∀ n, W.Used n → n < W.words.length)
    (hc : ∀ n, W.Used n → c n = Work.largest ((W.before n).map c) + 1) : ∀ n, W.Used n → W.column n = c n := by
  have hlt : ∀ k n, k ∈ W.before n → c k < c n := by
    intro k n hk
    have := le_largest (List.mem_map.mpr ⟨k, hk, rfl⟩ : c k ∈ (W.before n).map c)
    have := hc n (used_of_before hk).2
    omega
  have key : ∀ k n, W.Used n → c n ≤ k → W.columnIn k n = c n := by
    intro k
    induction k with
    | zero =>
      intro n hn h0
      have := hc n hn
      omega
    | succ k ih =>
      intro n hn hk
      show Work.largest ((W.before n).map (W.columnIn k)) + 1 = _
      rw [hc n hn]
      congr 2
      apply List.map_congr_left
      intro j hj
      have := hlt j n hj
      exact ih j (used_of_before hj).1 (by omega)
  have full : ∀ d n, W.Used n → c n = d + 1 → ∀ v, 1 ≤ v → v ≤ d + 1 → ∃ m, W.Used m ∧ c m = v := by
    intro d
    induction d with
    | zero =>
      intro n hn h1 v hv1 hv2
      exact ⟨n, hn, by omega⟩
    | succ d ih =>
      intro n hn h1 v hv1 hv2
      rcases Nat.lt_or_ge v (d + 2) with h | h
      · have h2 := hc n hn
        obtain ⟨k, hk, hk2⟩ := List.mem_map.mp (largest_mem (l := (W.before n).map c) (by omega))
        exact ih k (used_of_before hk).1 (by omega) v hv1 (by omega)
      · exact ⟨n, hn, by omega⟩
  intro n hn
  refine key _ n hn ?_
  have h1 := hc n hn
  have hsub : ∀ v ∈ List.range' 1 (c n), v ∈ (List.range W.words.length).map c := by
    intro v hv
    rw [List.mem_range'_1] at hv
    obtain ⟨m, hm, he⟩ := full (c n - 1) n hn (by omega) v hv.1 (by omega)
    exact List.mem_map.mpr ⟨m, List.mem_range.mpr (hb m hm), he⟩
  have := nodup_length_le (List.nodup_range' (s := 1) (n := c n)) hsub
  simpa using this

/-- Such nodes are sound. -/
theorem sound_of {c : Nat → Nat} (hb : ∀ n, W.Used n → n < W.words.length)
    (hc : ∀ n, W.Used n → c n = Work.largest ((W.before n).map c) + 1) (hd : ∀ n < W.words.length, W.Used n) : Sound W := by
  refine ⟨hb, ?_, fun n hn => ⟨n, hd n hn, le_refl _⟩⟩
  intro n hn
  rw [column_of hb hc n hn, hc n hn]
  congr 2
  apply List.map_congr_left
  intro k hk
  exact (column_of hb hc k (used_of_before hk).1).symm

theorem Sound.lt (S : Sound W) {k n : Nat} (h : k ∈ W.before n) : W.column k < W.column n := by
  have := le_largest (List.mem_map.mpr ⟨k, h, rfl⟩ : W.column k ∈ (W.before n).map W.column)
  have := S.column n (used_of_before h).2
  omega

theorem Sound.rising (S : Sound W) {r : List Nat} (hr : r ∈ W.rows) : r.Pairwise (fun a b => W.column a < W.column b) := by
  have : r.IsChain (fun a b => W.column a < W.column b) := by
    rw [List.isChain_iff_getElem]
    intro i hi
    exact S.lt (mem_before.mpr ⟨r, hr, i, List.getElem?_eq_getElem _, List.getElem?_eq_getElem _⟩)
  exact @List.IsChain.pairwise _ _ _ ⟨fun h1 h2 => Nat.lt_trans h1 h2⟩ this

theorem Sound.same_row (S : Sound W) {r : List Nat} (hr : r ∈ W.rows) {a b : Nat} (ha : a ∈ r) (hb : b ∈ r) (h : W.column a = W.column b) :
    a = b := by
  have hp := S.rising hr
  obtain ⟨i, hi⟩ := List.getElem?_of_mem ha
  obtain ⟨j, hj⟩ := List.getElem?_of_mem hb
  obtain ⟨q1, q2⟩ := List.getElem?_eq_some_iff.mp hi
  obtain ⟨q3, q4⟩ := List.getElem?_eq_some_iff.mp hj
  rcases Nat.lt_trichotomy i j with h1 | rfl | h1
  · have := List.pairwise_iff_getElem.mp hp i j q1 q3 h1
    rw [q2, q4] at this
    omega
  · exact q2.symm.trans q4
  · have := List.pairwise_iff_getElem.mp hp j i q3 q1 h1
    rw [q2, q4] at this
    omega

theorem Sound.width_eq (S : Sound W) {w : Nat} (h1 : ∀ n, W.Used n → W.column n ≤ w) (h2 : 0 < w → ∃ n, W.Used n ∧ W.column n = w) : W.width = w := by
  apply Nat.le_antisymm
  · apply largest_le
    intro x hx
    obtain ⟨n, hn, rfl⟩ := List.mem_map.mp hx
    obtain ⟨m, hm, hle⟩ := S.dense n (List.mem_range.mp hn)
    have := h1 m hm
    omega
  · rcases Nat.eq_zero_or_pos w with h0 | h0
    · omega
    · obtain ⟨n, hn, rfl⟩ := h2 h0
      exact le_largest (List.mem_map.mpr ⟨n, List.mem_range.mpr (S.bound n hn), rfl⟩)

theorem Sound.width_attained (S : Sound W) (h : 0 < W.width) : ∃ n, W.Used n ∧ W.column n = W.width := by
  obtain ⟨n, hn, he⟩ := List.mem_map.mp (largest_mem (l := (List.range W.words.length).map W.column) h)
  obtain ⟨m, hm, hle⟩ := S.dense n (List.mem_range.mp hn)
  refine ⟨m, hm, ?_⟩
  have : W.column m ≤ W.width := le_largest (List.mem_map.mpr ⟨m, List.mem_range.mpr (S.bound m hm), rfl⟩)
  have he' : W.column n = W.width := he
  omega

theorem Sound.column_le (S : Sound W) {n : Nat} (h : W.Used n) : 1 ≤ W.column n ∧ W.column n ≤ W.width :=
  ⟨by rw [S.column n h]; omega, le_largest (List.mem_map.mpr ⟨n, List.mem_range.mpr (S.bound n h), rfl⟩)⟩

/-! ### Before and after a node -/

/-- What a text has before a node. -/
def leftOf (n0 : Nat) (r : List Nat) : List Nat := r.takeWhile (fun n => decide (n ≠ n0))

/-- What a text has after a node. -/
def rightOf (n0 : Nat) (r : List Nat) : List Nat := (r.dropWhile (fun n => decide (n ≠ n0))).tail

theorem split_at {n0 : Nat} : ∀ {r : List Nat}, n0 ∈ r → r = leftOf n0 r ++ n0 :: rightOf n0 r
  | a :: r, h => by
    by_cases ha : a = n0
    · subst ha
      simp [leftOf, rightOf]
    · have h' : n0 ∈ r := by
        rcases List.mem_cons.mp h with h | h
        · exact absurd h.symm ha
        · exact h
      have := split_at h'
      unfold leftOf rightOf at this ⊢
      simp only [List.takeWhile_cons, List.dropWhile_cons, ne_eq, ha, not_false_iff, decide_true, if_true, List.cons_append]
      exact congrArg (a :: ·) this

theorem right_get {n0 : Nat} {r : List Nat} (h : n0 ∈ r) (i : Nat) : r[(leftOf n0 r).length + 1 + i]? = (rightOf n0 r)[i]? := by
  have hs := split_at h
  generalize leftOf n0 r = l at hs ⊢
  generalize rightOf n0 r = m at hs ⊢
  subst hs
  rw [List.getElem?_append_right (by omega), show l.length + 1 + i - l.length = i + 1 by omega, List.getElem?_cons_succ]

theorem leftOf_append {n0 : Nat} {l m : List Nat} (h : n0 ∉ l) : leftOf n0 (l ++ n0 :: m) = l := by
  unfold leftOf
  rw [List.takeWhile_append_of_pos]
  · simp
  · intro a ha
    simp only [ne_eq, decide_eq_true_eq]
    rintro rfl
    exact h ha

theorem rightOf_append {n0 : Nat} {l m : List Nat} (h : n0 ∉ l) : rightOf n0 (l ++ n0 :: m) = m := by
  unfold rightOf
  rw [List.dropWhile_append_of_pos]
  · simp
  · intro a ha
    simp only [ne_eq, decide_eq_true_eq]
    rintro rfl
    exact h ha

section
variable {n0 : Nat} (S : Sound W) (h0 : ∀ r ∈ W.rows, n0 ∈ r)
include S h0

theorem Sound.left_lt {r : List Nat} (hr : r ∈ W.rows) {n : Nat} (hn : n ∈ leftOf n0 r) : W.column n < W.column n0 := by
  have := S.rising hr
  rw [split_at (h0 r hr)] at this
  exact (List.pairwise_append.mp this).2.2 n hn n0 (by simp)

theorem Sound.right_gt {r : List Nat} (hr : r ∈ W.rows) {n : Nat} (hn : n ∈ rightOf n0 r) : W.column n0 < W.column n := by
  have := S.rising hr
  rw [split_at (h0 r hr)] at this
  exact (List.pairwise_cons.mp (List.pairwise_append.mp this).2.1).1 n hn

theorem Sound.side {r : List Nat} (hr : r ∈ W.rows) {n : Nat} (hn : n ∈ r) :
    (n ∈ leftOf n0 r ∧ W.column n < W.column n0) ∨ n = n0 ∨ (n ∈ rightOf n0 r ∧ W.column n0 < W.column n) := by
  rw [split_at (h0 r hr)] at hn
  rcases List.mem_append.mp hn with h | h
  · exact Or.inl ⟨h, S.left_lt h0 hr h⟩
  · rcases List.mem_cons.mp h with h | h
    · exact Or.inr (Or.inl h)
    · exact Or.inr (Or.inr ⟨h, S.right_gt h0 hr h⟩)

end

/-- `V` is what the texts of `W` have on one side. -/
structure PartOf (side : List Nat → List Nat) (W V : Work) (f : Nat → Nat) : Prop where
  rows : V.rows.map (List.map f) = W.rows.map side
  bound : ∀ n, V.Used n → n < V.words.length
  words : ∀ n, V.Used n → V.words[n]? = W.words[f n]?
  inj : ∀ a b, V.Used a → V.Used b → f a = f b → a = b

section
variable {side : List Nat → List Nat} {f : Nat → Nat} (P : PartOf side W V f)
include P

theorem PartOf.to {r : List Nat} (hr : r ∈ V.rows) : ∃ r' ∈ W.rows, side r' = r.map f := by
  have : r.map f ∈ V.rows.map (List.map f) := List.mem_map_of_mem hr
  rw [P.rows] at this
  exact List.mem_map.mp this

theorem PartOf.from {r : List Nat} (hr : r ∈ W.rows) : ∃ r' ∈ V.rows, r'.map f = side r := by
  have : side r ∈ W.rows.map side := List.mem_map_of_mem hr
  rw [← P.rows] at this
  exact List.mem_map.mp this

end

section
variable {n0 : Nat} {f : Nat → Nat} (S : Sound W) (h0 : ∀ r ∈ W.rows, n0 ∈ r)
include S h0

theorem PartOf.left_used (P : PartOf (leftOf n0) W V f) {n : Nat} (h : V.Used n) : W.Used (f n) ∧ W.column (f n) < W.column n0 := by
  obtain ⟨r, hr, hn⟩ := h
  obtain ⟨r', hr', he⟩ := P.to hr
  have hm : f n ∈ leftOf n0 r' := by rw [he]; exact List.mem_map_of_mem hn
  refine ⟨⟨r', hr', ?_⟩, S.left_lt h0 hr' hm⟩
  rw [split_at (h0 r' hr')]
  exact List.mem_append_left _ hm

theorem PartOf.right_used (P : PartOf (rightOf n0) W V f) {n : Nat} (h : V.Used n) : W.Used (f n) ∧ W.column n0 < W.column (f n) := by
  obtain ⟨r, hr, hn⟩ := h
  obtain ⟨r', hr', he⟩ := P.to hr
  have hm : f n ∈ rightOf n0 r' := by rw [he]; exact List.mem_map_of_mem hn
  refine ⟨⟨r', hr', ?_⟩, S.right_gt h0 hr' hm⟩
  rw [split_at (h0 r' hr')]
  exact List.mem_append_right _ (List.mem_cons_of_mem _ hm)

theorem PartOf.left_from (P : PartOf (leftOf n0) W V f) {n : Nat} (h : W.Used n) (hl : W.column n < W.column n0) : ∃ k, V.Used k ∧ f k = n := by
  obtain ⟨r, hr, hn⟩ := h
  rcases S.side h0 hr hn with ⟨h1, _⟩ | rfl | ⟨_, h1⟩
  · obtain ⟨r', hr', he⟩ := P.from hr
    rw [← he] at h1
    obtain ⟨k, hk, hf⟩ := List.mem_map.mp h1
    exact ⟨k, ⟨r', hr', hk⟩, hf⟩
  · omega
  · omega

theorem PartOf.right_from (P : PartOf (rightOf n0) W V f) {n : Nat} (h : W.Used n) (hl : W.column n0 < W.column n) : ∃ k, V.Used k ∧ f k = n := by
  obtain ⟨r, hr, hn⟩ := h
  rcases S.side h0 hr hn with ⟨_, h1⟩ | rfl | ⟨h1, _⟩
  · omega
  · omega
  · obtain ⟨r', hr', he⟩ := P.from hr
    rw [← he] at h1
    obtain ⟨k, hk, hf⟩ := List.mem_map.mp h1
    exact ⟨k, ⟨r', hr', hk⟩, hf⟩

/-- What stands directly before a node on the left. -/
theorem PartOf.left_before (P : PartOf (leftOf n0) W V f) {n : Nat} (h : V.Used n) {m : Nat} :
    m ∈ W.before (f n) ↔ ∃ k ∈ V.before n, f k = m := by
  obtain ⟨hu, hlt⟩ := P.left_used S h0 h
  constructor
  · intro hm
    obtain ⟨r, hr, i, h1, h2⟩ := mem_before.mp hm
    have hs := split_at (h0 r hr)
    have hi : i + 1 < (leftOf n0 r).length := by
      by_contra hc
      rw [hs, List.getElem?_append_right (by omega)] at h2
      rcases List.mem_cons.mp (List.mem_of_getElem? h2) with h3 | h3
      · rw [h3] at hlt; omega
      · have := S.right_gt h0 hr h3; omega
    rw [hs, List.getElem?_append_left (by omega)] at h1 h2
    obtain ⟨r', hr', he⟩ := P.from hr
    rw [← he, List.getElem?_map] at h1 h2
    obtain ⟨k, hk, hf⟩ := Option.map_eq_some_iff.mp h1
    obtain ⟨k', hk', hf'⟩ := Option.map_eq_some_iff.mp h2
    obtain rfl := P.inj k' n ⟨r', hr', List.mem_of_getElem? hk'⟩ h hf'
    exact ⟨k, mem_before.mpr ⟨r', hr', i, hk, hk'⟩, hf⟩
  · rintro ⟨k, hk, rfl⟩
    obtain ⟨r, hr, i, h1, h2⟩ := mem_before.mp hk
    obtain ⟨r', hr', he⟩ := P.to hr
    refine mem_before.mpr ⟨r', hr', i, ?_, ?_⟩
    · rw [split_at (h0 r' hr'), he, List.getElem?_append_left (by simpa using (List.getElem?_eq_some_iff.mp h1).1), List.getElem?_map, h1]
      rfl
    · rw [split_at (h0 r' hr'), he, List.getElem?_append_left (by simpa using (List.getElem?_eq_some_iff.mp h2).1), List.getElem?_map, h2]
      rfl

/-- What stands directly before a node on the right. -/
theorem PartOf.right_before (P : PartOf (rightOf n0) W V f) {n : Nat} (h : V.Used n) {m : Nat} :
    (m ∈ W.before (f n) → m = n0 ∨ ∃ k ∈ V.before n, f k = m) ∧ ((∃ k ∈ V.before n, f k = m) → m ∈ W.before (f n)) := by
  obtain ⟨hu, hlt⟩ := P.right_used S h0 h
  constructor
  · intro hm
    obtain ⟨r, hr, i, h1, h2⟩ := mem_before.mp hm
    have hs := split_at (h0 r hr)
    have hi : (leftOf n0 r).length < i + 1 := by
      by_contra hc
      rcases Nat.lt_or_ge (i + 1) (leftOf n0 r).length with h3 | h3
      · rw [hs, List.getElem?_append_left (by omega)] at h2
        have := S.left_lt h0 hr (List.mem_of_getElem? h2)
        omega
      · rw [hs, List.getElem?_append_right (by omega), show i + 1 - (leftOf n0 r).length = 0 by omega] at h2
        simp only [List.getElem?_cons_zero, Option.some.injEq] at h2
        rw [← h2] at hlt
        omega
    rw [hs, List.getElem?_append_right (by omega), show i + 1 - (leftOf n0 r).length = (i - (leftOf n0 r).length) + 1 by omega,
      List.getElem?_cons_succ] at h2
    rw [hs, List.getElem?_append_right (by omega)] at h1
    cases hd : i - (leftOf n0 r).length with
    | zero =>
      rw [hd] at h1
      simp only [List.getElem?_cons_zero, Option.some.injEq] at h1
      exact Or.inl h1.symm
    | succ d =>
      rw [hd] at h1 h2
      rw [List.getElem?_cons_succ] at h1
      obtain ⟨r', hr', he⟩ := P.from hr
      rw [← he, List.getElem?_map] at h1 h2
      obtain ⟨k, hk, hf⟩ := Option.map_eq_some_iff.mp h1
      obtain ⟨k', hk', hf'⟩ := Option.map_eq_some_iff.mp h2
      obtain rfl := P.inj k' n ⟨r', hr', List.mem_of_getElem? hk'⟩ h hf'
      exact Or.inr ⟨k, mem_before.mpr ⟨r', hr', d, hk, hk'⟩, hf⟩
  · rintro ⟨k, hk, rfl⟩
    obtain ⟨r, hr, i, h1, h2⟩ := mem_before.mp hk
    obtain ⟨r', hr', he⟩ := P.to hr
    refine mem_before.mpr ⟨r', hr', (leftOf n0 r').length + 1 + i, ?_, ?_⟩
    · rw [right_get (h0 r' hr'), he, List.getElem?_map, h1]
      rfl
    · rw [Nat.add_assoc, right_get (h0 r' hr'), he, List.getElem?_map, h2]
      rfl

theorem PartOf.left_rec (P : PartOf (leftOf n0) W V f) (n : Nat) (hn : V.Used n) :
    W.column (f n) = Work.largest ((V.before n).map (fun n => W.column (f n))) + 1 := by
  rw [S.column _ (P.left_used S h0 hn).1]
  congr 1
  apply largest_ext
  intro x
  rw [List.mem_map, List.mem_map]
  constructor
  · rintro ⟨m, hm, rfl⟩
    obtain ⟨k, hk, rfl⟩ := (P.left_before S h0 hn).mp hm
    exact ⟨k, hk, rfl⟩
  · rintro ⟨k, hk, rfl⟩
    exact ⟨f k, (P.left_before S h0 hn).mpr ⟨k, hk, rfl⟩, rfl⟩

theorem PartOf.left_column (P : PartOf (leftOf n0) W V f) : ∀ n, V.Used n → V.column n = W.column (f n) :=
  column_of (c := fun n => W.column (f n)) P.bound (P.left_rec S h0)

theorem PartOf.right_rec (P : PartOf (rightOf n0) W V f) (n : Nat) (hn : V.Used n) :
    W.column (f n) - W.column n0 = Work.largest ((V.before n).map (fun n => W.column (f n) - W.column n0)) + 1 := by
  obtain ⟨hu, hlt⟩ := P.right_used S h0 hn
  have hc := S.column _ hu
  have h1 : Work.largest ((V.before n).map (fun n => W.column (f n) - W.column n0)) ≤ Work.largest ((W.before (f n)).map W.column) - W.column n0 := by
    apply largest_le
    intro x hx
    obtain ⟨k, hk, rfl⟩ := List.mem_map.mp hx
    have := le_largest (List.mem_map.mpr ⟨f k, (P.right_before S h0 hn).2 ⟨k, hk, rfl⟩, rfl⟩ : W.column (f k) ∈ (W.before (f n)).map W.column)
    omega
  have h2 : Work.largest ((W.before (f n)).map W.column) ≤ W.column n0 + Work.largest ((V.before n).map (fun n => W.column (f n) - W.column n0)) := by
    apply largest_le
    intro x hx
    obtain ⟨m, hm, rfl⟩ := List.mem_map.mp hx
    rcases (P.right_before S h0 hn).1 hm with rfl | ⟨k, hk, rfl⟩
    · omega
    · have := le_largest (List.mem_map.mpr ⟨k, hk, rfl⟩ :
        W.column (f k) - W.column n0 ∈ (V.before n).map (fun n => W.column (f n) - W.column n0))
      omega
  omega

theorem PartOf.right_column (P : PartOf (rightOf n0) W V f) (n : Nat) (hn : V.Used n) : W.column n0 + V.column n = W.column (f n) := by
  have := column_of (c := fun n => W.column (f n) - W.column n0) P.bound (P.right_rec S h0) n hn
  have := (P.right_used S h0 hn).2
  omega

theorem PartOf.left_sound (P : PartOf (leftOf n0) W V f) (hd : ∀ n < V.words.length, V.Used n) : Sound V :=
  sound_of P.bound (P.left_rec S h0) hd

theorem PartOf.right_sound (P : PartOf (rightOf n0) W V f) (hd : ∀ n < V.words.length, V.Used n) : Sound V :=
  sound_of P.bound (P.right_rec S h0) hd

/-- The number of columns on the left. -/
theorem PartOf.left_width (P : PartOf (leftOf n0) W V f) (SV : Sound V) (hn0 : W.Used n0) : V.width + 1 = W.column n0 := by
  have hc := S.column n0 hn0
  have : V.width = W.column n0 - 1 := by
    apply SV.width_eq
    · intro n hn
      rw [P.left_column S h0 n hn]
      have := (P.left_used S h0 hn).2
      omega
    · intro hpos
      obtain ⟨m, hm, he⟩ := List.mem_map.mp (largest_mem (l := (W.before n0).map W.column) (by omega))
      obtain ⟨k, hk, rfl⟩ := P.left_from S h0 (used_of_before hm).1 (by omega)
      exact ⟨k, hk, by rw [P.left_column S h0 k hk]; omega⟩
  omega

/-- The number of columns on the right. -/
theorem PartOf.right_width (P : PartOf (rightOf n0) W V f) (SV : Sound V) (hn0 : W.Used n0) : W.column n0 + V.width = W.width := by
  have hle := (S.column_le hn0).2
  have : V.width = W.width - W.column n0 := by
    apply SV.width_eq
    · intro n hn
      have h1 := P.right_column S h0 n hn
      have h2 := (S.column_le (P.right_used S h0 hn).1).2
      omega
    · intro hpos
      obtain ⟨m, hm, he⟩ := S.width_attained (by omega)
      obtain ⟨k, hk, rfl⟩ := P.right_from S h0 hm (by omega)
      exact ⟨k, hk, by have := P.right_column S h0 k hk; omega⟩
  omega

/-! ### The table -/

omit h0 in
theorem Sound.nodeAt_iff {r : List Nat} (hr : r ∈ W.rows) {x n : Nat} : W.nodeAt r x = some n ↔ n ∈ r ∧ W.column n = x := by
  unfold Work.nodeAt
  constructor
  · intro h
    exact ⟨List.mem_of_find?_eq_some h, by simpa using List.find?_some h⟩
  · rintro ⟨h1, h2⟩
    cases hf : r.find? (fun n => decide (W.column n = x)) with
    | none => simpa [h2] using List.find?_eq_none.mp hf n h1
    | some n' =>
      have h3 := List.mem_of_find?_eq_some hf
      have h4 : W.column n' = x := by simpa using List.find?_some hf
      rw [S.same_row hr h3 h1 (by omega)]

theorem PartOf.left_nodeAt (P : PartOf (leftOf n0) W V f) (SV : Sound V) {r r' : List Nat} (hr : r ∈ W.rows) (hr' : r' ∈ V.rows)
    (he : r'.map f = leftOf n0 r) {x : Nat} (hx : x < W.column n0) : W.nodeAt r x = (V.nodeAt r' x).map f := by
  apply Option.ext
  intro n
  rw [S.nodeAt_iff hr, Option.map_eq_some_iff]
  constructor
  · rintro ⟨h1, h2⟩
    rcases S.side h0 hr h1 with ⟨h3, _⟩ | rfl | ⟨_, h3⟩
    · rw [← he] at h3
      obtain ⟨k, hk, rfl⟩ := List.mem_map.mp h3
      exact ⟨k, (SV.nodeAt_iff hr').mpr ⟨hk, by rw [P.left_column S h0 k ⟨r', hr', hk⟩, h2]⟩, rfl⟩
    · omega
    · omega
  · rintro ⟨k, h1, rfl⟩
    obtain ⟨h2, h3⟩ := (SV.nodeAt_iff hr').mp h1
    refine ⟨?_, by rw [← P.left_column S h0 k ⟨r', hr', h2⟩, h3]⟩
    rw [split_at (h0 r hr), ← he]
    exact List.mem_append_left _ (List.mem_map_of_mem h2)

theorem PartOf.right_nodeAt (P : PartOf (rightOf n0) W V f) (SV : Sound V) {r r' : List Nat} (hr : r ∈ W.rows) (hr' : r' ∈ V.rows)
    (he : r'.map f = rightOf n0 r) {x : Nat} (hx : 0 < x) : W.nodeAt r (W.column n0 + x) = (V.nodeAt r' x).map f := by
  apply Option.ext
  intro n
  rw [S.nodeAt_iff hr, Option.map_eq_some_iff]
  constructor
  · rintro ⟨h1, h2⟩
    rcases S.side h0 hr h1 with ⟨_, h3⟩ | rfl | ⟨h3, _⟩
    · omega
    · omega
    · rw [← he] at h3
      obtain ⟨k, hk, rfl⟩ := List.mem_map.mp h3
      exact ⟨k, (SV.nodeAt_iff hr').mpr ⟨hk, by have := P.right_column S h0 k ⟨r', hr', hk⟩; omega⟩, rfl⟩
  · rintro ⟨k, h1, rfl⟩
    obtain ⟨h2, h3⟩ := (SV.nodeAt_iff hr').mp h1
    refine ⟨?_, by have := P.right_column S h0 k ⟨r', hr', h2⟩; omega⟩
    rw [split_at (h0 r hr), ← he]
    exact List.mem_append_right _ (List.mem_cons_of_mem _ (List.mem_map_of_mem h2))

omit S h0 in
theorem variantAt_false {x : Nat} : W.variantAt x = false ↔ ∃ n < W.words.length, ∀ r ∈ W.rows, W.nodeAt r x = some n := by
  unfold Work.variantAt
  simp [List.any_eq_true, List.all_eq_true]

omit h0 in
/-- The marks on one side. -/
theorem PartOf.variantAt {side : List Nat → List Nat} (P : PartOf side W V f) (SV : Sound V) (hne : W.rows ≠ []) {x y : Nat}
    (h : ∀ r ∈ W.rows, ∀ r' ∈ V.rows, r'.map f = side r → W.nodeAt r x = (V.nodeAt r' y).map f) : W.variantAt x = V.variantAt y := by
  have : W.variantAt x = false ↔ V.variantAt y = false := by
    rw [variantAt_false, variantAt_false]
    obtain ⟨r1, hr1⟩ := List.exists_mem_of_ne_nil _ hne
    obtain ⟨r1', hr1', he1⟩ := P.from hr1
    constructor
    · rintro ⟨n, hn, hall⟩
      have h1 := hall r1 hr1
      rw [h r1 hr1 r1' hr1' he1] at h1
      obtain ⟨k, hk, rfl⟩ := Option.map_eq_some_iff.mp h1
      have hku : V.Used k := ⟨r1', hr1', ((SV.nodeAt_iff hr1').mp hk).1⟩
      refine ⟨k, P.bound k hku, ?_⟩
      intro r' hr'
      obtain ⟨r, hr, he⟩ := P.to hr'
      have h2 := hall r hr
      rw [h r hr r' hr' he.symm] at h2
      obtain ⟨k', hk', hf⟩ := Option.map_eq_some_iff.mp h2
      rw [hk', P.inj k' k ⟨r', hr', ((SV.nodeAt_iff hr').mp hk').1⟩ hku hf]
    · rintro ⟨k, hk, hall⟩
      have h1 := h r1 hr1 r1' hr1' he1
      rw [hall r1' hr1'] at h1
      refine ⟨f k, S.bound _ ⟨r1, hr1, ((S.nodeAt_iff hr1).mp h1).1⟩, ?_⟩
      intro r hr
      obtain ⟨r', hr', he⟩ := P.from hr
      rw [h r hr r' hr' he, hall r' hr']
      rfl
  cases h1 : W.variantAt x <;> cases h2 : V.variantAt y <;> simp_all

omit S h0 in
theorem map_eq_of_map_eq {α β γ δ : Type} {l : List α} {m : List β} {g : α → γ} {s : β → γ} (h : l.map g = m.map s) {F : α → δ} {G : β → δ}
    (hF : ∀ a ∈ l, ∀ b ∈ m, g a = s b → F a = G b) : l.map F = m.map G := by
  induction l generalizing m with
  | nil =>
    cases m with
    | nil => rfl
    | cons b m => cases h
  | cons a l ih =>
    cases m with
    | nil => cases h
    | cons b m =>
      obtain ⟨h1, h2⟩ := List.cons.inj h
      rw [List.map_cons, List.map_cons, hF a (by simp) b (by simp) h1, ih h2 (fun a ha b hb => hF a (by simp [ha]) b (by simp [hb]))]

/-- The table on the left. -/
theorem PartOf.left_shown (P : PartOf (leftOf n0) W V f) (SV : Sound V) (hn0 : W.Used n0) : V.shown = W.shown.map (List.take V.width) := by
  have hw := P.left_width S h0 SV hn0
  have hle := (S.column_le hn0).2
  have hne : W.rows ≠ [] := by
    obtain ⟨r, hr, _⟩ := hn0
    exact List.ne_nil_of_mem hr
  unfold Work.shown
  rw [List.map_map]
  refine map_eq_of_map_eq P.rows ?_
  intro r' hr' r hr he
  simp only [Function.comp]
  rw [← List.map_take, List.take_range, Nat.min_eq_left (by omega)]
  apply List.map_congr_left
  intro x hx
  rw [List.mem_range] at hx
  have h1 := P.left_nodeAt S h0 SV hr hr' he (x := x + 1) (by omega)
  rw [P.variantAt S SV hne (x := x + 1) (y := x + 1) (fun r hr r' hr' he => P.left_nodeAt S h0 SV hr hr' he (by omega)), h1]
  cases hk : V.nodeAt r' (x + 1) with
  | none => rfl
  | some k =>
    simp only [Option.map_some, Option.bind_some]
    rw [P.words k ⟨r', hr', ((SV.nodeAt_iff hr').mp hk).1⟩]

/-- The table on the right. -/
theorem PartOf.right_shown (P : PartOf (rightOf n0) W V f) (SV : Sound V) (hn0 : W.Used n0) :
    V.shown = W.shown.map (List.drop (W.column n0)) := by
  have hw := P.right_width S h0 SV hn0
  have hne : W.rows ≠ [] := by
    obtain ⟨r, hr, _⟩ := hn0
    exact List.ne_nil_of_mem hr
  unfold Work.shown
  rw [List.map_map]
  refine map_eq_of_map_eq P.rows ?_
  intro r' hr' r hr he
  simp only [Function.comp]
  rw [← List.map_drop, ← hw, List.range_add, List.drop_left' (by simp), List.map_map]
  apply List.map_congr_left
  intro x hx
  simp only [Function.comp]
  have h1 := P.right_nodeAt S h0 SV hr hr' he (x := x + 1) (by omega)
  rw [← Nat.add_assoc] at h1
  rw [P.variantAt S SV hne (x := W.column n0 + x + 1) (y := x + 1) (fun r hr r' hr' he => P.right_nodeAt S h0 SV hr hr' he (x := x + 1) (by omega)), h1]
  cases hk : V.nodeAt r' (x + 1) with
  | none => rfl
  | some k =>
    simp only [Option.map_some, Option.bind_some]
    rw [P.words k ⟨r', hr', ((SV.nodeAt_iff hr').mp hk).1⟩]

end

end

/-! ### The words of the table -/

theorem Sound.nodes_of_row {W : Work} (S : Sound W) {r : List Nat} (hr : r ∈ W.rows) :
    (List.range W.width).filterMap (fun x => W.nodeAt r (x + 1)) = r := by
  have h1 : ((List.range W.width).filterMap (fun x => W.nodeAt r (x + 1))).Pairwise (fun a b => W.column a < W.column b) := by
    rw [List.pairwise_filterMap]
    refine List.pairwise_lt_range.imp ?_
    intro x y hxy a ha b hb
    have := ((S.nodeAt_iff hr).mp ha).2
    have := ((S.nodeAt_iff hr).mp hb).2
    omega
  have : Std.Irrefl (fun a b => W.column a < W.column b) := ⟨fun a => Nat.lt_irrefl _⟩
  have : Std.Antisymm (fun a b => W.column a < W.column b) := ⟨fun a b h1 h2 => by omega⟩
  refine List.Pairwise.eq_of_mem_iff (r := fun a b => W.column a < W.column b) h1 (S.rising hr) ?_
  intro n
  rw [List.mem_filterMap]
  constructor
  · rintro ⟨x, _, hx⟩
    exact ((S.nodeAt_iff hr).mp hx).1
  · intro hn
    have := S.column_le ⟨r, hr, hn⟩
    exact ⟨W.column n - 1, List.mem_range.mpr (by omega), (S.nodeAt_iff hr).mpr ⟨hn, by omega⟩⟩

end CollateX
