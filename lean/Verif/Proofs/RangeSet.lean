import Verif.Model.RangeSet
import Verif.Proofs.Valid
/-
Helper lemmas for range sets.
-/

namespace CollateX

theorem mem_insertNat {x y : Nat} : ∀ {l : List Nat}, x ∈ insertNat y l ↔ x = y ∨ x ∈ l
  | [] => by simp [insertNat]
  | z :: l => by
    unfold insertNat
    split
    · simp
    · split
      · simp only [List.mem_cons, mem_insertNat (l := l)]; tauto
      · have : y = z := by omega
        subst this; simp

theorem insertNat_sorted {y : Nat} : ∀ {l : List Nat}, l.Pairwise (· < ·) → (insertNat y l).Pairwise (· < ·)
  | [], _ => by simp [insertNat]
  | z :: l, h => by
    have h' := List.pairwise_cons.mp h
    unfold insertNat
    split
    · rename_i hlt
      refine List.pairwise_cons.mpr ⟨?_, h⟩
      intro a ha
      rcases List.mem_cons.mp ha with rfl | ha
      · exact hlt
      · exact Nat.lt_trans hlt (h'.1 a ha)
    · split
      · refine List.pairwise_cons.mpr ⟨?_, insertNat_sorted h'.2⟩
        intro a ha
        rcases mem_insertNat.mp ha with rfl | ha
        · assumption
        · exact h'.1 a ha
      · exact h

theorem mem_sortedNats {x : Nat} : ∀ {l : List Nat}, x ∈ sortedNats l ↔ x ∈ l
  | [] => by simp [sortedNats]
  | z :: l => by
    unfold sortedNats
    rw [mem_insertNat, mem_sortedNats (l := l), List.mem_cons]

theorem sortedNats_sorted : ∀ (l : List Nat), (sortedNats l).Pairwise (· < ·)
  | [] => by simp [sortedNats]
  | z :: l => by
    unfold sortedNats
    exact insertNat_sorted (sortedNats_sorted l)

/-- What the loop of `_contiguous_slices` yields: the range `k..j` (already read) and the rest. -/
theorem contigLoop_ok : ∀ (l : List Nat) (k j : Nat), k ≤ j → l.Pairwise (· < ·) → (∀ x ∈ l, j < x) →
    (∀ s ∈ contigLoop k j l, s.1 < s.2) ∧ (contigLoop k j l).Pairwise (fun s t => s.2 < t.1) ∧
    (∀ s ∈ contigLoop k j l, k ≤ s.1) ∧
    (∀ x, (∃ s ∈ contigLoop k j l, s.1 ≤ x ∧ x < s.2) ↔ (k ≤ x ∧ x ≤ j) ∨ x ∈ l) := by
  intro l
  induction l with
  | nil =>
    intro k j hkj _ _
    refine ⟨by simp [contigLoop]; omega, by simp [contigLoop], by simp [contigLoop], ?_⟩
    intro x
    simp only [contigLoop, List.mem_singleton, exists_eq_left, List.not_mem_nil, or_false]
    omega
  | cons i l ih =>
    intro k j hkj hs hb
    have hs' := List.pairwise_cons.mp hs
    have hji : j < i := hb i (by simp)
    unfold contigLoop
    by_cases hg : j + 1 < i
    · rw [if_pos hg]
      obtain ⟨h1, h2, h3, h4⟩ := ih i i (Nat.le_refl _) hs'.2 hs'.1
      refine ⟨?_, ?_, ?_, ?_⟩
      · intro s hs
        rcases List.mem_cons.mp hs with rfl | hs
        · show k < j + 1; omega
        · exact h1 s hs
      · refine List.pairwise_cons.mpr ⟨fun s hs => ?_, h2⟩
        have := h3 s hs
        show j + 1 < s.1
        omega
      · intro s hs
        rcases List.mem_cons.mp hs with rfl | hs
        · exact Nat.le_refl _
        · have := h3 s hs; omega
      · intro x
        simp only [List.mem_cons, exists_eq_or_imp]
        rw [h4 x]
        constructor
        · rintro (⟨a, b⟩ | ⟨a, b⟩ | h)
          · exact .inl ⟨a, by omega⟩
          · exact .inr (.inl (by omega))
          · exact .inr (.inr h)
        · rintro (⟨a, b⟩ | h | h)
          · exact .inl ⟨a, by omega⟩
          · exact .inr (.inl ⟨by omega, by omega⟩)
          · exact .inr (.inr h)
    · rw [if_neg hg]
      obtain ⟨h1, h2, h3, h4⟩ := ih k i (by omega) hs'.2 hs'.1
      refine ⟨h1, h2, h3, ?_⟩
      intro x
      rw [h4 x, List.mem_cons]
      constructor
      · rintro (⟨a, b⟩ | h)
        · by_cases hx : x = i
          · exact .inr (.inl hx)
          · exact .inl ⟨a, by omega⟩
        · exact .inr (.inr h)
      · rintro (⟨a, b⟩ | h | h)
        · exact .inl ⟨a, by omega⟩
        · exact .inl ⟨by omega, by omega⟩
        · exact .inr h

theorem contiguousSlices_ok (r : RSet) :
    (∀ s ∈ contiguousSlices r, s.1 < s.2) ∧ (contiguousSlices r).Pairwise (fun s t => s.2 < t.1) ∧
    (∀ x, x ∈ r.elems ↔ ∃ s ∈ contiguousSlices r, s.1 ≤ x ∧ x < s.2) := by
  have hm : ∀ x, x ∈ sortedNats r.elems ↔ x ∈ r.elems := fun x => mem_sortedNats
  have hs := sortedNats_sorted r.elems
  unfold contiguousSlices
  cases h : sortedNats r.elems with
  | nil =>
    rw [h] at hm
    refine ⟨by simp, by simp, fun x => ?_⟩
    rw [← hm x]; simp
  | cons i l =>
    rw [h] at hm hs
    have hs' := List.pairwise_cons.mp hs
    have e : contigLoop i i (i :: l) = contigLoop i i l := by
      rw [contigLoop, if_neg (by omega)]
    simp only
    rw [e]
    obtain ⟨h1, h2, _, h4⟩ := contigLoop_ok l i i (Nat.le_refl _) hs'.2 hs'.1
    refine ⟨h1, h2, fun x => ?_⟩
    rw [h4 x, ← hm x, List.mem_cons]
    constructor
    · rintro (rfl | h)
      · exact .inl ⟨Nat.le_refl _, Nat.le_refl _⟩
      · exact .inr h
    · rintro (h | h)
      · exact .inl (by omega)
      · exact .inr h

/-! ### Decimal numbers -/

theorem natStr_digits (n : Nat) : natStr n = Nat.toDigits 10 n := natDigits_eq _ _ (by omega)

theorem padded_digits {pad n : Nat} {c : Char} (h : c ∈ padded pad n) : c.isDigit = true := by
  unfold padded at h
  rcases List.mem_append.mp h with h | h
  · rw [(List.mem_replicate.mp h).2]; decide
  · rw [natStr_digits] at h
    exact Nat.isDigit_of_mem_toDigits (by omega) (by omega) h

theorem padded_ne (pad n : Nat) : padded pad n ≠ [] := by
  unfold padded
  rw [natStr_digits]
  simp [Nat.toDigits_ne_nil]

theorem padded_value (pad n : Nat) : Nat.ofDigitChars 10 (padded pad n) 0 = n := by
  unfold padded
  rw [natStr_digits, Nat.ofDigitChars_append, Nat.ofDigitChars_replicate_zero]
  simp

theorem isDigit_bounds {c : Char} (h : c.isDigit = true) : 48 ≤ c.toNat ∧ c.toNat ≤ 57 := by
  unfold Char.isDigit at h
  simp only [ge_iff_le, Bool.and_eq_true, decide_eq_true_eq] at h
  exact ⟨UInt32.le_iff_toNat_le.mp h.1, UInt32.le_iff_toNat_le.mp h.2⟩

theorem isDigit_ne {c d : Char} (h : c.isDigit = true) (hd : d.isDigit = false) : c ≠ d := by
  rintro rfl
  rw [h] at hd; cases hd

theorem isDigit_blank {c : Char} (h : c.isDigit = true) : isBlank c = false := by
  have := isDigit_bounds h
  unfold isBlank
  simp only [Bool.or_eq_false_iff, Bool.and_eq_false_iff, beq_eq_false_iff_ne, decide_eq_false_iff_not]
  omega

theorem intBody_digits : ∀ (s : Str) (acc : Nat) (b : Bool), (∀ c ∈ s, c.isDigit = true) → (s ≠ [] ∨ b = true) →
    intBody acc b s = some (Nat.ofDigitChars 10 s acc)
  | [], acc, b, _, hb => by
    rcases hb with hb | rfl
    · exact absurd rfl hb
    · simp [intBody]
  | c :: s, acc, b, hd, _ => by
    have hc := hd c (by simp)
    unfold intBody
    rw [if_neg (isDigit_ne hc (by decide)), if_pos hc, intBody_digits s _ true (fun c h => hd c (by simp [h])) (.inr rfl),
      Nat.ofDigitChars_cons]
    rfl

theorem dropWhile_head {p : Char → Bool} {c : Char} {s : Str} (h : p c = false) : (c :: s).dropWhile p = c :: s := by
  simp [h]

theorem dropWhile_none {p : Char → Bool} {s : Str} (h : ∀ c ∈ s, p c = false) : s.dropWhile p = s := by
  cases s with
  | nil => rfl
  | cons c s => exact dropWhile_head (h c (by simp))

theorem pyInt_digits {s : Str} (hd : ∀ c ∈ s, c.isDigit = true) (hn : s ≠ []) :
    pyInt s = some ((Nat.ofDigitChars 10 s 0 : Nat) : Int) := by
  have e : ((s.dropWhile isBlank).reverse.dropWhile isBlank).reverse = s := by
    rw [dropWhile_none (fun c h => isDigit_blank (hd c h)),
      dropWhile_none (fun c h => isDigit_blank (hd c (List.mem_reverse.mp h))), List.reverse_reverse]
  unfold pyInt
  rw [e]
  have hb := intBody_digits s 0 false hd (.inl hn)
  cases s with
  | nil => exact absurd rfl hn
  | cons c s =>
    have hc := hd c (by simp)
    split
    · rename_i h; cases h; exact absurd hc (by decide)
    · rename_i h; cases h; exact absurd hc (by decide)
    · rw [hb]; rfl

theorem lstrip0_value (s : Str) : Nat.ofDigitChars 10 (lstrip0 s) 0 = Nat.ofDigitChars 10 s 0 := by
  induction s with
  | nil => rfl
  | cons c s ih =>
    unfold lstrip0 at *
    by_cases h : c = '0'
    · subst h
      rw [List.dropWhile_cons_of_pos (by simp), ih, Nat.ofDigitChars_cons]
      rfl
    · rw [List.dropWhile_cons_of_neg (by simp [h])]

theorem lstrip0_mem {s : Str} {c : Char} (h : c ∈ lstrip0 s) : c ∈ s := (List.dropWhile_sublist _).subset h

/-- The padding that is read off the first number. -/
def padOf (b : Str) : Nat :=
  if Nat.ofDigitChars 10 b 0 = 0 then (if b.length > 1 then b.length else 0)
  else if b.length - (lstrip0 b).length > 0 then b.length else 0

/-- `rangeNumbers` reads the numbers of two non-empty strings of digits. -/
theorem rangeNumbers_digits {b e : Str} (hb : ∀ c ∈ b, c.isDigit = true) (hbn : b ≠ []) (he : ∀ c ∈ e, c.isDigit = true)
    (hen : e ≠ []) : rangeNumbers b e = some (((Nat.ofDigitChars 10 b 0 : Nat) : Int), ((Nat.ofDigitChars 10 e 0 : Nat) : Int), padOf b) := by
  have key : ∀ s : Str, (∀ c ∈ s, c.isDigit = true) → Nat.ofDigitChars 10 s 0 ≠ 0 →
      pyInt (lstrip0 s) = some ((Nat.ofDigitChars 10 s 0 : Nat) : Int) := by
    intro s hs hz
    rw [pyInt_digits (fun c h => hs c (lstrip0_mem h)), lstrip0_value]
    intro hnil
    rw [← lstrip0_value, hnil] at hz
    exact hz rfl
  have kend : pyInt (if ((Nat.ofDigitChars 10 e 0 : Nat) : Int) ≠ 0 then lstrip0 e else e) = some ((Nat.ofDigitChars 10 e 0 : Nat) : Int) := by
    by_cases h : Nat.ofDigitChars 10 e 0 = 0
    · rw [if_neg (by simp [h]), pyInt_digits he hen]
    · rw [if_pos (by exact_mod_cast h), key e he h]
  unfold rangeNumbers padOf
  rw [pyInt_digits hb hbn]
  by_cases h : Nat.ofDigitChars 10 b 0 = 0
  · simp only [h, Option.bind_eq_bind, Option.bind_some, Nat.cast_zero, ne_eq, not_true_eq_false, if_false, Option.pure_def,
      pyInt_digits he hen]
    rw [kend]
    rfl
  · have h' : ((Nat.ofDigitChars 10 b 0 : Nat) : Int) ≠ 0 := by exact_mod_cast h
    simp only [Option.bind_eq_bind, Option.bind_some, if_pos h', key b hb h, Option.pure_def, pyInt_digits he hen]
    rw [kend, if_neg h]
    rfl

theorem toDigits_head (n : Nat) (h : n ≠ 0) : ∃ c l, Nat.toDigits 10 n = c :: l ∧ c ≠ '0' := by
  induction n using Nat.strong_induction_on with
  | _ n ih =>
    by_cases hn : n < 10
    · refine ⟨n.digitChar, [], Nat.toDigits_of_lt_base hn, ?_⟩
      have : n = 1 ∨ n = 2 ∨ n = 3 ∨ n = 4 ∨ n = 5 ∨ n = 6 ∨ n = 7 ∨ n = 8 ∨ n = 9 := by omega
      rcases this with rfl | rfl | rfl | rfl | rfl | rfl | rfl | rfl | rfl <;> decide
    · rw [Nat.toDigits_of_base_le (by omega) (by omega)]
      obtain ⟨c, l, e, hc⟩ := ih (n / 10) (by omega) (by omega)
      rw [e]
      exact ⟨c, _, rfl, hc⟩

/-- A number printed with padding shows the padding exactly when it has fewer digits. -/
theorem padOf_padded (pad n : Nat) : padOf (padded pad n) = if (Nat.toDigits 10 n).length < pad then pad else 0 := by
  have hl : (padded pad n).length = max pad (Nat.toDigits 10 n).length := by
    unfold padded
    rw [natStr_digits, List.length_append, List.length_replicate]
    omega
  have h1 : 0 < (Nat.toDigits 10 n).length := List.length_pos_iff.mpr Nat.toDigits_ne_nil
  unfold padOf
  rw [padded_value, hl]
  by_cases h : n = 0
  · subst h
    have h2 : (Nat.toDigits 10 0).length = 1 := by decide
    rw [if_pos rfl, h2]
    split <;> split <;> omega
  · rw [if_neg h]
    have h3 : lstrip0 (padded pad n) = Nat.toDigits 10 n := by
      obtain ⟨c, l, e, hc⟩ := toDigits_head n h
      unfold lstrip0 padded
      rw [natStr_digits, e]
      generalize pad - (c :: l).length = k
      induction k with
      | zero => simp [hc]
      | succ k ih => rw [List.replicate_succ, List.cons_append, List.dropWhile_cons_of_pos (by simp), ih]
    rw [h3]
    split <;> split <;> omega

/-! ### Splitting -/

theorem splitFirst_none {c : Char} : ∀ {s : Str}, c ∉ s → splitFirst c s = none
  | [], _ => rfl
  | x :: s, h => by
    unfold splitFirst
    rw [if_neg (fun e => h (by simp [e])), splitFirst_none (fun e => h (by simp [e]))]
    rfl

theorem splitFirst_append {c : Char} : ∀ {s t : Str}, c ∉ s → splitFirst c (s ++ c :: t) = some (s, t)
  | [], t, _ => by simp [splitFirst]
  | x :: s, t, h => by
    rw [List.cons_append, splitFirst, if_neg (fun e => h (by simp [e])), splitFirst_append (fun e => h (by simp [e]))]
    rfl

theorem splitChar_none {c : Char} : ∀ {s : Str}, c ∉ s → splitChar c s = [s]
  | [], _ => rfl
  | x :: s, h => by
    unfold splitChar
    rw [if_neg (fun e => h (by simp [e])), splitChar_none (fun e => h (by simp [e]))]

theorem splitChar_append {c : Char} : ∀ {s t : Str}, c ∉ s → splitChar c (s ++ c :: t) = s :: splitChar c t
  | [], t, _ => by simp [splitChar]
  | x :: s, t, h => by
    rw [List.cons_append, splitChar, if_neg (fun e => h (by simp [e])), splitChar_append (fun e => h (by simp [e]))]

theorem splitChar_join : ∀ {l : List Str}, l ≠ [] → (∀ s ∈ l, ',' ∉ s) → splitChar ',' (joinComma l) = l
  | [], h, _ => absurd rfl h
  | [a], _, h => by rw [joinComma, splitChar_none (h a (by simp))]
  | a :: b :: l, _, h => by
    rw [joinComma, splitChar_append (h a (by simp)), splitChar_join (by simp) (fun s hs => h s (by simp [hs]))]
    simp

/-! ### Parsing what was printed -/

theorem mem_pyRange_one {a b x : Nat} : x ∈ pyRange a b 1 ↔ a ≤ x ∧ x < b := by
  unfold pyRange
  simp only [List.mem_map, List.mem_range, Nat.div_one, Nat.mul_one]
  constructor
  · rintro ⟨i, hi, rfl⟩; omega
  · rintro ⟨h1, h2⟩; exact ⟨x - a, by omega, by omega⟩

theorem digit_notin {pad n : Nat} {c : Char} (h : c.isDigit = false) : c ∉ padded pad n := by
  intro hc
  rw [padded_digits hc] at h; cases h

theorem strSlice_notin {pad : Nat} {s : Nat × Nat} {c : Char} (h : c.isDigit = false) (hc : c ≠ '-') : c ∉ strSlice pad s := by
  unfold strSlice
  split
  · exact digit_notin h
  · simp [digit_notin h, hc]

/-- What parsing a range with a step does, in every case. -/
theorem parseSubrange_go (r : RSet) (p q a b step : Nat) (hs : 0 < step) (hab : a ≤ b) :
    parseSubrange.go r step (padded p a) (padded q b) =
      if b > float1e100 then .error .rangeSetParseError
      else r.addRange a (b + 1) step (if (Nat.toDigits 10 a).length < p then p else 0) := by
  unfold parseSubrange.go
  rw [rangeNumbers_digits (fun c hc => padded_digits hc) (padded_ne _ _) (fun c hc => padded_digits hc) (padded_ne _ _), padded_value,
    padded_value, padOf_padded]
  simp only
  by_cases hb : b > float1e100
  · rw [if_pos hb, if_pos (.inl (by exact_mod_cast hb))]
  · rw [if_neg hb, if_neg]
    · simp
    · rintro (h | h | h)
      · exact hb (by exact_mod_cast h)
      · omega
      · omega

/-- A range `a-b/step`. -/
theorem parseSubrange_step (r : RSet) (p q a b step : Nat) (hs : 0 < step) (hab : a ≤ b) :
    parseSubrange r (padded p a ++ '-' :: padded q b ++ '/' :: natStr step) =
      if b > float1e100 then .error .rangeSetParseError
      else r.addRange a (b + 1) step (if (Nat.toDigits 10 a).length < p then p else 0) := by
  have hd : ∀ c ∈ natStr step, c.isDigit = true := by
    intro c hc
    rw [natStr_digits] at hc
    exact Nat.isDigit_of_mem_toDigits (by omega) (by omega) hc
  have h1 : pyInt (natStr step) = some (step : Int) := by
    rw [pyInt_digits hd (by rw [natStr_digits]; exact Nat.toDigits_ne_nil), natStr_digits, Nat.ofDigitChars_ten_toDigits]
  unfold parseSubrange
  rw [splitFirst_append (by
    intro hc
    rcases List.mem_append.mp hc with hc | hc
    · exact digit_notin (by decide) hc
    · rcases List.mem_cons.mp hc with hc | hc
      · exact absurd hc (by decide)
      · exact digit_notin (by decide) hc)]
  simp only [h1]
  rw [splitFirst_append (digit_notin (by decide))]
  exact parseSubrange_go r p q a b step hs hab

/-- A range `a-b`. -/
theorem parseSubrange_range (r : RSet) (p q a b : Nat) (hab : a ≤ b) :
    parseSubrange r (padded p a ++ '-' :: padded q b) =
      if b > float1e100 then .error .rangeSetParseError
      else r.addRange a (b + 1) 1 (if (Nat.toDigits 10 a).length < p then p else 0) := by
  have h1 : pyInt (S "1") = some 1 := by decide
  unfold parseSubrange
  rw [splitFirst_none (by
    intro hc
    rcases List.mem_append.mp hc with hc | hc
    · exact digit_notin (by decide) hc
    · rcases List.mem_cons.mp hc with hc | hc
      · exact absurd hc (by decide)
      · exact digit_notin (by decide) hc)]
  simp only [h1]
  rw [splitFirst_append (digit_notin (by decide))]
  exact parseSubrange_go r p q a b 1 Nat.one_pos hab

/-- A single number. -/
theorem parseSubrange_single (r : RSet) (p a : Nat) :
    parseSubrange r (padded p a) =
      if a > float1e100 then .error .rangeSetParseError
      else r.addRange a (a + 1) 1 (if (Nat.toDigits 10 a).length < p then p else 0) := by
  have h1 : pyInt (S "1") = some 1 := by decide
  unfold parseSubrange
  rw [splitFirst_none (digit_notin (by decide))]
  simp only [h1]
  rw [splitFirst_none (digit_notin (by decide))]
  simp only [ne_eq, not_true_eq_false, if_false]
  exact parseSubrange_go r p p a a 1 Nat.one_pos (Nat.le_refl _)

/-- What parsing the printed form of a slice does, in every case. -/
theorem parseSubrange_strSlice (r : RSet) (pad : Nat) (s : Nat × Nat) (h : s.1 < s.2) :
    parseSubrange r (strSlice pad s) =
      if s.2 - 1 > float1e100 then .error .rangeSetParseError
      else r.addRange s.1 s.2 1 (if (Nat.toDigits 10 s.1).length < pad then pad else 0) := by
  unfold strSlice
  by_cases he : s.1 + 1 = s.2
  · rw [if_pos he, parseSubrange_single, ← he, Nat.add_sub_cancel]
  · rw [if_neg he, parseSubrange_range _ _ _ _ _ (by omega), show s.2 - 1 + 1 = s.2 by omega]

theorem mem_pyRange {a b m x : Nat} (hm : 0 < m) : x ∈ pyRange a b m ↔ a ≤ x ∧ x < b ∧ m ∣ x - a := by
  unfold pyRange
  simp only [List.mem_map, List.mem_range]
  constructor
  · rintro ⟨i, hi, rfl⟩
    have h := (Nat.lt_div_iff_mul_lt hm).mp hi
    refine ⟨by omega, ?_, ⟨i, by rw [Nat.add_sub_cancel_left, Nat.mul_comm]⟩⟩
    have h' : m * i = i * m := Nat.mul_comm _ _
    omega
  · rintro ⟨h1, h2, i, hi⟩
    refine ⟨i, ?_, by rw [Nat.mul_comm i m, ← hi]; omega⟩
    apply (Nat.lt_div_iff_mul_lt hm).mpr
    rw [Nat.mul_comm i m, ← hi]
    omega

/-- Parsing several ranges, given what each does. -/
theorem parseInto_ranges {α : Type} (text : α → Str) (lo hi step pad : α → Nat) : ∀ (l : List α) (r : RSet),
    (∀ x ∈ l, ∀ r, parseSubrange r (text x) = r.addRange (lo x) (hi x) (step x) (pad x)) →
    (∀ x ∈ l, lo x < hi x ∧ 0 < step x ∧ hi x - lo x < 1000000000) →
    ∃ r', parseInto r (l.map text) = .ok r' ∧
      (∀ y, y ∈ r'.elems ↔ y ∈ r.elems ∨ ∃ x ∈ l, lo x ≤ y ∧ y < hi x ∧ step x ∣ y - lo x) ∧
      (∀ q, r.padding = some q → r'.padding = some q) ∧
      (r.padding = none → ∀ q, (∀ x ∈ l, pad x = 0 ∨ pad x = q) →
        ((∃ x ∈ l, 0 < pad x) → r'.padding = some q) ∧ ((∀ x ∈ l, pad x = 0) → r'.padding = none))
  | [], r, _, _ => ⟨r, rfl, by simp, fun _ h => h, fun h q _ => ⟨by simp, fun _ => h⟩⟩
  | x :: l, r, hp, hv => by
    obtain ⟨v1, v2, v3⟩ := hv x (by simp)
    have hadd : r.addRange (lo x) (hi x) (step x) (pad x) = .ok { elems := r.elems ++ pyRange (lo x) (hi x) (step x)
                                                                  padding := if 0 < pad x ∧ r.padding = none then some (pad x) else r.padding } := by
      unfold RSet.addRange
      rw [if_neg (by omega), if_neg (by omega), if_neg (by omega)]
    obtain ⟨r', e, m, p1, p2⟩ := parseInto_ranges text lo hi step pad l
      { elems := r.elems ++ pyRange (lo x) (hi x) (step x), padding := if 0 < pad x ∧ r.padding = none then some (pad x) else r.padding }
      (fun y hy => hp y (by simp [hy])) (fun y hy => hv y (by simp [hy]))
    refine ⟨r', ?_, ?_, ?_, ?_⟩
    · rw [List.map_cons, parseInto, hp x (by simp), hadd]
      exact e
    · intro y
      rw [m y]
      simp only [List.mem_append, mem_pyRange v2, List.mem_cons, exists_eq_or_imp, or_assoc]
    · intro q hq
      apply p1 q
      show (if 0 < pad x ∧ r.padding = none then some (pad x) else r.padding) = some q
      rw [if_neg (by rw [hq]; simp), hq]
    · intro hn q hq
      by_cases hx : 0 < pad x
      · have : pad x = q := by
          rcases hq x (by simp) with h | h
          · omega
          · exact h
        constructor
        · intro _
          apply p1 q
          show (if 0 < pad x ∧ r.padding = none then some (pad x) else r.padding) = some q
          rw [if_pos ⟨hx, hn⟩, this]
        · intro h
          have := h x (by simp)
          omega
      · obtain ⟨a, b⟩ := p2 (by
          show (if 0 < pad x ∧ r.padding = none then some (pad x) else r.padding) = none
          rw [if_neg (fun h => hx h.1), hn]) q (fun y hy => hq y (by simp [hy]))
        constructor
        · rintro ⟨y, hy, hy0⟩
          rcases List.mem_cons.mp hy with rfl | hy
          · exact absurd hy0 hx
          · exact a ⟨y, hy, hy0⟩
        · intro h
          exact b (fun y hy => h y (by simp [hy]))

theorem parseInto_slices (pad : Nat) (l : List (Nat × Nat)) (h1 : ∀ s ∈ l, s.1 < s.2)
    (h2 : ∀ s ∈ l, s.2 - 1 ≤ float1e100) (h3 : ∀ s ∈ l, s.2 - s.1 < 1000000000) :
    ∃ r', parseInto ⟨[], none⟩ (l.map (strSlice pad)) = .ok r' ∧ (∀ x, x ∈ r'.elems ↔ ∃ s ∈ l, s.1 ≤ x ∧ x < s.2) ∧
      ((∃ s ∈ l, (Nat.toDigits 10 s.1).length < pad) → r'.padding = some pad) ∧
      ((∀ s ∈ l, pad ≤ (Nat.toDigits 10 s.1).length) → r'.padding = none) := by
  obtain ⟨r', e, m, _, p⟩ := parseInto_ranges (strSlice pad) (fun s => s.1) (fun s => s.2) (fun _ => 1)
    (fun s => if (Nat.toDigits 10 s.1).length < pad then pad else 0) l ⟨[], none⟩
    (fun s hs r => by rw [parseSubrange_strSlice r pad s (h1 s hs), if_neg (by have := h2 s hs; omega)])
    (fun s hs => ⟨h1 s hs, Nat.one_pos, h3 s hs⟩)
  obtain ⟨p1, p2⟩ := p rfl pad (fun s _ => by by_cases h : (Nat.toDigits 10 s.1).length < pad <;> simp [h])
  refine ⟨r', e, ?_, ?_, ?_⟩
  · intro x
    rw [m x]
    simp
  · rintro ⟨s, hs, h⟩
    exact p1 ⟨s, hs, by rw [if_pos h]; omega⟩
  · intro h
    exact p2 (fun s hs => by rw [if_neg (by have := h s hs; omega)])

theorem parseInto_slices_inv (pad : Nat) : ∀ (l : List (Nat × Nat)) (r r' : RSet), (∀ s ∈ l, s.1 < s.2) →
    parseInto r (l.map (strSlice pad)) = .ok r' → ∀ s ∈ l, s.2 - 1 ≤ float1e100 ∧ s.2 - s.1 < 1000000000
  | [], r, r', _, _ => by simp
  | t :: l, r, r', h1, h => by
    have hp := parseSubrange_strSlice r pad t (h1 t (by simp))
    rw [List.map_cons, parseInto] at h
    cases hr : parseSubrange r (strSlice pad t) with
    | error e => rw [hr] at h; cases h
    | ok r1 =>
      rw [hr] at h hp
      intro s hs
      rcases List.mem_cons.mp hs with rfl | hs
      · by_cases hf : s.2 - 1 > float1e100
        · rw [if_pos hf] at hp; cases hp
        · rw [if_neg hf] at hp
          refine ⟨by omega, ?_⟩
          by_contra hl
          unfold RSet.addRange at hp
          rw [if_neg (by have := h1 s (by simp); omega), if_neg (by omega), if_pos hl] at hp
          cases hp
      · exact parseInto_slices_inv pad l r1 r' (fun s hs => h1 s (by simp [hs])) h s hs

end CollateX
