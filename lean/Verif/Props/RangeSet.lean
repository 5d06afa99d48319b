import Verif.Proofs.RangeSet
/-
C48: range sets print and parse back.
-/

namespace CollateX

namespace Spec

/-- A range `a..b-1` is a maximal run of the set `s`: it is not empty, all of it is in the set, and neither neighbour is. -/
structure MaximalRun (s : Nat → Prop) (a b : Nat) : Prop where
  nonempty : a < b
  inside : ∀ x, a ≤ x → x < b → s x
  before : ∀ x, x + 1 = a → ¬ s x
  after : ¬ s b

/-- The sets whose printed form can be parsed: not empty, no element above the float `1e100`, no 10^9 consecutive elements. -/
structure Printable (s : Nat → Prop) : Prop where
  nonempty : ∃ x, s x
  bounded : ∀ x, s x → x ≤ 10000000000000000159028911097599180468360808563945281389781327557747838772170381060813469985856815104
  short : ∀ a, ∃ i, i < 1000000000 ∧ ¬ s (a + i)

/-- `a-b/step` in decimal. -/
def rangeText (a b step : Nat) : Str := Nat.toDigits 10 a ++ '-' :: Nat.toDigits 10 b ++ '/' :: Nat.toDigits 10 step

def commaSeparated : List Str → Str
  | [] => []
  | [a] => a
  | a :: l => a ++ ',' :: commaSeparated l

end Spec

/-- C48, first half: the contiguous ranges are maximal runs, come in increasing order and cover the set. -/
theorem C48_contiguous (r : RSet) :
    (∀ s ∈ contiguousSlices r, Spec.MaximalRun (· ∈ r.elems) s.1 s.2) ∧
    (contiguousSlices r).Pairwise (fun s t => s.2 < t.1) ∧
    (∀ x, x ∈ r.elems ↔ ∃ s ∈ contiguousSlices r, s.1 ≤ x ∧ x < s.2) := by
  obtain ⟨h1, h2, h3⟩ := contiguousSlices_ok r
  have sep : ∀ s ∈ contiguousSlices r, ∀ t ∈ contiguousSlices r, s = t ∨ s.2 < t.1 ∨ t.2 < s.1 := by
    intro s hs t ht
    obtain ⟨i, hi, rfl⟩ := List.mem_iff_getElem.mp hs
    obtain ⟨j, hj, rfl⟩ := List.mem_iff_getElem.mp ht
    have hp := List.pairwise_iff_getElem.mp h2
    rcases Nat.lt_trichotomy i j with h | h | h
    · exact .inr (.inl (hp i j hi hj h))
    · subst h; exact .inl rfl
    · exact .inr (.inr (hp j i hj hi h))
  refine ⟨fun s hs => ⟨h1 s hs, fun x ha hb => (h3 x).mpr ⟨s, hs, ha, hb⟩, ?_, ?_⟩, h2, h3⟩
  · intro x hx hm
    obtain ⟨t, ht, a, b⟩ := (h3 x).mp hm
    have := h1 s hs
    rcases sep s hs t ht with rfl | h | h <;> omega
  · intro hm
    obtain ⟨t, ht, a, b⟩ := (h3 s.2).mp hm
    have := h1 s hs
    rcases sep s hs t ht with rfl | h | h <;> omega

/-- C48, second half, for the printable sets (what is missing: the other sets, for which it is false, see
`C48_parse_iff`): parsing the printed form, with any padding, gives the same set. The padding comes back if it shows, that is if one of
the printed ranges begins with a number of fewer digits; otherwise the parsed set has none. -/
theorem C48_print_parse_partial (r : RSet) (h : Spec.Printable (· ∈ r.elems)) :
    ∃ r', parseRangeSet (rangeStr r) = .ok r' ∧ (∀ x, x ∈ r'.elems ↔ x ∈ r.elems) ∧
      ∀ p, r.padding.getD 0 = p →
        ((∃ a b, Spec.MaximalRun (· ∈ r.elems) a b ∧ (Nat.toDigits 10 a).length < p) → r'.padding = some p) ∧
        ((∀ a b, Spec.MaximalRun (· ∈ r.elems) a b → p ≤ (Nat.toDigits 10 a).length) → r'.padding = none) := by
  obtain ⟨h1, h2, h3⟩ := contiguousSlices_ok r
  have hne : contiguousSlices r ≠ [] := by
    intro he
    obtain ⟨x, hx⟩ := h.nonempty
    obtain ⟨s, hs, _⟩ := (h3 x).mp hx
    rw [he] at hs; cases hs
  obtain ⟨r', e, hr', p1, p2⟩ := parseInto_slices (r.padding.getD 0) (contiguousSlices r) h1
    (fun s hs => h.bounded _ ((h3 _).mpr ⟨s, hs, by have := h1 s hs; omega, by have := h1 s hs; omega⟩))
    (fun s hs => by
      obtain ⟨i, hi, hn⟩ := h.short s.1
      by_contra hl
      exact hn ((h3 _).mpr ⟨s, hs, by omega, by omega⟩))
  refine ⟨r', ?_, fun x => ?_, ?_⟩
  · unfold parseRangeSet rangeStr
    rw [splitChar_join (by simpa using hne)]
    · exact e
    · intro s hs
      obtain ⟨t, _, rfl⟩ := List.mem_map.mp hs
      exact strSlice_notin (by decide) (by decide)
  · rw [hr' x, h3 x]
  · rintro p rfl
    constructor
    · rintro ⟨a, b, hrun, hlt⟩
      obtain ⟨s, hs, ha, hb⟩ := (h3 a).mp (hrun.inside a (Nat.le_refl _) hrun.nonempty)
      refine p1 ⟨s, hs, ?_⟩
      have : s.1 = a := by
        rcases Nat.eq_or_lt_of_le ha with h | h
        · exact h
        · exfalso
          exact hrun.before (a - 1) (by omega) ((h3 (a - 1)).mpr ⟨s, hs, by omega, by omega⟩)
      rw [this]; exact hlt
    · intro hall
      exact p2 (fun s hs => hall s.1 s.2 ((C48_contiguous r).1 s hs))

/-- C48, the other direction of the notation: a pattern of ranges `a-b/step` is read as the union of the numbers `a, a + step, …` up to
`b`. -/
theorem C48_patterns (l : List (Nat × Nat × Nat)) (hne : l ≠ [])
    (hl : ∀ x ∈ l, x.1 ≤ x.2.1 ∧ x.2.1 < x.1 + 999999999 ∧ 0 < x.2.2 ∧
      x.2.1 ≤ 10000000000000000159028911097599180468360808563945281389781327557747838772170381060813469985856815104) :
    ∃ r', parseRangeSet (Spec.commaSeparated (l.map fun x => Spec.rangeText x.1 x.2.1 x.2.2)) = .ok r' ∧ r'.padding = none ∧
      ∀ y, y ∈ r'.elems ↔ ∃ x ∈ l, x.1 ≤ y ∧ y ≤ x.2.1 ∧ x.2.2 ∣ y - x.1 := by
  have hpad : ∀ n, padded 0 n = Nat.toDigits 10 n := by
    intro n
    unfold padded
    rw [natStr_digits, Nat.zero_sub]; rfl
  have htext : ∀ a b s, Spec.rangeText a b s = padded 0 a ++ '-' :: padded 0 b ++ '/' :: natStr s := by
    intro a b s
    unfold Spec.rangeText
    rw [hpad, hpad, natStr_digits]
  have hjoin : ∀ m : List Str, Spec.commaSeparated m = joinComma m := by
    intro m
    induction m with
    | nil => rfl
    | cons a m ih =>
      cases m with
      | nil => rfl
      | cons b m =>
        show a ++ ',' :: Spec.commaSeparated (b :: m) = _
        rw [ih]; rfl
  obtain ⟨r', e, m, _, p⟩ := parseInto_ranges (fun x : Nat × Nat × Nat => Spec.rangeText x.1 x.2.1 x.2.2) (fun x => x.1)
    (fun x => x.2.1 + 1) (fun x => x.2.2) (fun _ => 0) l ⟨[], none⟩
    (fun x hx r => by
      obtain ⟨a1, a2, a3, a4⟩ := hl x hx
      rw [htext, parseSubrange_step r 0 0 _ _ _ a3 a1, if_neg (by unfold float1e100; omega), if_neg (by omega)])
    (fun x hx => by
      obtain ⟨a1, a2, a3, a4⟩ := hl x hx
      exact ⟨by omega, a3, by omega⟩)
  refine ⟨r', ?_, (p rfl 0 (fun _ _ => .inl rfl)).2 (fun _ _ => rfl), ?_⟩
  · unfold parseRangeSet
    rw [hjoin, splitChar_join (by simpa using hne)]
    · exact e
    · intro s hs
      obtain ⟨x, _, rfl⟩ := List.mem_map.mp hs
      intro hc
      have hc : ',' ∈ Spec.rangeText x.1 x.2.1 x.2.2 := hc
      rw [htext, natStr_digits] at hc
      simp only [List.mem_append, List.mem_cons] at hc
      rcases hc with (hc | hc | hc) | hc | hc
      · exact digit_notin (by decide) hc
      · exact absurd hc (by decide)
      · exact digit_notin (by decide) hc
      · exact absurd hc (by decide)
      · exact absurd (Nat.isDigit_of_mem_toDigits (by omega) (by omega) hc) (by decide)
  · intro y
    rw [m y]
    simp [Nat.lt_succ_iff]

/-- The printed form can be parsed exactly for the printable sets: for the empty set, for a set with an element above `1e100`
and for a set with 10^9 consecutive elements the parser raises. -/
theorem C48_parse_iff (r : RSet) : (∃ r', parseRangeSet (rangeStr r) = .ok r') ↔ Spec.Printable (· ∈ r.elems) := by
  refine ⟨?_, fun h => by obtain ⟨r', h', _⟩ := C48_print_parse_partial r h; exact ⟨r', h'⟩⟩
  rintro ⟨r', h⟩
  obtain ⟨h1, h2, h3⟩ := contiguousSlices_ok r
  unfold parseRangeSet rangeStr at h
  by_cases hne : contiguousSlices r = []
  · rw [hne] at h
    have : parseInto { elems := [], padding := none } (splitChar ',' (joinComma (List.map (strSlice (r.padding.getD 0)) [])))
      = .error .rangeSetParseError := by rw [List.map_nil]; decide
    rw [this] at h; cases h
  · rw [splitChar_join (by simpa using hne)] at h
    swap
    · intro s hs
      obtain ⟨t, _, rfl⟩ := List.mem_map.mp hs
      exact strSlice_notin (by decide) (by decide)
    have hb := parseInto_slices_inv _ _ _ _ h1 h
    refine ⟨?_, ?_, ?_⟩
    · obtain ⟨s, hs⟩ := List.exists_mem_of_ne_nil _ hne
      exact ⟨s.1, (h3 _).mpr ⟨s, hs, Nat.le_refl _, h1 s hs⟩⟩
    · intro x hx
      obtain ⟨s, hs, ha, hb'⟩ := (h3 x).mp hx
      have := (hb s hs).1
      unfold float1e100 at this
      omega
    · intro a
      by_contra hcon
      have hall : ∀ i, i < 1000000000 → a + i ∈ r.elems := by
        intro i hi
        by_contra hn
        exact hcon ⟨i, hi, hn⟩
      obtain ⟨s, hs, ha, hb'⟩ := (h3 a).mp (hall 0 (by omega))
      have hrun := (C48_contiguous r).1 s hs
      have hl := (hb s hs).2
      have := hall (s.2 - a) (by omega)
      rw [show a + (s.2 - a) = s.2 by omega] at this
      exact hrun.after this

/-- C48 is false as stated: the empty set prints as the empty string, which is not a valid pattern. -/
theorem C48_empty_set : rangeStr { elems := [], padding := none } = [] ∧ parseRangeSet [] = .error .rangeSetParseError ∧
    ¬ ∀ r : RSet, ∃ r', parseRangeSet (rangeStr r) = .ok r' ∧ ∀ x, x ∈ r'.elems ↔ x ∈ r.elems := by
  refine ⟨by decide, by decide, ?_⟩
  intro h
  obtain ⟨r', h', _⟩ := h { elems := [], padding := none }
  have : parseRangeSet (rangeStr { elems := [], padding := none }) = .error .rangeSetParseError := by decide
  rw [this] at h'; cases h'

/-- `{0, 5, 6, 7, 10}`, given unsorted and with repetition, is printable, and what it prints as, without and with padding. -/
example : Spec.Printable (· ∈ [6, 10, 5, 7, 0, 5]) ∧
    contiguousSlices { elems := [6, 10, 5, 7, 0, 5], padding := none } = [(0, 1), (5, 8), (10, 11)] ∧
    rangeStr { elems := [6, 10, 5, 7, 0, 5], padding := none } = S "0,5-7,10" ∧
    rangeStr { elems := [6, 10, 5, 7, 0, 5], padding := some 3 } = S "000,005-007,010" ∧
    (parseRangeSet (S "000,005-007,010")) = .ok { elems := [0, 5, 6, 7, 10], padding := some 3 } := by
  refine ⟨⟨⟨0, by decide⟩, ?_, ?_⟩, by decide +kernel, by decide +kernel, by decide +kernel, by decide +kernel⟩
  · intro x hx
    have hx : x ∈ [6, 10, 5, 7, 0, 5] := hx
    simp at hx
    omega
  · intro a
    refine ⟨11, by omega, ?_⟩
    show ¬ a + 11 ∈ [6, 10, 5, 7, 0, 5]
    simp

/-- The patterns of the docstring (lines 73–76), with a step and with an invalid range. -/
example : Spec.commaSeparated ([(0, 10, 2), (5, 5, 1)].map fun x => Spec.rangeText x.1 x.2.1 x.2.2) = S "0-10/2,5-5/1" ∧
    (parseRangeSet (S "0-10/2")).map (·.elems) = .ok [0, 2, 4, 6, 8, 10] ∧
    (parseRangeSet (S "5,10-12")).map (·.elems) = .ok [5, 10, 11, 12] ∧ parseRangeSet (S "7-3") = .error .rangeSetParseError ∧
    parseRangeSet (S "0-999999999") = .error .assertionError := by
  decide +kernel

/-- `int()` accepts a sign. -/
theorem pyInt_plus {s : Str} (hd : ∀ c ∈ s, c.isDigit = true) (hn : s ≠ []) :
    pyInt ('+' :: s) = some ((Nat.ofDigitChars 10 s 0 : Nat) : Int) := by
  have hb : ∀ c ∈ '+' :: s, isBlank c = false := by
    intro c hc
    rcases List.mem_cons.mp hc with rfl | hc
    · decide
    · exact isDigit_blank (hd c hc)
  have e : ((('+' :: s).dropWhile isBlank).reverse.dropWhile isBlank).reverse = '+' :: s := by
    rw [dropWhile_none hb, dropWhile_none (fun c h => hb c (List.mem_reverse.mp h)), List.reverse_reverse]
  unfold pyInt
  rw [e]
  simp only [intBody_digits s 0 false hd (.inl hn)]
  rfl

/-- C48, a pattern with a sign: `+` before a number other than 0 is accepted, and zeros after it are no padding. -/
theorem C48_plus (p n : Nat) (h0 : n ≠ 0) (hn : n ≤ float1e100) : parseRangeSet ('+' :: padded p n) = .ok ⟨[n], none⟩ := by
  have hd : ∀ c ∈ padded p n, c.isDigit = true := fun c hc => padded_digits hc
  have hnot : ∀ x : Char, x.isDigit = false → x ≠ '+' → x ∉ '+' :: padded p n := by
    intro x hx hp hm
    rcases List.mem_cons.mp hm with h | h
    · exact hp h
    · rw [hd x h] at hx; cases hx
  have hi := pyInt_plus hd (padded_ne p n)
  rw [padded_value] at hi
  have hl : lstrip0 ('+' :: padded p n) = '+' :: padded p n := dropWhile_head (by decide)
  have hr : rangeNumbers ('+' :: padded p n) ('+' :: padded p n) = some ((n : Int), (n : Int), 0) := by
    unfold rangeNumbers
    have h' : ((n : Nat) : Int) ≠ 0 := by exact_mod_cast h0
    simp only [hi, Option.bind_eq_bind, Option.bind_some, if_pos h', hl, Option.pure_def, Nat.sub_self]
    simp
  unfold parseRangeSet
  rw [splitChar_none (hnot ',' (by decide) (by decide))]
  have h1 : pyInt (S "1") = some 1 := by decide
  unfold parseInto parseSubrange
  rw [splitFirst_none (hnot '/' (by decide) (by decide))]
  simp only [h1]
  rw [splitFirst_none (hnot '-' (by decide) (by decide))]
  unfold parseSubrange.go
  simp only [hr, ne_eq, not_true_eq_false, if_false]
  rw [if_neg (by push Not; refine ⟨by exact_mod_cast hn, Int.le_refl _, by decide⟩)]
  unfold RSet.addRange pyRange
  simp [parseInto, bind_ok]

example : parseRangeSet (S "+007,5") = .ok ⟨[7, 5], none⟩ ∧ parseRangeSet (S "007,5") = .ok ⟨[7, 5], some 3⟩ := by decide +kernel

/-- The ASCII white space of python's `str.strip()`. -/
def Spec.asciiSpaces : Str := [' ', '\t', '\n', '\x0b', '\x0c', '\r', '\x1c', '\x1d', '\x1e', '\x1f']

theorem isBlank_iff (c : Char) : isBlank c = true ↔ c ∈ Spec.asciiSpaces := by
  have key : ∀ d : Char, c = d ↔ c.toNat = d.toNat := fun d => ⟨fun h => h ▸ rfl, fun h => Char.toNat_inj.mp h⟩
  unfold isBlank Spec.asciiSpaces
  simp only [List.mem_cons, List.not_mem_nil, or_false, key, Bool.or_eq_true, Bool.and_eq_true, beq_iff_eq, decide_eq_true_eq]
  have : (' ').toNat = 32 ∧ ('\t').toNat = 9 ∧ ('\n').toNat = 10 ∧ ('\x0b').toNat = 11 ∧ ('\x0c').toNat = 12 ∧ ('\r').toNat = 13 ∧
    ('\x1c').toNat = 28 ∧ ('\x1d').toNat = 29 ∧ ('\x1e').toNat = 30 ∧ ('\x1f').toNat = 31 := by decide
  obtain ⟨h1, h2, h3, h4, h5, h6, h7, h8, h9, h10⟩ := this
  rw [h1, h2, h3, h4, h5, h6, h7, h8, h9, h10]
  omega

theorem dropWhile_all {p : Char → Bool} {a s : Str} (h : ∀ c ∈ a, p c = true) : (a ++ s).dropWhile p = s.dropWhile p := by
  induction a with
  | nil => rfl
  | cons c a ih => rw [List.cons_append, List.dropWhile_cons, if_pos (h c (by simp)), ih (fun c hc => h c (by simp [hc]))]

/-- C48: `int()` drops white space on both sides of the digits. -/
theorem C48_spaces (a s b : Str) (ha : ∀ c ∈ a, c ∈ Spec.asciiSpaces) (hb : ∀ c ∈ b, c ∈ Spec.asciiSpaces)
    (hd : ∀ c ∈ s, c.isDigit = true) (hn : s ≠ []) : pyInt (a ++ s ++ b) = some ((Nat.ofDigitChars 10 s 0 : Nat) : Int) := by
  have hs := fun c h => isDigit_blank (hd c h)
  have e1 : (a ++ s ++ b).dropWhile isBlank = s ++ b := by
    rw [List.append_assoc, dropWhile_all (fun c h => (isBlank_iff c).mpr (ha c h))]
    cases s with
    | nil => exact absurd rfl hn
    | cons c s => exact dropWhile_head (hs c (by simp))
  have e2 : ((s ++ b).reverse.dropWhile isBlank).reverse = s := by
    rw [List.reverse_append, dropWhile_all (fun c h => (isBlank_iff c).mpr (hb c (List.mem_reverse.mp h))),
      dropWhile_none (fun c h => hs c (List.mem_reverse.mp h)), List.reverse_reverse]
  have e3 : ((s.dropWhile isBlank).reverse.dropWhile isBlank).reverse = s := by
    rw [dropWhile_none hs, dropWhile_none (fun c h => hs c (List.mem_reverse.mp h)), List.reverse_reverse]
  have := pyInt_digits hd hn
  unfold pyInt at this ⊢
  rw [e3] at this
  rw [e1, e2]
  exact this

/-- C48: any other character before the digits, except a digit or a sign, is an error. -/
theorem C48_no_space (c : Char) (s : Str) (hc : c ∉ Spec.asciiSpaces) (h1 : c.isDigit = false) (h2 : c ≠ '+') (h3 : c ≠ '-') :
    pyInt (c :: s) = none := by
  have hb : isBlank c = false := by
    rw [← Bool.not_eq_true, isBlank_iff]
    exact hc
  have e : ∃ r, (((c :: s).dropWhile isBlank).reverse.dropWhile isBlank).reverse = c :: r := by
    rw [dropWhile_head hb, List.reverse_cons]
    suffices H : ∀ l : Str, ∃ r, ((l ++ [c]).dropWhile isBlank).reverse = c :: r from H _
    intro l
    induction l with
    | nil => exact ⟨[], by rw [List.nil_append, dropWhile_head hb]; rfl⟩
    | cons x l ih =>
      rw [List.cons_append, List.dropWhile_cons]
      split
      · exact ih
      · exact ⟨(x :: l).reverse, by simp⟩
  obtain ⟨r, e⟩ := e
  have hi : intBody 0 false (c :: r) = none := by
    unfold intBody
    rw [h1]
    simp
  unfold pyInt
  rw [e]
  split
  · rename_i h; exact absurd (List.cons.inj h).1 h3
  · rename_i h; exact absurd (List.cons.inj h).1 h2
  · rw [hi]; rfl

example : pyInt (S " \t007\x1f\n") = some 7 ∧ parseRangeSet (S " 3 - 5 ") = .ok ⟨[3, 4, 5], none⟩ ∧ pyInt (S "\x0057") = none := by decide +kernel

end CollateX
