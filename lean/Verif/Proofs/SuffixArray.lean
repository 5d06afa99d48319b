import Verif.Proofs.SkewMain
/-
`SuffixArray.__init__`: numbering of the token strings, suffix array, LCP array.
-/

namespace CollateX

/-! ### Order of strings -/

theorem strLt_irrefl (a : Str) : strLt a a = false := by
  induction a with
  | nil => rfl
  | cons x xs ih => simp [strLt, ih]

theorem strLt_trans : ∀ {a b c : Str}, strLt a b = true → strLt b c = true → strLt a c = true
  | [], [], _, h, _ => by simp [strLt] at h
  | [], _ :: _, [], _, h => by simp [strLt] at h
  | [], _ :: _, _ :: _, _, _ => rfl
  | _ :: _, [], _, h, _ => by simp [strLt] at h
  | _ :: _, _ :: _, [], _, h => by simp [strLt] at h
  | a :: as, b :: bs, c :: cs, h, h' => by
    simp only [strLt, Bool.or_eq_true, decide_eq_true_eq, Bool.and_eq_true, beq_iff_eq] at *
    rcases h with h | ⟨h, h1⟩ <;> rcases h' with h' | ⟨h', h1'⟩
    · left; omega
    · left; omega
    · left; omega
    · right; exact ⟨by omega, strLt_trans h1 h1'⟩

theorem char_toNat_inj {a b : Char} (h : a.toNat = b.toNat) : a = b := by
  apply Char.ext
  exact UInt32.toNat.inj h

theorem strLt_total : ∀ (a b : Str), a ≠ b → strLt a b = true ∨ strLt b a = true
  | [], [], h => absurd rfl h
  | [], _ :: _, _ => Or.inl rfl
  | _ :: _, [], _ => Or.inr rfl
  | a :: as, b :: bs, h => by
    simp only [strLt, Bool.or_eq_true, decide_eq_true_eq, Bool.and_eq_true, beq_iff_eq]
    by_cases h1 : a = b
    · subst h1
      rcases strLt_total as bs (fun e => h (by rw [e])) with h2 | h2
      · exact Or.inl (Or.inr ⟨rfl, h2⟩)
      · exact Or.inr (Or.inr ⟨rfl, h2⟩)
    · have : a.toNat ≠ b.toNat := fun e => h1 (char_toNat_inj e)
      omega

theorem mem_insertStr {x y : Str} {l : List Str} : y ∈ insertStr x l ↔ y = x ∨ y ∈ l := by
  induction l with
  | nil => simp [insertStr]
  | cons z l ih =>
    simp only [insertStr]
    split
    · simp
    · rename_i h1
      split
      · simp only [List.mem_cons, ih]; tauto
      · rename_i h2
        have : x = z := by
          by_contra hne
          rcases strLt_total x z hne with h | h
          · exact h1 h
          · exact h2 h
        subst this
        simp

theorem mem_sortedSet {y : Str} {l : List Str} : y ∈ sortedSet l ↔ y ∈ l := by
  induction l with
  | nil => simp [sortedSet]
  | cons x l ih => simp [sortedSet, mem_insertStr, ih]

theorem sorted_insertStr {x : Str} {l : List Str} (h : l.Pairwise (fun a b => strLt a b = true)) :
    (insertStr x l).Pairwise (fun a b => strLt a b = true) := by
  induction l with
  | nil => simp [insertStr]
  | cons z l ih =>
    rw [List.pairwise_cons] at h
    simp only [insertStr]
    split
    · rename_i h1
      rw [List.pairwise_cons]
      refine ⟨?_, by rw [List.pairwise_cons]; exact h⟩
      intro a ha
      rcases List.mem_cons.mp ha with rfl | ha
      · exact h1
      · exact strLt_trans h1 (h.1 a ha)
    · split
      · rename_i h2
        rw [List.pairwise_cons]
        refine ⟨?_, ih h.2⟩
        intro a ha
        rcases mem_insertStr.mp ha with rfl | ha
        · exact h2
        · exact h.1 a ha
      · rw [List.pairwise_cons]; exact h

theorem sorted_sortedSet (l : List Str) : (sortedSet l).Pairwise (fun a b => strLt a b = true) := by
  induction l with
  | nil => simp [sortedSet]
  | cons x l ih => exact sorted_insertStr ih

theorem nodup_sortedSet (l : List Str) : (sortedSet l).Nodup := by
  rw [List.nodup_iff_pairwise_ne]
  refine (sorted_sortedSet l).imp ?_
  rintro a b h rfl
  rw [strLt_irrefl] at h
  cases h

/-- The numbering is strictly monotone (and so injective) on the strings of the vocabulary. -/
theorem tokId_lt {l : List Str} {x y : Str} (hx : x ∈ l) (hy : y ∈ l) :
    tokId (sortedSet l) x < tokId (sortedSet l) y ↔ strLt x y = true := by
  have hx' := mem_sortedSet.mpr hx
  have hy' := mem_sortedSet.mpr hy
  have hs := List.pairwise_iff_getElem.mp (sorted_sortedSet l)
  have ix := List.idxOf_lt_length_of_mem hx'
  have iy := List.idxOf_lt_length_of_mem hy'
  have ex := List.getElem_idxOf ix
  have ey := List.getElem_idxOf iy
  unfold tokId
  constructor
  · intro h
    have := hs _ _ ix iy (by omega)
    rwa [ex, ey] at this
  · intro h
    by_contra hc
    rcases Nat.lt_or_ge (List.idxOf y (sortedSet l)) (List.idxOf x (sortedSet l)) with h2 | h2
    · have := hs _ _ iy ix h2
      rw [ex, ey] at this
      have := strLt_trans h this
      rw [strLt_irrefl] at this; cases this
    · have he : List.idxOf x (sortedSet l) = List.idxOf y (sortedSet l) := by omega
      have : x = y := by rw [← ex, ← ey]; simp only [he]
      subst this
      rw [strLt_irrefl] at h; cases h

theorem tokId_inj {l : List Str} {x y : Str} (hx : x ∈ l) (hy : y ∈ l) (h : tokId (sortedSet l) x = tokId (sortedSet l) y) :
    x = y := by
  by_contra hne
  rcases strLt_total x y hne with h1 | h1
  · have := (tokId_lt hx hy).mpr h1; omega
  · have := (tokId_lt hy hx).mpr h1; omega

/-! ### The suffix array -/

theorem rd_string (strings : List Str) (i : Nat) : rd ((strings.map (tokId (sortedSet strings))) ++ [0, 0, 0]) i =
    match strings[i]? with
    | some x => tokId (sortedSet strings) x
    | none => 0 := by
  unfold rd
  rw [List.getD_eq_getElem?_getD]
  by_cases h : i < strings.length
  · rw [List.getElem?_append_left (by simpa using h), List.getElem?_map, List.getElem?_eq_getElem h]; rfl
  · rw [List.getElem?_append_right (by simp; omega), List.getElem?_eq_none (l := strings) (by omega)]
    simp only [List.length_map]
    rcases i - strings.length with _ | _ | _ | k <;> simp

theorem pad_string (strings : List Str) : Pad (rd ((strings.map (tokId (sortedSet strings))) ++ [0, 0, 0])) strings.length := by
  constructor
  · intro i hi
    rw [rd_string, List.getElem?_eq_getElem hi]
    simp [tokId]
  · intro i hi
    rw [rd_string, List.getElem?_eq_none hi]

/-- For at least two tokens the suffix array is the sorted list of all positions. -/
theorem mkSuffixArray_sorted (strings : List Str) (h : 2 ≤ strings.length) :
    (mkSuffixArray strings).SA.Perm (List.range strings.length) ∧
    (mkSuffixArray strings).SA.Pairwise (SLt (rd ((strings.map (tokId (sortedSet strings))) ++ [0, 0, 0]))) := by
  refine skew_ok _ _ _ _ (by omega) h (pad_string strings) ?_
  intro i
  rw [rd_string]
  cases hs : strings[i]? with
  | none => simp
  | some x =>
    have := List.idxOf_lt_length_of_mem (mem_sortedSet.mpr (List.mem_of_getElem? hs))
    simp only [tokId]; omega

theorem mergeSA_one (s s12 SA12 SA0 : List Nat) : ∃ x, mergeSA s s12 SA12 SA0 1 1 1 0 1 = [x] := by
  rw [mergeSA]
  split
  · exact ⟨_, by simp [mergeSA]; rfl⟩
  · refine ⟨rd SA0 0, ?_⟩
    rw [if_pos rfl]
    congr 1
    simp

/-- For one token the suffix array has one entry. -/
theorem mkSuffixArray_one (x : Str) : ∃ p, (mkSuffixArray [x]).SA = [p] := by
  unfold mkSuffixArray
  simp only [List.length_singleton]
  rw [skew_succ]
  exact mergeSA_one _ _ _ _

/-! ### Common prefixes -/

/-- Suffixes `p` and `q` agree on their first `L` entries. -/
def Share (f : Nat → Nat) (p q L : Nat) : Prop := ∀ i < L, f (p + i) = f (q + i)

theorem Share.symm {f : Nat → Nat} {p q L : Nat} (h : Share f p q L) : Share f q p L := fun i hi => (h i hi).symm

theorem Share.trans {f : Nat → Nat} {p q r L : Nat} (h : Share f p q L) (h' : Share f q r L) : Share f p r L :=
  fun i hi => (h i hi).trans (h' i hi)

theorem Share.mono {f : Nat → Nat} {p q L M : Nat} (h : Share f p q L) (hM : M ≤ L) : Share f p q M :=
  fun i hi => h i (by omega)

/-- Common prefixes of two different suffixes lie inside the text. -/
theorem Share.inside {f : Nat → Nat} {n p q L : Nat} (hf : Pad f n) (h : Share f p q L) (hp : p ≤ n) (hq : q ≤ n)
    (hne : p ≠ q) : p + L ≤ n ∧ q + L ≤ n := by
  have key : ∀ p q, Share f p q L → p ≤ n → q ≤ n → p ≠ q → p + L ≤ n := by
    intro p q h hp hq hne
    by_contra hc
    have h1 := h (n - p) (by omega)
    rw [show p + (n - p) = n by omega, hf.zero n (Nat.le_refl _)] at h1
    have hq2 : n ≤ q + (n - p) := by
      by_contra hc2
      have := hf.pos (q + (n - p)) (by omega)
      omega
    have hpq : p < q := by omega
    have h2 := h (n - q) (by omega)
    rw [show q + (n - q) = n by omega, hf.zero n (Nat.le_refl _)] at h2
    have := hf.pos (p + (n - q)) (by omega)
    omega
  exact ⟨key p q h hp hq hne, key q p h.symm hq hp (Ne.symm hne)⟩

/-- A suffix between two suffixes with a common prefix has that prefix too. -/
theorem Share.between {f : Nat → Nat} {x y z L : Nat} (h : Share f x z L) (h1 : SLt f x y) (h2 : SLt f y z) : Share f x y L := by
  obtain ⟨k, hk1, hk2⟩ := h1
  by_cases hkL : L ≤ k
  · exact fun i hi => hk1 i (by omega)
  · exfalso
    refine slt_asymm h2 ⟨k, ?_, ?_⟩
    · intro m hm
      rw [← h m (by omega), hk1 m hm]
    · rw [← h k (by omega)]; exact hk2

theorem lcpLoop_spec (s : List Nat) (p q : Nat) : ∀ (k i : Nat), Share (rd s) p q i →
    Share (rd s) p q (lcpLoop s p q k i) ∧ i ≤ lcpLoop s p q k i ∧ lcpLoop s p q k i ≤ i + k ∧
      (lcpLoop s p q k i < i + k → rd s (p + lcpLoop s p q k i) ≠ rd s (q + lcpLoop s p q k i))
  | 0, i, h => ⟨h, Nat.le_refl _, Nat.le_refl _, fun hc => by simp only [lcpLoop] at hc; omega⟩
  | k + 1, i, h => by
    simp only [lcpLoop]
    split
    · rename_i hne
      exact ⟨h, Nat.le_refl _, by omega, fun _ => hne⟩
    · rename_i he
      have he' : rd s (p + i) = rd s (q + i) := by simpa using he
      obtain ⟨a, b, c, d⟩ := lcpLoop_spec s p q k (i + 1) (by
        intro j hj
        by_cases hji : j = i
        · subst hji; exact he'
        · exact h j (by omega))
      exact ⟨a, by omega, by omega, fun hc => d (by omega)⟩

/-- `_longestCommonPrefix` computes the length of the longest common prefix. -/
theorem longestCommonPrefix_spec (s : List Nat) (p q : Nat) :
    Share (rd s) p q (longestCommonPrefix s p q) ∧ longestCommonPrefix s p q ≤ s.length - p ∧
    longestCommonPrefix s p q ≤ s.length - q ∧
    ∀ L, Share (rd s) p q L → L ≤ s.length - p → L ≤ s.length - q → L ≤ longestCommonPrefix s p q := by
  have key : ∀ a b : Nat, s.length - b ≤ s.length - a →
      Share (rd s) a b (if s.length - b = 0 then 0 else lcpLoop s a b (s.length - b) 0) ∧
      (if s.length - b = 0 then 0 else lcpLoop s a b (s.length - b) 0) ≤ s.length - b ∧
      ∀ L, Share (rd s) a b L → L ≤ s.length - b → L ≤ (if s.length - b = 0 then 0 else lcpLoop s a b (s.length - b) 0) := by
    intro a b hab
    split
    · exact ⟨fun i hi => by omega, by omega, fun L _ h => by omega⟩
    · obtain ⟨h1, _, h3, h4⟩ := lcpLoop_spec s a b (s.length - b) 0 (fun i hi => by omega)
      refine ⟨h1, by omega, ?_⟩
      intro L hL hL2
      by_contra hc
      exact h4 (by omega) (hL _ (by omega))
  unfold longestCommonPrefix
  by_cases hlt : s.length - p < s.length - q
  · simp only [if_pos hlt]
    obtain ⟨h1, h2, h3⟩ := key q p (by omega)
    exact ⟨h1.symm, h2, by omega, fun L hL hLp hLq => h3 L hL.symm hLp⟩
  · simp only [if_neg hlt]
    obtain ⟨h1, h2, h3⟩ := key p q (by omega)
    exact ⟨h1, by omega, h2, fun L hL hLp hLq => h3 L hL hLq⟩

theorem lcpArray_length (s SA : List Nat) : (lcpArray s SA).length = SA.length := by
  cases SA with
  | nil => rfl
  | cons x xs => simp [lcpArray]

theorem lcpArray_zero (s SA : List Nat) : rd (lcpArray s SA) 0 = 0 := by
  cases SA with
  | nil => rfl
  | cons x xs => rfl

theorem lcpArray_succ (s SA : List Nat) (i : Nat) (h : i + 1 < SA.length) :
    rd (lcpArray s SA) (i + 1) = longestCommonPrefix s (rd SA i) (rd SA (i + 1)) := by
  cases SA with
  | nil => simp at h
  | cons x xs =>
    unfold rd lcpArray
    simp only [List.getD_cons_succ]
    simp only [List.length_cons] at h
    rw [List.getD_eq_getElem?_getD, List.getD_eq_getElem?_getD, List.getD_eq_getElem?_getD,
      List.getElem?_eq_getElem (by simp; omega), List.getElem?_eq_getElem (l := x :: xs) (by simp; omega),
      List.getElem?_eq_getElem (l := xs) (by omega)]
    simp

end CollateX
