import Verif.Proofs.SuffixOrder
/-
The skew algorithm sorts the suffixes.
-/

namespace CollateX

/-- The index in `s12` of the suffix at position `x` (of residue 1 or 2). -/
def idx12 (n0 x : Nat) : Nat := if x % 3 = 1 then x / 3 else x / 3 + n0

theorem idx12_pos12 (n0 q : Nat) : idx12 n0 (pos12 n0 q) = q := by
  unfold idx12 pos12
  by_cases h : q < n0
  · rw [if_pos h, if_pos (by omega)]; omega
  · rw [if_neg h, if_neg (by omega)]; omega

theorem pos12_idx12 (n0 x : Nat) (h : x % 3 ≠ 0) (h1 : x % 3 = 1 → x / 3 < n0) : pos12 n0 (idx12 n0 x) = x := by
  unfold idx12 pos12
  by_cases h2 : x % 3 = 1
  · rw [if_pos h2, if_pos (h1 h2)]; omega
  · rw [if_neg h2, if_neg (by omega)]; omega

theorem idx12_add3 (n0 x : Nat) : idx12 n0 (x + 3) = idx12 n0 x + 1 := by
  unfold idx12
  by_cases h : x % 3 = 1
  · rw [if_pos h, if_pos (by omega)]; omega
  · rw [if_neg h, if_neg (by omega)]; omega

/-! ### Names -/

theorem nameLoop_cons (s : List Nat) (n0 x : Nat) (xs : List Nat) (c : Option (Nat × Nat × Nat)) (name : Nat) (s12 : List Nat) :
    nameLoop s n0 (x :: xs) c name s12 = nameLoop s n0 xs (some (tripleAt (rd s) x))
      (if some (tripleAt (rd s) x) ≠ c then name + 1 else name)
      (s12.set (idx12 n0 x) (if some (tripleAt (rd s) x) ≠ c then name + 1 else name)) := by
  rw [nameLoop]
  simp only [tripleAt, idx12]
  by_cases hc : some (rd s x, rd s (x + 1), rd s (x + 2)) = c
  · subst hc
    simp only [ne_eq, not_true_eq_false, if_false]
    split <;> rfl
  · simp only [ne_eq, hc, not_false_eq_true, if_true]
    split <;> rfl

structure Named (f : Nat → Nat) (n0 : Nat) (T : List Nat) (c : Option (Nat × Nat × Nat)) (name : Nat) (s12 : List Nat)
    (g : List Nat) (N : Nat) : Prop where
  len : g.length = s12.length
  other : ∀ q, q ∉ T.map (idx12 n0) → rd g q = rd s12 q
  lo : ∀ x ∈ T, name ≤ rd g (idx12 n0 x)
  hi : ∀ x ∈ T, rd g (idx12 n0 x) ≤ N
  first : ∀ x ∈ T, rd g (idx12 n0 x) = name ↔ c = some (tripleAt f x)
  lt : ∀ x ∈ T, ∀ y ∈ T, rd g (idx12 n0 x) < rd g (idx12 n0 y) ↔ TLt f x y
  le_len : name ≤ N ∧ N ≤ name + T.length
  full : N = name + T.length → ∀ (i x : Nat), T[i]? = some x → rd g (idx12 n0 x) = name + i + 1

theorem nameLoop_spec (s : List Nat) (n0 : Nat) (T : List Nat) : ∀ (c : Option (Nat × Nat × Nat)) (name : Nat) (s12 : List Nat),
    T.Pairwise (TLe (rd s)) → (T.map (idx12 n0)).Nodup → (∀ x ∈ T, idx12 n0 x < s12.length) →
    (c = none ∨ ∃ p, c = some (tripleAt (rd s) p) ∧ ∀ x ∈ T, TLe (rd s) p x) →
    Named (rd s) n0 T c name s12 (nameLoop s n0 T c name s12).1 (nameLoop s n0 T c name s12).2 := by
  induction T with
  | nil =>
    intro c name s12 _ _ _ _
    exact ⟨rfl, fun _ _ => rfl, by simp, by simp, by simp, by simp, by simp [nameLoop], by simp⟩
  | cons x xs ih =>
    intro c name s12 hs hnd hlen hc
    rw [nameLoop_cons]
    set name' := if some (tripleAt (rd s) x) ≠ c then name + 1 else name with hname'
    rw [List.pairwise_cons] at hs
    rw [List.map_cons, List.nodup_cons] at hnd
    have hx := hlen x (by simp)
    have N := ih (some (tripleAt (rd s) x)) name' (s12.set (idx12 n0 x) name') hs.2 hnd.2
      (by intro y hy; rw [List.length_set]; exact hlen y (by simp [hy]))
      (Or.inr ⟨x, rfl, hs.1⟩)
    set G := (nameLoop s n0 xs (some (tripleAt (rd s) x)) name' (s12.set (idx12 n0 x) name')).1
    set M := (nameLoop s n0 xs (some (tripleAt (rd s) x)) name' (s12.set (idx12 n0 x) name')).2
    have hgx : rd G (idx12 n0 x) = name' := by
      rw [N.other _ hnd.1, rd_set, if_pos ⟨rfl, hx⟩]
    have hn1 : name ≤ name' ∧ name' ≤ name + 1 := by rw [hname']; split <;> omega
    have hn2 : name' = name ↔ c = some (tripleAt (rd s) x) := by
      rw [hname']
      by_cases h : some (tripleAt (rd s) x) = c
      · simp [h]
      · have h' : c ≠ some (tripleAt (rd s) x) := fun e => h e.symm
        simp [h, h']
    have hfirst : ∀ y ∈ xs, rd G (idx12 n0 y) = name' ↔ tripleAt (rd s) x = tripleAt (rd s) y := by
      intro y hy
      rw [N.first y hy]
      simp
    constructor
    · rw [N.len, List.length_set]
    · intro q hq
      simp only [List.map_cons, List.mem_cons, not_or] at hq
      rw [N.other q hq.2, rd_set, if_neg (by simp [Ne.symm hq.1])]
    · intro y hy
      rcases List.mem_cons.mp hy with rfl | hy
      · rw [hgx]; exact hn1.1
      · have := N.lo y hy; omega
    · intro y hy
      rcases List.mem_cons.mp hy with rfl | hy
      · rw [hgx]; exact N.le_len.1
      · exact N.hi y hy
    · intro y hy
      rcases List.mem_cons.mp hy with rfl | hy
      · rw [hgx]; exact hn2
      · have h1 := N.lo y hy
        have h2 := hfirst y hy
        constructor
        · intro he
          have h3 : name' = name := by omega
          rw [hn2.mp h3, h2.mp (by omega)]
        · intro he
          have h3 : c = some (tripleAt (rd s) x) := by
            rcases hc with hc | ⟨p, hp, hall⟩
            · rw [hc] at he; cases he
            · rw [hp] at he ⊢
              have hpy : tripleAt (rd s) p = tripleAt (rd s) y := Option.some.inj he
              congr 1
              rcases hall x (by simp) with h | h
              · exfalso
                rcases hs.1 y hy with h' | h'
                · exact tlt_not_eq (tlt_trans h h') hpy
                · exact tlt_not_eq ((tlt_congr_right h').mp h) hpy
              · exact h
          rw [(h2.mpr (by rw [he] at h3; exact (Option.some.inj h3).symm))]
          exact hn2.mpr h3
    · intro y hy z hz
      rcases List.mem_cons.mp hy with rfl | hy' <;> rcases List.mem_cons.mp hz with rfl | hz'
      · constructor
        · intro h; omega
        · intro h; exact absurd h (fun h => tlt_asymm h h)
      · rw [hgx]
        have h1 := N.lo z hz'
        have h2 := hfirst z hz'
        constructor
        · intro h
          rcases hs.1 z hz' with h' | h'
          · exact h'
          · have := h2.mpr h'; omega
        · intro h
          have : rd G (idx12 n0 z) ≠ name' := fun he => tlt_not_eq h (h2.mp he)
          omega
      · rw [hgx]
        have h1 := N.lo y hy'
        constructor
        · intro h; omega
        · intro h
          exfalso
          rcases hs.1 y hy' with h' | h'
          · exact tlt_asymm h h'
          · exact tlt_not_eq h h'.symm
      · exact N.lt y hy' z hz'
    · have := N.le_len
      simp only [List.length_cons]
      omega
    · intro hM i y hi
      have := N.le_len
      simp only [List.length_cons] at hM
      cases i with
      | zero =>
        simp only [List.getElem?_cons_zero, Option.some.injEq] at hi
        subst hi
        rw [hgx]; omega
      | succ i =>
        simp only [List.getElem?_cons_succ] at hi
        have := N.full (by omega) i y hi
        omega

/-! ### Writing ranks and their inverse -/

theorem storeNames_spec (xs : List Nat) : ∀ (i : Nat) (s12 : List Nat), xs.Nodup → (∀ x ∈ xs, x < s12.length) →
    (∀ (j x : Nat), xs[j]? = some x → rd (storeNames xs i s12) x = i + j + 1) ∧
    (∀ q, q ∉ xs → rd (storeNames xs i s12) q = rd s12 q) := by
  induction xs with
  | nil => intro i s12 _ _; simp [storeNames]
  | cons x xs ih =>
    intro i s12 hnd hl
    rw [List.nodup_cons] at hnd
    obtain ⟨h1, h2⟩ := ih (i + 1) (s12.set x (i + 1)) hnd.2 (by
      intro y hy; rw [List.length_set]; exact hl y (by simp [hy]))
    simp only [storeNames]
    constructor
    · intro j y hj
      cases j with
      | zero =>
        simp only [List.getElem?_cons_zero, Option.some.injEq] at hj
        subst hj
        rw [h2 _ hnd.1, rd_set, if_pos ⟨rfl, hl _ (by simp)⟩]
      | succ j =>
        simp only [List.getElem?_cons_succ] at hj
        rw [h1 j y hj]; omega
    · intro q hq
      simp only [List.mem_cons, not_or] at hq
      rw [h2 q hq.2, rd_set, if_neg (by simp [Ne.symm hq.1])]

theorem invertNames_spec (xs : List Nat) : ∀ (i : Nat) (sa : List Nat), (xs.map (· - 1)).Nodup → (∀ x ∈ xs, x - 1 < sa.length) →
    (invertNames xs i sa).length = sa.length ∧
    (∀ (j x : Nat), xs[j]? = some x → (invertNames xs i sa)[x - 1]? = some (i + j)) ∧
    (∀ q, q ∉ xs.map (· - 1) → (invertNames xs i sa)[q]? = sa[q]?) := by
  induction xs with
  | nil => intro i sa _ _; simp [invertNames]
  | cons x xs ih =>
    intro i sa hnd hl
    rw [List.map_cons, List.nodup_cons] at hnd
    obtain ⟨h0, h1, h2⟩ := ih (i + 1) (sa.set (x - 1) i) hnd.2 (by
      intro y hy; rw [List.length_set]; exact hl y (by simp [hy]))
    simp only [invertNames]
    refine ⟨by rw [h0, List.length_set], ?_, ?_⟩
    · intro j y hj
      cases j with
      | zero =>
        simp only [List.getElem?_cons_zero, Option.some.injEq] at hj
        subst hj
        rw [h2 _ hnd.1, List.getElem?_set_self (hl _ (by simp))]; rfl
      | succ j =>
        simp only [List.getElem?_cons_succ] at hj
        rw [h1 j y hj]; congr 1; omega
    · intro q hq
      simp only [List.map_cons, List.mem_cons, not_or] at hq
      rw [h2 q hq.2, List.getElem?_set_ne (Ne.symm hq.1)]

/-! ### Merging -/

theorem mergeSA_spec (f : Nat → Nat) (s s12 SA12 SA0 : List Nat) (n0 n02 : Nat) (h12 : n02 ≤ SA12.length) (h0 : n0 ≤ SA0.length) :
    ∀ (m p t : Nat), t < n02 → p < n0 → m = (n0 - p) + (n02 - t) →
    (((SA12.take n02).drop t).map (pos12 n0)).Pairwise (SLt f) → ((SA0.take n0).drop p).Pairwise (SLt f) →
    (∀ x ∈ (SA12.take n02).drop t, ∀ j ∈ (SA0.take n0).drop p,
      (sfxLe s s12 n0 x j = true → SLt f (pos12 n0 x) j) ∧ (sfxLe s s12 n0 x j = false → SLt f j (pos12 n0 x))) →
    (mergeSA s s12 SA12 SA0 n0 n02 m p t).Perm (((SA12.take n02).drop t).map (pos12 n0) ++ (SA0.take n0).drop p) ∧
    (mergeSA s s12 SA12 SA0 n0 n02 m p t).Pairwise (SLt f) := by
  intro m
  induction m with
  | zero => intro p t ht hp hm; omega
  | succ m ih =>
    intro p t ht hp hm hpa hpb hc
    have ha : (SA12.take n02).drop t = rd SA12 t :: (SA12.take n02).drop (t + 1) := by
      rw [List.drop_eq_getElem_cons (by simp; omega)]
      congr 1
      have : SA12[t]? = some (SA12[t]'(by omega)) := List.getElem?_eq_getElem (by omega)
      rw [rd_eq this, List.getElem_take]
    have hb : (SA0.take n0).drop p = rd SA0 p :: (SA0.take n0).drop (p + 1) := by
      rw [List.drop_eq_getElem_cons (by simp; omega)]
      congr 1
      have : SA0[p]? = some (SA0[p]'(by omega)) := List.getElem?_eq_getElem (by omega)
      rw [rd_eq this, List.getElem_take]
    have hpa' := hpa
    have hpb' := hpb
    rw [ha, List.map_cons, List.pairwise_cons] at hpa'
    rw [hb, List.pairwise_cons] at hpb'
    have hc0 := hc (rd SA12 t) (by rw [ha]; simp) (rd SA0 p) (by rw [hb]; simp)
    rw [mergeSA]
    cases hle : sfxLe s s12 n0 (rd SA12 t) (rd SA0 p) with
    | true =>
      have hlt := hc0.1 hle
      have hallb : ∀ y ∈ (SA0.take n0).drop p, SLt f (pos12 n0 (rd SA12 t)) y := by
        intro y hy
        rw [hb] at hy
        rcases List.mem_cons.mp hy with rfl | hy
        · exact hlt
        · exact slt_trans hlt (hpb'.1 y hy)
      rw [if_pos rfl]
      by_cases hlast : t + 1 = n02
      · rw [if_pos hlast]
        have hnil : (SA12.take n02).drop (t + 1) = [] := by
          apply List.drop_eq_nil_of_le; simp; omega
        rw [ha, hnil]
        refine ⟨by simp, ?_⟩
        rw [List.pairwise_cons]
        exact ⟨hallb, hpb⟩
      · rw [if_neg hlast]
        obtain ⟨i1, i2⟩ := ih p (t + 1) (by omega) hp (by omega) hpa'.2 hpb (by
          intro x hx j hj
          exact hc x (by rw [ha]; simp [hx]) j hj)
        rw [ha]
        refine ⟨by simpa using i1, ?_⟩
        rw [List.pairwise_cons]
        refine ⟨?_, i2⟩
        intro y hy
        rcases List.mem_append.mp (i1.mem_iff.mp hy) with hy | hy
        · exact hpa'.1 y hy
        · exact hallb y hy
    | false =>
      have hlt := hc0.2 hle
      have halla : ∀ y ∈ ((SA12.take n02).drop t).map (pos12 n0), SLt f (rd SA0 p) y := by
        intro y hy
        rw [ha, List.map_cons] at hy
        rcases List.mem_cons.mp hy with rfl | hy
        · exact hlt
        · exact slt_trans hlt (hpa'.1 y hy)
      rw [if_neg (by simp)]
      by_cases hlast : p + 1 = n0
      · rw [if_pos hlast]
        have hnil : (SA0.take n0).drop (p + 1) = [] := by
          apply List.drop_eq_nil_of_le; simp; omega
        rw [hb, hnil]
        constructor
        · exact (List.perm_append_singleton _ _).symm
        · rw [List.pairwise_cons]
          exact ⟨halla, hpa⟩
      · rw [if_neg hlast]
        obtain ⟨i1, i2⟩ := ih (p + 1) t ht (by omega) (by omega) hpa hpb'.2 (by
          intro x hx j hj
          exact hc x hx j (by rw [hb]; simp [hj]))
        constructor
        · rw [hb]
          exact (i1.cons _).trans List.perm_middle.symm
        · rw [List.pairwise_cons]
          refine ⟨?_, i2⟩
          intro y hy
          rcases List.mem_append.mp (i1.mem_iff.mp hy) with hy | hy
          · exact halla y hy
          · exact hpb'.1 y hy

end CollateX
