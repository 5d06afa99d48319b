import Verif.Proofs.TokenIndexOK
import Verif.Model.Block
/-
Blocks with all occurrences of their text.
-/

namespace CollateX

/-- The length of every interval is one of the LCP values in it. -/
theorem splitLoop_attained (f : Nat → Nat) (vs : List Nat) : ∀ (idx prev : Nat) (opn : List (Nat × Nat)) (closed : List Block)
    (r : List (Nat × Nat) × List Block), 1 ≤ idx → (∀ (k v : Nat), vs[k]? = some v → f (idx + k) = v) →
    (∀ p ∈ opn, ∃ i, p.1 < i ∧ i < idx ∧ f i = p.2) →
    (∀ b ∈ closed, ∃ i, b.start < i ∧ i ≤ b.stop ∧ b.stop < idx ∧ f i = b.length) →
    splitLoop idx vs prev opn closed = .ok r →
    (∀ p ∈ r.1, ∃ i, p.1 < i ∧ i < idx + vs.length ∧ f i = p.2) ∧
      ∀ b ∈ r.2, ∃ i, b.start < i ∧ i ≤ b.stop ∧ f i = b.length := by
  induction vs with
  | nil =>
    intro idx prev opn closed r _ _ ho hc h
    simp only [splitLoop, Except.ok.injEq] at h
    subst h
    refine ⟨?_, ?_⟩
    · intro p hp
      obtain ⟨i, h1, h2, h3⟩ := ho p hp
      exact ⟨i, h1, by simpa using h2, h3⟩
    · intro b hb
      obtain ⟨i, h1, h2, _, h3⟩ := hc b hb
      exact ⟨i, h1, h2, h3⟩
  | cons v vs ih =>
    intro idx prev opn closed r hidx hf ho hc h
    have hv : f idx = v := by simpa using hf 0 v rfl
    have hf' : ∀ (k w : Nat), vs[k]? = some w → f (idx + 1 + k) = w := by
      intro k w hk
      have := hf (k + 1) w (by simpa using hk)
      rw [← this]
      congr 1
      omega
    have ho' : ∀ p ∈ opn, ∃ i, p.1 < i ∧ i < idx + 1 ∧ f i = p.2 := by
      intro p hp
      obtain ⟨i, h1, h2, h3⟩ := ho p hp
      exact ⟨i, h1, by omega, h3⟩
    have hc' : ∀ b ∈ closed, ∃ i, b.start < i ∧ i ≤ b.stop ∧ b.stop < idx + 1 ∧ f i = b.length := by
      intro b hb
      obtain ⟨i, h1, h2, h3, h4⟩ := hc b hb
      exact ⟨i, h1, h2, by omega, h4⟩
    have hlen : idx + (v :: vs).length = idx + 1 + vs.length := by simp only [List.length_cons]; omega
    rw [hlen]
    simp only [splitLoop] at h
    split at h
    · refine ih (idx + 1) _ _ _ r (by omega) hf' ?_ hc' h
      intro p hp
      rcases List.mem_cons.mp hp with rfl | hp
      · exact ⟨idx, by simp only; omega, by omega, hv⟩
      · exact ho' p hp
    · split at h
      · rw [closeLoop_eq] at h
        have ho2 : ∀ p ∈ opn.dropWhile (fun p => decide (p.2 > v)), ∃ i, p.1 < i ∧ i < idx + 1 ∧ f i = p.2 :=
          fun p hp => ho' p ((List.dropWhile_sublist _).mem hp)
        have hc2 : ∀ b ∈ closed ++ (opn.takeWhile (fun p => decide (p.2 > v))).map (fun p => (⟨p.1, idx - 1, p.2⟩ : Block)),
            ∃ i, b.start < i ∧ i ≤ b.stop ∧ b.stop < idx + 1 ∧ f i = b.length := by
          intro b hb
          rcases List.mem_append.mp hb with hb | hb
          · exact hc' b hb
          · obtain ⟨p, hp, rfl⟩ := List.mem_map.mp hb
            obtain ⟨i, h1, h2, h3⟩ := ho p ((List.takeWhile_sublist _).mem hp)
            exact ⟨i, h1, by simp only; omega, by simp only; omega, h3⟩
        split at h
        · split at h
          · rename_i b hb
            refine ih (idx + 1) _ _ _ r (by omega) hf' ?_ hc2 h
            intro p hp
            rcases List.mem_cons.mp hp with rfl | hp
            · obtain ⟨i, h1, h2, h3, _⟩ := hc2 b (List.mem_of_getLast? hb)
              exact ⟨idx, by simp only; omega, by omega, hv⟩
            · exact ho2 p hp
          · cases h
        · exact ih (idx + 1) _ _ _ r (by omega) hf' ho2 hc2 h
      · exact ih (idx + 1) _ _ _ r (by omega) hf' ho' hc' h

theorem splitLcp_attained {lcp : List Nat} (h0 : rd lcp 0 = 0) {bs : List Block} (h : splitLcp lcp = .ok bs) :
    ∀ b ∈ bs, ∃ i, b.start < i ∧ i ≤ b.stop ∧ rd lcp i = b.length := by
  cases lcp with
  | nil =>
    have : bs = [] := by
      have : splitLcp [] = .ok [] := rfl
      rw [this] at h
      exact (Except.ok.inj h).symm
    subst this
    simp
  | cons v vs =>
    have hv : v = 0 := h0
    subst hv
    unfold splitLcp at h
    have h1 : splitLoop 0 (0 :: vs) 0 [] [] = splitLoop 1 vs 0 [] [] := rfl
    rw [h1] at h
    obtain ⟨r, hr, h⟩ := bind_eq_ok.mp h
    obtain ⟨g1, g2⟩ := splitLoop_attained (rd (0 :: vs)) vs 1 0 [] [] r (Nat.le_refl _)
      (by
        intro k v hk
        apply rd_eq
        rw [Nat.add_comm]; simpa using hk) (by simp) (by simp) hr
    obtain rfl := Except.ok.inj h
    intro b hb
    rcases List.mem_append.mp hb with hb | hb
    · exact g2 b hb
    · obtain ⟨p, hp, rfl⟩ := List.mem_map.mp hb
      obtain ⟨i, i1, i2, i3⟩ := g1 p (by simpa using (List.mem_filter.mp hp).1)
      exact ⟨i, i1, by simp only [List.length_cons]; omega, i3⟩

/-- Among the positions with a property there is a first and a last one. -/
theorem exists_first_last {P : Nat → Prop} {n i : Nat} (hi : P i) (hn : ∀ j, P j → j < n) :
    ∃ a b, P a ∧ P b ∧ ∀ j, P j → a ≤ j ∧ j ≤ b := by
  classical
  have hex : ∃ j, P j := ⟨i, hi⟩
  have hex2 : ∃ k, P (n - 1 - k) := ⟨n - 1 - i, by have := hn i hi; rw [show n - 1 - (n - 1 - i) = i by omega]; exact hi⟩
  refine ⟨Nat.find hex, n - 1 - Nat.find hex2, Nat.find_spec hex, Nat.find_spec hex2, fun j hj => ⟨Nat.find_min' hex hj, ?_⟩⟩
  have := hn j hj
  have := Nat.find_min' hex2 (m := n - 1 - j) (by rw [show n - 1 - (n - 1 - j) = j by omega]; exact hj)
  omega

/-- For every block there is one of the same text with all its occurrences. -/
theorem allOccs (strings : List Str) {bs : List Block} (h : splitLcp (mkSuffixArray strings).LCP = .ok bs) :
    ∀ b ∈ bs, ∃ b' ∈ bs, b'.length = b.length ∧ (∀ p ∈ b.occs (mkSuffixArray strings).SA, p ∈ b'.occs (mkSuffixArray strings).SA) ∧
      ∀ p ∈ b.occs (mkSuffixArray strings).SA, ∀ q, q + b.length ≤ strings.length →
        (∀ i < b.length, strings[p + i]? = strings[q + i]?) → q ∈ b'.occs (mkSuffixArray strings).SA := by
  intro b hb
  obtain ⟨bs', h1, h2, h3⟩ := splitLcp_ok (mkSuffixArray strings).LCP (lcpArray_zero _ _)
  rw [h] at h1
  obtain rfl := Except.ok.inj h1
  have hatt := splitLcp_attained (lcpArray_zero _ _) h b hb
  obtain ⟨b1, b2, b3, b4⟩ := h2 b hb
  have hlen2 : 2 ≤ strings.length := by
    by_contra hc
    have hsl : (mkSuffixArray strings).LCP.length = (mkSuffixArray strings).SA.length := lcpArray_length _ _
    match strings, hc with
    | [], _ =>
      have : (mkSuffixArray []).SA.length ≤ 1 := by decide +kernel
      omega
    | [x], _ =>
      obtain ⟨p, hp⟩ := mkSuffixArray_one x
      rw [hp] at hsl
      simp only [List.length_singleton] at hsl
      omega
    | _ :: _ :: _, hc => simp only [List.length_cons] at hc; omega
  have F := saFacts strings hlen2
  obtain ⟨bs', g1, G⟩ := blockFacts strings (by intro h0; rw [h0] at hlen2; simp at hlen2)
  rw [h] at g1
  obtain rfl := Except.ok.inj g1
  set SA := (mkSuffixArray strings).SA
  set LCP := (mkSuffixArray strings).LCP
  rw [F.len] at b3
  let P : Nat → Prop := fun j => j < SA.length ∧ Share (numbered strings) (rd SA b.start) (rd SA j) b.length
  have hP : ∀ j, b.start ≤ j → j ≤ b.stop → P j := by
    intro j j1 j2
    exact ⟨by omega, F.share_of_le b.length (j - b.start) b.start j (by omega) (by omega) (fun k h7 h8 => b4 k (by omega) (by omega))⟩
  obtain ⟨x, y, hx, hy, hxy⟩ := exists_first_last (P := P) (n := SA.length) (hP b.start (Nat.le_refl _) (by omega)) (fun j hj => hj.1)
  have hx1 := hxy b.start (hP _ (Nat.le_refl _) (by omega))
  have hy1 := hxy b.stop (hP _ (by omega) (Nat.le_refl _))
  have hsh : Share (numbered strings) (rd SA x) (rd SA y) b.length := hx.2.symm.trans hy.2
  obtain ⟨i, i1, i2, i3⟩ := hatt
  obtain ⟨c, hc, c1, c2, c3⟩ := h3 x y b.length (by omega) (by rw [F.len]; exact hy.1)
    ⟨F.le_of_share hy.1 hsh, i, by omega, by omega, i3⟩ b1
  have hmem : ∀ j, P j → rd SA j ∈ c.occs SA := by
    intro j hj
    have := hxy j hj
    exact mem_occs.mpr ⟨j, by omega, by omega, SAFacts.rd_eq' hj.1⟩
  refine ⟨c, hc, c1, ?_, ?_⟩
  · intro p hp
    obtain ⟨j, j1, j2, j3⟩ := mem_occs.mp hp
    rw [← rd_eq j3]
    exact hmem j (hP j j1 j2)
  · intro p hp q hq hall
    obtain ⟨j, j1, j2, j3⟩ := mem_occs.mp hp
    have hj := (hP j j1 j2).2
    rw [rd_eq j3] at hj
    obtain ⟨k, hk⟩ := List.getElem?_of_mem (F.perm.mem_iff.mpr (List.mem_range.mpr (show q < strings.length by omega)))
    rw [← rd_eq hk]
    refine hmem k ⟨(List.getElem?_eq_some_iff.mp hk).1, hj.trans ?_⟩
    rw [rd_eq hk]
    exact (share_iff (G.inside b hb p hp) hq).mpr hall

/-! ### The set of sigla -/

theorem sigilSet_ok (arr : List Token) : ∀ (ps : List Nat) (acc : List Str), acc.Nodup →
    (∀ p ∈ ps, ∃ t σ, arr[p]? = some t ∧ dget t.data .sigil = some (.str σ)) →
    ∃ ss, sigilSet arr ps acc = .ok ss ∧ ss.Nodup ∧
      ∀ σ, σ ∈ ss ↔ σ ∈ acc ∨ ∃ p ∈ ps, ∃ t, arr[p]? = some t ∧ dget t.data .sigil = some (.str σ)
  | [], acc, nd, _ => ⟨acc, rfl, nd, by simp⟩
  | p :: ps, acc, nd, h => by
    obtain ⟨t, σ, h1, h2⟩ := h p (by simp)
    have hs : instSigil arr p = .ok σ := by
      unfold instSigil
      rw [lgetE_eq_ok.mpr h1, bind_ok, h2]
    obtain ⟨ss, g1, g2, g3⟩ := sigilSet_ok arr ps (if σ ∈ acc then acc else acc ++ [σ]) (by
      split
      · exact nd
      · rename_i hn
        rw [List.nodup_append]
        refine ⟨nd, by simp, ?_⟩
        intro a ha b hb
        simp only [List.mem_singleton] at hb
        subst hb
        rintro rfl
        exact hn ha) (fun q hq => h q (by simp [hq]))
    refine ⟨ss, ?_, g2, ?_⟩
    · rw [sigilSet, hs, bind_ok, g1]
    · intro τ
      rw [g3]
      constructor
      · rintro (h3 | ⟨q, hq, hτ⟩)
        · split at h3
          · exact Or.inl h3
          · rcases List.mem_append.mp h3 with h3 | h3
            · exact Or.inl h3
            · simp only [List.mem_singleton] at h3
              subst h3
              exact Or.inr ⟨p, by simp, t, h1, h2⟩
        · exact Or.inr ⟨q, by simp [hq], hτ⟩
      · rintro (h3 | ⟨q, hq, t', h4, h5⟩)
        · left
          split
          · exact h3
          · exact List.mem_append_left _ h3
        · rcases List.mem_cons.mp hq with rfl | hq
          · left
            rw [h1] at h4
            obtain rfl := Option.some.inj h4
            rw [h2] at h5
            simp only [Option.some.injEq, JVal.str.injEq] at h5
            subst h5
            split
            · assumption
            · simp
          · exact Or.inr ⟨q, hq, t', h4, h5⟩

end CollateX
