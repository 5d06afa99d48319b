import Verif.Proofs.Skew
/-
The skew algorithm sorts the suffixes: main theorem.
-/

namespace CollateX

theorem nodup_of_slt {f : Nat → Nat} {l : List Nat} (h : l.Pairwise (SLt f)) : l.Nodup := by
  rw [List.nodup_iff_pairwise_ne]
  refine h.imp ?_
  rintro a b hab rfl
  exact slt_irrefl f a hab

/-! ### Suffixes of residue 1 and 2, and the sequence of names -/

/-- The positions of residue 1 and 2. -/
def list12 (n : Nat) : List Nat := (List.range (n + ((n + 2) / 3 - (n + 1) / 3))).filter (fun i => i % 3 ≠ 0)

theorem mem_list12 {n x : Nat} : x ∈ list12 n ↔ x % 3 ≠ 0 ∧ x ≤ n ∧ (x = n → n % 3 = 1) := by
  unfold list12
  simp only [List.mem_filter, List.mem_range, decide_eq_true_eq]
  omega

theorem idx12_lt {n x : Nat} (hx : x ∈ list12 n) : idx12 ((n + 2) / 3) x < (n + 2) / 3 + n / 3 := by
  rw [mem_list12] at hx
  unfold idx12
  split <;> omega

theorem pos12_mem {n q : Nat} (hq : q < (n + 2) / 3 + n / 3) : pos12 ((n + 2) / 3) q ∈ list12 n := by
  rw [mem_list12]
  unfold pos12
  split <;> omega

theorem pos12_idx12' {n x : Nat} (hx : x ∈ list12 n) : pos12 ((n + 2) / 3) (idx12 ((n + 2) / 3) x) = x := by
  rw [mem_list12] at hx
  exact pos12_idx12 _ _ hx.1 (by omega)

theorem list12_nodup (n : Nat) : (list12 n).Nodup := List.nodup_range.filter _

theorem idx12_inj {n x y : Nat} (hx : x ∈ list12 n) (hy : y ∈ list12 n)
    (h : idx12 ((n + 2) / 3) x = idx12 ((n + 2) / 3) y) : x = y := by
  rw [← pos12_idx12' hx, ← pos12_idx12' hy, h]

theorem idx12_perm {n : Nat} {T : List Nat} (hT : T.Perm (list12 n)) :
    (T.map (idx12 ((n + 2) / 3))).Perm (List.range ((n + 2) / 3 + n / 3)) := by
  refine (hT.map _).trans ?_
  rw [List.perm_ext_iff_of_nodup ?_ List.nodup_range]
  · intro q
    rw [List.mem_map, List.mem_range]
    constructor
    · rintro ⟨x, hx, rfl⟩; exact idx12_lt hx
    · intro hq; exact ⟨_, pos12_mem hq, idx12_pos12 _ _⟩
  · rw [List.nodup_iff_pairwise_ne, List.pairwise_map]
    refine (list12_nodup n).imp_of_mem ?_
    intro a b ha hb hab he
    exact hab (idx12_inj ha hb he)

theorem list12_length (n : Nat) : (list12 n).length = (n + 2) / 3 + n / 3 := by
  have := (idx12_perm (List.Perm.refl (list12 n))).length_eq
  simpa using this

theorem le_cases {n x : Nat} (h0 : x % 3 ≠ 0) (hx : x ≤ n) :
    x ∈ list12 n ∨ (x = n ∧ idx12 ((n + 2) / 3) x = (n + 2) / 3 + n / 3) := by
  rw [mem_list12]
  unfold idx12
  by_cases h : x = n
  · by_cases h1 : n % 3 = 1
    · left; omega
    · right
      refine ⟨h, ?_⟩
      rw [if_neg (by omega)]; omega
  · left; omega

/-- The sequence of names orders its suffixes as the text does. -/
theorem slt_names {f g : Nat → Nat} {n : Nat} (hf : Pad f n) (hg : Pad g ((n + 2) / 3 + n / 3))
    (hlt : ∀ x ∈ list12 n, ∀ y ∈ list12 n,
      g (idx12 ((n + 2) / 3) x) < g (idx12 ((n + 2) / 3) y) ↔ TLt f x y) :
    ∀ (d x y : Nat), n - x ≤ d → x % 3 ≠ 0 → y % 3 ≠ 0 → x ≤ n → y ≤ n → x ≠ y →
      (SLt g (idx12 ((n + 2) / 3) x) (idx12 ((n + 2) / 3) y) ↔ SLt f x y) := by
  intro d
  induction d with
  | zero =>
    intro x y hd hx0 hy0 hx hy hne
    have hxn : x = n := by omega
    have h2 : SLt f x y := by
      rw [slt_step]; left
      rw [hf.zero x (by omega)]
      exact hf.pos y (by omega)
    refine ⟨fun _ => h2, fun _ => ?_⟩
    have hy' : y ∈ list12 n := by rw [mem_list12]; omega
    rcases le_cases hx0 hx with h | ⟨_, h⟩
    · rw [slt_step]; left
      rw [hlt x h y hy']
      unfold TLt; left
      rw [hf.zero x (by omega)]
      exact hf.pos y (by omega)
    · rw [slt_step, h]; left
      rw [hg.zero _ (Nat.le_refl _)]
      exact hg.pos _ (idx12_lt hy')
  | succ d ih =>
    intro x y hd hx0 hy0 hx hy hne
    rcases le_cases hx0 hx with hx' | ⟨hxn, hxi⟩
    · rcases le_cases hy0 hy with hy' | ⟨hyn, hyi⟩
      · rw [slt_step g, slt_step3 f, hlt x hx' y hy']
        have heq : g (idx12 ((n + 2) / 3) x) = g (idx12 ((n + 2) / 3) y) ↔ tripleAt f x = tripleAt f y := by
          have h1 := hlt x hx' y hy'
          have h2 := hlt y hy' x hx'
          constructor
          · intro h
            rcases tlt_or_eq f x y with h3 | h3 | h3
            · have := h1.mpr h3; omega
            · exact h3
            · have := h2.mpr h3; omega
          · intro h
            rcases Nat.lt_trichotomy (g (idx12 ((n + 2) / 3) x)) (g (idx12 ((n + 2) / 3) y)) with h3 | h3 | h3
            · exact absurd h (tlt_not_eq (h1.mp h3))
            · exact h3
            · exact absurd h.symm (tlt_not_eq (h2.mp h3))
        rw [heq]
        by_cases ht : tripleAt f x = tripleAt f y
        · have hin := triple_inside hf hx hy hne ht
          rw [← idx12_add3, ← idx12_add3,
            ih (x + 3) (y + 3) (by omega) (by omega) (by omega) (by omega) (by omega) (by omega)]
        · simp [ht]
      · constructor
        · intro h
          rw [hyi] at h
          exact absurd h (not_slt_end hg _)
        · intro h
          rw [hyn] at h
          exact absurd h (not_slt_end hf _)
    · have hy' : y ∈ list12 n := by rw [mem_list12]; omega
      have h2 : SLt f x y := by
        rw [slt_step]; left
        rw [hf.zero x (by omega)]
        exact hf.pos y (by omega)
      refine ⟨fun _ => h2, fun _ => ?_⟩
      rw [slt_step, hxi]; left
      rw [hg.zero _ (Nat.le_refl _)]
      exact hg.pos _ (idx12_lt hy')

/-! ### The sorted sequence of residues 1 and 2 -/

/-- What is known after the recursive call (or the direct computation): `A` is the sorted sequence of names, and `R`
gives the rank (from 1) of each of its entries. -/
structure Ranked (f : Nat → Nat) (n : Nat) (A R : List Nat) : Prop where
  perm : A.Perm (List.range ((n + 2) / 3 + n / 3))
  sorted : (A.map (pos12 ((n + 2) / 3))).Pairwise (SLt f)
  rank : ∀ (i x : Nat), A[i]? = some x → rd R x = i + 1
  zero : ∀ q, (n + 2) / 3 + n / 3 ≤ q → rd R q = 0

theorem Ranked.mem {f : Nat → Nat} {n : Nat} {A R : List Nat} (h : Ranked f n A R) {x : Nat} (hx : x ∈ list12 n) :
    ∃ i : Nat, A[i]? = some (idx12 ((n + 2) / 3) x) := by
  have : idx12 ((n + 2) / 3) x ∈ A := h.perm.mem_iff.mpr (List.mem_range.mpr (idx12_lt hx))
  exact List.getElem?_of_mem this

/-- Ranks compare like suffixes. -/
theorem Ranked.lt {f : Nat → Nat} {n : Nat} {A R : List Nat} (h : Ranked f n A R) (hf : Pad f n) {x y : Nat} (hx0 : x % 3 ≠ 0)
    (hy0 : y % 3 ≠ 0) (hx : x ≤ n) (hy : y ≤ n) (hne : x ≠ y) :
    (rd R (idx12 ((n + 2) / 3) x) < rd R (idx12 ((n + 2) / 3) y) ↔ SLt f x y) ∧
      rd R (idx12 ((n + 2) / 3) x) ≠ rd R (idx12 ((n + 2) / 3) y) := by
  rcases le_cases hx0 hx with hx' | ⟨hxn, hxi⟩
  · rcases le_cases hy0 hy with hy' | ⟨hyn, hyi⟩
    · obtain ⟨i, hi⟩ := h.mem hx'
      obtain ⟨j, hj⟩ := h.mem hy'
      rw [h.rank i _ hi, h.rank j _ hj]
      have hij : i ≠ j := by
        rintro rfl
        rw [hi] at hj
        exact hne (idx12_inj hx' hy' (Option.some.inj hj))
      have hs := List.pairwise_iff_getElem.mp h.sorted
      have hi' := List.getElem?_eq_some_iff.mp hi
      have hj' := List.getElem?_eq_some_iff.mp hj
      have ex : pos12 ((n + 2) / 3) (A[i]'hi'.1) = x := by rw [hi'.2, pos12_idx12' hx']
      have ey : pos12 ((n + 2) / 3) (A[j]'hj'.1) = y := by rw [hj'.2, pos12_idx12' hy']
      refine ⟨?_, by omega⟩
      constructor
      · intro hlt
        have := hs i j (by simpa using hi'.1) (by simpa using hj'.1) (by omega)
        simpa only [List.getElem_map, ex, ey] using this
      · intro hlt
        by_contra hc
        have := hs j i (by simpa using hj'.1) (by simpa using hi'.1) (by omega)
        simp only [List.getElem_map, ex, ey] at this
        exact slt_asymm hlt this
    · obtain ⟨i, hi⟩ := h.mem hx'
      rw [h.rank i _ hi, hyi, h.zero _ (Nat.le_refl _)]
      refine ⟨⟨fun hc => by omega, fun hc => ?_⟩, by omega⟩
      rw [hyn] at hc
      exact absurd hc (not_slt_end hf _)
  · have hy' : y ∈ list12 n := by rw [mem_list12]; omega
    obtain ⟨j, hj⟩ := h.mem hy'
    rw [hxi, h.rank j _ hj, h.zero _ (Nat.le_refl _)]
    refine ⟨⟨fun _ => ?_, fun _ => by omega⟩, by omega⟩
    rw [slt_step]; left
    rw [hf.zero x (by omega)]
    exact hf.pos y (by omega)

/-- The merge's comparison. -/
theorem sfxLe_correct {s : List Nat} {n : Nat} {A R : List Nat} (h : Ranked (rd s) n A R) (hf : Pad (rd s) n) {x j : Nat}
    (hx : x < (n + 2) / 3 + n / 3) (hxn : pos12 ((n + 2) / 3) x ≠ n) (hj0 : j % 3 = 0) (hj : j < n) :
    (sfxLe s R ((n + 2) / 3) x j = true → SLt (rd s) (pos12 ((n + 2) / 3) x) j) ∧
    (sfxLe s R ((n + 2) / 3) x j = false → SLt (rd s) j (pos12 ((n + 2) / 3) x)) := by
  have hm := mem_list12.mp (pos12_mem hx)
  have hin : pos12 ((n + 2) / 3) x < n := by omega
  have hne : pos12 ((n + 2) / 3) x ≠ j := by rintro rfl; exact hm.1 hj0
  rw [slt_step (rd s) (pos12 ((n + 2) / 3) x) j, slt_step (rd s) j (pos12 ((n + 2) / 3) x)]
  by_cases hlt : x < (n + 2) / 3
  · have hp : pos12 ((n + 2) / 3) x = x * 3 + 1 := by unfold pos12; rw [if_pos hlt]
    have e1 : idx12 ((n + 2) / 3) (pos12 ((n + 2) / 3) x + 1) = x + (n + 2) / 3 := by
      rw [hp]; unfold idx12; rw [if_neg (by omega)]; omega
    have e2 : idx12 ((n + 2) / 3) (j + 1) = j / 3 := by unfold idx12; rw [if_pos (by omega)]; omega
    have hr := h.lt hf (x := pos12 ((n + 2) / 3) x + 1) (y := j + 1) (by omega) (by omega) (by omega) (by omega) (by omega)
    have hr' := h.lt hf (x := j + 1) (y := pos12 ((n + 2) / 3) x + 1) (by omega) (by omega) (by omega) (by omega) (by omega)
    rw [e1, e2] at hr hr'
    unfold sfxLe
    rw [if_pos hlt]
    unfold le2
    simp only [Bool.or_eq_true, decide_eq_true_eq, Bool.and_eq_true, beq_iff_eq, Bool.or_eq_false_iff,
      decide_eq_false_iff_not, Bool.and_eq_false_iff, beq_eq_false_iff_ne]
    constructor
    · rintro (h1 | ⟨h1, h2⟩)
      · exact Or.inl h1
      · exact Or.inr ⟨h1, hr.1.mp (by have := hr.2; omega)⟩
    · rintro ⟨h1, h2⟩
      by_cases h3 : rd s (pos12 ((n + 2) / 3) x) = rd s j
      · right
        refine ⟨h3.symm, hr'.1.mp ?_⟩
        rcases h2 with h2 | h2
        · exact absurd h3 h2
        · omega
      · left; omega
  · have hp : pos12 ((n + 2) / 3) x = (x - (n + 2) / 3) * 3 + 2 := by unfold pos12; rw [if_neg hlt]
    have e1 : idx12 ((n + 2) / 3) (pos12 ((n + 2) / 3) x + 1 + 1) = x - (n + 2) / 3 + 1 := by
      rw [hp]; unfold idx12; rw [if_pos (by omega)]; omega
    have e2 : idx12 ((n + 2) / 3) (j + 1 + 1) = j / 3 + (n + 2) / 3 := by
      unfold idx12; rw [if_neg (by omega)]; omega
    have hr : rd s (pos12 ((n + 2) / 3) x + 1) = rd s (j + 1) → _ ∧ _ := fun he => by
      have hz : ∀ a, rd s a = 0 ↔ n ≤ a := by
        intro a
        constructor
        · intro ha
          by_contra hc
          have := hf.pos a (by omega)
          omega
        · exact hf.zero a
      have z1 := hz (pos12 ((n + 2) / 3) x + 1)
      have z2 := hz (j + 1)
      exact And.intro
        (h.lt hf (x := pos12 ((n + 2) / 3) x + 1 + 1) (y := j + 1 + 1) (by omega) (by omega) (by omega) (by omega) (by omega))
        (h.lt hf (x := j + 1 + 1) (y := pos12 ((n + 2) / 3) x + 1 + 1) (by omega) (by omega) (by omega) (by omega) (by omega))
    rw [e1, e2] at hr
    rw [slt_step (rd s) (pos12 ((n + 2) / 3) x + 1) (j + 1), slt_step (rd s) (j + 1) (pos12 ((n + 2) / 3) x + 1)]
    unfold sfxLe
    rw [if_neg hlt]
    unfold le3 le2
    simp only [Bool.or_eq_true, decide_eq_true_eq, Bool.and_eq_true, beq_iff_eq, Bool.or_eq_false_iff,
      decide_eq_false_iff_not, Bool.and_eq_false_iff, beq_eq_false_iff_ne]
    constructor
    · rintro (h1 | ⟨h1, h2 | ⟨h2, h3⟩⟩)
      · exact Or.inl h1
      · exact Or.inr ⟨h1, Or.inl h2⟩
      · obtain ⟨h4, _⟩ := hr h2
        exact Or.inr ⟨h1, Or.inr ⟨h2, h4.1.mp (by have := h4.2; omega)⟩⟩
    · rintro ⟨h1, h2⟩
      by_cases h3 : rd s (pos12 ((n + 2) / 3) x) = rd s j
      · right
        refine ⟨h3.symm, ?_⟩
        rcases h2 with h2 | ⟨h2, h4⟩
        · exact absurd h3 h2
        · by_cases h5 : rd s (pos12 ((n + 2) / 3) x + 1) = rd s (j + 1)
          · right
            refine ⟨h5.symm, ?_⟩
            obtain ⟨_, h6⟩ := hr h5
            refine h6.1.mp ?_
            rcases h4 with h4 | h4
            · exact absurd h5 h4
            · omega
          · left; omega
      · left; omega

/-- The last part of the algorithm. -/
theorem skew_tail {s : List Nat} {n K : Nat} (hn : 2 ≤ n) (hf : Pad (rd s) n) (hK : ∀ i, rd s i ≤ K) {SA12 R : List Nat}
    (hlen : (n + 2) / 3 + n / 3 ≤ SA12.length) (h : Ranked (rd s) n (SA12.take ((n + 2) / 3 + n / 3)) R) :
    (mergeSA s R SA12 (radixPass (((SA12.take ((n + 2) / 3 + n / 3)).filter (fun x => x < (n + 2) / 3)).map (fun x => 3 * x))
      (List.replicate ((n + 2) / 3) 0) s ((n + 2) / 3) K) ((n + 2) / 3) ((n + 2) / 3 + n / 3) n 0
        ((n + 2) / 3 - (n + 1) / 3)).Perm (List.range n) ∧
    (mergeSA s R SA12 (radixPass (((SA12.take ((n + 2) / 3 + n / 3)).filter (fun x => x < (n + 2) / 3)).map (fun x => 3 * x))
      (List.replicate ((n + 2) / 3) 0) s ((n + 2) / 3) K) ((n + 2) / 3) ((n + 2) / 3 + n / 3) n 0
        ((n + 2) / 3 - (n + 1) / 3)).Pairwise (SLt (rd s)) := by
  set n0 := (n + 2) / 3 with hn0
  set n02 := n0 + n / 3 with hn02
  set A := SA12.take n02 with hA
  set s0 := (A.filter (fun x => x < n0)).map (fun x => 3 * x) with hs0
  -- the residue 0 suffixes
  have hs0p : s0.Perm ((List.range n0).map (fun x => 3 * x)) := by
    apply List.Perm.map
    refine (h.perm.filter _).trans ?_
    rw [List.perm_ext_iff_of_nodup (List.nodup_range.filter _) List.nodup_range]
    intro a
    simp only [List.mem_filter, List.mem_range, decide_eq_true_eq]
    omega
  have hs0l : s0.length = n0 := by rw [hs0p.length_eq]; simp
  have hs0s : s0.Pairwise (fun u v => SLt (rd s) (u + 1) (v + 1)) := by
    rw [hs0, List.pairwise_map]
    have hA' := h.sorted
    rw [List.pairwise_map] at hA'
    refine (hA'.filter _).imp_of_mem ?_
    intro a b ha hb hab
    simp only [List.mem_filter, decide_eq_true_eq] at ha hb
    unfold pos12 at hab
    rw [if_pos ha.2, if_pos hb.2] at hab
    rw [Nat.mul_comm 3 a, Nat.mul_comm 3 b]
    exact hab
  have hSA0 : radixPass s0 (List.replicate n0 0) s n0 K = bucketSort (rd s) K s0 := by
    rw [radixPass_eq _ _ _ _ _ (by omega) (by simp) (fun x _ => hK x), List.take_of_length_le (by omega)]
    simp
  rw [hSA0]
  have hB : (bucketSort (rd s) K s0).Perm s0 := bucketSort_perm _ _ _ (fun x _ => hK x)
  have hBs : (bucketSort (rd s) K s0).Pairwise (SLt (rd s)) := by
    refine (bucketSort_pairwise (rd s) K s0 hs0s).imp ?_
    intro a b hab
    rw [slt_step]; exact hab
  have hBl : (bucketSort (rd s) K s0).length = n0 := by rw [hB.length_eq, hs0l]
  have hBm : ∀ j, j ∈ bucketSort (rd s) K s0 ↔ j % 3 = 0 ∧ j < n := by
    intro j
    rw [hB.mem_iff, hs0p.mem_iff, List.mem_map]
    simp only [List.mem_range]
    constructor
    · rintro ⟨x, hx, rfl⟩; omega
    · intro hj; exact ⟨j / 3, by omega, by omega⟩
  -- the residue 1 and 2 suffixes
  have hAl : A.length = n02 := by rw [h.perm.length_eq, List.length_range]
  have hAm : ∀ i, i ∈ A.map (pos12 n0) ↔ i ∈ list12 n := by
    intro i
    rw [List.mem_map]
    constructor
    · rintro ⟨x, hx, rfl⟩; exact pos12_mem (List.mem_range.mp (h.perm.mem_iff.mp hx))
    · intro hi
      exact ⟨idx12 n0 i, h.perm.mem_iff.mpr (List.mem_range.mpr (idx12_lt hi)), pos12_idx12' hi⟩
  have hAnd : (A.map (pos12 n0)).Nodup := nodup_of_slt h.sorted
  have hdrop : ∀ i, i ∈ (A.drop (n0 - (n + 1) / 3)).map (pos12 n0) ↔ i % 3 ≠ 0 ∧ i < n := by
    intro i
    by_cases hmod : n % 3 = 1
    · have e : n0 - (n + 1) / 3 = 1 := by omega
      rw [e]
      have hmn : n ∈ A.map (pos12 n0) := by rw [hAm, mem_list12]; omega
      rw [List.map_drop]
      have hso := h.sorted
      cases hAA : A.map (pos12 n0) with
      | nil => rw [hAA] at hmn; simp at hmn
      | cons a as =>
        rw [hAA] at hmn hso hAnd
        rw [List.pairwise_cons] at hso
        rw [List.nodup_cons] at hAnd
        have han : a = n := by
          rcases List.mem_cons.mp hmn with h1 | h1
          · exact h1.symm
          · exact absurd (hso.1 n h1) (not_slt_end hf _)
        have := hAm i
        rw [hAA, mem_list12, List.mem_cons] at this
        simp only [List.drop_succ_cons, List.drop_zero]
        constructor
        · intro hi
          have h1 := this.mp (Or.inr hi)
          refine ⟨h1.1, ?_⟩
          have : i ≠ n := by rintro rfl; rw [han] at hAnd; exact hAnd.1 hi
          omega
        · intro hi
          rcases this.mpr (by omega) with h1 | h1
          · omega
          · exact h1
    · have e : n0 - (n + 1) / 3 = 0 := by omega
      rw [e, List.drop_zero, hAm, mem_list12]
      omega
  have hBt : (bucketSort (rd s) K s0).take n0 = bucketSort (rd s) K s0 := List.take_of_length_le (by omega)
  obtain ⟨m1, m2⟩ := mergeSA_spec (rd s) s R SA12 (bucketSort (rd s) K s0) n0 n02 hlen (by omega) n 0 (n0 - (n + 1) / 3)
    (by omega) (by omega) (by omega)
    (by
      rw [← hA, List.map_drop]
      exact h.sorted.sublist (List.drop_sublist _ _))
    (by rw [hBt, List.drop_zero]; exact hBs)
    (by
      intro x hx j hj
      rw [hBt, List.drop_zero] at hj
      rw [← hA] at hx
      have hj' := (hBm j).mp hj
      have hxm := (hdrop (pos12 n0 x)).mp (List.mem_map.mpr ⟨x, hx, rfl⟩)
      exact sfxLe_correct h hf (List.mem_range.mp (h.perm.mem_iff.mp (List.mem_of_mem_drop hx))) (by rw [← hn0]; omega) hj'.1 hj'.2)
  refine ⟨m1.trans ?_, m2⟩
  rw [hBt, List.drop_zero, ← hA]
  have hBnd : (bucketSort (rd s) K s0).Nodup := nodup_of_slt hBs
  rw [List.perm_ext_iff_of_nodup ?_ List.nodup_range]
  · intro i
    rw [List.mem_append, hdrop, hBm, List.mem_range]
    omega
  · rw [List.nodup_append]
    refine ⟨?_, hBnd, ?_⟩
    · rw [List.map_drop]; exact hAnd.sublist (List.drop_sublist _ _)
    · intro a ha b hb he
      subst he
      have h1 := (hdrop a).mp ha
      have h2 := (hBm a).mp hb
      exact h1.1 h2.1

/-! ### The first part -/

theorem rd_drop (s : List Nat) (k x : Nat) : rd (s.drop k) x = rd s (x + k) := by
  unfold rd
  simp only [List.getD_eq_getElem?_getD, List.getElem?_drop]
  rw [Nat.add_comm]

/-- Sorting the triples (three radix passes). -/
theorem skew_sort (s : List Nat) (n K : Nat) (hK : ∀ i, rd s i ≤ K) :
    ∃ B T : List Nat, T.Perm (list12 n) ∧ T.Pairwise (TLe (rd s)) ∧ B.length = (n + 2) / 3 + n / 3 ∧
      radixPass (radixPass (list12 n ++ [0, 0, 0]) (List.replicate ((n + 2) / 3 + n / 3 + 3) 0) (s.drop 2)
          ((n + 2) / 3 + n / 3) K) (list12 n ++ [0, 0, 0]) (s.drop 1) ((n + 2) / 3 + n / 3) K = B ++ [0, 0, 0] ∧
      radixPass (B ++ [0, 0, 0]) (radixPass (list12 n ++ [0, 0, 0]) (List.replicate ((n + 2) / 3 + n / 3 + 3) 0) (s.drop 2)
          ((n + 2) / 3 + n / 3) K) s ((n + 2) / 3 + n / 3) K = T ++ [0, 0, 0] := by
  set n02 := (n + 2) / 3 + n / 3 with hn02
  have hl : (list12 n).length = n02 := list12_length n
  have hKd : ∀ k (l : List Nat), ∀ x ∈ l, rd (s.drop k) x ≤ K := fun k l x _ => by rw [rd_drop]; exact hK _
  set B1 := bucketSort (rd (s.drop 2)) K (list12 n) with hB1
  set B2 := bucketSort (rd (s.drop 1)) K B1 with hB2
  set T := bucketSort (rd s) K B2 with hT
  have p1 : B1.Perm (list12 n) := bucketSort_perm _ _ _ (hKd 2 _)
  have p2 : B2.Perm B1 := bucketSort_perm _ _ _ (hKd 1 _)
  have p3 : T.Perm B2 := bucketSort_perm _ _ _ (fun x _ => hK x)
  have l1 : B1.length = n02 := by rw [p1.length_eq, hl]
  have l2 : B2.length = n02 := by rw [p2.length_eq, l1]
  have tk : ∀ L : List Nat, L.length = n02 → (L ++ [0, 0, 0]).take n02 = L := fun L hL => by
    rw [List.take_append_of_le_length (by omega), List.take_of_length_le (by omega)]
  have dr : ∀ L : List Nat, L.length = n02 → (L ++ [0, 0, 0]).drop n02 = [0, 0, 0] := fun L hL => by
    rw [List.drop_append_of_le_length (by omega), List.drop_of_length_le (by omega)]; rfl
  have e1 : radixPass (list12 n ++ [0, 0, 0]) (List.replicate (n02 + 3) 0) (s.drop 2) n02 K = B1 ++ [0, 0, 0] := by
    rw [radixPass_eq _ _ _ _ _ (by simp; omega) (by simp) (hKd 2 _), tk _ hl]
    congr 1
    rw [List.drop_replicate, Nat.add_sub_cancel_left]; rfl
  have e2 : radixPass (B1 ++ [0, 0, 0]) (list12 n ++ [0, 0, 0]) (s.drop 1) n02 K = B2 ++ [0, 0, 0] := by
    rw [radixPass_eq _ _ _ _ _ (by simp; omega) (by simp; omega) (hKd 1 _), tk _ l1, dr _ hl]
  have e3 : radixPass (B2 ++ [0, 0, 0]) (B1 ++ [0, 0, 0]) s n02 K = T ++ [0, 0, 0] := by
    rw [radixPass_eq _ _ _ _ _ (by simp; omega) (by simp; omega) (fun x _ => hK x), tk _ l2, dr _ l1]
  refine ⟨B2, T, p3.trans (p2.trans p1), ?_, l2, by rw [e1, e2], by rw [e1, e3]⟩
  have s0 : (list12 n).Pairwise (fun _ _ => True) := List.pairwise_iff_getElem.mpr (fun _ _ _ _ _ => trivial)
  have s1 := bucketSort_pairwise (rd (s.drop 2)) K _ s0
  have s2 := bucketSort_pairwise (rd (s.drop 1)) K _ s1
  have s3 := bucketSort_pairwise (rd s) K _ s2
  refine s3.imp ?_
  intro a b hab
  simp only [rd_drop] at hab
  unfold TLe TLt tripleAt
  simp only [Prod.mk.injEq]
  omega

theorem skew_succ (fuel : Nat) (s : List Nat) (n K : Nat) : skew (fuel + 1) s n K =
    (let SA12 := radixPass (list12 n ++ [0, 0, 0]) (List.replicate ((n + 2) / 3 + n / 3 + 3) 0) (s.drop 2)
      ((n + 2) / 3 + n / 3) K
    let s12 := radixPass SA12 (list12 n ++ [0, 0, 0]) (s.drop 1) ((n + 2) / 3 + n / 3) K
    let SA12 := radixPass s12 SA12 s ((n + 2) / 3 + n / 3) K
    let r := nameLoop s ((n + 2) / 3) (SA12.take ((n + 2) / 3 + n / 3)) none 0 s12
    let q :=
      if r.2 < (n + 2) / 3 + n / 3 then
        (skew fuel r.1 ((n + 2) / 3 + n / 3) (r.2 + 1) ++ SA12.drop ((n + 2) / 3 + n / 3),
          storeNames ((skew fuel r.1 ((n + 2) / 3 + n / 3) (r.2 + 1) ++ SA12.drop ((n + 2) / 3 + n / 3)).take
            ((n + 2) / 3 + n / 3)) 0 r.1)
      else (invertNames (r.1.take ((n + 2) / 3 + n / 3)) 0 SA12, r.1)
    mergeSA s q.2 q.1 (radixPass (((q.1.take ((n + 2) / 3 + n / 3)).filter (fun x => x < (n + 2) / 3)).map (fun x => 3 * x))
      (List.replicate ((n + 2) / 3) 0) s ((n + 2) / 3) K) ((n + 2) / 3) ((n + 2) / 3 + n / 3) n 0
        ((n + 2) / 3 - (n + 1) / 3)) := rfl

/-- The skew algorithm returns all positions, in increasing order of the suffixes. -/
theorem skew_ok (fuel : Nat) : ∀ (s : List Nat) (n K : Nat), n < fuel → 2 ≤ n → Pad (rd s) n → (∀ i, rd s i ≤ K) →
    (skew fuel s n K).Perm (List.range n) ∧ (skew fuel s n K).Pairwise (SLt (rd s)) := by
  induction fuel with
  | zero => intro s n K h; omega
  | succ fuel ih =>
    intro s n K hfuel hn hf hK
    obtain ⟨B, T, hTp, hTs, hBl, e2, e3⟩ := skew_sort s n K hK
    rw [skew_succ]
    simp only [e2, e3]
    set n02 := (n + 2) / 3 + n / 3 with hn02
    have hTl : T.length = n02 := by rw [hTp.length_eq, list12_length]
    have htk : (T ++ [0, 0, 0]).take n02 = T := by
      rw [List.take_append_of_le_length (by omega), List.take_of_length_le (by omega)]
    have hdr : (T ++ [0, 0, 0]).drop n02 = [0, 0, 0] := by
      rw [List.drop_append_of_le_length (by omega), List.drop_of_length_le (by omega)]; rfl
    rw [htk, hdr]
    have hidx := idx12_perm hTp
    have hidxnd : (T.map (idx12 ((n + 2) / 3))).Nodup := hidx.nodup_iff.mpr List.nodup_range
    have hTm : ∀ x, x ∈ T ↔ x ∈ list12 n := fun x => hTp.mem_iff
    have N := nameLoop_spec s ((n + 2) / 3) T none 0 (B ++ [0, 0, 0]) hTs hidxnd
      (by
        intro x hx
        have := idx12_lt ((hTm x).mp hx)
        simp only [List.length_append, List.length_cons, List.length_nil]
        omega)
      (Or.inl rfl)
    set g := (nameLoop s ((n + 2) / 3) T none 0 (B ++ [0, 0, 0])).1 with hg
    set name := (nameLoop s ((n + 2) / 3) T none 0 (B ++ [0, 0, 0])).2 with hname
    have hgl : g.length = n02 + 3 := by rw [N.len]; simp; omega
    have hgz : ∀ q, n02 ≤ q → rd g q = 0 := by
      intro q hq
      rw [N.other q (by
        intro hm
        have := List.mem_range.mp (hidx.mem_iff.mp hm)
        omega)]
      unfold rd
      rw [List.getD_eq_getElem?_getD, List.getElem?_append_right (by omega)]
      rcases hh : q - B.length with _ | _ | _ | k <;> simp
    have hgp : ∀ x ∈ list12 n, 1 ≤ rd g (idx12 ((n + 2) / 3) x) := by
      intro x hx
      have h1 := N.first x ((hTm x).mpr hx)
      by_contra hc
      have h2 : rd g (idx12 ((n + 2) / 3) x) = 0 := by omega
      exact absurd (h1.mp h2) (by simp)
    have hpad : Pad (rd g) n02 := by
      refine ⟨?_, hgz⟩
      intro q hq
      have := hgp _ (pos12_mem hq)
      rwa [idx12_pos12] at this
    have hslt := fun x y h1 h2 h3 h4 h5 => slt_names hf hpad
      (fun x hx y hy => N.lt x ((hTm x).mpr hx) y ((hTm y).mpr hy)) n x y (by omega) h1 h2 h3 h4 h5
    -- sortedness of the positions follows from that of the names
    have hsorted : ∀ A : List Nat, A.Perm (List.range n02) → A.Pairwise (SLt (rd g)) →
        (A.map (pos12 ((n + 2) / 3))).Pairwise (SLt (rd s)) := by
      intro A hA hAs
      rw [List.pairwise_map]
      refine hAs.imp_of_mem ?_
      intro a b ha hb hab
      have ha' := pos12_mem (List.mem_range.mp (hA.mem_iff.mp ha))
      have hb' := pos12_mem (List.mem_range.mp (hA.mem_iff.mp hb))
      have ha2 := mem_list12.mp ha'
      have hb2 := mem_list12.mp hb'
      rw [← hslt _ _ ha2.1 hb2.1 ha2.2.1 hb2.2.1 ?_, idx12_pos12, idx12_pos12]
      · exact hab
      · intro he
        have := congrArg (idx12 ((n + 2) / 3)) he
        rw [idx12_pos12, idx12_pos12] at this
        subst this
        exact slt_irrefl _ _ hab
    by_cases hlt : name < n02
    · rw [if_pos hlt]
      have hn02' : 2 ≤ n02 := by
        by_contra hc
        have h1 : 1 ≤ n02 := by omega
        have := hgp _ (pos12_mem (n := n) (q := 0) (by omega))
        have := N.hi _ ((hTm _).mpr (pos12_mem (n := n) (q := 0) (by omega)))
        omega
      obtain ⟨r1, r2⟩ := ih g n02 (name + 1) (by omega) hn02' hpad (by
        intro i
        by_cases hi : i < n02
        · have := N.hi _ ((hTm _).mpr (pos12_mem hi))
          rw [idx12_pos12] at this
          omega
        · rw [hgz i (by omega)]; omega)
      have hrl : (skew fuel g n02 (name + 1)).length = n02 := by rw [r1.length_eq]; simp
      have htk2 : (skew fuel g n02 (name + 1) ++ [0, 0, 0]).take n02 = skew fuel g n02 (name + 1) := by
        rw [List.take_append_of_le_length (by omega), List.take_of_length_le (by omega)]
      refine skew_tail hn hf hK (by simp; omega) ?_
      simp only
      rw [← hn02, htk2]
      obtain ⟨w1, w2⟩ := storeNames_spec (skew fuel g n02 (name + 1)) 0 g (r1.nodup_iff.mpr List.nodup_range)
        (by
          intro x hx
          have := List.mem_range.mp (r1.mem_iff.mp hx)
          omega)
      refine ⟨r1, hsorted _ r1 r2, ?_, ?_⟩
      · intro i x hi
        rw [w1 i x hi]; omega
      · intro q hq
        rw [← hn02] at hq
        rw [w2 q (by
          intro hm
          have := List.mem_range.mp (r1.mem_iff.mp hm)
          omega)]
        exact hgz q hq
    · rw [if_neg hlt]
      have hfull : name = 0 + T.length := by
        have := N.le_len.2
        omega
      have hnames := N.full hfull
      have hgt : ∀ (q : Nat), q < n02 → (g.take n02)[q]? = some (rd g q) := by
        intro q hq
        rw [List.getElem?_take, if_pos hq]
        have : g[q]? = some (g[q]'(by omega)) := List.getElem?_eq_getElem (by omega)
        rw [this, rd_eq this]
      -- the entry of each name
      have hval : ∀ (q : Nat), q < n02 → ∃ i : Nat, i < n02 ∧ T[i]? = some (pos12 ((n + 2) / 3) q) ∧ rd g q = i + 1 := by
        intro q hq
        obtain ⟨i, hi⟩ := List.getElem?_of_mem ((hTm _).mpr (pos12_mem hq))
        have := hnames i _ hi
        rw [idx12_pos12] at this
        have hi' := (List.getElem?_eq_some_iff.mp hi).1
        exact ⟨i, by omega, hi, by omega⟩
      have hgm : ∀ v ∈ g.take n02, ∃ q, q < n02 ∧ v = rd g q := by
        intro v hv
        obtain ⟨q, hq⟩ := List.getElem?_of_mem hv
        have hq' : q < n02 := by
          have := (List.getElem?_eq_some_iff.mp hq).1
          simp at this; omega
        rw [hgt q hq'] at hq
        exact ⟨q, hq', (Option.some.inj hq).symm⟩
      obtain ⟨v1, v2, v3⟩ := invertNames_spec (g.take n02) 0 (T ++ [0, 0, 0])
        (by
          rw [List.nodup_iff_pairwise_ne, List.pairwise_map, List.pairwise_iff_getElem]
          intro i j hi hj hij he
          have hi' : i < n02 := by simp at hi; omega
          have hj' : j < n02 := by simp at hj; omega
          have ei := hgt i hi'
          have ej := hgt j hj'
          rw [List.getElem?_eq_getElem hi] at ei
          rw [List.getElem?_eq_getElem hj] at ej
          rw [Option.some.inj ei, Option.some.inj ej] at he
          obtain ⟨a, _, a2, a3⟩ := hval i hi'
          obtain ⟨b, _, b2, b3⟩ := hval j hj'
          have : a = b := by omega
          subst this
          rw [a2] at b2
          have := congrArg (idx12 ((n + 2) / 3)) (Option.some.inj b2)
          rw [idx12_pos12, idx12_pos12] at this
          omega)
        (by
          intro v hv
          obtain ⟨q, hq, rfl⟩ := hgm v hv
          obtain ⟨i, hi, _, h3⟩ := hval q hq
          simp only [List.length_append]
          omega)
      set SA12 := invertNames (g.take n02) 0 (T ++ [0, 0, 0]) with hSA12
      have hA : SA12.take n02 = T.map (idx12 ((n + 2) / 3)) := by
        apply List.ext_getElem?
        intro i
        by_cases hi : i < n02
        · rw [List.getElem?_take, if_pos hi, List.getElem?_map]
          have hTi : T[i]? = some (T[i]'(by omega)) := List.getElem?_eq_getElem (by omega)
          rw [hTi]
          have hx : T[i]'(by omega) ∈ T := List.getElem_mem _
          have h1 := hnames i _ hTi
          have hlt' := idx12_lt ((hTm _).mp hx)
          have h2 := v2 (idx12 ((n + 2) / 3) (T[i]'(by omega))) _ (hgt _ hlt')
          rw [h1] at h2
          have e : 0 + i + 1 - 1 = i := by omega
          rw [e, Nat.zero_add] at h2
          exact h2
        · rw [List.getElem?_eq_none (by simp; omega), List.getElem?_eq_none (by simp; omega)]
      refine skew_tail hn hf hK (by rw [v1]; simp; omega) ?_
      simp only
      rw [← hn02, hA]
      refine ⟨hidx, hsorted _ hidx ?_, ?_, hgz⟩
      · rw [List.pairwise_map, List.pairwise_iff_getElem]
        intro i j hi hj hij
        have h1 := hnames i _ (List.getElem?_eq_getElem hi)
        have h2 := hnames j _ (List.getElem?_eq_getElem hj)
        rw [slt_step]; left
        omega
      · intro i x hi
        rw [List.getElem?_map] at hi
        obtain ⟨y, hy, rfl⟩ := Option.map_eq_some_iff.mp hi
        rw [hnames i y hy]; omega

end CollateX
