import Verif.Proofs.FoldedSlices
import Verif.Props.RangeSet
/-
C71: with `autostep` a range set is folded into ranges with a step.
-/

namespace CollateX

namespace Spec

/-- The numbers of the range `start, start + step, …` below `stop`. -/
def rangeElems (s : Slice) : List Nat := (List.range s.stop).filter (fun x => decide (s.start ≤ x) && (x - s.start) % s.step == 0)

/-- A range with a step: both ends are elements, and it has at least `autostep` elements (and more than one). -/
structure Stepped (autostep : Int) (s : Slice) : Prop where
  step : 2 ≤ s.step
  first : s.start ∈ rangeElems s
  last : s.stop - 1 ∈ rangeElems s
  long : autostep ≤ (rangeElems s).length
  two : 2 ≤ (rangeElems s).length

end Spec

/-- Two strictly increasing lists with the same elements are equal. -/
theorem sorted_unique : ∀ {l l' : List Nat}, l.Pairwise (· < ·) → l'.Pairwise (· < ·) → (∀ x, x ∈ l ↔ x ∈ l') → l = l'
  | [], [], _, _, _ => rfl
  | [], b :: l', _, _, h => by have := (h b).mpr (by simp); cases this
  | a :: l, [], _, _, h => by have := (h a).mp (by simp); cases this
  | a :: l, b :: l', h1, h2, h => by
    have h1' := List.pairwise_cons.mp h1
    have h2' := List.pairwise_cons.mp h2
    have hab : a = b := by
      rcases List.mem_cons.mp ((h a).mp (by simp)) with e | e
      · exact e
      · rcases List.mem_cons.mp ((h b).mpr (by simp)) with e' | e'
        · exact e'.symm
        · have := h1'.1 b e'
          have := h2'.1 a e
          omega
    subst hab
    congr 1
    refine sorted_unique h1'.2 h2'.2 (fun x => ?_)
    constructor
    · intro hx
      have := h1'.1 x hx
      rcases List.mem_cons.mp ((h x).mp (by simp [hx])) with e | e
      · omega
      · exact e
    · intro hx
      have := h2'.1 x hx
      rcases List.mem_cons.mp ((h x).mpr (by simp [hx])) with e | e
      · omega
      · exact e

theorem ap_sorted {s m : Nat} (hm : 0 < m) (n : Nat) : (ap s m n).Pairwise (· < ·) := by
  unfold ap
  rw [List.pairwise_map]
  refine List.Pairwise.imp ?_ List.pairwise_lt_range
  intro a b h
  have := Nat.mul_lt_mul_of_pos_right h hm
  omega

theorem read_rangeElems {s : Slice} (hm : 0 < s.step) : s.read = Spec.rangeElems s := by
  refine sorted_unique ?_ (List.Pairwise.filter _ List.pairwise_lt_range) ?_
  · unfold Slice.read pyRange
    exact ap_sorted hm _
  · intro x
    unfold Slice.read Spec.rangeElems
    rw [mem_pyRange hm, List.mem_filter, List.mem_range]
    simp only [Bool.and_eq_true, decide_eq_true_eq, beq_iff_eq, Nat.dvd_iff_mod_eq_zero]
    tauto

theorem flatMap_rangeElems : ∀ l : List Slice, (∀ s ∈ l, 0 < s.step) → l.flatMap Spec.rangeElems = l.flatMap Slice.read
  | [], _ => rfl
  | a :: l, hl => by
    rw [List.flatMap_cons, List.flatMap_cons, read_rangeElems (hl a (by simp)), flatMap_rangeElems l (fun s hs => hl s (by simp [hs]))]

theorem contiguous_sorted (r : RSet) : (contiguousSlices r).flatMap (fun s => ap s.1 1 (s.2 - s.1)) = sortedNats r.elems := by
  obtain ⟨h1, h2, h3⟩ := contiguousSlices_ok r
  have hmem : ∀ (s : Nat × Nat) (x : Nat), x ∈ ap s.1 1 (s.2 - s.1) ↔ s.1 ≤ x ∧ x < s.2 := by
    intro s x
    rw [← pyRange_unit, mem_pyRange_one]
  refine sorted_unique ?_ (sortedNats_sorted _) ?_
  · rw [List.pairwise_flatMap]
    refine ⟨fun s _ => ap_sorted Nat.one_pos _, List.Pairwise.imp ?_ h2⟩
    intro s t hst x hx y hy
    have := (hmem s x).mp hx
    have := (hmem t y).mp hy
    omega
  · intro x
    rw [mem_sortedNats, h3 x, List.mem_flatMap]
    exact exists_congr (fun s => and_congr_right (fun _ => hmem s x))

theorem rangeElems_sorted (s : Slice) : (Spec.rangeElems s).Pairwise (· < ·) := List.Pairwise.filter _ List.pairwise_lt_range

theorem ap_length (s m n : Nat) : (ap s m n).length = n := by simp [ap]

/-- C71: whatever `autostep` is, reading the ranges one after the other gives the elements of the set, each once and in increasing order;
every range is a run of consecutive numbers, or a range with a step of at least `autostep` elements. -/
theorem C71_folded (autostep : Option Int) (r : RSet) :
    ((slices autostep r).flatMap Spec.rangeElems).Pairwise (· < ·) ∧
    (∀ x, x ∈ (slices autostep r).flatMap Spec.rangeElems ↔ x ∈ r.elems) ∧
    ∀ s ∈ slices autostep r, (s.step = 1 ∧ s.start < s.stop) ∨ ∃ v, autostep = some v ∧ Spec.Stepped v s := by
  have key : ∀ l : List Slice, (∀ s ∈ l, 0 < s.step) → l.flatMap Slice.read = sortedNats r.elems →
      (l.flatMap Spec.rangeElems).Pairwise (· < ·) ∧ ∀ x, x ∈ l.flatMap Spec.rangeElems ↔ x ∈ r.elems := by
    intro l hl e
    rw [flatMap_rangeElems l hl, e]
    exact ⟨sortedNats_sorted _, fun x => mem_sortedNats⟩
  have hc : ((contiguousSlices r).map pendingSlice).flatMap Slice.read = sortedNats r.elems := by
    rw [List.flatMap_map, ← contiguous_sorted r]
    congr 1
    funext s
    exact read_pending s
  have hcc : ∀ s ∈ (contiguousSlices r).map pendingSlice, s.step = 1 ∧ s.start < s.stop := by
    intro s hs
    obtain ⟨p, hp, rfl⟩ := List.mem_map.mp hs
    exact ⟨rfl, (contiguousSlices_ok r).1 p hp⟩
  unfold slices
  cases autostep with
  | none =>
    obtain ⟨a, b⟩ := key _ (fun s hs => by rw [(hcc s hs).1]; exact Nat.one_pos) hc
    exact ⟨a, b, fun s hs => .inl (hcc s hs)⟩
  | some v =>
    simp only
    by_cases hv : v - 1 ≥ (float1e100 : Int)
    · rw [if_pos hv]
      obtain ⟨a, b⟩ := key _ (fun s hs => by rw [(hcc s hs).1]; exact Nat.one_pos) hc
      exact ⟨a, b, fun s hs => .inl (hcc s hs)⟩
    · rw [if_neg hv]
      obtain ⟨e, ok⟩ := foldedSlices_ok (v - 1) r
      rw [contiguous_sorted] at e
      obtain ⟨a, b⟩ := key _ (fun s hs => (ok s hs).pos) e
      refine ⟨a, b, fun s hs => ?_⟩
      obtain ⟨o1, o2, ⟨d, o3⟩, o4⟩ := ok s hs
      by_cases h1 : s.step = 1
      · exact .inl ⟨h1, o1⟩
      · right
        obtain ⟨l1, l2⟩ := o4 h1
        have hread : Spec.rangeElems s = ap s.start s.step (d + 1) := by
          rw [← read_rangeElems o2]
          show pyRange s.start s.stop s.step = _
          rw [← o3, pyRange_ap o2]
        have hd : d ≠ 0 := by rintro rfl; omega
        refine ⟨v, rfl, by omega, ?_, ?_, ?_, ?_⟩
        · rw [hread, ap_cons]; simp
        · rw [hread, ap_succ, ← o3]; simp
        · rw [hread, ap_length]
          have h3 : ((s.stop : Int)) = s.start + d * s.step + 1 := by exact_mod_cast o3.symm
          have h4 : (v - 1) * (s.step : Int) ≤ (d : Int) * s.step := by rw [h3] at l1; linarith
          have h5 := le_of_mul_le_mul_right h4 (by exact_mod_cast o2)
          push_cast
          omega
        · rw [hread, ap_length]; omega

/-- `autostep` does fold: a set that is an arithmetic progression, of at least two and at least `autostep` elements, is one range. -/
theorem C71_progression (r : RSet) (v : Int) (a m n : Nat) (hm : 2 ≤ m) (hn : 2 ≤ n) (hv : v ≤ n)
    (hbig : v ≤ 10000000000000000159028911097599180468360808563945281389781327557747838772170381060813469985856815104)
    (hr : ∀ x, x ∈ r.elems ↔ ∃ i, i < n ∧ x = a + i * m) :
    slices (some v) r = [⟨a, a + (n - 1) * m + 1, m⟩] := by
  obtain ⟨n, rfl⟩ : ∃ n', n = n' + 2 := ⟨n - 2, by omega⟩
  have hs : sortedNats r.elems = ap a m (n + 2) := by
    refine sorted_unique (sortedNats_sorted _) (ap_sorted (by omega) _) (fun x => ?_)
    rw [mem_sortedNats, hr x]
    unfold ap
    simp only [List.mem_map, List.mem_range]
    exact exists_congr (fun i => and_congr_right (fun _ => eq_comm))
  have hcontig : ∀ (n j : Nat), contigLoop j j (ap (j + m) m n) = (ap j m (n + 1)).map (fun x => (x, x + 1)) := by
    intro n
    induction n with
    | zero => intro j; simp [ap, contigLoop]
    | succ n ih =>
      intro j
      rw [ap_cons (j + m), contigLoop, if_pos (by omega), ih (j + m), ap_cons j, List.map_cons]
  have hc : contiguousSlices r = (a, a + 1) :: (ap (a + m) m (n + 1)).map (fun x => (x, x + 1)) := by
    unfold contiguousSlices
    rw [hs, ap_cons]
    simp only
    rw [contigLoop, if_neg (by omega), hcontig, ap_cons, List.map_cons]
  have hloop : ∀ (q k : Nat), foldLoop (v - 1) ⟨none, a, k, k, m⟩ ((ap (k + m) m q).map (fun x => (x, x + 1))) =
      foldEnd (v - 1) ⟨none, a, k + q * m, k + q * m, m⟩ := by
    intro q
    induction q with
    | zero => intro k; simp [ap, foldLoop]
    | succ q ih =>
      intro k
      rw [ap_cons, List.map_cons, foldLoop]
      have : foldRound (v - 1) ⟨none, a, k, k, m⟩ (k + m) (k + m + 1) = ([], ⟨none, a, k + m, k + m, m⟩) := by
        unfold foldRound
        rw [if_neg (show ¬ m = 0 by omega), if_pos ⟨show m = k + m - k by omega, rfl⟩]
        simp
      rw [this]
      show [] ++ foldLoop (v - 1) ⟨none, a, k + m, k + m, m⟩ _ = _
      rw [ih (k + m), List.nil_append, Nat.succ_mul, show k + m + q * m = k + (q * m + m) by omega]
  unfold slices
  simp only
  rw [if_neg (by unfold float1e100; omega)]
  unfold foldedSlices
  rw [hc]
  simp only
  rw [ap_cons, List.map_cons, foldLoop]
  have hf : firstRound a (a + 1) = ⟨none, a, a, a, 0⟩ := by unfold firstRound; rw [if_pos rfl]
  have h2 : foldRound (v - 1) ⟨none, a, a, a, 0⟩ (a + m) (a + m + 1) = ([], ⟨none, a, a + m, a + m, m⟩) := by
    unfold foldRound
    simp
  rw [hf, h2]
  show [] ++ foldLoop (v - 1) ⟨none, a, a + m, a + m, m⟩ _ = _
  rw [hloop n (a + m), List.nil_append, show a + m + n * m = a + (n + 1) * m by rw [Nat.succ_mul]; omega]
  unfold foldEnd
  have hst : (v - 1) * (m : Int) ≤ ((a + (n + 1) * m : Nat) : Int) - (a : Int) := by
    push_cast
    have : (v - 1) * (m : Int) ≤ ((n : Int) + 1) * m := mul_le_mul_of_nonneg_right (by push_cast at hv; omega) (by omega)
    linarith
  simp only [if_neg (show ¬ m = 0 by omega), decide_eq_true hst, if_true]
  rfl

/-- The slices that are pending, when nothing is folded. -/
def Folding.pendSlices (st : Folding) (c : Nat) : List Slice :=
  match st.prng with
  | none => (ap st.istart st.m (c + 1)).map (fun j => ⟨j, j + 1, 1⟩)
  | some p => pendingSlice p :: (ap (st.istart + st.m) st.m c).map (fun j => ⟨j, j + 1, 1⟩)

theorem yieldPending_unfolded {st : Folding} {c : Nat} (h : FInv st c) (hm : st.m ≠ 0) :
    ∃ d, (yieldPending st false).2 + d * st.m = st.k ∧
      (yieldPending st false).1 ++ (ap (yieldPending st false).2 st.m (d + 1)).map (fun j => ⟨j, j + 1, 1⟩) = st.pendSlices c := by
  have hc : c ≠ 0 := fun e => hm (h.zero.mp e)
  unfold yieldPending Folding.pendSlices
  cases hp : st.prng with
  | none => exact ⟨c, h.last.symm, rfl⟩
  | some p =>
    obtain ⟨c', rfl⟩ : ∃ c', c = c' + 1 := ⟨c - 1, by omega⟩
    refine ⟨c', ?_, rfl⟩
    show st.istart + st.m + c' * st.m = st.k
    rw [h.last, Nat.succ_mul]; omega

theorem singles_short {s m d : Nat} (hm : 0 < m) : singles s (s + d * m + 1 - m) m = (ap s m d).map (fun j => ⟨j, j + 1, 1⟩) := by
  unfold singles
  rw [pyRange_short hm]

theorem pendSlices_zero {st : Folding} (hm : st.m = 0) : st.pendSlices 0 =
    [match st.prng with
      | some p => pendingSlice p
      | none => ⟨st.istart, st.istart + 1, 1⟩] := by
  unfold Folding.pendSlices
  cases st.prng with
  | none => simp [ap_one]
  | some p => simp [ap_zero]

theorem foldRound_unfolded {auto : Int} {st : Folding} {c a b : Nat} (h : FInv st c) (hk : st.k + 1 < a) (hab : a < b)
    (hauto : (c : Int) + 1 < auto) :
    ∃ c', c' ≤ c + 1 ∧ FInv (foldRound auto st a b).2 c' ∧ (foldRound auto st a b).2.k = b - 1 ∧
      (foldRound auto st a b).1 ++ (foldRound auto st a b).2.pendSlices c' = st.pendSlices c ++ [⟨a, b, 1⟩] := by
  have hns : ∀ j : Nat, j = st.k ∨ j = st.k + st.m → st.m ≠ 0 → decide (auto * (st.m : Int) ≤ (j : Int) - (st.istart : Int)) = false := by
    intro j hj hm
    rw [decide_eq_false_iff_not]
    intro hle
    have hl := h.last
    have h1 : (st.k : Int) = st.istart + c * st.m := by exact_mod_cast hl
    have h2 : (j : Int) - st.istart ≤ ((c : Int) + 1) * st.m := by
      rcases hj with rfl | rfl
      · rw [h1]; nlinarith [Int.natCast_nonneg st.m]
      · push_cast; rw [h1]; linarith
    have h3 : ((c : Int) + 1) * st.m < auto * st.m := mul_lt_mul_of_pos_right hauto (by exact_mod_cast Nat.pos_of_ne_zero hm)
    omega
  obtain ⟨c1, i1, i2, _, _⟩ := foldRound_ok (auto := auto) h hk hab
  unfold foldRound at i1 i2 ⊢
  by_cases hm : st.m = 0
  · have hc : c = 0 := h.zero.mpr hm
    subst hc
    have hkl := h.last
    rw [Nat.zero_mul, Nat.add_zero] at hkl
    rw [if_pos hm] at i1 i2 ⊢
    by_cases hu : a + 1 = b
    · rw [if_neg (by simpa using hu)] at i1 i2 ⊢
      have hc1 : c1 = 1 := by
        have h1 : a = st.istart + c1 * (a - st.k) := i1.last
        have h2 : c1 * (a - st.k) = 1 * (a - st.k) := by omega
        exact Nat.eq_of_mul_eq_mul_right (by omega) h2
      subst hc1
      refine ⟨1, by omega, i1, i2, ?_⟩
      subst hu
      unfold Folding.pendSlices
      simp only
      cases st.prng with
      | none =>
        simp only [Nat.zero_add]
        rw [ap_succ, ap_one, ap_one, show st.istart + 1 * (a - st.k) = a by omega]; rfl
      | some p =>
        simp only
        rw [ap_one, ap_zero, show st.istart + (a - st.k) = a by omega]; rfl
    · rw [if_pos hu] at i1 i2 ⊢
      have hc1 : c1 = 0 := i1.zero.mpr hm
      subst hc1
      refine ⟨0, by omega, i1, i2, ?_⟩
      rw [pendSlices_zero hm, pendSlices_zero (st := { st with prng := some (a, b), istart := b - 1, k := b - 1 }) hm]
      rfl
  · have hpos : 0 < st.m := by omega
    have hkl := h.last
    rw [if_neg hm] at i1 i2 ⊢
    by_cases hgo : st.m = a - st.k ∧ a + 1 = b
    · rw [if_pos hgo] at i1 i2 ⊢
      obtain ⟨g1, g2⟩ := hgo
      have hc1 : c1 = c + 1 := by
        have h1 : a = st.istart + c1 * (a - st.k) := i1.last
        have h2 : c1 * (a - st.k) = (c + 1) * (a - st.k) := by rw [← g1] at h1 ⊢; rw [Nat.succ_mul]; omega
        exact Nat.eq_of_mul_eq_mul_right (by omega) h2
      subst hc1
      refine ⟨c + 1, Nat.le_refl _, i1, i2, ?_⟩
      subst g2
      unfold Folding.pendSlices
      simp only
      rw [← g1]
      cases st.prng with
      | none =>
        simp only
        rw [ap_succ st.istart st.m (c + 1), List.map_append, show st.istart + (c + 1) * st.m = a by rw [Nat.succ_mul]; omega]; rfl
      | some p =>
        simp only
        rw [ap_succ (st.istart + st.m) st.m c, List.map_append, show st.istart + st.m + c * st.m = a by omega]; rfl
    · rw [if_neg hgo] at i1 i2 ⊢
      have hfalse : (decide (auto * (st.m : Int) ≤ ((if st.m = a - st.k then a else st.k : Nat) : Int) - (st.istart : Int)) : Bool) = false := by
        apply hns _ _ hm
        by_cases hch : st.m = a - st.k
        · rw [if_pos hch]; right; omega
        · rw [if_neg hch]; left; rfl
      simp only [hfalse] at i1 i2 ⊢
      obtain ⟨d, d1, d2⟩ := yieldPending_unfolded h hm
      generalize yieldPending st false = y at d1 d2 i1 i2 ⊢
      by_cases hch : st.m = a - st.k
      · rw [if_neg (by simpa using hch)] at i1 i2 ⊢
        have hu : a + 1 ≠ b := fun e => hgo ⟨hch, e⟩
        have ha : a = y.2 + (d + 1) * st.m := by rw [Nat.succ_mul]; omega
        have hc1 : c1 = 0 := i1.zero.mpr rfl
        subst hc1
        refine ⟨0, by omega, i1, i2, ?_⟩
        simp only [Bool.false_eq_true, if_false]
        rw [if_pos (show a + 1 < b by omega), pendSlices_zero rfl]
        have hs : singles y.2 (a + 1 - st.m) st.m = (ap y.2 st.m (d + 1)).map (fun j => ⟨j, j + 1, 1⟩) := by
          rw [ha, singles_short hpos]
        rw [hs, d2]; rfl
      · rw [if_pos hch] at i1 i2 ⊢
        have hs : singles y.2 (st.k + 1 - st.m) st.m = (ap y.2 st.m d).map (fun j => ⟨j, j + 1, 1⟩) := by
          rw [← d1, singles_short hpos]
        rw [ap_succ, List.map_append, d1, ← List.append_assoc] at d2
        by_cases hu : a + 1 = b
        · simp only [Bool.false_eq_true, if_false, if_pos hu] at i1 i2 ⊢
          have hc1 : c1 = 1 := by
            have h1 : a = st.k + c1 * (a - st.k) := i1.last
            have h2 : c1 * (a - st.k) = 1 * (a - st.k) := by omega
            exact Nat.eq_of_mul_eq_mul_right (by omega) h2
          subst hc1
          refine ⟨1, by omega, i1, i2, ?_⟩
          rw [if_neg (by simpa using hu), hs, ← d2]
          unfold Folding.pendSlices
          simp only
          rw [ap_succ, ap_one, show st.k + 1 * (a - st.k) = a by omega]
          subst hu
          simp
        · simp only [Bool.false_eq_true, if_false, if_neg hu] at i1 i2 ⊢
          have hc1 : c1 = 0 := i1.zero.mpr rfl
          subst hc1
          refine ⟨0, by omega, i1, i2, ?_⟩
          rw [if_pos hu, hs, ← d2, pendSlices_zero rfl]
          simp [pendingSlice]

theorem foldLoop_unfolded (auto : Int) : ∀ (l : List (Nat × Nat)) (st : Folding) (c : Nat), FInv st c →
    (∀ s ∈ l, s.1 < s.2) → l.Pairwise (fun s t => s.2 < t.1) → (∀ s ∈ l, st.k + 1 < s.1) → (c : Int) + l.length < auto →
    foldLoop auto st l = st.pendSlices c ++ l.map pendingSlice
  | [], st, c, h, _, _, _, hauto => by
    rw [foldLoop, List.map_nil, List.append_nil]
    unfold foldEnd
    by_cases hm : st.m = 0
    · have hc : c = 0 := h.zero.mpr hm
      subst hc
      rw [if_pos hm, pendSlices_zero hm]
      cases st.prng <;> rfl
    · rw [if_neg hm]
      have hpos : 0 < st.m := by omega
      have hfalse : (decide (auto * (st.m : Int) ≤ (st.k : Int) - (st.istart : Int)) : Bool) = false := by
        rw [decide_eq_false_iff_not]
        intro hle
        have h1 : (st.k : Int) = st.istart + c * st.m := by exact_mod_cast h.last
        have h3 : (c : Int) * st.m < auto * st.m := mul_lt_mul_of_pos_right (by simpa using hauto) (by exact_mod_cast hpos)
        omega
      simp only [hfalse]
      obtain ⟨d, d1, d2⟩ := yieldPending_unfolded h hm
      rw [h.same hm, ← d2]
      simp only [Bool.false_eq_true, if_false]
      unfold singles
      rw [← d1, pyRange_ap hpos]
  | s :: l, st, c, h, h1, h2, h3, hauto => by
    have h2' := List.pairwise_cons.mp h2
    have hs := h1 s (by simp)
    rw [List.length_cons] at hauto
    push_cast at hauto
    obtain ⟨c', hc', i1, i2, i3⟩ := foldRound_unfolded (auto := auto) h (h3 s (by simp)) hs (by omega)
    have e := foldLoop_unfolded auto l _ c' i1 (fun t ht => h1 t (by simp [ht])) h2'.2
      (fun t ht => by have := h2'.1 t ht; rw [i2]; omega) (by omega)
    rw [foldLoop]
    rw [e, ← List.append_assoc, i3, List.append_assoc]; rfl

/-- `autostep` does nothing when the set has fewer runs of consecutive numbers than that. -/
theorem C71_unfolded (r : RSet) (v : Int) (h : ((slices none r).length : Int) < v) : slices (some v) r = slices none r := by
  obtain ⟨h1, h2, _⟩ := contiguousSlices_ok r
  unfold slices at h ⊢
  simp only [List.length_map] at h ⊢
  by_cases hv : v - 1 ≥ (float1e100 : Int)
  · rw [if_pos hv]
  · rw [if_neg hv]
    unfold foldedSlices
    cases hc : contiguousSlices r with
    | nil => rfl
    | cons s l =>
      rw [hc] at h1 h2 h
      have h2' := List.pairwise_cons.mp h2
      have hs := h1 s (by simp)
      rw [List.length_cons] at h
      push_cast at h
      obtain ⟨i1, _, i3⟩ := firstRound_ok hs
      simp only
      rw [foldLoop_unfolded (v - 1) l _ 0 i1 (fun t ht => h1 t (by simp [ht])) h2'.2
        (fun t ht => by have := h2'.1 t ht; rw [i3]; omega) (by push_cast; omega), List.map_cons]
      have : (firstRound s.1 s.2).pendSlices 0 = [pendingSlice s] := by
        unfold firstRound
        by_cases hu : s.1 + 1 = s.2
        · rw [if_pos hu, pendSlices_zero rfl]
          simp [pendingSlice, ← hu]
        · rw [if_neg hu, pendSlices_zero rfl]
      rw [this]; rfl

/-- C71 for the printed form: parsing it gives the same set. What is missing: the empty set, sets with an element above `1e100` and sets with
elements 10^9 or more apart, of which it is not true in general (`C48_empty_set`, `C71_too_far`). -/
theorem C71_print_parse_partial (autostep : Option Int) (r : RSet) (hne : r.elems ≠ [])
    (hb : ∀ x ∈ r.elems, x ≤ 10000000000000000159028911097599180468360808563945281389781327557747838772170381060813469985856815104)
    (hd : ∀ x ∈ r.elems, ∀ y ∈ r.elems, y < x + 999999999) :
    ∃ r', parseRangeSet (rangeStrStep autostep r) = .ok r' ∧ ∀ x, x ∈ r'.elems ↔ x ∈ r.elems := by
  obtain ⟨_, hmem, hform⟩ := C71_folded autostep r
  have hin : ∀ s ∈ slices autostep r, ∀ x ∈ Spec.rangeElems s, x ∈ r.elems := fun s hs x hx =>
    (hmem x).mp (List.mem_flatMap.mpr ⟨s, hs, hx⟩)
  -- what is known about each slice
  have hsl : ∀ s ∈ slices autostep r, s.start < s.stop ∧ 0 < s.step ∧ s.start ∈ Spec.rangeElems s ∧ s.stop - 1 ∈ Spec.rangeElems s ∧
      (s.start + 1 = s.stop → s.step = 1) := by
    intro s hs
    have hmemR : ∀ x, x ∈ Spec.rangeElems s ↔ x < s.stop ∧ s.start ≤ x ∧ (x - s.start) % s.step = 0 := by
      intro x
      unfold Spec.rangeElems
      rw [List.mem_filter, List.mem_range]
      simp
    rcases hform s hs with ⟨h1, h2⟩ | ⟨v, _, hv⟩
    · refine ⟨h2, by omega, (hmemR _).mpr ⟨h2, Nat.le_refl _, by rw [Nat.sub_self, Nat.zero_mod]⟩,
        (hmemR _).mpr ⟨by omega, by omega, by rw [h1, Nat.mod_one]⟩, fun _ => h1⟩
    · have hlt : s.start < s.stop := ((hmemR _).mp hv.first).1
      refine ⟨hlt, by have := hv.step; omega, hv.first, hv.last, fun e => ?_⟩
      exfalso
      have htwo := hv.two
      have hsub : ∀ x ∈ Spec.rangeElems s, x = s.start := by
        intro x hx
        have := (hmemR x).mp hx
        omega
      have hnd : (Spec.rangeElems s).Nodup := List.Pairwise.imp (fun h => Nat.ne_of_lt h) (rangeElems_sorted s)
      have hle := hnd.length_le_of_subset (l₂ := [s.start]) (fun x hx => by simp [hsub x hx])
      simp at hle
      omega
  have hnil : slices autostep r ≠ [] := by
    intro he
    obtain ⟨x, hx⟩ := List.exists_mem_of_ne_nil _ hne
    have := (hmem x).mpr hx
    rw [he] at this
    cases this
  have hstep : ∀ s ∈ slices autostep r, (if s.start + 1 = s.stop then 1 else s.step) = s.step := by
    intro s hs
    by_cases h : s.start + 1 = s.stop
    · rw [if_pos h, (hsl s hs).2.2.2.2 h]
    · rw [if_neg h]
  obtain ⟨r', e, m, _⟩ := parseInto_ranges (strSlice3 (r.padding.getD 0)) (fun s => s.start) (fun s => s.stop) (fun s => s.step)
    (fun s => if (Nat.toDigits 10 s.start).length < r.padding.getD 0 then r.padding.getD 0 else 0) (slices autostep r) ⟨[], none⟩
    (fun s hs q => by
      obtain ⟨a1, a2, a3, a4, a5⟩ := hsl s hs
      have hl := hb _ (hin s hs _ a4)
      have hlim : ¬ s.stop - 1 > float1e100 := by unfold float1e100; omega
      unfold strSlice3
      by_cases hu : s.start + 1 = s.stop
      · rw [if_pos hu, parseSubrange_single, if_neg (by unfold float1e100 at hlim ⊢; omega), hu, a5 hu]
      · rw [if_neg hu]
        by_cases h1 : s.step = 1
        · rw [if_pos h1, parseSubrange_range _ _ _ _ _ (by omega), if_neg hlim, show s.stop - 1 + 1 = s.stop by omega, h1]
        · rw [if_neg h1, parseSubrange_step _ _ _ _ _ _ a2 (by omega), if_neg hlim, show s.stop - 1 + 1 = s.stop by omega])
    (fun s hs => by
      obtain ⟨a1, a2, a3, a4, _⟩ := hsl s hs
      have := hd _ (hin s hs _ a3) _ (hin s hs _ a4)
      exact ⟨a1, a2, by omega⟩)
  refine ⟨r', ?_, fun x => ?_⟩
  · unfold parseRangeSet rangeStrStep
    rw [splitChar_join (by simpa using hnil)]
    · exact e
    · intro t ht hc
      obtain ⟨s, _, rfl⟩ := List.mem_map.mp ht
      unfold strSlice3 at hc
      split at hc
      · exact digit_notin (by decide) hc
      · split at hc
        · rcases List.mem_append.mp hc with hc | hc
          · exact digit_notin (by decide) hc
          · rcases List.mem_cons.mp hc with hc | hc
            · exact absurd hc (by decide)
            · exact digit_notin (by decide) hc
        · rw [natStr_digits] at hc
          simp only [List.mem_append, List.mem_cons] at hc
          rcases hc with (hc | hc | hc) | hc | hc
          · exact digit_notin (by decide) hc
          · exact absurd hc (by decide)
          · exact digit_notin (by decide) hc
          · exact absurd hc (by decide)
          · exact absurd (Nat.isDigit_of_mem_toDigits (by omega) (by omega) hc) (by decide)
  · rw [m x, ← hmem x, List.mem_flatMap]
    simp only [List.not_mem_nil, false_or]
    constructor
    · rintro ⟨s, hs, b1, b2, b3⟩
      refine ⟨s, hs, ?_⟩
      unfold Spec.rangeElems
      rw [List.mem_filter, List.mem_range]
      simp [b1, b2, Nat.dvd_iff_mod_eq_zero.mp b3]
    · rintro ⟨s, hs, hx⟩
      unfold Spec.rangeElems at hx
      rw [List.mem_filter, List.mem_range] at hx
      simp only [Bool.and_eq_true, decide_eq_true_eq, beq_iff_eq] at hx
      exact ⟨s, hs, hx.2.1, hx.1, Nat.dvd_iff_mod_eq_zero.mpr hx.2.2⟩

/-- Without the bound on the distance it is false: the set of 0 and 10^9 is, with `autostep` 2, printed as one range, which the parser
refuses; without `autostep` it is printed and parsed back. -/
theorem C71_too_far :
    ∃ r : RSet, r.elems ≠ [] ∧ (∀ x ∈ r.elems, x ≤ 1000000000) ∧
      rangeStrStep (some 2) r = S "0-1000000000/1000000000" ∧ parseRangeSet (rangeStrStep (some 2) r) = .error .assertionError ∧
      rangeStrStep none r = S "0,1000000000" ∧ ∃ r', parseRangeSet (rangeStrStep none r) = .ok r' := by
  refine ⟨⟨[0, 1000000000], none⟩, by simp, by simp, by decide +kernel, by decide +kernel, by decide +kernel,
    ⟨⟨[0, 1000000000], none⟩, by decide +kernel⟩⟩

/-- With the default `autostep` the printed form is that of C48. -/
theorem C71_default (r : RSet) : rangeStrStep none r = rangeStr r := by
  unfold rangeStrStep rangeStr slices
  rw [List.map_map]
  congr 1

/-- Twelve numbers, with `autostep` 3 and with the default. -/
example :
    rangeStrStep (some 3) ⟨[0, 2, 4, 6, 7, 8, 11, 13, 20, 24, 28, 29], some 2⟩ = S "00-06/2,07-08,11,13,20-28/4,29" ∧
    slices (some 3) ⟨[0, 2, 4, 6, 7, 8, 11, 13, 20, 24, 28, 29], none⟩ =
      [⟨0, 7, 2⟩, ⟨7, 9, 1⟩, ⟨11, 12, 1⟩, ⟨13, 14, 1⟩, ⟨20, 29, 4⟩, ⟨29, 30, 1⟩] ∧
    rangeStrStep none ⟨[0, 2, 4, 6, 7, 8, 11, 13, 20, 24, 28, 29], none⟩ = S "0,2,4,6-8,11,13,20,24,28-29" := by
  decide +kernel

/-- The hypotheses of `C71_progression` and of `C71_unfolded` can be met. -/
example : slices (some 3) ⟨[9, 5, 1], none⟩ = [⟨1, 10, 4⟩] :=
  C71_progression ⟨[9, 5, 1], none⟩ 3 1 4 3 (by omega) (by omega) (by omega) (by omega) (fun x => by
    simp only [List.mem_cons, List.not_mem_nil, or_false]
    constructor
    · rintro (rfl | rfl | rfl)
      · exact ⟨2, by omega, rfl⟩
      · exact ⟨1, by omega, rfl⟩
      · exact ⟨0, by omega, rfl⟩
    · rintro ⟨i, hi, rfl⟩
      have : i = 0 ∨ i = 1 ∨ i = 2 := by omega
      rcases this with rfl | rfl | rfl <;> simp)

example : slices (some 4) ⟨[9, 5, 1], none⟩ = slices none ⟨[9, 5, 1], none⟩ := C71_unfolded _ 4 (by decide +kernel)

end CollateX
