import Verif.Model.FoldedSlices
import Verif.Proofs.RangeSet
/-
Helper lemmas for the folded slices of a range set.
-/

namespace CollateX

/-! ### Arithmetic progressions -/

/-- `s, s + m, …`, `n` numbers. -/
def ap (s m n : Nat) : List Nat := (List.range n).map (fun i => s + i * m)

theorem ap_succ (s m n : Nat) : ap s m (n + 1) = ap s m n ++ [s + n * m] := by
  unfold ap
  rw [List.range_succ, List.map_append]; rfl

theorem ap_one (s m : Nat) : ap s m 1 = [s] := by simp [ap]

theorem ap_zero (s m : Nat) : ap s m 0 = [] := rfl

theorem ap_cons (s m : Nat) : ∀ n, ap s m (n + 1) = s :: ap (s + m) m n
  | 0 => by simp [ap]
  | n + 1 => by
    rw [ap_succ, ap_cons s m n, ap_succ (s + m) m n, List.cons_append]
    congr 3
    rw [Nat.succ_mul]; omega

theorem pyRange_ap {s m c : Nat} (hm : 0 < m) : pyRange s (s + c * m + 1) m = ap s m (c + 1) := by
  unfold pyRange ap
  have : (s + c * m + 1 - s + m - 1) / m = c + 1 := by
    rw [show s + c * m + 1 - s + m - 1 = (c + 1) * m by rw [Nat.succ_mul]; omega, Nat.mul_div_cancel _ hm]
  rw [this]

theorem pyRange_nil {s t m : Nat} (hm : 0 < m) (h : t ≤ s) : pyRange s t m = [] := by
  unfold pyRange
  have : (t - s + m - 1) / m = 0 := Nat.div_eq_of_lt (by omega)
  rw [this]; rfl

theorem pyRange_short {s m d : Nat} (hm : 0 < m) : pyRange s (s + d * m + 1 - m) m = ap s m d := by
  cases d with
  | zero => rw [pyRange_nil hm (by omega)]; rfl
  | succ d =>
    rw [show s + (d + 1) * m + 1 - m = s + d * m + 1 by rw [Nat.succ_mul]; omega, pyRange_ap hm]

theorem pyRange_unit (a b : Nat) : pyRange a b 1 = ap a 1 (b - a) := by
  unfold pyRange ap
  rw [Nat.add_sub_cancel, Nat.div_one]

theorem ap_append (s m a : Nat) : ∀ b, ap s m (a + b) = ap s m a ++ ap (s + a * m) m b
  | 0 => by simp [ap]
  | b + 1 => by
    rw [← Nat.add_assoc, ap_succ, ap_append s m a b, ap_succ, List.append_assoc]
    congr 3
    rw [Nat.add_mul]; omega

/-- The elements of a slice. -/
def Slice.read (s : Slice) : List Nat := pyRange s.start s.stop s.step

theorem read_singles (a b m : Nat) : (singles a b m).flatMap Slice.read = pyRange a b m := by
  unfold singles
  rw [List.flatMap_map]
  have : (fun j => Slice.read ⟨j, j + 1, 1⟩) = fun j : Nat => [j] := by
    funext j
    show pyRange j (j + 1) 1 = [j]
    rw [pyRange_unit, show j + 1 - j = 1 by omega, ap_one]
  rw [this]
  simp

theorem read_pending (p : Nat × Nat) : (pendingSlice p).read = ap p.1 1 (p.2 - p.1) := pyRange_unit _ _

/-! ### What is pending between two rounds -/

/-- The pending range without its last element. -/
def Folding.pre (st : Folding) : List Nat :=
  match st.prng with
  | none => []
  | some p => ap p.1 1 (st.istart - p.1)

/-- The elements that were read but not yet yielded. -/
def Folding.pend (st : Folding) (c : Nat) : List Nat := st.pre ++ ap st.istart st.m (c + 1)

structure FInv (st : Folding) (c : Nat) : Prop where
  zero : c = 0 ↔ st.m = 0
  last : st.k = st.istart + c * st.m
  same : st.m ≠ 0 → st.i = st.k
  range : ∀ p, st.prng = some p → p.2 = st.istart + 1 ∧ p.1 < st.istart
  step : st.m ≠ 1

/-- A slice that can be yielded. -/
structure SliceOk (auto : Int) (s : Slice) : Prop where
  nonempty : s.start < s.stop
  pos : 0 < s.step
  hits : ∃ d, s.start + d * s.step + 1 = s.stop
  long : s.step ≠ 1 → auto * (s.step : Int) ≤ (s.stop : Int) - 1 - s.start ∧ s.start + 1 < s.stop

theorem sliceOk_unit {auto : Int} {a b : Nat} (h : a < b) : SliceOk auto ⟨a, b, 1⟩ :=
  ⟨h, Nat.one_pos, ⟨b - a - 1, by show a + (b - a - 1) * 1 + 1 = b; omega⟩, fun h => absurd rfl h⟩

theorem sliceOk_singles {auto : Int} {a b m : Nat} : ∀ s ∈ singles a b m, SliceOk auto s := by
  intro s hs
  obtain ⟨j, _, rfl⟩ := List.mem_map.mp hs
  exact sliceOk_unit (by omega)

theorem yieldPending_ok {auto : Int} {st : Folding} {c : Nat} (h : FInv st c) (hm : st.m ≠ 0) (b : Bool) :
    ∃ d, (yieldPending st b).2 + d * st.m = st.k ∧
      (yieldPending st b).1.flatMap Slice.read ++ ap (yieldPending st b).2 st.m (d + 1) = st.pend c ∧
      (b = true → (yieldPending st b).2 = st.istart) ∧ (∀ s ∈ (yieldPending st b).1, SliceOk auto s) := by
  have hc : c ≠ 0 := fun e => hm (h.zero.mp e)
  unfold yieldPending Folding.pend Folding.pre
  cases hp : st.prng with
  | none => exact ⟨c, h.last.symm, rfl, fun _ => rfl, by simp⟩
  | some p =>
    obtain ⟨e1, e2⟩ := h.range p hp
    cases b with
    | true =>
      refine ⟨c, h.last.symm, ?_, fun _ => rfl, ?_⟩
      · show [pendingSlice (p.1, p.2 - 1)].flatMap Slice.read ++ ap st.istart st.m (c + 1) = ap p.1 1 (st.istart - p.1) ++ _
        rw [List.flatMap_singleton, read_pending]
        simp only
        rw [e1, show st.istart + 1 - 1 = st.istart by omega]
      · intro s hs
        rcases List.mem_singleton.mp hs with rfl
        exact sliceOk_unit (by simp only; omega)
    | false =>
      obtain ⟨c', rfl⟩ : ∃ c', c = c' + 1 := ⟨c - 1, by omega⟩
      refine ⟨c', ?_, ?_, by simp, ?_⟩
      · show st.istart + st.m + c' * st.m = st.k
        rw [h.last, Nat.succ_mul]; omega
      · show [pendingSlice p].flatMap Slice.read ++ ap (st.istart + st.m) st.m (c' + 1) = _
        rw [List.flatMap_singleton, read_pending, ap_cons st.istart, e1, show st.istart + 1 - p.1 = (st.istart - p.1) + 1 by omega, ap_succ,
          List.append_assoc]
        simp only
        rw [show p.1 + (st.istart - p.1) * 1 = st.istart by omega]
        rfl
      · intro s hs
        rcases List.mem_singleton.mp hs with rfl
        exact sliceOk_unit (by omega)

theorem pend_range {a b : Nat} (i : Nat) (h : a + 1 < b) : (Folding.mk (some (a, b)) (b - 1) i (b - 1) 0).pend 0 = ap a 1 (b - a) := by
  show ap a 1 (b - 1 - a) ++ ap (b - 1) 0 1 = _
  rw [ap_one, show b - a = (b - 1 - a) + 1 by omega, ap_succ, show a + (b - 1 - a) * 1 = b - 1 by omega]

theorem inv_range {a b : Nat} (i : Nat) (h : a + 1 < b) : FInv (Folding.mk (some (a, b)) (b - 1) i (b - 1) 0) 0 := by
  refine ⟨by simp, by simp, by simp, ?_, by simp⟩
  rintro p hp
  cases hp
  exact ⟨by show b = b - 1 + 1; omega, by show a < b - 1; omega⟩

theorem pend_single (a i : Nat) : (Folding.mk none a i a 0).pend 0 = [a] := by
  show [] ++ ap a 0 1 = _
  rw [ap_one]; rfl

theorem inv_single (a i : Nat) : FInv (Folding.mk none a i a 0) 0 := ⟨by simp, by simp, by simp, by simp, by simp⟩

theorem firstRound_ok {a b : Nat} (h : a < b) :
    FInv (firstRound a b) 0 ∧ (firstRound a b).pend 0 = ap a 1 (b - a) ∧ (firstRound a b).k = b - 1 := by
  unfold firstRound
  by_cases hu : a + 1 = b
  · rw [if_pos hu]
    refine ⟨inv_single _ _, ?_, by show a = b - 1; omega⟩
    rw [pend_single, show b - a = 1 by omega, ap_one]
  · rw [if_neg hu]
    exact ⟨inv_range _ (by omega), pend_range _ (by omega), rfl⟩

theorem foldRound_ok {auto : Int} {st : Folding} {c a b : Nat} (h : FInv st c) (hk : st.k + 1 < a) (hab : a < b) :
    ∃ c', FInv (foldRound auto st a b).2 c' ∧ (foldRound auto st a b).2.k = b - 1 ∧
      (foldRound auto st a b).1.flatMap Slice.read ++ (foldRound auto st a b).2.pend c' = st.pend c ++ ap a 1 (b - a) ∧
      ∀ s ∈ (foldRound auto st a b).1, SliceOk auto s := by
  unfold foldRound
  by_cases hm : st.m = 0
  · have hc : c = 0 := h.zero.mpr hm
    subst hc
    have hkl := h.last
    rw [Nat.zero_mul, Nat.add_zero] at hkl
    rw [if_pos hm]
    by_cases hu : a + 1 = b
    · rw [if_neg (by simpa using hu)]
      refine ⟨1, ⟨⟨by simp, fun (e : a - st.k = 0) => by omega⟩, ?_, fun _ => rfl, h.range, ?_⟩, by show a = b - 1; omega, ?_, by simp⟩
      · show a = st.istart + 1 * (a - st.k); omega
      · show a - st.k ≠ 1; omega
      · show [] ++ (st.pre ++ ap st.istart (a - st.k) 2) = (st.pre ++ ap st.istart st.m 1) ++ ap a 1 (b - a)
        rw [show b - a = 1 by omega, ap_one, ap_one, ap_succ, ap_one, List.nil_append, List.append_assoc,
          show st.istart + 1 * (a - st.k) = a by omega]
    · rw [if_pos hu]
      refine ⟨0, ?_, rfl, ?_, ?_⟩
      · refine ⟨⟨fun _ => hm, fun _ => rfl⟩, ?_, fun hne => absurd hm hne, ?_, h.step⟩
        · show b - 1 = b - 1 + 0 * st.m; omega
        · intro p hp
          cases hp
          exact ⟨by show b = b - 1 + 1; omega, by show a < b - 1; omega⟩
      · have e : (Folding.mk (some (a, b)) (b - 1) st.i (b - 1) st.m).pend 0 = ap a 1 (b - a) := by
          rw [hm]; exact pend_range _ (by omega)
        show _ ++ (Folding.mk (some (a, b)) (b - 1) st.i (b - 1) st.m).pend 0 = _
        rw [e, List.flatMap_singleton]
        congr 1
        unfold Folding.pend Folding.pre
        cases hp : st.prng with
        | none =>
          show pyRange st.istart (st.istart + 1) 1 = _
          rw [pyRange_unit, show st.istart + 1 - st.istart = 1 by omega, ap_one, ap_one]; rfl
        | some p =>
          obtain ⟨e1, e2⟩ := h.range p hp
          show (pendingSlice p).read = _
          rw [read_pending, e1, show st.istart + 1 - p.1 = (st.istart - p.1) + 1 by omega, ap_succ, ap_one,
            show p.1 + (st.istart - p.1) * 1 = st.istart by omega]
      · intro s hs
        rcases List.mem_singleton.mp hs with rfl
        cases hp : st.prng with
        | none => exact sliceOk_unit (by omega)
        | some p =>
          obtain ⟨e1, e2⟩ := h.range p hp
          exact sliceOk_unit (by omega)
  · have hc : c ≠ 0 := fun e => hm (h.zero.mp e)
    have hpos : 0 < st.m := by omega
    have hkl := h.last
    rw [if_neg hm]
    by_cases hgo : st.m = a - st.k ∧ a + 1 = b
    · rw [if_pos hgo]
      obtain ⟨g1, g2⟩ := hgo
      refine ⟨c + 1, ⟨⟨by simp, fun (e : a - st.k = 0) => by omega⟩, ?_, fun _ => rfl, h.range, ?_⟩, by show a = b - 1; omega, ?_, by simp⟩
      · show a = st.istart + (c + 1) * (a - st.k)
        rw [← g1, Nat.succ_mul]; omega
      · show a - st.k ≠ 1; omega
      · show [] ++ (st.pre ++ ap st.istart (a - st.k) (c + 1 + 1)) = (st.pre ++ ap st.istart st.m (c + 1)) ++ ap a 1 (b - a)
        rw [← g1, ap_succ, show b - a = 1 by omega, ap_one, List.nil_append, List.append_assoc,
          show st.istart + (c + 1) * st.m = a by rw [Nat.succ_mul]; omega]
    · rw [if_neg hgo]
      simp only
      generalize hst : (decide (auto * (st.m : Int) ≤ ((if st.m = a - st.k then a else st.k : Nat) : Int) - (st.istart : Int)) : Bool) = stepped
      obtain ⟨d, d1, d2, d3, d4⟩ := yieldPending_ok (auto := auto) h hm stepped
      generalize yieldPending st stepped = y at d1 d2 d3 d4
      by_cases hch : st.m = a - st.k
      · rw [if_neg (by simpa using hch)]
        have hu : a + 1 ≠ b := fun e => hgo ⟨hch, e⟩
        rw [if_pos hch] at hst
        have ha : a = y.2 + (d + 1) * st.m := by rw [Nat.succ_mul]; omega
        cases stepped with
        | true =>
          have hy := d3 rfl
          have hle := of_decide_eq_true hst
          have hout : Slice.read ⟨y.2, a + 1, st.m⟩ = ap y.2 st.m (d + 2) := by
            show pyRange y.2 (a + 1) st.m = _
            rw [ha, pyRange_ap hpos]
          have hok : ∀ s ∈ y.1 ++ [Slice.mk y.2 (a + 1) st.m], SliceOk auto s := by
            intro s hs
            rcases List.mem_append.mp hs with hs | hs
            · exact d4 s hs
            · rcases List.mem_singleton.mp hs with rfl
              refine ⟨by show y.2 < a + 1; omega, hpos, ⟨d + 1, by show y.2 + (d + 1) * st.m + 1 = a + 1; omega⟩, fun _ => ⟨?_, ?_⟩⟩
              · show auto * (st.m : Int) ≤ ((a + 1 : Nat) : Int) - 1 - (y.2 : Int)
                rw [hy]; omega
              · show y.2 + 1 < a + 1
                have : 0 < (d + 1) * st.m := Nat.mul_pos (by omega) hpos
                omega
          simp only [if_true]
          by_cases h2 : a + 1 + 1 < b
          · rw [if_pos h2]
            refine ⟨0, inv_range _ h2, trivial, ?_, hok⟩
            rw [pend_range _ h2, List.flatMap_append, List.flatMap_singleton, hout, ap_succ y.2 st.m (d + 1), ← List.append_assoc, d2,
              ← ha, List.append_assoc, show b - a = (b - (a + 1)) + 1 by omega, ap_cons]
            rfl
          · rw [if_neg h2]
            refine ⟨0, inv_single _ _, trivial, ?_, hok⟩
            rw [pend_single, List.flatMap_append, List.flatMap_singleton, hout, ap_succ y.2 st.m (d + 1), ← List.append_assoc, d2,
              ← ha, List.append_assoc, show b - a = 1 + 1 by omega, ap_succ, ap_one, show b - 1 = a + 1 * 1 by omega]
        | false =>
          have hout : (singles y.2 (a + 1 - st.m) st.m).flatMap Slice.read = ap y.2 st.m (d + 1) := by
            rw [read_singles, ha, pyRange_short hpos]
          simp only [Bool.false_eq_true, if_false]
          rw [if_pos (by omega)]
          refine ⟨0, inv_range _ (by omega), trivial, ?_, ?_⟩
          · rw [pend_range _ (by omega), List.flatMap_append, hout, d2]
          · intro s hs
            rcases List.mem_append.mp hs with hs | hs
            · exact d4 s hs
            · exact sliceOk_singles s hs
      · rw [if_pos hch]
        rw [if_neg hch] at hst
        cases stepped with
        | true =>
          have hy := d3 rfl
          have hle := of_decide_eq_true hst
          have hout : Slice.read ⟨y.2, st.k + 1, st.m⟩ = ap y.2 st.m (d + 1) := by
            show pyRange y.2 (st.k + 1) st.m = _
            rw [← d1, pyRange_ap hpos]
          have hok : ∀ s ∈ y.1 ++ [Slice.mk y.2 (st.k + 1) st.m], SliceOk auto s := by
            intro s hs
            rcases List.mem_append.mp hs with hs | hs
            · exact d4 s hs
            · rcases List.mem_singleton.mp hs with rfl
              refine ⟨by show y.2 < st.k + 1; omega, hpos, ⟨d, by show y.2 + d * st.m + 1 = st.k + 1; omega⟩, fun _ => ⟨?_, ?_⟩⟩
              · show auto * (st.m : Int) ≤ ((st.k + 1 : Nat) : Int) - 1 - (y.2 : Int)
                rw [hy]; omega
              · show y.2 + 1 < st.k + 1
                have : 0 < c * st.m := Nat.mul_pos (by omega) hpos
                omega
          simp only [if_true]
          by_cases hu : a + 1 = b
          · rw [if_pos hu]
            refine ⟨0, inv_single _ _, by show a = b - 1; omega, ?_, hok⟩
            rw [pend_single, List.flatMap_append, List.flatMap_singleton, hout, d2, show b - a = 1 by omega, ap_one]
          · rw [if_neg hu]
            refine ⟨0, inv_range _ (by omega), rfl, ?_, hok⟩
            rw [pend_range _ (by omega), List.flatMap_append, List.flatMap_singleton, hout, d2]
        | false =>
          have hout : (singles y.2 (st.k + 1 - st.m) st.m).flatMap Slice.read = ap y.2 st.m d := by
            rw [read_singles, ← d1, pyRange_short hpos]
          have hok : ∀ (l : List Slice), (∀ s ∈ l, SliceOk auto s) → ∀ s ∈ y.1 ++ (singles y.2 (st.k + 1 - st.m) st.m ++ l), SliceOk auto s := by
            intro l hl s hs
            rcases List.mem_append.mp hs with hs | hs
            · exact d4 s hs
            · rcases List.mem_append.mp hs with hs | hs
              · exact sliceOk_singles s hs
              · exact hl s hs
          rw [ap_succ, d1] at d2
          simp only [Bool.false_eq_true, if_false]
          by_cases hu : a + 1 = b
          · rw [if_pos hu, if_neg (by simpa using hu)]
            refine ⟨1, ⟨⟨by simp, fun (e : a - st.k = 0) => by omega⟩, ?_, fun _ => rfl, by simp, ?_⟩, by show a = b - 1; omega, ?_, hok [] (by simp)⟩
            · show a = st.k + 1 * (a - st.k); omega
            · show a - st.k ≠ 1; omega
            · rw [List.append_nil, List.flatMap_append, hout]
              show _ ++ ([] ++ ap st.k (a - st.k) 2) = _
              rw [ap_succ, ap_one, ← d2, show b - a = 1 by omega, ap_one, show st.k + 1 * (a - st.k) = a by omega]
              simp
          · rw [if_neg hu, if_pos hu]
            refine ⟨0, inv_range _ (by omega), rfl, ?_, hok _ ?_⟩
            · rw [pend_range _ (by omega), List.flatMap_append, List.flatMap_append, hout, List.flatMap_singleton, ← d2]
              show _ ++ (_ ++ pyRange st.k (st.k + 1) 1) ++ _ = _
              rw [pyRange_unit, show st.k + 1 - st.k = 1 by omega, ap_one]
            · intro s hs
              rcases List.mem_singleton.mp hs with rfl
              exact sliceOk_unit (by omega)

theorem foldEnd_ok {auto : Int} {st : Folding} {c : Nat} (h : FInv st c) :
    (foldEnd auto st).flatMap Slice.read = st.pend c ∧ ∀ s ∈ foldEnd auto st, SliceOk auto s := by
  unfold foldEnd
  by_cases hm : st.m = 0
  · have hc : c = 0 := h.zero.mpr hm
    subst hc
    rw [if_pos hm]
    constructor
    · rw [List.flatMap_singleton]
      unfold Folding.pend Folding.pre
      cases hp : st.prng with
      | none =>
        show pyRange st.istart (st.istart + 1) 1 = _
        rw [pyRange_unit, show st.istart + 1 - st.istart = 1 by omega, ap_one, ap_one]; rfl
      | some p =>
        obtain ⟨e1, e2⟩ := h.range p hp
        show (pendingSlice p).read = _
        rw [read_pending, e1, show st.istart + 1 - p.1 = (st.istart - p.1) + 1 by omega, ap_succ, ap_one,
          show p.1 + (st.istart - p.1) * 1 = st.istart by omega]
    · intro s hs
      rcases List.mem_singleton.mp hs with rfl
      cases hp : st.prng with
      | none => exact sliceOk_unit (by omega)
      | some p =>
        obtain ⟨e1, e2⟩ := h.range p hp
        exact sliceOk_unit (by omega)
  · have hc : c ≠ 0 := fun e => hm (h.zero.mp e)
    have hpos : 0 < st.m := by omega
    have hkl := h.last
    rw [if_neg hm]
    simp only
    generalize hst : (decide (auto * (st.m : Int) ≤ (st.k : Int) - (st.istart : Int)) : Bool) = stepped
    obtain ⟨d, d1, d2, d3, d4⟩ := yieldPending_ok (auto := auto) h hm stepped
    generalize yieldPending st stepped = y at d1 d2 d3 d4
    rw [h.same hm]
    cases stepped with
    | true =>
      have hy := d3 rfl
      have hle := of_decide_eq_true hst
      simp only [if_true]
      constructor
      · rw [List.flatMap_append, List.flatMap_singleton, ← d2]
        show _ ++ pyRange y.2 (st.k + 1) st.m = _
        rw [← d1, pyRange_ap hpos]
      · intro s hs
        rcases List.mem_append.mp hs with hs | hs
        · exact d4 s hs
        · rcases List.mem_singleton.mp hs with rfl
          refine ⟨by show y.2 < st.k + 1; omega, hpos, ⟨d, by show y.2 + d * st.m + 1 = st.k + 1; omega⟩, fun _ => ⟨?_, ?_⟩⟩
          · show auto * (st.m : Int) ≤ ((st.k + 1 : Nat) : Int) - 1 - (y.2 : Int)
            rw [hy]; omega
          · show y.2 + 1 < st.k + 1
            have : 0 < c * st.m := Nat.mul_pos (by omega) hpos
            omega
    | false =>
      simp only [Bool.false_eq_true, if_false]
      constructor
      · rw [List.flatMap_append, read_singles, ← d2, ← d1, pyRange_ap hpos]
      · intro s hs
        rcases List.mem_append.mp hs with hs | hs
        · exact d4 s hs
        · exact sliceOk_singles s hs

theorem foldLoop_ok (auto : Int) : ∀ (l : List (Nat × Nat)) (st : Folding) (c : Nat), FInv st c →
    (∀ s ∈ l, s.1 < s.2) → l.Pairwise (fun s t => s.2 < t.1) → (∀ s ∈ l, st.k + 1 < s.1) →
    (foldLoop auto st l).flatMap Slice.read = st.pend c ++ l.flatMap (fun s => ap s.1 1 (s.2 - s.1)) ∧
    ∀ s ∈ foldLoop auto st l, SliceOk auto s
  | [], st, c, h, _, _, _ => by
    obtain ⟨e, ok⟩ := foldEnd_ok (auto := auto) h
    exact ⟨by rw [foldLoop, e]; simp, ok⟩
  | s :: l, st, c, h, h1, h2, h3 => by
    have h2' := List.pairwise_cons.mp h2
    have hs := h1 s (by simp)
    obtain ⟨c', i1, i2, i3, i4⟩ := foldRound_ok (auto := auto) h (h3 s (by simp)) hs
    obtain ⟨e, ok⟩ := foldLoop_ok auto l _ c' i1 (fun t ht => h1 t (by simp [ht])) h2'.2
      (fun t ht => by have := h2'.1 t ht; rw [i2]; omega)
    rw [foldLoop]
    constructor
    · rw [List.flatMap_append, e, ← List.append_assoc, i3, List.append_assoc]; rfl
    · intro t ht
      rcases List.mem_append.mp ht with ht | ht
      · exact i4 t ht
      · exact ok t ht

theorem foldedSlices_ok (auto : Int) (r : RSet) :
    (foldedSlices auto r).flatMap Slice.read = (contiguousSlices r).flatMap (fun s => ap s.1 1 (s.2 - s.1)) ∧
    ∀ s ∈ foldedSlices auto r, SliceOk auto s := by
  obtain ⟨h1, h2, _⟩ := contiguousSlices_ok r
  unfold foldedSlices
  cases h : contiguousSlices r with
  | nil => simp
  | cons s l =>
    rw [h] at h1 h2
    have h2' := List.pairwise_cons.mp h2
    have hs := h1 s (by simp)
    obtain ⟨i1, i2, i3⟩ := firstRound_ok hs
    obtain ⟨e, ok⟩ := foldLoop_ok auto l _ 0 i1 (fun t ht => h1 t (by simp [ht])) h2'.2
      (fun t ht => by have := h2'.1 t ht; rw [i3]; omega)
    exact ⟨by rw [e, i2]; rfl, ok⟩

end CollateX
