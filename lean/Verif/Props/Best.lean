import Verif.Proofs.Best
import Verif.Props.Nested
/-
Property C65: the table of two witnesses is a best arrangement of their tokens.
-/

namespace CollateX
open Spec

/-- The table with two rows that an arrangement describes. -/
def Spec.TwoRows (t : Table) (cols : List Pairing) : Prop :=
  t.rows.map (fun r => r.cells.map (Option.map (List.map Token.str))) =
    [cols.map (fun c => c.1.map (fun a => [a])), cols.map (fun c => c.2.map (fun a => [a]))]

/-- Two witnesses, the second without equal neighbours: the score of the aligner counts the shared vertices and bounds the balance of every
arrangement. -/
theorem best_core (env : Env) (hts : TopoSpec env.topo) (wA wB : Witness) (hv : Valid [wA, wB])
    (hs : ∀ w ∈ [wA, wB], w.sigil ≠ []) (hrep : NoRepeats wB) (o : Opts) (ho : ExactMatching o) (hf : o.pfilter = none)
    (hseg : o.segmentation = false) :
    ∃ g rk a b p P rkf ord m, indexed 0 [wA, wB] = [a, b] ∧ collateRanked env [wA, wB] o = .ok ([a, b], g, rk) ∧
      Collated env.cc [a, b] false g [p, P] rk rkf ord m ∧ (∀ w ∈ [a, b], w.sigil ≠ []) ∧ a.tokens.map Token.str = strings wA ∧
      b.tokens.map Token.str = strings wB ∧ ∃ (len : Nat) (f : VId → Nat), f endV = len + 1 ∧ (∀ e ∈ g.pairs, f e.1 < f e.2) ∧
        ∀ cols', Arrangement (strings wA) (strings wB) cols' →
          balance cols' ≤ 2 * ((P.inner.filter (· ∈ p.inner)).length : Int) - len := by
  let R : VGraph → List WPath → Prop := fun g ps => ∀ p P, ps = [p, P] → ∃ (len : Nat) (f : VId → Nat),
    f endV = len + 1 ∧ (∀ e ∈ g.pairs, f e.1 < f e.2) ∧ ∀ cols', Arrangement (strings wA) (strings wB) cols' →
      balance cols' ≤ 2 * ((P.inner.filter (· ∈ p.inner)).length : Int) - len
  obtain ⟨g, ps, rk, rkf, ord, m, h1, C, hR⟩ := collateRanked_inv env hts hv o ho.astar ho.detect ho.near
    (Q := fun _ s ps => R s.g ps) (R := R)
    (fun ti hti L B => by
      refine ⟨?_, ?_, fun _ _ _ _ h => h⟩
      · rw [hf]
        rintro s s' ps w P rkf o m r cube cells al hs hne hw hs' hst - p P' he
        obtain ⟨rfl, he2⟩ : ps = [p] ∧ [P] = [P'] := List.append_inj he (by
          have := congrArg List.length he
          simpa using this)
        obtain rfl : P = P' := by simpa using he2
        have hb : Base p [p] := ⟨by simp, by simp⟩
        obtain ⟨x0, hx0⟩ : ∃ x0, ti.ws[0]? = some x0 := ⟨_, List.getElem?_eq_getElem (by rw [hti, indexed_length]; simp)⟩
        have hiff := hb.cube_iff L B hs hw hst hx0 rfl
        have hn := congrArg List.length (hs.reads 0 x0 p hx0 rfl).2
        simp only [List.length_map] at hn
        have hm := hb.ranks hs.ginv hst.rank
        have e1 : w.tokens.map Token.str = strings wB := by
          rw [hti] at hw
          obtain ⟨a, e1, _, e2⟩ := indexed_strs _ hw
          simp only [List.length_cons, List.length_nil, Nat.zero_add, List.getElem?_cons_succ, List.getElem?_cons_zero,
            Option.some.injEq] at e1
          rw [e2, e1]
          rfl
        have e0 : x0.tokens.map Token.str = strings wA := by
          rw [hti] at hx0
          obtain ⟨a, e1, _, e2⟩ := indexed_strs _ hx0
          simp only [List.getElem?_cons_zero, Option.some.injEq] at e1
          rw [e2, e1]
          rfl
        rw [e1, e0] at hiff
        obtain ⟨len, f, f0, f1, f2, f3⟩ := hst.fits L hs hne hw hs' (by
          rintro y x ⟨q1, q2⟩
          obtain ⟨a, a1, a2⟩ := (hiff y x).mp q1
          obtain ⟨b, b1, b2⟩ := (hiff (y + 1) x).mp q2
          rw [a2] at b2
          obtain rfl := Option.some.inj b2
          exact hrep y a a1 b1)
        refine ⟨len, f, f1, f2, ?_⟩
        intro cols' ha
        have h2 := balance_le cube.rel cols' 0 0 ha.full (by
          intro i j a hi hj
          rw [ha.first] at hi
          rw [ha.second] at hj
          rw [Nat.zero_add, Nat.zero_add]
          exact (hiff j i).mpr ⟨a, hj, hi⟩)
        have h3 := f3 (stepsOf cols') (by
          rw [stepsOf_end, ha.first, ha.second, ← e0, ← e1, List.length_map, List.length_map, hm, hn]
          simp)
        have h4 : P.inner.filter (· ∈ s.g.vertices) = P.inner.filter (· ∈ p.inner) := by
          apply List.filter_congr
          intro v hv
          obtain ⟨q, hq, rfl⟩ := List.mem_map.mp hv
          have h5 := hs'.ginv.segs_in P (by simp) q hq
          simp only [decide_eq_decide]
          constructor
          · intro h6
            obtain ⟨p', hp', hvp⟩ := hs.ginv.cover q.1 h6 h5.2.1 h5.2.2.1
            simp only [List.mem_singleton] at hp'
            subst hp'
            exact hvp
          · intro h6
            obtain ⟨q', hq', he⟩ := List.mem_map.mp h6
            rw [← he]
            exact (hs.ginv.segs_in p (by simp) q' hq').1
        rw [h4] at h3
        omega
      · intro w s _ _ p P he
        simp at he) (fun h => by rw [hseg] at h; cases h)
  rw [hseg] at C
  have hsi := indexed_sigil_ne hs
  have hlen : ps.length = 2 := by rw [C.length, indexed_length]; rfl
  obtain ⟨p, P, rfl⟩ : ∃ p P, ps = [p, P] := by
    match ps, hlen with
    | [p, P], _ => exact ⟨p, P, rfl⟩
  have hwlen : (indexed 0 [wA, wB]).length = 2 := indexed_length _ _
  obtain ⟨a, b, hab⟩ : ∃ a b, indexed 0 [wA, wB] = [a, b] := by
    match indexed 0 [wA, wB], hwlen with
    | [a, b], _ => exact ⟨a, b, rfl⟩
  have hA : a.tokens.map Token.str = strings wA := by
    obtain ⟨a', e1, _, e2⟩ := indexed_strs [wA, wB] (k := 0) (w := a) (by rw [hab]; rfl)
    simp only [List.getElem?_cons_zero, Option.some.injEq] at e1
    rw [e2, e1]
    rfl
  have hB : b.tokens.map Token.str = strings wB := by
    obtain ⟨a', e1, _, e2⟩ := indexed_strs [wA, wB] (k := 1) (w := b) (by rw [hab]; rfl)
    simp only [List.getElem?_cons_succ, List.getElem?_cons_zero, Option.some.injEq] at e1
    rw [e2, e1]
    rfl
  rw [hab] at C hsi h1
  exact ⟨g, rk, a, b, p, P, rkf, ord, m, hab, h1, C, hsi, hA, hB, hR p P rfl⟩

/-- The table of two witnesses, as an arrangement of their tokens. -/
theorem Collated.arrangement {cc : CharClass} {g : VGraph} {rk : Ranking} {rkf : VId → Nat} {ord : List VId} {m : Nat} {a b : Witness}
    {p P : WPath} (C : Collated cc [a, b] false g [p, P] rk rkf ord m) (hsi : ∀ w ∈ [a, b], w.sigil ≠ []) :
    TwoRows (mkTable [a, b] g rk) ((mkTable [a, b] g rk).columns.map (fun c => (CollateX.cellStr (dget c.tokens a.sigil),
        CollateX.cellStr (dget c.tokens b.sigil)))) ∧
    Arrangement (a.tokens.map Token.str) (b.tokens.map Token.str) ((mkTable [a, b] g rk).columns.map
      (fun c => (CollateX.cellStr (dget c.tokens a.sigil), CollateX.cellStr (dget c.tokens b.sigil)))) := by
  refine ⟨?_, ?_, ?_, ?_⟩
  · unfold TwoRows
    rw [mkTable_rows]
    simp only [List.map_cons, List.map_nil, List.map_map]
    congr 1
    · apply List.map_congr_left
      intro c hc
      exact C.cellStr hsi (by simp) hc
    · congr 1
      apply List.map_congr_left
      intro c hc
      exact C.cellStr hsi (by simp) hc
  · rw [List.filterMap_map]
    exact C.rowStrs (k := 0) rfl (hsi a (by simp))
  · rw [List.filterMap_map]
    exact C.rowStrs (k := 1) rfl (hsi b (by simp))
  · intro c hc hcn
    obtain ⟨col, hcol, rfl⟩ := List.mem_map.mp hc
    have hcell : ∀ w ∈ [a, b], CollateX.cellStr (dget col.tokens w.sigil) = none → dget col.tokens w.sigil = none := by
      intro w hw h
      have := C.cellStr hsi hw hcol
      rw [h] at this
      simpa using this
    injection hcn with n1 n2
    have m1 := hcell a (by simp) n1
    have m2 := hcell b (by simp) n2
    obtain ⟨j, hj⟩ := List.getElem?_of_mem hcol
    obtain ⟨r, hr, hcolr⟩ := C.col hj
    obtain ⟨v, hv, hi⟩ := colAt_isSome.mp ⟨col, hcolr⟩
    obtain ⟨hvm, hvk⟩ := (C.byRank.mem r hr v).mp hv
    simp only [inside, decide_eq_true_eq] at hi
    obtain ⟨p0, hp0, hvp0⟩ := C.ginv.cover v hvm hi.1 hi.2
    obtain ⟨⟨v', us⟩, hq, rfl⟩ := List.mem_map.mp hvp0
    have hce := (C.byRank.cell C.ginv hp0 (C.sigil_ne hsi _ hp0) (C.inner_increasing hp0) [a, b].length hr us).mpr ⟨_, hq, hvk, rfl⟩
    rw [hcolr] at hce
    simp only [Option.bind_some] at hce
    obtain ⟨w, hw, hwp⟩ : ∃ w ∈ [a, b], w.sigil = p0.sigil := by
      obtain ⟨_, w, hw, he⟩ := C.sigil_mem hp0
      exact ⟨w, List.mem_of_getElem? hw, he⟩
    rw [← hwp] at hce
    simp only [List.mem_cons, List.not_mem_nil, or_false] at hw
    rcases hw with rfl | rfl
    · rw [m1] at hce; cases hce
    · rw [m2] at hce; cases hce

/-- C65 if no two neighbouring tokens of the second witness are equal (what is missing: second witnesses with equal neighbours,
for which the claim is false, see `C65_repeats`). Without segmentation, the table of two witnesses is an arrangement of their
tokens in two rows that no other arrangement surpasses in the number of columns with equal strings less the number of other
columns. -/
theorem C65_best_partial (env : Env) (hts : TopoSpec env.topo) (wA wB : Witness) (hv : Valid [wA, wB])
    (hs : ∀ w ∈ [wA, wB], w.sigil ≠ []) (hrep : NoRepeats wB) (o : Opts) (ho : ExactMatching o) (hf : o.pfilter = none)
    (hseg : o.segmentation = false) :
    ∃ t cols, collateTable env [wA, wB] o = .ok t ∧ TwoRows t cols ∧ Arrangement (strings wA) (strings wB) cols ∧
      ∀ cols', Arrangement (strings wA) (strings wB) cols' → balance cols' ≤ balance cols := by
  obtain ⟨g, rk, a, b, p, P, rkf, ord, m, hab, h1, C, hsi, hA, hB, len, f, f1, f2, f3⟩ := best_core env hts wA wB hv hs hrep o ho hf hseg
  have harr := C.arrangement hsi
  rw [hA, hB] at harr
  refine ⟨mkTable [a, b] g rk, _, ?_, harr.1, harr.2, ?_⟩
  · unfold collateTable; rw [h1]; rfl
  · intro cols' ha
    have h2 := f3 cols' ha
    have h3 := C.shared_le hsi
    have h4 := C.columns_le (by simp)
    have h5 := C.rank.isRank.le C.ginv.wf f2 _ endV C.ginv.end_mem rfl
    have h6 := balance_eq ((mkTable [a, b] g rk).columns.map (fun c => (cellStr (dget c.tokens a.sigil), cellStr (dget c.tokens b.sigil))))
    rw [List.length_map] at h6
    have h7 : ((P.inner.filter (· ∈ p.inner)).length : Int) ≤ (List.countP (fun c : Pairing => decide (c.1 = c.2))
      ((mkTable [a, b] g rk).columns.map (fun c => (cellStr (dget c.tokens a.sigil), cellStr (dget c.tokens b.sigil)))) : Int) := by
      refine Int.ofNat_le.mpr (Nat.le_trans h3 (Nat.le_of_eq ?_))
      apply List.countP_congr
      intro c _
      simp
    omega

/-- An arrangement read with the rows exchanged. -/
theorem _root_.CollateX.Spec.Arrangement.swap {A B : List Str} {cols : List Pairing} (h : Arrangement A B cols) :
    Arrangement B A (cols.map Prod.swap) ∧ balance (cols.map Prod.swap) = balance cols := by
  refine ⟨⟨?_, ?_, ?_⟩, ?_⟩
  · rw [List.filterMap_map]; exact h.second
  · rw [List.filterMap_map]; exact h.first
  · intro c hc hn
    obtain ⟨d, hd, rfl⟩ := List.mem_map.mp hc
    apply h.full d hd
    obtain ⟨d1, d2⟩ := d
    simp only [Prod.swap, Prod.mk.injEq] at hn ⊢
    exact ⟨hn.2, hn.1⟩
  · unfold balance
    rw [List.map_map]
    congr 1
    apply List.map_congr_left
    intro c _
    simp [eq_comm]

/-- Which of two witnesses comes first does not change the balance of the table, if neither has equal neighbouring tokens (what
is missing is as in `C65_best_partial`). -/
theorem C65_either_order_partial (env : Env) (hts : TopoSpec env.topo) (wA wB : Witness) (hv : Valid [wA, wB]) (hv' : Valid [wB, wA])
    (hs : ∀ w ∈ [wA, wB], w.sigil ≠ []) (hA : NoRepeats wA) (hB : NoRepeats wB) (o : Opts) (ho : ExactMatching o)
    (hf : o.pfilter = none) (hseg : o.segmentation = false) :
    ∃ t cols t' cols', collateTable env [wA, wB] o = .ok t ∧ TwoRows t cols ∧ collateTable env [wB, wA] o = .ok t' ∧ TwoRows t' cols' ∧
      balance cols = balance cols' := by
  obtain ⟨t, cols, h1, h2, h3, h4⟩ := C65_best_partial env hts wA wB hv hs hB o ho hf hseg
  obtain ⟨t', cols', k1, k2, k3, k4⟩ := C65_best_partial env hts wB wA hv' (fun w hw => hs w (by simp at hw ⊢; tauto)) hA o ho hf hseg
  refine ⟨t, cols, t', cols', h1, h2, k1, k2, ?_⟩
  have a1 := h4 _ k3.swap.1
  have a2 := k4 _ h3.swap.1
  rw [k3.swap.2] at a1
  rw [h3.swap.2] at a2
  omega

/-- C65 is false if the second witness has equal neighbours: for `the cat` and `the cat the the the`, the table has one column
with equal strings and five others, but two and three are possible. -/
theorem C65_repeats : Valid repeatedWitnesses ∧
    (∃ t cols, collateTable exampleEnv repeatedWitnesses { segmentation := false } = .ok t ∧ TwoRows t cols ∧ balance cols = -4) ∧
    ∃ cols', Arrangement (strings (wordsWitness "A" ["the", "cat"])) (strings (wordsWitness "B" ["the", "cat", "the", "the", "the"])) cols' ∧
      balance cols' = -1 := by
  obtain ⟨hv, _, hsum, _⟩ := C53_repeats
  refine ⟨hv, ?_, [(some (S "the"), some (S "the")), (some (S "cat"), some (S "cat")), (none, some (S "the")),
    (none, some (S "the")), (none, some (S "the"))], ⟨by decide, by decide, by decide⟩, by decide⟩
  cases ht : collateTable exampleEnv repeatedWitnesses { segmentation := false } with
  | error e => rw [ht] at hsum; cases hsum
  | ok t =>
    rw [ht] at hsum
    have := congrArg TableSummary.cells (Except.ok.inj hsum)
    refine ⟨t, [(none, some (S "the")), (none, some (S "cat")), (none, some (S "the")), (none, some (S "the")),
      (some (S "the"), some (S "the")), (some (S "cat"), none)], rfl, ?_, by decide⟩
    exact this

/-- Two witnesses with one common token, at opposite ends. -/
def farWitnesses : List Witness := [wordsWitness "A" ["x", "a", "b", "c", "d"], wordsWitness "B" ["e", "f", "g", "h", "x"]]

/-- A best arrangement need not have as many columns with equal strings as possible: a common token is not aligned if that takes
too many columns. -/
theorem C65_not_most_agreements : Valid farWitnesses ∧
    (collateTable exampleEnv farWitnesses { segmentation := false }).map tableSummary =
      .ok ⟨[true, true, true, true, true], [S "A", S "B"], [[some [S "x"], some [S "a"], some [S "b"], some [S "c"], some [S "d"]],
        [some [S "e"], some [S "f"], some [S "g"], some [S "h"], some [S "x"]]]⟩ ∧
    ∃ cols', Arrangement (strings (wordsWitness "A" ["x", "a", "b", "c", "d"]))
      (strings (wordsWitness "B" ["e", "f", "g", "h", "x"])) cols' ∧ (some (S "x"), some (S "x")) ∈ cols' :=
  ⟨valid_of_check (by decide) (by decide) (by decide) (by decide), by decide +kernel,
    [(none, some (S "e")), (none, some (S "f")), (none, some (S "g")), (none, some (S "h")), (some (S "x"), some (S "x")),
     (some (S "a"), none), (some (S "b"), none), (some (S "c"), none), (some (S "d"), none)], ⟨by decide, by decide, by decide⟩, by decide⟩

/-! ### Examples -/

/-- The hypotheses of C65 are met by the witnesses of `C65_not_most_agreements` and by two with repeated tokens. -/
example : TopoSpec exampleEnv.topo ∧ Valid farWitnesses ∧ NoRepeats (wordsWitness "B" ["e", "f", "g", "h", "x"]) ∧
    Valid [wordsWitness "A" ["a", "a", "b", "c"], wordsWitness "B" ["a", "b", "a", "d"]] ∧
    NoRepeats (wordsWitness "B" ["a", "b", "a", "d"]) ∧
    (collateTable exampleEnv [wordsWitness "A" ["a", "a", "b", "c"], wordsWitness "B" ["a", "b", "a", "d"]]
      { segmentation := false }).map tableSummary =
    .ok ⟨[false, true, false, true, true], [S "A", S "B"], [[some [S "a"], none, some [S "a"], some [S "b"], some [S "c"]],
        [some [S "a"], some [S "b"], some [S "a"], some [S "d"], none]]⟩ := by
  have noRep : ∀ w : Witness, (∀ i ∈ List.range (strings w).length, (strings w)[i]? ≠ (strings w)[i + 1]?) → NoRepeats w := by
    intro w h i a h1 h2
    exact h i (List.mem_range.mpr (List.getElem?_eq_some_iff.mp h1).1) (by rw [h1, h2])
  exact ⟨kahn_spec, valid_of_check (by decide) (by decide) (by decide) (by decide), noRep _ (by decide),
    valid_of_check (by decide) (by decide) (by decide) (by decide), noRep _ (by decide), by decide +kernel⟩

end CollateX
