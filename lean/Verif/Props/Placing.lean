import Verif.Proofs.Placing
import Verif.Props.Best
/-
Property C101: a further witness is placed against the earlier ones as well as possible.
-/

namespace CollateX
open Spec

/-- A word that the text repeats does not stand in one column with the word just before the repetition. (In particular, if two neighbours
are equal, they are not in any column.) -/
def Spec.NoReturn (C : List (List Str)) (B : List Str) : Prop :=
  ∀ c ∈ C, ∀ (i j : Nat) (a b : Str), i < j → B[i]? = some a → B[j]? = some a → B[j - 1]? = some b → a ∈ c → b ∉ c

/-! ### Placings and paths -/

/-- The path of a placing. -/
def placeSteps : List Place → List Step
  | [] => []
  | (some _, some _) :: l => .diag :: placeSteps l
  | (some _, none) :: l => .right :: placeSteps l
  | (none, some _) :: l => .down :: placeSteps l
  | (none, none) :: l => placeSteps l

theorem placeSteps_end : ∀ (pl : List Place) (x y : Nat), endOf (placeSteps pl) (x, y) =
    (x + (pl.filterMap Prod.fst).length, y + (pl.filterMap Prod.snd).length)
  | [], x, y => rfl
  | (some _, some _) :: l, x, y => by
    simp only [placeSteps, endOf, Step.move, placeSteps_end l, List.filterMap_cons, List.length_cons]
    congr 1 <;> omega
  | (some _, none) :: l, x, y => by
    simp only [placeSteps, endOf, Step.move, placeSteps_end l, List.filterMap_cons, List.length_cons]
    congr 1
    omega
  | (none, some _) :: l, x, y => by
    simp only [placeSteps, endOf, Step.move, placeSteps_end l, List.filterMap_cons, List.length_cons]
    congr 1
    omega
  | (none, none) :: l, x, y => by
    simp only [placeSteps, placeSteps_end l, List.filterMap_cons]

/-- A placing scores no more than its path. -/
theorem gain_le (M : Nat → Nat → Bool) : ∀ (pl : List Place) (x y : Nat), (∀ c ∈ pl, c ≠ (none, none)) →
    (∀ (i j : Nat) (ws : List Str) (a : Str), (pl.filterMap Prod.fst)[i]? = some ws → (pl.filterMap Prod.snd)[j]? = some a → a ∈ ws →
      M (y + j) (x + i) = true) → gain pl ≤ pathScore M (placeSteps pl) (x, y)
  | [], x, y, _, _ => by simp [gain, placeSteps, pathScore]
  | (some c, some b) :: l, x, y, hf, h => by
    have ih := gain_le M l (x + 1) (y + 1) (fun c hc => hf c (by simp [hc])) (by
      intro i j ws a h1 h2 h3
      have := h (i + 1) (j + 1) ws a (by simpa using h1) (by simpa using h2) h3
      rw [show y + 1 + j = y + (j + 1) by omega, show x + 1 + i = x + (i + 1) by omega]
      exact this)
    simp only [gain, List.map_cons, List.sum_cons, placeSteps, pathScore, Step.move, Step.score] at ih ⊢
    by_cases hab : b ∈ c
    · have := h 0 0 c b (by simp) (by simp) hab
      rw [Nat.add_zero, Nat.add_zero] at this
      rw [if_pos (by simpa [fits] using hab), if_pos this]
      omega
    · rw [if_neg (by simpa [fits] using hab)]
      split <;> omega
  | (some c, none) :: l, x, y, hf, h => by
    have ih := gain_le M l (x + 1) y (fun c hc => hf c (by simp [hc])) (by
      intro i j ws a h1 h2 h3
      have := h (i + 1) j ws a (by simpa using h1) (by simpa using h2) h3
      rw [show x + 1 + i = x + (i + 1) by omega]
      exact this)
    simp only [gain, List.map_cons, List.sum_cons, placeSteps, pathScore, Step.move, Step.score] at ih ⊢
    rw [if_neg (by simp [fits])]
    omega
  | (none, some b) :: l, x, y, hf, h => by
    have ih := gain_le M l x (y + 1) (fun c hc => hf c (by simp [hc])) (by
      intro i j ws a h1 h2 h3
      have := h i (j + 1) ws a (by simpa using h1) (by simpa using h2) h3
      rw [show y + 1 + j = y + (j + 1) by omega]
      exact this)
    simp only [gain, List.map_cons, List.sum_cons, placeSteps, pathScore, Step.move, Step.score] at ih ⊢
    rw [if_neg (by simp [fits])]
    split <;> omega
  | (none, none) :: l, x, y, hf, _ => absurd rfl (hf (none, none) (by simp))

theorem signs_sum {α : Type} (q : α → Bool) (l : List α) :
    (l.map (fun c => if q c then (1 : Int) else -1)).sum = 2 * (l.countP q : Int) - l.length := by
  induction l with
  | nil => rfl
  | cons a l ih =>
    rw [List.map_cons, List.sum_cons, ih, List.countP_cons, List.length_cons]
    split <;> push_cast <;> omega

/-! ### The cells -/

section
variable {cc : CharClass} {ws : List Witness} {g : VGraph} {ps : List WPath} {rk : Ranking} {rkf : VId → Nat}
  {ord : List VId} {m : Nat}

/-- What stands in a cell of an unsegmented table. -/
theorem Collated.cellAt_iff (C : Collated cc ws false g ps rk rkf ord m) (hs : ∀ w ∈ ws, w.sigil ≠ []) (hv : ws ≠ []) {k j : Nat} {row : Row}
    {p : WPath} (hr : (mkTable ws g rk).rows[k]? = some row) (hp : ps[k]? = some p) (hj : j < (mkTable ws g rk).columns.length)
    (l : List Str) : cellAt row j = some l ↔ ∃ v t', (v, [t']) ∈ p.segs ∧ rkf v = j + 1 ∧ l = [t'.str] := by
  obtain ⟨w, hw, _, hc⟩ := row_at hr
  obtain ⟨p', hp', hpw, _⟩ := C.at hw
  rw [hp] at hp'
  obtain rfl := Option.some.inj hp'
  have hpm := List.mem_of_getElem? hp
  obtain ⟨h1, h2⟩ := C.columns_at hv
  have h3 := h2 j hj
  have hjm : j + 1 < m := by
    have := rank_end C.ginv (C.ne hv) C.rank
    omega
  have key := C.byRank.cell C.ginv hpm (C.sigil_ne hs _ hpm) (C.inner_increasing hpm) ws.length hjm
  rw [← h3, hpw] at key
  have e : ((row.cells[j]?).join) = ((mkTable ws g rk).columns[j]?).bind (fun c => dget c.tokens w.sigil) := by
    rw [hc, List.getElem?_map, List.getElem?_eq_getElem hj]
    rfl
  unfold cellAt
  rw [e]
  constructor
  · intro h
    obtain ⟨ts, h4, rfl⟩ := Option.map_eq_some_iff.mp h
    obtain ⟨⟨v, ts'⟩, h5, h6, rfl⟩ := (key ts).mp h4
    obtain ⟨t, ht⟩ := C.single rfl p hpm _ h5
    simp only at ht
    subst ht
    exact ⟨v, t, h5, h6, rfl⟩
  · rintro ⟨v, t, h4, h5, rfl⟩
    rw [(key [t]).mpr ⟨_, h4, h5, rfl⟩]
    rfl

theorem Collated.rows_length (C : Collated cc ws false g ps rk rkf ord m) : (mkTable ws g rk).rows.length = ps.length := by
  rw [mkTable_rows, List.length_map, C.length]

/-- What stands in a column of an unsegmented table. -/
theorem Collated.wordsAt_iff (C : Collated cc ws false g ps rk rkf ord m) (hs : ∀ w ∈ ws, w.sigil ≠ []) (hv : ws ≠ []) {j n : Nat}
    (hj : j < (mkTable ws g rk).columns.length) (a : Str) : a ∈ wordsAt ((mkTable ws g rk).rows.take n) j ↔
      ∃ p ∈ ps.take n, ∃ v t', (v, [t']) ∈ p.segs ∧ t'.str = a ∧ rkf v = j + 1 := by
  unfold wordsAt
  rw [List.mem_flatMap]
  constructor
  · rintro ⟨row, hrow, ha⟩
    obtain ⟨k, hk⟩ := List.getElem?_of_mem hrow
    rw [List.getElem?_take] at hk
    split at hk
    · rename_i hkn
      obtain ⟨p, hp⟩ : ∃ p, ps[k]? = some p := ⟨_, List.getElem?_eq_getElem (by
        rw [← C.rows_length]; exact (List.getElem?_eq_some_iff.mp hk).1)⟩
      cases hc : cellAt row j with
      | none => rw [hc] at ha; cases ha
      | some l =>
        obtain ⟨v, t', h1, h2, rfl⟩ := (C.cellAt_iff hs hv hk hp hj l).mp hc
        rw [hc] at ha
        simp only [Option.getD_some, List.mem_singleton] at ha
        exact ⟨p, List.mem_of_getElem? (i := k) (by rw [List.getElem?_take, if_pos hkn]; exact hp), v, t', h1, ha.symm, h2⟩
    · cases hk
  · rintro ⟨p, hp, v, t', h1, h2, h3⟩
    obtain ⟨k, hk⟩ := List.getElem?_of_mem hp
    rw [List.getElem?_take] at hk
    split at hk
    · rename_i hkn
      obtain ⟨row, hrow⟩ : ∃ row, (mkTable ws g rk).rows[k]? = some row := ⟨_, List.getElem?_eq_getElem (by
        rw [C.rows_length]; exact (List.getElem?_eq_some_iff.mp hk).1)⟩
      refine ⟨row, List.mem_of_getElem? (i := k) (by rw [List.getElem?_take, if_pos hkn]; exact hrow), ?_⟩
      rw [(C.cellAt_iff hs hv hrow hk hj [t'.str]).mpr ⟨v, t', h1, h3, rfl⟩]
      simp [h2]
    · cases hk

/-- Every vertex of the last path that is on an earlier path gives a column in which the last row agrees with another. -/
theorem Collated.lastAgrees_le {qs : List WPath} {P : WPath} (C : Collated cc ws false g (qs ++ [P]) rk rkf ord m)
    (hs : ∀ w ∈ ws, w.sigil ≠ []) (hv : ws ≠ []) : (P.inner.filter (fun v => decide (∃ q ∈ qs, v ∈ q.inner))).length ≤
      (List.range (mkTable ws g rk).columns.length).countP (lastAgrees (mkTable ws g rk)) := by
  have hPm : P ∈ qs ++ [P] := by simp
  have hinc := C.inner_increasing hPm
  have hbd := C.ginv.rank_bounds (by simp) (h := rkf) (fun p hp => C.lt (u := p.1) (v := p.2) hp)
  have hcol := (C.columns_at hv).1
  rw [List.countP_eq_length_filter]
  have := nodup_length_le (l := (P.inner.filter (fun v => decide (∃ q ∈ qs, v ∈ q.inner))).map (fun v => rkf v - 1))
    (m := (List.range (mkTable ws g rk).columns.length).filter (lastAgrees (mkTable ws g rk))) ?_ ?_
  · simpa using this
  · unfold List.Nodup
    rw [List.pairwise_map]
    refine (List.Pairwise.filter _ hinc).imp_of_mem ?_
    intro u v hu hv' h
    obtain ⟨q, hq, rfl⟩ := List.mem_map.mp (List.mem_filter.mp hu).1
    have h1 := C.ginv.segs_in P hPm q hq
    have := (hbd q.1 h1.1).1 h1.2.1
    omega
  · intro k hk
    obtain ⟨v, hv1, rfl⟩ := List.mem_map.mp hk
    obtain ⟨hvP, hvq⟩ := List.mem_filter.mp hv1
    simp only [decide_eq_true_eq] at hvq
    obtain ⟨q, hq, hvq⟩ := hvq
    obtain ⟨⟨v1, tP⟩, h1, rfl⟩ := List.mem_map.mp hvP
    obtain ⟨⟨v2, tq⟩, h2, h2'⟩ := List.mem_map.mp hvq
    simp only at h2' ⊢
    subst h2'
    have hqm : q ∈ qs ++ [P] := by simp [hq]
    have hin := C.ginv.segs_in P hPm _ h1
    have b1 := (hbd v2 hin.1).1 hin.2.1
    have b2 := (hbd v2 hin.1).2 hin.2.2.1
    have hj : rkf v2 - 1 < (mkTable ws g rk).columns.length := by omega
    have hr1 : rkf v2 = rkf v2 - 1 + 1 := by omega
    obtain ⟨t, ht⟩ := C.single rfl P hPm _ h1
    obtain ⟨t', ht'⟩ := C.single rfl q hqm _ h2
    simp only at ht ht'
    subst ht
    subst ht'
    have hu := C.uniform P hPm q hqm v2 [t] [t'] h1 h2
    have hstr : t.str = t'.str := by simpa using hu
    have hlen : (mkTable ws g rk).rows.length = qs.length + 1 := by rw [C.rows_length]; simp
    obtain ⟨row, hrow⟩ : ∃ row, (mkTable ws g rk).rows[qs.length]? = some row := ⟨_, List.getElem?_eq_getElem (by omega)⟩
    have hlast : (mkTable ws g rk).rows.getLast? = some row := by rw [List.getLast?_eq_getElem?, hlen]; exact hrow
    have hdrop : (mkTable ws g rk).rows.dropLast = (mkTable ws g rk).rows.take qs.length := by
      rw [List.dropLast_eq_take, hlen]; rfl
    refine List.mem_filter.mpr ⟨List.mem_range.mpr hj, ?_⟩
    unfold lastAgrees
    rw [hlast, Option.bind_some, (C.cellAt_iff hs hv hrow (p := P) (by simp) hj [t.str]).mpr ⟨v2, t, h1, hr1, rfl⟩, hdrop]
    simp only [List.any_cons, List.any_nil, Bool.or_false, decide_eq_true_eq]
    refine (C.wordsAt_iff hs hv hj t.str).mpr ⟨q, ?_, v2, t', h2, hstr.symm, hr1⟩
    rw [List.take_append_of_le_length (Nat.le_refl _), List.take_length]
    exact hq

end

/-- C101, as far as it holds: in the unsegmented table of some witnesses and a further one, the columns in which the last row agrees with
an earlier one, less the other columns, are at least as many as in any placing of the last witness against the table of the earlier
ones. The conditions: a word that the last witness repeats does not stand in one column of that table with the word just before the
repetition; and no collation of fewer than all (but two or more) of the earlier witnesses has two vertices with the same reading on one rank.
What is missing: without the first condition the statement is false (`C101_repeats`). The second is there for C59, and holds whenever there
are at most two earlier witnesses (`C101_third_partial`). -/
theorem C101_placed_partial (env : Env) (hts : TopoSpec env.topo) (us : List Witness) (w : Witness) (hv : Valid (us ++ [w])) (hne : us ≠ [])
    (hsg : ∀ u ∈ us ++ [w], u.sigil ≠ []) (o : Opts) (ho : ExactMatching o) (hf : o.pfilter = none) (hseg : o.segmentation = false)
    (htw : ∀ m, 2 ≤ m → m < us.length → ∀ us' g rk, collateRanked env (us.take m) o = .ok (us', g, rk) → TwinFree g rk) :
    ∃ t0 t, collateTable env us o = .ok t0 ∧ collateTable env (us ++ [w]) o = .ok t ∧
      (NoReturn (columnWords t0) (strings w) → ∀ pl, Placing (columnWords t0) (strings w) pl → gain pl ≤ gainOfLast t) := by
  have ho' : { o with segmentation := false } = o := by cases o; simp_all
  obtain ⟨g, rk, qs, P, rkf, ord, m, g0, rk0, qs0, rkf0, ord0, m0, k1, C, hlen, k2, C0, hinner, hwidth, M, hM, hfit⟩ :=
    further_core hts hv hne hsg ho hf (by rw [ho']; exact htw)
  rw [ho'] at k1 k2
  have hsi := indexed_sigil_ne hsg
  have hsi0 := indexed_sigil_ne (ws := us) (fun u hu => hsg u (by simp [hu]))
  have hi : indexed 0 (us ++ [w]) ≠ [] := by
    intro h
    have := congrArg List.length h
    rw [indexed_length] at this
    simp at this
  have hi0 : indexed 0 us ≠ [] := by
    intro h
    have := congrArg List.length h
    rw [indexed_length] at this
    exact hne (List.length_eq_zero_iff.mp this)
  refine ⟨mkTable (indexed 0 us) g0 rk0, mkTable (indexed 0 (us ++ [w])) g rk, by unfold collateTable; rw [k2]; rfl,
    by unfold collateTable; rw [k1]; rfl, ?_⟩
  intro hret pl hpl
  have hcols := (C0.columns_at hi0).1
  have hm0 := rank_end C0.ginv (C0.ne hi0) C0.rank
  have hwords : ∀ (x : Nat) (a : Str), (∃ c, (columnWords (mkTable (indexed 0 us) g0 rk0))[x]? = some c ∧ a ∈ c) ↔
      ∃ p ∈ qs0, ∃ v t', (v, [t']) ∈ p.segs ∧ t'.str = a ∧ rkf0 v = x + 1 := by
    intro x a
    have htk : ∀ j, wordsAt (mkTable (indexed 0 us) g0 rk0).rows j =
        wordsAt ((mkTable (indexed 0 us) g0 rk0).rows.take qs0.length) j := by
      intro j
      rw [← C0.rows_length, List.take_length]
    unfold columnWords
    rw [List.getElem?_map]
    constructor
    · rintro ⟨c, h1, h2⟩
      obtain ⟨j, h3, rfl⟩ := Option.map_eq_some_iff.mp h1
      obtain ⟨h4, h5⟩ := List.getElem?_eq_some_iff.mp h3
      rw [List.getElem_range] at h5
      subst h5
      rw [List.length_range] at h4
      rw [htk] at h2
      have := (C0.wordsAt_iff hsi0 hi0 h4 a).mp h2
      rwa [List.take_length] at this
    · rintro ⟨p, hp, v, t', h1, h2, h3⟩
      have hbd := C0.ginv.rank_bounds (C0.ne hi0) (h := rkf0) (fun p hp => C0.lt (u := p.1) (v := p.2) hp)
      have hin := C0.ginv.segs_in p hp _ h1
      have := (hbd v hin.1).2 hin.2.2.1
      have hx : x < (mkTable (indexed 0 us) g0 rk0).columns.length := by omega
      refine ⟨_, by rw [List.getElem?_eq_getElem (by simpa using hx), List.getElem_range]; rfl, ?_⟩
      rw [htk]
      refine (C0.wordsAt_iff hsi0 hi0 hx a).mpr ?_
      rw [List.take_length]
      exact ⟨p, hp, v, t', h1, h2, h3⟩
  have hMw : ∀ y x, M y x = true ↔ ∃ a c, (strings w)[y]? = some a ∧ (columnWords (mkTable (indexed 0 us) g0 rk0))[x]? = some c ∧ a ∈ c := by
    intro y x
    rw [hM]
    constructor
    · rintro ⟨a, h1, h2⟩
      obtain ⟨c, h3, h4⟩ := (hwords x a).mpr h2
      exact ⟨a, c, h1, h3, h4⟩
    · rintro ⟨a, c, h1, h2, h3⟩
      exact ⟨a, h1, (hwords x a).mp ⟨c, h2, h3⟩⟩
  obtain ⟨len, f, f1, f2, f3⟩ := hfit (by
    intro i j x a hij hi' hj' q1 q2
    rw [← Bool.not_eq_true]
    intro q3
    obtain ⟨a', c, r1, r2, r3⟩ := (hMw i x).mp q1
    obtain ⟨b, c', s1, s2, s3⟩ := (hMw (j - 1) x).mp q3
    rw [hi'] at r1
    obtain rfl := Option.some.inj r1
    rw [r2] at s2
    obtain rfl := Option.some.inj s2
    exact hret c (List.mem_of_getElem? r2) i j a b hij hi' hj' s1 r3 s3)
  have h1 := gain_le M pl 0 0 hpl.full (by
    intro i j ws a h1 h2 h3
    rw [hpl.first] at h1
    rw [hpl.second] at h2
    rw [Nat.zero_add, Nat.zero_add]
    exact (hMw j i).mpr ⟨a, ws, h2, h1, h3⟩)
  have h2 := f3 (placeSteps pl) (by
    rw [placeSteps_end, hpl.first, hpl.second]
    have : (columnWords (mkTable (indexed 0 us) g0 rk0)).length = (mkTable (indexed 0 us) g0 rk0).columns.length := by
      unfold columnWords; simp
    rw [this, Nat.zero_add, Nat.zero_add, show (mkTable (indexed 0 us) g0 rk0).columns.length = m0 - 2 by omega])
  have h3 := C.lastAgrees_le hsi hi
  have h4 := C.columns_le (by simp)
  have h5 := C.rank.isRank.le C.ginv.wf f2 _ endV C.ginv.end_mem rfl
  have h6 : gainOfLast (mkTable (indexed 0 (us ++ [w])) g rk) = _ := signs_sum (lastAgrees (mkTable (indexed 0 (us ++ [w])) g rk)) _
  rw [List.length_range] at h6
  rw [h6]
  omega

/-- C101 for a second or third witness: nothing needs to be known about twins. -/
theorem C101_third_partial (env : Env) (hts : TopoSpec env.topo) (us : List Witness) (w : Witness) (hv : Valid (us ++ [w])) (hne : us ≠ [])
    (h2 : us.length ≤ 2) (hsg : ∀ u ∈ us ++ [w], u.sigil ≠ []) (o : Opts) (ho : ExactMatching o) (hf : o.pfilter = none)
    (hseg : o.segmentation = false) :
    ∃ t0 t, collateTable env us o = .ok t0 ∧ collateTable env (us ++ [w]) o = .ok t ∧
      (NoReturn (columnWords t0) (strings w) → ∀ pl, Placing (columnWords t0) (strings w) pl → gain pl ≤ gainOfLast t) :=
  C101_placed_partial env hts us w hv hne hsg o ho hf hseg (by intro m h3 h4; omega)

/-- A text without repeated words meets the first condition, whatever the columns. -/
theorem C101_distinct (C : List (List Str)) (B : List Str) (h : B.Nodup) : NoReturn C B := by
  intro c _ i j a b hij h1 h2
  obtain ⟨q1, q2⟩ := List.getElem?_eq_some_iff.mp h1
  obtain ⟨q3, q4⟩ := List.getElem?_eq_some_iff.mp h2
  have := (h.getElem_inj_iff (hi := q1) (hj := q3)).mp (by rw [q2, q4])
  omega

/-- Three witnesses, of which the last shares words with both others. -/
def placedWitnesses : List Witness := [wordsWitness "A" ["the", "black", "cat"], wordsWitness "B" ["the", "white", "cat", "sat"],
  wordsWitness "C" ["a", "white", "cat", "sat"]]

/-- A case of C101: three words of the last witness stand with the same words, one does not. -/
example : ∃ t0 t, collateTable exampleEnv (placedWitnesses.take 2) { segmentation := false } = .ok t0 ∧
    collateTable exampleEnv placedWitnesses { segmentation := false } = .ok t ∧ gainOfLast t = 2 ∧
    columnWords t0 = [[S "the", S "the"], [S "black", S "white"], [S "cat", S "cat"], [S "sat"]] ∧
    ∀ pl, Placing (columnWords t0) [S "a", S "white", S "cat", S "sat"] pl → gain pl ≤ 2 := by
  obtain ⟨t0, t, h1, h2, h3⟩ := C101_third_partial exampleEnv kahn_spec (placedWitnesses.take 2) (wordsWitness "C" ["a", "white", "cat", "sat"])
    (valid_of_check (by decide) (by decide) (by decide) (by decide)) (by decide) (by decide) (by decide) { segmentation := false }
    ⟨rfl, rfl, rfl⟩ rfl rfl
  have e1 : (collateTable exampleEnv placedWitnesses { segmentation := false }).map gainOfLast = .ok 2 := by decide +kernel
  have e2 : (collateTable exampleEnv (placedWitnesses.take 2) { segmentation := false }).map columnWords =
      .ok [[S "the", S "the"], [S "black", S "white"], [S "cat", S "cat"], [S "sat"]] := by decide +kernel
  have h2' : collateTable exampleEnv placedWitnesses { segmentation := false } = .ok t := h2
  rw [h1] at e2
  rw [h2'] at e1
  have e1 : gainOfLast t = 2 := Except.ok.inj e1
  refine ⟨t0, t, h1, h2', e1, Except.ok.inj e2, ?_⟩
  intro pl hpl
  have := h3 (C101_distinct _ _ (by decide)) pl hpl
  omega

/-- C101 is false if the last witness repeats words next to each other: below `the cat`, two of the words of `the cat the the the` could be
placed with themselves and three beside, but in the table only one agrees and five columns do not. -/
theorem C101_repeats : Valid repeatedWitnesses ∧ (∃ t0 t, collateTable exampleEnv (repeatedWitnesses.take 1) { segmentation := false } = .ok t0 ∧
    collateTable exampleEnv repeatedWitnesses { segmentation := false } = .ok t ∧ gainOfLast t = -4 ∧
    ∃ pl, Placing (columnWords t0) [S "the", S "cat", S "the", S "the", S "the"] pl ∧ gain pl = -1) := by
  refine ⟨C65_repeats.1, ?_⟩
  have e1 : (collateTable exampleEnv repeatedWitnesses { segmentation := false }).map gainOfLast = .ok (-4) := by decide +kernel
  have e2 : (collateTable exampleEnv (repeatedWitnesses.take 1) { segmentation := false }).map columnWords =
      .ok [[S "the"], [S "cat"]] := by decide +kernel
  cases h1 : collateTable exampleEnv (repeatedWitnesses.take 1) { segmentation := false } with
  | error e => rw [h1] at e2; cases e2
  | ok t0 =>
    cases h2 : collateTable exampleEnv repeatedWitnesses { segmentation := false } with
    | error e => rw [h2] at e1; cases e1
    | ok t =>
      rw [h1] at e2
      rw [h2] at e1
      refine ⟨t0, t, rfl, rfl, Except.ok.inj e1, ?_⟩
      have e2 : columnWords t0 = [[S "the"], [S "cat"]] := Except.ok.inj e2
      rw [e2]
      exact ⟨[(some [S "the"], some (S "the")), (some [S "cat"], some (S "cat")), (none, some (S "the")), (none, some (S "the")),
        (none, some (S "the"))], ⟨by decide, by decide, by decide⟩, by decide⟩

end CollateX
