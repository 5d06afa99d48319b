import Verif.Proofs.Variant
/-
Whether a column that is marked variant really differs: C77.
-/

namespace CollateX
open Spec

/-- All rows have tokens in the column, with the same strings. -/
def Spec.RowsAgree (t : Table) (j : Nat) : Prop :=
  ∃ l : List Str, l ≠ [] ∧ ∀ row ∈ t.rows, ∃ ts, row.cells[j]? = some (some ts) ∧ ts.map Token.str = l

/-- Tokens of two witnesses of the same rank with the same strings are on the same vertex. -/
theorem two_agree (env : Env) (hts : TopoSpec env.topo) (wA wB : Witness) (hv : Valid [wA, wB])
    (hs : ∀ w ∈ [wA, wB], w.sigil ≠ []) (hrep : NoRepeats wB) (o : Opts) (ho : ExactMatching o) (hf : o.pfilter = none)
    {a b : Witness} {g : VGraph} {rk : Ranking} {p q : WPath} {rkf : VId → Nat} {ord : List VId} {m : Nat}
    (h : collateRanked env [wA, wB] o = .ok ([a, b], g, rk)) (hab : indexed 0 [wA, wB] = [a, b])
    (C : Collated env.cc [a, b] o.segmentation g [p, q] rk rkf ord m) {x y : VId} {ts us : List Token} (hx : (x, ts) ∈ p.segs)
    (hy : (y, us) ∈ q.segs) (hr : rkf x = rkf y) (he : ts.map Token.str = us.map Token.str) : x = y := by
  have hsi : ∀ w ∈ [a, b], w.sigil ≠ [] := by rw [← hab]; exact indexed_sigil_ne hs
  obtain ⟨g1, rk1, a1, b1, p1, q1, rkf1, ord1, m1, hab1, h1, C1, _, hA, hB, len, f, f1, f2, f3⟩ :=
    best_core env hts wA wB hv hs hrep { o with segmentation := false } ⟨ho.astar, ho.detect, ho.near⟩ hf rfl
  rw [hab] at hab1
  obtain ⟨rfl, rfl⟩ : a = a1 ∧ b = b1 := by simpa using hab1
  -- the shared vertices account for all columns with equal strings
  have hlen : (agreeing g1 a b ord1 rkf1 m1).length ≤ (q1.inner.filter (· ∈ p1.inner)).length := by
    have harr := (C1.arrangement hsi).2
    rw [hA, hB] at harr
    have h2 := f3 _ harr
    have h4 := C1.columns_le (by simp)
    have h5 := C1.rank.isRank.le C1.ginv.wf f2 _ endV C1.ginv.end_mem rfl
    have h6 := balance_eq ((mkTable [a, b] g1 rk1).columns.map (fun c => (cellStr (dget c.tokens a.sigil), cellStr (dget c.tokens b.sigil))))
    rw [List.length_map, C1.agreeing_length] at h6
    omega
  -- the same paths, whichever way they are obtained
  have same : ∀ {g : VGraph} {seg : Bool} {rk : Ranking} {p q p2 q2 : WPath} {rkf rkf2 : VId → Nat} {ord ord2 : List VId} {m m2 : Nat},
      Collated env.cc [a, b] seg g [p, q] rk rkf ord m → Collated env.cc [a, b] seg g [p2, q2] rk rkf2 ord2 m2 →
      (∀ s ∈ p.segs, s ∈ p2.segs) ∧ (∀ s ∈ q.segs, s ∈ q2.segs) ∧ ∀ v ∈ g.vertices, rkf v = rkf2 v := by
    intro g seg rk p q p2 q2 rkf rkf2 ord ord2 m m2 C C2
    have conv : ∀ {r : WPath}, r ∈ [p, q] → ∀ s ∈ r.segs, ∃ r2 ∈ [p2, q2], r2.sigil = r.sigil ∧ s ∈ r2.segs := by
      intro r hr s hsm
      exact (C2.carries hsi).mp ((C.carries hsi).mpr ⟨r, hr, rfl, hsm⟩)
    obtain ⟨pa, e1, e2, _⟩ := C.at (k := 0) (w := a) rfl
    obtain ⟨qa, e3, e4, _⟩ := C.at (k := 1) (w := b) rfl
    obtain rfl : p = pa := by simpa using e1
    obtain rfl : q = qa := by simpa using e3
    obtain ⟨pa, e5, e6, _⟩ := C2.at (k := 0) (w := a) rfl
    obtain ⟨qa, e7, e8, _⟩ := C2.at (k := 1) (w := b) rfl
    obtain rfl : p2 = pa := by simpa using e5
    obtain rfl : q2 = qa := by simpa using e7
    refine ⟨?_, ?_, ?_⟩
    · intro s hsm
      obtain ⟨r, hr, h1, h2⟩ := conv (by simp) s hsm
      obtain rfl := sigil_unique C2.ginv hr (show p2 ∈ [p2, q2] by simp) (by rw [h1, e2, e6])
      exact h2
    · intro s hsm
      obtain ⟨r, hr, h1, h2⟩ := conv (by simp) s hsm
      obtain rfl := sigil_unique C2.ginv hr (show q2 ∈ [p2, q2] by simp) (by rw [h1, e4, e8])
      exact h2
    · intro v hv
      have k1 := C.rank.byVertex hv
      rw [C2.rank.byVertex hv] at k1
      exact (Option.some.inj k1).symm
  obtain ⟨g2, ps2, rk2, rkf2, ord2, m2, g3, ps3, rk3, rkf3, ord3, m3, k1, C2, k2, C3, G⟩ :=
    collateRanked_both env hts hv o ho.astar ho.detect ho.near
  rw [hab] at k1 C2 k2 C3
  have two : ∀ {ps : List WPath}, ps.length = 2 → ∃ p q, ps = [p, q] := by
    intro ps hl
    match ps, hl with
    | [p, q], _ => exact ⟨p, q, rfl⟩
  obtain ⟨p2, q2, rfl⟩ := two C2.length
  obtain ⟨p3, q3, rfl⟩ := two C3.length
  have ok : ∀ {g1 g2 : VGraph} {rk1 rk2 : Ranking} {o : Opts}, collateRanked env [wA, wB] o = .ok ([a, b], g1, rk1) →
      collateRanked env [wA, wB] o = .ok ([a, b], g2, rk2) → g1 = g2 ∧ rk1 = rk2 := by
    intro g1 g2 rk1 rk2 o h1 h2
    rw [h1] at h2
    simpa using Except.ok.inj h2
  obtain ⟨rfl, rfl⟩ := ok h1 k1
  have hag : ∀ {x y : VId} {ts us : List Token}, (x, ts) ∈ p2.segs → (y, us) ∈ q2.segs → rkf2 x = rkf2 y →
      ts.map Token.str = us.map Token.str → x = y := by
    intro x y ts us hx hy hr he
    obtain ⟨i1, i2, i3⟩ := same C2 C1
    refine C1.agree_shared hsi hlen (i1 _ hx) (i2 _ hy) ?_ he
    rw [← i3 x (C2.ginv.segs_in p2 (by simp) _ hx).1, ← i3 y (C2.ginv.segs_in q2 (by simp) _ hy).1, hr]
  cases hseg : o.segmentation with
  | false =>
    have ho' : { o with segmentation := false } = o := by rw [← hseg]
    rw [ho'] at k1
    obtain ⟨rfl, rfl⟩ := ok h k1
    rw [hseg] at C
    obtain ⟨i1, i2, i3⟩ := same C C2
    refine hag (i1 _ hx) (i2 _ hy) ?_ he
    rw [← i3 x (C.ginv.segs_in p (by simp) _ hx).1, ← i3 y (C.ginv.segs_in q (by simp) _ hy).1, hr]
  | true =>
    have ho' : { o with segmentation := true } = o := by rw [← hseg]
    rw [ho'] at k2
    obtain ⟨rfl, rfl⟩ := ok h k2
    rw [hseg] at C
    obtain ⟨i1, i2, i3⟩ := same C C3
    have hnd : ∀ w ∈ [a, b], w.tokens.Nodup := by
      intro w hw
      rw [← hab] at hw
      obtain ⟨k, hk⟩ := List.getElem?_of_mem hw
      exact hv.tokens_nodup hk
    refine agree_segmented C2 C3 G (hnd a (by simp)) (hnd b (by simp)) hag (i1 _ hx) (i2 _ hy) ?_ he
    rw [← i3 x (C.ginv.segs_in p (by simp) _ hx).1, ← i3 y (C.ginv.segs_in q (by simp) _ hy).1, hr]

/-- C77 for two witnesses of which the second has no equal neighbours (what is missing: second witnesses with equal neighbours and three
or more witnesses, for which the claim is false, see `C77_repeats` and `C77_three`). A column is marked variant exactly if the two
rows differ in it, with and without segmentation. -/
theorem C77_variant_iff_differ_partial (env : Env) (hts : TopoSpec env.topo) (wA wB : Witness) (hv : Valid [wA, wB])
    (hs : ∀ w ∈ [wA, wB], w.sigil ≠ []) (hrep : NoRepeats wB) (o : Opts) (ho : ExactMatching o) (hf : o.pfilter = none) (t : Table)
    (h : collateTable env [wA, wB] o = .ok t) (j : Nat) (c : Column) (hc : t.columns[j]? = some c) :
    c.variant = true ↔ ¬ RowsAgree t j := by
  have conv : c.variant = true ↔ ¬ c.variant = false := by cases c.variant <;> simp
  rw [conv]
  apply not_congr
  constructor
  · exact C27_invariant_columns env hts [wA, wB] hv hs o ho t h j c hc
  obtain ⟨g, ps, rk, rkf, ord, m, h1, C, rfl⟩ := table_of env hts hv ho h
  have hsi := indexed_sigil_ne hs
  rintro ⟨l, hl, hrows⟩
  have hwlen : (indexed 0 [wA, wB]).length = 2 := indexed_length _ _
  obtain ⟨a, b, hab⟩ : ∃ a b, indexed 0 [wA, wB] = [a, b] := by
    match indexed 0 [wA, wB], hwlen with
    | [a, b], _ => exact ⟨a, b, rfl⟩
  have hsig : [a, b].map Witness.sigil = [wA, wB].map Witness.sigil := by rw [← hab, indexed_sigla]
  have h21 := (C21_of_collation env hts _ _ hv hs o ho g rk h1)
  have h27 := C27_variant_iff env hts _ _ hv hs o ho g rk h1 j c hc
  obtain ⟨e, he, _, _, _, _, hcl, hcell⟩ := h21
  rw [C.rank.byVertex C.ginv.end_mem] at he
  obtain rfl := Option.some.inj he
  rw [hab] at C hsi h1 hrows hc hcl hcell
  have hlen : ps.length = 2 := by rw [C.length]; rfl
  obtain ⟨p, q, rfl⟩ : ∃ p q, ps = [p, q] := by
    match ps, hlen with
    | [p, q], _ => exact ⟨p, q, rfl⟩
  obtain ⟨pa, e1, e2, _⟩ := C.at (k := 0) (w := a) rfl
  obtain ⟨qa, e3, e4, _⟩ := C.at (k := 1) (w := b) rfl
  obtain rfl : p = pa := by simpa using e1
  obtain rfl : q = qa := by simpa using e3
  have hget : ∀ w ∈ [a, b], ∃ ts, dget c.tokens w.sigil = some ts ∧ ts.map Token.str = l := by
    intro w hw
    obtain ⟨ts, r1, r2⟩ := hrows ⟨w.sigil, (mkTable [a, b] g rk).columns.map (fun c => dget c.tokens w.sigil)⟩ (by
      rw [mkTable_rows]
      exact List.mem_map.mpr ⟨w, hw, rfl⟩)
    rw [List.getElem?_map, hc] at r1
    exact ⟨ts, by simpa using r1, r2⟩
  obtain ⟨ts, t1, t2⟩ := hget a (by simp)
  obtain ⟨us, u1, u2⟩ := hget b (by simp)
  have place : ∀ {w : Witness} {r : WPath} {ts : List Token}, r ∈ [p, q] → r.sigil = w.sigil → dget c.tokens w.sigil = some ts →
      ∃ x, (x, ts) ∈ r.segs ∧ rkf x = j + 1 := by
    intro w r ts hr hrs hd
    obtain ⟨x, hxm, hxr, hxc⟩ := (hcell j c hc _ _).mp hd
    obtain ⟨r', hr', hrs', hm⟩ := (C.carries hsi).mp hxc
    obtain rfl := sigil_unique C.ginv hr' hr (by rw [hrs', hrs])
    rw [C.rank.byVertex hxm] at hxr
    exact ⟨x, hm, Option.some.inj hxr⟩
  obtain ⟨x, hx, hxr⟩ := place (show p ∈ [p, q] by simp) e2 t1
  obtain ⟨y, hy, hyr⟩ := place (show q ∈ [p, q] by simp) e4 u1
  obtain rfl := two_agree env hts wA wB hv hs hrep o ho hf h1 hab C hx hy (by rw [hxr, hyr]) (by rw [t2, u2])
  refine h27.mpr ⟨⟨x, ?_⟩, ?_⟩
  · intro u hum
    rw [C.rank.byVertex hum]
    have inp : ∀ {r : WPath} {v : VId}, v ∈ r.inner → v ∈ r.path := by
      intro r v h
      unfold WPath.path
      simp [h]
    constructor
    · intro hur
      have hur := Option.some.inj hur
      have hus : u ≠ startV := by
        rintro rfl
        have := (C.start_rank (by simp) hum).mpr rfl
        omega
      have hue : u ≠ endV := by
        rintro rfl
        have := (List.getElem?_eq_some_iff.mp hc).1
        omega
      obtain ⟨r, hr, hui⟩ := C.ginv.cover u hum hus hue
      simp only [List.mem_cons, List.not_mem_nil, or_false] at hr
      rcases hr with rfl | rfl
      · exact C.same_rank (by simp) (inp hui) (inp (List.mem_map.mpr ⟨_, hx, rfl⟩)) (by omega)
      · exact C.same_rank (by simp) (inp hui) (inp (List.mem_map.mpr ⟨_, hy, rfl⟩)) (by omega)
    · rintro rfl
      rw [hxr]
  · intro w hw
    have : w.sigil ∈ [a, b].map Witness.sigil := by rw [hsig]; exact List.mem_map.mpr ⟨w, hw, rfl⟩
    obtain ⟨w', hw', hwe⟩ := List.mem_map.mp this
    obtain ⟨ts, d, _⟩ := hget w' hw'
    exact ⟨ts, by rw [← hwe]; exact d⟩

/-! ### Why not in general -/

/-- Two witnesses; the second begins with a word that it repeats. -/
def repeatingPair : List Witness :=
  [wordsWitness "A" ["1", "2", "3", "4", "5", "6", "d", "u", "s"], wordsWitness "B" ["s", "s", "s", "s", "s", "s", "d", "s", "s"]]

/-- Three witnesses, none of which has a word twice. -/
def threeOrders : List Witness :=
  [wordsWitness "A" ["d", "e", "f"], wordsWitness "B" ["q", "r", "d"], wordsWitness "C" ["x", "y", "d", "e", "f"]]

theorem variant_agrees {ws : List Witness} {o : Opts} {vs : List Bool} {hd : List Str} {cells : List (List (Option (List Str)))}
    (h : (collateTable exampleEnv ws o).map tableSummary = .ok ⟨vs, hd, cells⟩) (j : Nat) (l : List Str) (hl : l ≠ [])
    (hv : vs[j]? = some true) (hc : ∀ r ∈ cells, r[j]? = some (some l)) :
    ∃ t c, collateTable exampleEnv ws o = .ok t ∧ t.columns[j]? = some c ∧ c.variant = true ∧ RowsAgree t j := by
  cases ht : collateTable exampleEnv ws o with
  | error e => rw [ht] at h; cases h
  | ok t =>
    rw [ht] at h
    have h := Except.ok.inj h
    have h1 := congrArg TableSummary.variant h
    have h2 := congrArg TableSummary.cells h
    simp only [tableSummary] at h1 h2
    rw [← h1, List.getElem?_map] at hv
    obtain ⟨c, c1, c2⟩ := Option.map_eq_some_iff.mp hv
    refine ⟨t, c, rfl, c1, c2, l, hl, ?_⟩
    intro row hrow
    have := hc (row.cells.map (Option.map (List.map Token.str))) (by rw [← h2]; exact List.mem_map.mpr ⟨row, hrow, rfl⟩)
    rw [List.getElem?_map] at this
    obtain ⟨x, x1, x2⟩ := Option.map_eq_some_iff.mp this
    obtain ⟨ts, rfl, x3⟩ := Option.map_eq_some_iff.mp x2
    exact ⟨ts, x1, x3⟩

/-- C77 is false if the second witness has equal neighbours: the column with `d` in both rows is marked variant. -/
theorem C77_repeats : Valid repeatingPair ∧ ∃ t c, collateTable exampleEnv repeatingPair { segmentation := false } = .ok t ∧
    t.columns[6]? = some c ∧ c.variant = true ∧ RowsAgree t 6 := by
  refine ⟨valid_of_check (by decide) (by decide) (by decide) (by decide), ?_⟩
  have h : (collateTable exampleEnv repeatingPair { segmentation := false }).map tableSummary =
      .ok ⟨[true, true, true, true, true, true, true, true, false], [S "A", S "B"],
        [[some [S "1"], some [S "2"], some [S "3"], some [S "4"], some [S "5"], some [S "6"], some [S "d"], some [S "u"], some [S "s"]],
         [some [S "s"], some [S "s"], some [S "s"], some [S "s"], some [S "s"], some [S "s"], some [S "d"], some [S "s"], some [S "s"]]]⟩ := by
    decide +kernel
  exact variant_agrees h 6 [S "d"] (by decide) rfl (by decide)

/-- C77 is false for three witnesses, even if no witness has a word twice: the column with `d` in all rows is marked variant. -/
theorem C77_three : Valid threeOrders ∧ ∃ t c, collateTable exampleEnv threeOrders { segmentation := false } = .ok t ∧
    t.columns[2]? = some c ∧ c.variant = true ∧ RowsAgree t 2 := by
  refine ⟨valid_of_check (by decide) (by decide) (by decide) (by decide), ?_⟩
  have h : (collateTable exampleEnv threeOrders { segmentation := false }).map tableSummary =
      .ok ⟨[true, true, true, true, true], [S "A", S "B", S "C"],
        [[none, none, some [S "d"], some [S "e"], some [S "f"]],
         [some [S "q"], some [S "r"], some [S "d"], none, none],
         [some [S "x"], some [S "y"], some [S "d"], some [S "e"], some [S "f"]]]⟩ := by
    decide +kernel
  exact variant_agrees h 2 [S "d"] (by decide) rfl (by decide)

/-- Four witnesses, none of which has a word twice. -/
def fourOrders : List Witness :=
  [wordsWitness "A" ["e", "b", "c", "f"], wordsWitness "B" ["d", "f", "e", "g"], wordsWitness "C" ["c", "g", "a", "f"],
    wordsWitness "D" ["f", "d", "g"]]

/-- C77 is false with the default options, that is with segmentation, for four witnesses: the column with `f` in all rows is marked variant. -/
theorem C77_segmented : Valid fourOrders ∧ (∀ w ∈ fourOrders, (strings w).Nodup) ∧ ∃ t c, collateTable exampleEnv fourOrders {} = .ok t ∧
    t.columns[1]? = some c ∧ c.variant = true ∧ RowsAgree t 1 := by
  refine ⟨valid_of_check (by decide) (by decide) (by decide) (by decide), by decide, ?_⟩
  have h : (collateTable exampleEnv fourOrders {}).map tableSummary =
      .ok ⟨[true, true, true, true], [S "A", S "B", S "C", S "D"],
        [[some [S "e", S "b", S "c"], some [S "f"], none, none],
         [some [S "d"], some [S "f"], some [S "e"], some [S "g"]],
         [some [S "c", S "g", S "a"], some [S "f"], none, none],
         [none, some [S "f"], some [S "d"], some [S "g"]]]⟩ := by
    decide +kernel
  exact variant_agrees h 1 [S "f"] (by decide) rfl (by decide)

/-! ### Examples -/

/-- The hypotheses of C77 are met; the table has columns of both kinds. -/
example : TopoSpec exampleEnv.topo ∧ Valid [wordsWitness "A" ["a", "a", "b", "c"], wordsWitness "B" ["a", "b", "a", "d"]] ∧
    NoRepeats (wordsWitness "B" ["a", "b", "a", "d"]) ∧
    (collateTable exampleEnv [wordsWitness "A" ["a", "a", "b", "c"], wordsWitness "B" ["a", "b", "a", "d"]] {}).map
      (fun t => t.columns.map Column.variant) = .ok [false, true, false, true] := by
  have noRep : ∀ w : Witness, (∀ i ∈ List.range (strings w).length, (strings w)[i]? ≠ (strings w)[i + 1]?) → NoRepeats w := by
    intro w h i a h1 h2
    exact h i (List.mem_range.mpr (List.getElem?_eq_some_iff.mp h1).1) (by rw [h1, h2])
  exact ⟨kahn_spec, valid_of_check (by decide) (by decide) (by decide) (by decide), noRep _ (by decide), by decide +kernel⟩

end CollateX
