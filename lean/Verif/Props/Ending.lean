import Verif.Proofs.Ending
import Verif.Props.Variant
/-
Witnesses with a common ending: C78.
-/

namespace CollateX
open Spec

/-- The word does not stand twice in a row in the witness. -/
def Spec.NotTwice (a : Str) (w : Witness) : Prop := ∀ i : Nat, (strings w)[i]? = some a → (strings w)[i + 1]? ≠ some a

/-- The last columns of the table have the words in all rows, one in each cell, and are not variant. -/
def Spec.AlignedEnding (t : Table) (ending : List Str) : Prop :=
  ending.length ≤ t.columns.length ∧ ∀ (i : Nat) (a : Str), ending[i]? = some a →
    ∃ c, t.columns[t.columns.length - ending.length + i]? = some c ∧ c.variant = false ∧
      ∀ row ∈ t.rows, ∃ tok, row.cells[t.columns.length - ending.length + i]? = some (some [tok]) ∧ tok.str = a

/-- The last column of the table is not variant, and every cell of it ends with the words. -/
def Spec.SharedEnding (t : Table) (ending : List Str) : Prop :=
  ∃ c, t.columns.getLast? = some c ∧ c.variant = false ∧
    ∀ row ∈ t.rows, ∃ ts, row.cells.getLast? = some (some ts) ∧ ending <:+ ts.map Token.str

theorem suffix_getElem? {α : Type} {l m : List α} (h : l <:+ m) {i : Nat} (hi : i < l.length) : m.reverse[i]? = l.reverse[i]? := by
  obtain ⟨a, rfl⟩ := h
  rw [List.reverse_append, List.getElem?_append_left (by simpa using hi)]

section
variable {env : Env} {w0 : Witness} {ws : List Witness} {ending : List Str}

/-- Both collations, and the last vertices of the paths of the one without segmentation. -/
theorem ending_core (env : Env) (hts : TopoSpec env.topo) (hv : Valid (w0 :: ws)) (hend : ∀ w ∈ w0 :: ws, ending <:+ strings w)
    (hrep : ∀ w ∈ ws, ∀ a ∈ ending, NotTwice a w) (o : Opts) (ho : ExactMatching o) (hf : o.pfilter = none) :
    ∃ g ps rk rkf ord m g' ps' rk' rkf' ord' m',
      collateRanked env (w0 :: ws) { o with segmentation := false } = .ok (indexed 0 (w0 :: ws), g, rk) ∧
      Collated env.cc (indexed 0 (w0 :: ws)) false g ps rk rkf ord m ∧
      collateRanked env (w0 :: ws) { o with segmentation := true } = .ok (indexed 0 (w0 :: ws), g', rk') ∧
      Collated env.cc (indexed 0 (w0 :: ws)) true g' ps' rk' rkf' ord' m' ∧ Grouped g ps g' ps' ∧
      ∃ u, EndsIn ending.length u ps := by
  refine collateRanked_both_inv env hts hv o ho.astar ho.detect ho.near (R := fun ps => ∃ u, EndsIn ending.length u ps) ?_
  intro ti hti L B
  have suf : ∀ {j : Nat} {w : Witness}, ti.ws[j]? = some w → ∃ w1, (w0 :: ws)[j]? = some w1 ∧ w.tokens.map Token.str = strings w1 ∧
      ending <:+ strings w1 := by
    intro j w hw
    rw [hti] at hw
    obtain ⟨w1, e1, _, e2⟩ := indexed_strs _ hw
    exact ⟨w1, e1, e2, hend w1 (List.mem_of_getElem? e1)⟩
  refine ⟨?_, ?_⟩
  · rw [hf]
    rintro s s' ps w P rkf o m r cube cells al hs hne hw hs' hst ⟨u, hu⟩
    obtain ⟨x0, hx0⟩ : ∃ x0, ti.ws[0]? = some x0 := ⟨_, List.getElem?_eq_getElem (by rw [hti, indexed_length]; simp)⟩
    obtain ⟨w1, e1, e2, e3⟩ := suf hw
    obtain ⟨w2, _, f2, f3⟩ := suf hx0
    refine ⟨u, hu.step L B hs hne hw hst hx0 ?_ ?_⟩
    · intro i hi
      rw [e2, f2, suffix_getElem? e3 hi, suffix_getElem? f3 hi]
      exact ⟨_, List.getElem?_eq_getElem (by simpa using hi), List.getElem?_eq_getElem (by simpa using hi)⟩
    · intro i hi a ha y h1
      rw [e2] at ha h1 ⊢
      rw [suffix_getElem? e3 hi] at ha
      obtain ⟨n, hn⟩ : ∃ n, ps.length = n + 1 := ⟨ps.length - 1, by have := List.length_pos_iff.mpr hne; omega⟩
      rw [hn, List.getElem?_cons_succ] at e1
      exact hrep w1 (List.mem_of_getElem? e1) a (List.mem_reverse.mp (List.mem_of_getElem? ha)) y h1
  · intro w s hw hs
    obtain ⟨w1, e1, e2, e3⟩ := suf hw
    apply endsIn_first
    have h1 := congrArg List.length (newSegs_snd [] 2 w.tokens)
    have h2 := congrArg List.length e2
    have h3 := e3.length_le
    simp only [List.length_map] at h1 h2
    simp only
    omega

/-- The column of a vertex at the end of all paths. -/
theorem ending_column (hts : TopoSpec env.topo) {wl : List Witness} (hv : Valid wl) (hs : ∀ w ∈ wl, w.sigil ≠ []) {o : Opts} (ho : ExactMatching o)
    {g : VGraph} {rk : Ranking} (h1 : collateRanked env wl o = .ok (indexed 0 wl, g, rk)) {seg : Bool} {ps : List WPath} {rkf : VId → Nat}
    {ord : List VId} {m : Nat} (C : Collated env.cc (indexed 0 wl) seg g ps rk rkf ord m) {k : Nat} {u : Nat → VId} (hu : EndsIn k u ps) {i : Nat}
    (hi : i < k) (hin : ∀ p ∈ ps, u (i + 1) ∈ p.inner) : i < (mkTable (indexed 0 wl) g rk).columns.length ∧
      ∃ c, (mkTable (indexed 0 wl) g rk).columns[(mkTable (indexed 0 wl) g rk).columns.length - 1 - i]? = some c ∧ c.variant = false ∧
        ∀ p ∈ ps, ∀ ts, (u (i + 1), ts) ∈ p.segs → dget c.tokens p.sigil = some ts := by
  have hsi := indexed_sigil_ne hs
  have hne : ps ≠ [] := by
    intro h0
    have := C.length
    rw [h0, indexed_length] at this
    exact hv.ne (List.length_eq_zero_iff.mp this.symm)
  obtain ⟨p0, hp0⟩ := List.exists_mem_of_ne_nil ps hne
  obtain ⟨e, he, _, _, _, _, hcl, hcell⟩ := C21_of_collation env hts _ _ hv hs o ho g rk h1
  rw [C.rank.byVertex C.ginv.end_mem] at he
  obtain rfl := Option.some.inj he
  obtain ⟨r1, r2⟩ := hu.rank hne C.ginv C.rank (i + 1) (by omega)
  obtain ⟨⟨v, us⟩, hm, hve⟩ := List.mem_map.mp (hin p0 hp0)
  simp only at hve
  subst hve
  obtain ⟨hvm, hvs, _⟩ := C.ginv.segs_in p0 hp0 _ hm
  have hedge : ∀ p ∈ g.pairs, rkf p.1 < rkf p.2 := fun p hp => C.rank.isRank.lt C.ginv.wf hp
  have hpos := (C.ginv.rank_bounds hne hedge _ hvm).1 hvs
  simp only at hpos
  have hic : i < (mkTable (indexed 0 wl) g rk).columns.length := by omega
  obtain ⟨c, hc⟩ : ∃ c, (mkTable (indexed 0 wl) g rk).columns[(mkTable (indexed 0 wl) g rk).columns.length - 1 - i]? = some c :=
    ⟨_, List.getElem?_eq_getElem (by omega)⟩
  have hrk : rkf (u (i + 1)) = (mkTable (indexed 0 wl) g rk).columns.length - 1 - i + 1 := by omega
  have hget : ∀ p ∈ ps, ∀ ts, (u (i + 1), ts) ∈ p.segs → dget c.tokens p.sigil = some ts := by
    intro p hp ts hm
    exact (hcell _ c hc _ _).mpr ⟨_, hvm, by rw [C.rank.byVertex hvm, hrk], (C.carries hsi).mpr ⟨p, hp, rfl, hm⟩⟩
  refine ⟨hic, c, hc, ?_, hget⟩
  refine (C27_variant_iff env hts _ _ hv hs o ho g rk h1 _ c hc).mpr ⟨⟨u (i + 1), ?_⟩, ?_⟩
  · intro x hx
    rw [C.rank.byVertex hx]
    constructor
    · intro h
      have := Option.some.inj h
      exact r2 x hx (by omega)
    · rintro rfl
      rw [hrk]
  · intro w hw
    have : w.sigil ∈ ps.map WPath.sigil := by
      rw [C.sigils, indexed_sigla]
      exact List.mem_map.mpr ⟨w, hw, rfl⟩
    obtain ⟨p, hp, hpw⟩ := List.mem_map.mp this
    obtain ⟨⟨v, ts⟩, hm, hve⟩ := List.mem_map.mp (hin p hp)
    simp only at hve
    subst hve
    exact ⟨ts, by rw [← hpw]; exact hget p hp ts hm⟩

end

/-- C78 without segmentation, for witnesses after the first one that do not have a word of the ending twice in a row (what is missing:
such repetitions, for which the claim is false, see `C78_repeats`). If all witnesses end with the same words, these stand aligned in the
last columns. -/
theorem C78_common_ending_partial (env : Env) (hts : TopoSpec env.topo) (w0 : Witness) (ws : List Witness) (hv : Valid (w0 :: ws))
    (hs : ∀ w ∈ w0 :: ws, w.sigil ≠ []) (ending : List Str) (hend : ∀ w ∈ w0 :: ws, ending <:+ strings w)
    (hrep : ∀ w ∈ ws, ∀ a ∈ ending, NotTwice a w) (o : Opts) (ho : ExactMatching o) (hf : o.pfilter = none)
    (hseg : o.segmentation = false) :
    ∃ t, collateTable env (w0 :: ws) o = .ok t ∧ t.rows.map Row.header = (w0 :: ws).map Witness.sigil ∧ AlignedEnding t ending := by
  obtain ⟨g, ps, rk, rkf, ord, m, _, _, _, _, _, _, h1, C, _, _, _, u, hu⟩ := ending_core env hts hv hend hrep o ho hf
  have ho' : { o with segmentation := false } = o := by rw [← hseg]
  rw [ho'] at h1
  refine ⟨mkTable (indexed 0 (w0 :: ws)) g rk, by unfold collateTable; rw [h1]; rfl, ?_, ?_⟩
  · rw [mkTable_rows, List.map_map]
    exact indexed_sigla 0 _
  -- the segments of the paths
  have seg : ∀ {j : Nat} {w : Witness}, (indexed 0 (w0 :: ws))[j]? = some w → ∃ p ∈ ps, p.sigil = w.sigil ∧ ∀ i, i < ending.length →
      ∃ tok, (u (i + 1), [tok]) ∈ p.segs ∧ ending.reverse[i]? = some tok.str := by
    intro j w hw
    obtain ⟨p, e1, e2, e3⟩ := C.at hw
    have hp := List.mem_of_getElem? e1
    obtain ⟨w1, f1, _, f2⟩ := indexed_strs _ hw
    have hsuf := hend w1 (List.mem_of_getElem? f1)
    refine ⟨p, hp, e2, ?_⟩
    intro i hi
    have hsing := C.single rfl p hp
    have key : ∀ l : List (VId × List Token), (∀ q ∈ l, ∃ t, q.2 = [t]) → l.map Prod.snd = (l.flatMap Prod.snd).map (fun t => [t]) := by
      intro l
      induction l with
      | nil => intro _; rfl
      | cons q l ih =>
        intro hq
        obtain ⟨t, ht⟩ := hq q (by simp)
        have := ih (fun q h => hq q (by simp [h]))
        simp [ht, this]
    have hk2 : p.segs.map Prod.snd = w.tokens.map (fun t => [t]) := by rw [key p.segs hsing]; exact congrArg _ e3
    have hl : p.segs.length = w.tokens.length := by simpa using congrArg List.length hk2
    have hwl : w.tokens.length = (strings w1).length := by simpa [strings] using congrArg List.length f2
    have hle := hsuf.length_le
    have h3 := path_reverse_inner (hu.at_end (i + 1) (by omega) p hp) (by omega)
    unfold WPath.inner at h3
    rw [← List.map_reverse, List.getElem?_map] at h3
    obtain ⟨⟨v, us⟩, h4, h5⟩ := Option.map_eq_some_iff.mp h3
    simp only at h5
    subst h5
    have h6 : ((p.segs.map Prod.snd).reverse)[i]? = some us := by rw [← List.map_reverse, List.getElem?_map, h4]; rfl
    rw [hk2, ← List.map_reverse, List.getElem?_map] at h6
    obtain ⟨t', h7, rfl⟩ := Option.map_eq_some_iff.mp h6
    refine ⟨t', List.mem_reverse.mp (List.mem_of_getElem? h4), ?_⟩
    rw [← suffix_getElem? hsuf hi]
    unfold strings
    rw [← f2, ← List.map_reverse, List.getElem?_map, h7]
    rfl
  have hin : ∀ i, i < ending.length → ∀ p ∈ ps, u (i + 1) ∈ p.inner := by
    intro i hi p hp
    have : p.sigil ∈ (indexed 0 (w0 :: ws)).map Witness.sigil := by rw [← C.sigils]; exact List.mem_map.mpr ⟨p, hp, rfl⟩
    obtain ⟨w, hw, hwp⟩ := List.mem_map.mp this
    obtain ⟨j, hj⟩ := List.getElem?_of_mem hw
    obtain ⟨p', hp', hs', hk⟩ := seg hj
    obtain rfl := sigil_unique C.ginv hp' hp (by rw [hs', hwp])
    obtain ⟨tok, hm, _⟩ := hk i hi
    exact List.mem_map.mpr ⟨_, hm, rfl⟩
  have hcol := fun i hi => ending_column hts hv hs ho h1 C hu (i := i) hi (hin i hi)
  have hle : ending.length ≤ (mkTable (indexed 0 (w0 :: ws)) g rk).columns.length := by
    by_cases h0 : ending.length = 0
    · omega
    · have := (hcol (ending.length - 1) (by omega)).1
      omega
  refine ⟨hle, ?_⟩
  intro i a ha
  have hi := (List.getElem?_eq_some_iff.mp ha).1
  obtain ⟨_, c, h2, h3, h4⟩ := hcol (ending.length - 1 - i) (by omega)
  rw [show (mkTable (indexed 0 (w0 :: ws)) g rk).columns.length - 1 - (ending.length - 1 - i) =
    (mkTable (indexed 0 (w0 :: ws)) g rk).columns.length - ending.length + i by omega] at h2
  refine ⟨c, h2, h3, ?_⟩
  intro row hrow
  rw [mkTable_rows] at hrow
  obtain ⟨w, hw, rfl⟩ := List.mem_map.mp hrow
  obtain ⟨j, hj⟩ := List.getElem?_of_mem hw
  obtain ⟨p, hp, hps, hk⟩ := seg hj
  obtain ⟨tok, hm, hst⟩ := hk (ending.length - 1 - i) (by omega)
  refine ⟨tok, ?_, ?_⟩
  · simp only [List.getElem?_map, h2, Option.map_some]
    rw [← hps, h4 p hp _ hm]
  · rw [List.getElem?_reverse (by omega), show ending.length - 1 - (ending.length - 1 - i) = i by omega, ha] at hst
    exact (Option.some.inj hst).symm

/-- C78 with segmentation, for the same witnesses: the last column is not variant, and the common ending stands in it. -/
theorem C78_segmented_partial (env : Env) (hts : TopoSpec env.topo) (w0 : Witness) (ws : List Witness) (hv : Valid (w0 :: ws))
    (hs : ∀ w ∈ w0 :: ws, w.sigil ≠ []) (ending : List Str) (hne : ending ≠ []) (hend : ∀ w ∈ w0 :: ws, ending <:+ strings w)
    (hrep : ∀ w ∈ ws, ∀ a ∈ ending, NotTwice a w) (o : Opts) (ho : ExactMatching o) (hf : o.pfilter = none)
    (hseg : o.segmentation = true) :
    ∃ t, collateTable env (w0 :: ws) o = .ok t ∧ t.rows.map Row.header = (w0 :: ws).map Witness.sigil ∧ SharedEnding t ending := by
  obtain ⟨g, ps, rk, rkf, ord, m, g', ps', rk', rkf', ord', m', h1, C, h1', C', G, u, hu⟩ := ending_core env hts hv hend hrep o ho hf
  have ho' : { o with segmentation := true } = o := by rw [← hseg]
  rw [ho'] at h1'
  have hpos : 0 < ending.length := List.length_pos_iff.mpr hne
  obtain ⟨v, hE, hlast⟩ := hu.segmented hpos (by
      intro h0
      have := congrArg List.length h0
      rw [indexed_length] at this
      simp at this) C C' G
    (fun w hw => by
      obtain ⟨j, hj⟩ := List.getElem?_of_mem hw
      exact hv.tokens_nodup hj)
    (fun w hw => by
      obtain ⟨j, hj⟩ := List.getElem?_of_mem hw
      obtain ⟨w1, f1, _, f2⟩ := indexed_strs _ hj
      have h2 := (hend w1 (List.mem_of_getElem? f1)).length_le
      have h3 := congrArg List.length f2
      simp only [List.length_map, strings] at h2 h3
      omega)
  refine ⟨mkTable (indexed 0 (w0 :: ws)) g' rk', by unfold collateTable; rw [h1']; rfl, ?_, ?_⟩
  · rw [mkTable_rows, List.map_map]
    exact indexed_sigla 0 _
  obtain ⟨hl, c, h2, h3, h4⟩ := ending_column hts hv hs ho h1' C' hE (i := 0) (by omega) (by
    intro p hp
    obtain ⟨a, ha, _⟩ := hlast p hp
    exact List.mem_map.mpr ⟨_, ha.subset (List.mem_singleton.mpr rfl), rfl⟩)
  refine ⟨c, by rw [List.getLast?_eq_getElem?]; exact h2, h3, ?_⟩
  intro row hrow
  rw [mkTable_rows] at hrow
  obtain ⟨w, hw, rfl⟩ := List.mem_map.mp hrow
  obtain ⟨j, hj⟩ := List.getElem?_of_mem hw
  obtain ⟨p, e1, e2, e3⟩ := C'.at hj
  have hp := List.mem_of_getElem? e1
  obtain ⟨a, ha, hal⟩ := hlast p hp
  refine ⟨a, ?_, ?_⟩
  · rw [List.getLast?_eq_getElem?]
    simp only [List.length_map, List.getElem?_map]
    rw [show (mkTable (indexed 0 (w0 :: ws)) g' rk').columns.length - 1 = (mkTable (indexed 0 (w0 :: ws)) g' rk').columns.length - 1 - 0 from rfl, h2]
    simp only [Option.map_some]
    rw [← e2, h4 p hp a (ha.subset (List.mem_singleton.mpr rfl))]
  · obtain ⟨w1, f1, _, f2⟩ := indexed_strs _ hj
    have hsuf := hend w1 (List.mem_of_getElem? f1)
    have h5 : a.map Token.str <:+ strings w1 := by
      obtain ⟨I, hI⟩ := ha
      refine ⟨(I.flatMap Prod.snd).map Token.str, ?_⟩
      rw [show strings w1 = w.tokens.map Token.str from f2.symm, ← e3, ← List.map_append]
      congr 1
      unfold WPath.text
      rw [← hI]
      simp
    exact List.suffix_of_suffix_length_le hsuf h5 (by simpa using hal)

/-! ### Why not in general -/

/-- Two witnesses with the same last word; the second has it twice in a row. -/
def repeatedEnding : List Witness := [wordsWitness "A" ["z"], wordsWitness "B" ["z", "z", "y", "z"]]

/-- C78 is false if a later witness has a word of the ending twice in a row: the only word of the first witness is aligned with the
second word of the other one, not with its last. -/
theorem C78_repeats : Valid repeatedEnding ∧ (∀ w ∈ repeatedEnding, [S "z"] <:+ strings w) ∧
    (collateTable exampleEnv repeatedEnding { segmentation := false }).map tableSummary =
      .ok ⟨[true, false, true, true], [S "A", S "B"], [[none, some [S "z"], none, none],
        [some [S "z"], some [S "z"], some [S "y"], some [S "z"]]]⟩ ∧
    (∀ t, collateTable exampleEnv repeatedEnding { segmentation := false } = .ok t → ¬ AlignedEnding t [S "z"]) ∧
    ∀ t, collateTable exampleEnv repeatedEnding {} = .ok t → ¬ SharedEnding t [S "z"] := by
  have h1 : (collateTable exampleEnv repeatedEnding { segmentation := false }).map tableSummary =
      .ok ⟨[true, false, true, true], [S "A", S "B"], [[none, some [S "z"], none, none],
        [some [S "z"], some [S "z"], some [S "y"], some [S "z"]]]⟩ := by decide +kernel
  have h2 : ((collateTable exampleEnv repeatedEnding {}).map tableSummary).map TableSummary.variant = .ok [true, false, true] := by
    decide +kernel
  refine ⟨valid_of_check (by decide) (by decide) (by decide) (by decide), by decide, h1, ?_, ?_⟩
  · intro t ht ha
    rw [ht] at h1
    have h3 := congrArg TableSummary.variant (Except.ok.inj h1)
    simp only [tableSummary] at h3
    obtain ⟨c, h4, h5, _⟩ := ha.2 0 (S "z") rfl
    have hl := congrArg List.length h3
    simp only [List.length_map, List.length_cons, List.length_nil] at hl
    rw [hl] at h4
    have h6 := congrArg (fun l => l[3]?) h3
    simp only [List.getElem?_map] at h6
    simp only [List.length_cons, List.length_nil, Nat.reduceAdd, Nat.reduceSub] at h4
    rw [h4] at h6
    simp [h5] at h6
  · intro t ht ha
    rw [ht] at h2
    have h3 := Except.ok.inj h2
    simp only [tableSummary] at h3
    obtain ⟨c, h4, h5, _⟩ := ha
    have h6 := congrArg List.getLast? h3
    rw [List.getLast?_map, h4] at h6
    simp [h5] at h6

/-- Nor is a common beginning always aligned: the only word of the second witness stands in the last column. -/
theorem C78_beginning : Valid [wordsWitness "A" ["a", "b", "a"], wordsWitness "B" ["a"]] ∧
    (∀ w ∈ [wordsWitness "A" ["a", "b", "a"], wordsWitness "B" ["a"]], [S "a"] <+: strings w ∧ NoRepeats w) ∧
    (collateTable exampleEnv [wordsWitness "A" ["a", "b", "a"], wordsWitness "B" ["a"]] { segmentation := false }).map tableSummary =
      .ok ⟨[true, true, false], [S "A", S "B"], [[some [S "a"], some [S "b"], some [S "a"]], [none, none, some [S "a"]]]⟩ := by
  refine ⟨valid_of_check (by decide) (by decide) (by decide) (by decide), ?_, by decide +kernel⟩
  have noRep : ∀ w : Witness, (∀ i ∈ List.range (strings w).length, (strings w)[i]? ≠ (strings w)[i + 1]?) → NoRepeats w := by
    intro w h i a h1 h2
    exact h i (List.mem_range.mpr (List.getElem?_eq_some_iff.mp h1).1) (by rw [h1, h2])
  intro w hw
  simp only [List.mem_cons, List.not_mem_nil, or_false] at hw
  rcases hw with rfl | rfl
  · exact ⟨by decide, noRep _ (by decide)⟩
  · exact ⟨by decide, noRep _ (by decide)⟩

/-! ### Example -/

/-- Three witnesses with a common ending, of which the words stand elsewhere too. -/
def commonEnding : List Witness :=
  [wordsWitness "A" ["x", "the", "end"], wordsWitness "B" ["the", "end", "y", "y", "the", "end"], wordsWitness "C" ["the", "end"]]

/-- The hypotheses of C78 are met: the ending is aligned, though the second witness has it twice. -/
example : TopoSpec exampleEnv.topo ∧ Valid commonEnding ∧ (∀ w ∈ commonEnding, [S "the", S "end"] <:+ strings w) ∧
    (∀ w ∈ commonEnding.tail, ∀ a ∈ [S "the", S "end"], NotTwice a w) ∧
    (collateTable exampleEnv commonEnding { segmentation := false }).map (fun t => (tableSummary t).cells) =
      .ok [[some [S "x"], none, none, none, some [S "the"], some [S "end"]],
        [some [S "the"], some [S "end"], some [S "y"], some [S "y"], some [S "the"], some [S "end"]],
        [none, none, none, none, some [S "the"], some [S "end"]]] := by
  refine ⟨kahn_spec, valid_of_check (by decide) (by decide) (by decide) (by decide), by decide, ?_, by decide +kernel⟩
  have notTwice : ∀ (w : Witness) (a : Str), (∀ i ∈ List.range (strings w).length, (strings w)[i]? = some a → (strings w)[i + 1]? ≠ some a) →
      NotTwice a w := by
    intro w a h i h1
    exact h i (List.mem_range.mpr (List.getElem?_eq_some_iff.mp h1).1) h1
  intro w hw a ha
  refine notTwice w a ?_
  revert w a
  decide +kernel

end CollateX
