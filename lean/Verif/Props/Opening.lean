import Verif.Proofs.Opening
import Verif.Props.Ending
/-
Witnesses with a common beginning: C85.
-/

namespace CollateX
open Spec

/-- The witness begins with the words, and has each of them once. -/
def Spec.OpensWith (w : Witness) (opening : List Str) : Prop := opening <+: strings w ∧ ∀ a ∈ opening, (strings w).count a = 1

/-- The first columns of the table have the words in all rows, one in each cell, and are not variant. -/
def Spec.AlignedOpening (t : Table) (opening : List Str) : Prop :=
  ∀ (i : Nat) (a : Str), opening[i]? = some a → ∃ c, t.columns[i]? = some c ∧ c.variant = false ∧
    ∀ row ∈ t.rows, ∃ tok, row.cells[i]? = some (some [tok]) ∧ tok.str = a

/-- The first column of the table is not variant, and every cell of it begins with the words. -/
def Spec.SharedOpening (t : Table) (opening : List Str) : Prop :=
  ∃ c, t.columns[0]? = some c ∧ c.variant = false ∧
    ∀ row ∈ t.rows, ∃ ts, row.cells[0]? = some (some ts) ∧ opening <+: ts.map Token.str

theorem Spec.OpensWith.begins {w : Witness} {opening : List Str} (h : OpensWith w opening) : BeginsWith opening (strings w) := by
  intro i a ha j
  have hi := (List.getElem?_eq_some_iff.mp ha).1
  have h1 : (strings w)[i]? = some a := by
    obtain ⟨l, hl⟩ := h.1
    rw [← hl, List.getElem?_append_left hi]
    exact ha
  constructor
  · intro hj
    have hcount := h.2 a (List.mem_of_getElem? ha)
    by_contra hne
    have two : ∀ (l : List Str) (i j : Nat), i < j → l[i]? = some a → l[j]? = some a → 2 ≤ l.count a := by
      intro l i j hij hi hj
      have hsub : [a, a].Sublist l := by
        have e : l = l.take (i + 1) ++ l.drop (i + 1) := (List.take_append_drop _ _).symm
        rw [e]
        refine List.Sublist.append (l₁ := [a]) (l₂ := l.take (i + 1)) (r₁ := [a]) ?_ ?_
        · refine List.singleton_sublist.mpr (List.mem_of_getElem? (i := i) ?_)
          rw [List.getElem?_take_of_lt (by omega)]
          exact hi
        · refine List.singleton_sublist.mpr (List.mem_of_getElem? (i := j - (i + 1)) ?_)
          rw [List.getElem?_drop, show i + 1 + (j - (i + 1)) = j by omega]
          exact hj
      have := hsub.count_le a
      simpa using this
    rcases Nat.lt_or_gt_of_ne hne with hlt | hgt
    · have := two _ _ _ hlt hj h1; omega
    · have := two _ _ _ hgt h1 hj; omega
  · rintro rfl
    exact h1

section
variable {env : Env} {ws : List Witness} {opening : List Str}

/-- Both collations, and the first vertices of the paths of the one without segmentation. -/
theorem opening_core (env : Env) (hts : TopoSpec env.topo) (hv : Valid ws) (hop : ∀ w ∈ ws, OpensWith w opening) (o : Opts)
    (ho : ExactMatching o) (hf : o.pfilter = none) :
    ∃ g ps rk rkf ord m g' ps' rk' rkf' ord' m',
      collateRanked env ws { o with segmentation := false } = .ok (indexed 0 ws, g, rk) ∧
      Collated env.cc (indexed 0 ws) false g ps rk rkf ord m ∧
      collateRanked env ws { o with segmentation := true } = .ok (indexed 0 ws, g', rk') ∧
      Collated env.cc (indexed 0 ws) true g' ps' rk' rkf' ord' m' ∧ Grouped g ps g' ps' ∧
      ∃ u, BeginsIn opening.length u ps := by
  refine collateRanked_both_inv env hts hv o ho.astar ho.detect ho.near (R := fun ps => ∃ u, BeginsIn opening.length u ps) ?_
  intro ti hti L B
  have hall : ∀ x ∈ ti.ws, BeginsWith opening (x.tokens.map Token.str) := by
    intro x hx
    rw [hti] at hx
    obtain ⟨j, hj⟩ := List.getElem?_of_mem hx
    obtain ⟨w1, e1, _, e2⟩ := indexed_strs _ hj
    rw [e2]
    exact (hop w1 (List.mem_of_getElem? e1)).begins
  refine ⟨?_, ?_⟩
  · rw [hf]
    rintro s s' ps w P rkf o m r cube cells al hs hne hw hs' hst ⟨u, hu⟩
    exact ⟨u, hu.step L B hs hne hw hst hall⟩
  · intro w s hw hs
    apply beginsIn_first
    have h1 := congrArg List.length (newSegs_snd [] 2 w.tokens)
    have h3 := (hall w (List.mem_of_getElem? hw)).length_le
    simp only [List.length_map] at h1 h3
    simp only
    omega

/-- The column of a vertex at the beginning of all paths. -/
theorem opening_column (hts : TopoSpec env.topo) (hv : Valid ws) (hs : ∀ w ∈ ws, w.sigil ≠ []) {o : Opts} (ho : ExactMatching o)
    {g : VGraph} {rk : Ranking} (h1 : collateRanked env ws o = .ok (indexed 0 ws, g, rk)) {seg : Bool} {ps : List WPath} {rkf : VId → Nat}
    {ord : List VId} {m : Nat} (C : Collated env.cc (indexed 0 ws) seg g ps rk rkf ord m) {k : Nat} {u : Nat → VId} (hu : BeginsIn k u ps) {i : Nat}
    (hi : i < k) (hin : ∀ p ∈ ps, u (i + 1) ∈ p.inner) :
      ∃ c, (mkTable (indexed 0 ws) g rk).columns[i]? = some c ∧ c.variant = false ∧
        ∀ p ∈ ps, ∀ ts, (u (i + 1), ts) ∈ p.segs → dget c.tokens p.sigil = some ts := by
  have hsi := indexed_sigil_ne hs
  have hne : ps ≠ [] := by
    intro h0
    have := C.length
    rw [h0, indexed_length] at this
    exact hv.ne (List.length_eq_zero_iff.mp this.symm)
  obtain ⟨p0, hp0⟩ := List.exists_mem_of_ne_nil ps hne
  obtain ⟨e, he, _, _, _, _, hcl, hcell⟩ := C21_of_collation env hts _ _ hv hs o ho g rk h1
  rw [C.rank.byVertex C.ginv.end_mem] at he
  obtain rfl := Option.some.inj he
  obtain ⟨r1, r2⟩ := hu.rank hne C.ginv C.rank (i + 1) (by omega)
  obtain ⟨⟨v, us⟩, hm, hve⟩ := List.mem_map.mp (hin p0 hp0)
  simp only at hve
  subst hve
  obtain ⟨hvm, _, hve, _⟩ := C.ginv.segs_in p0 hp0 _ hm
  have hedge : ∀ p ∈ g.pairs, rkf p.1 < rkf p.2 := fun p hp => C.rank.isRank.lt C.ginv.wf hp
  have hpos := (C.ginv.rank_bounds hne hedge _ hvm).2 hve
  simp only at hpos
  have hic : i < (mkTable (indexed 0 ws) g rk).columns.length := by omega
  obtain ⟨c, hc⟩ : ∃ c, (mkTable (indexed 0 ws) g rk).columns[i]? = some c := ⟨_, List.getElem?_eq_getElem (by omega)⟩
  have hget : ∀ p ∈ ps, ∀ ts, (u (i + 1), ts) ∈ p.segs → dget c.tokens p.sigil = some ts := by
    intro p hp ts hm
    exact (hcell _ c hc _ _).mpr ⟨_, hvm, by rw [C.rank.byVertex hvm, r1], (C.carries hsi).mpr ⟨p, hp, rfl, hm⟩⟩
  refine ⟨c, hc, ?_, hget⟩
  refine (C27_variant_iff env hts _ _ hv hs o ho g rk h1 _ c hc).mpr ⟨⟨u (i + 1), ?_⟩, ?_⟩
  · intro x hx
    rw [C.rank.byVertex hx]
    constructor
    · intro h
      exact r2 x hx (Option.some.inj h)
    · rintro rfl
      rw [r1]
  · intro w hw
    have : w.sigil ∈ ps.map WPath.sigil := by
      rw [C.sigils, indexed_sigla]
      exact List.mem_map.mpr ⟨w, hw, rfl⟩
    obtain ⟨p, hp, hpw⟩ := List.mem_map.mp this
    obtain ⟨⟨v, ts⟩, hm, hve⟩ := List.mem_map.mp (hin p hp)
    simp only at hve
    subst hve
    exact ⟨ts, by rw [← hpw]; exact hget p hp ts hm⟩

end

/-- C85 without segmentation, for openings of which every witness has each word once (what is missing: other openings, for which the
claim is false, see `C85_again_later` and `C85_again_first`). If all witnesses begin with the same words, these stand aligned in the
first columns. -/
theorem C85_common_opening_partial (env : Env) (hts : TopoSpec env.topo) (ws : List Witness) (hv : Valid ws)
    (hs : ∀ w ∈ ws, w.sigil ≠ []) (opening : List Str) (hop : ∀ w ∈ ws, OpensWith w opening) (o : Opts) (ho : ExactMatching o)
    (hf : o.pfilter = none) (hseg : o.segmentation = false) :
    ∃ t, collateTable env ws o = .ok t ∧ t.rows.map Row.header = ws.map Witness.sigil ∧ AlignedOpening t opening := by
  obtain ⟨g, ps, rk, rkf, ord, m, _, _, _, _, _, _, h1, C, _, _, _, u, hu⟩ := opening_core env hts hv hop o ho hf
  have ho' : { o with segmentation := false } = o := by rw [← hseg]
  rw [ho'] at h1
  refine ⟨mkTable (indexed 0 ws) g rk, by unfold collateTable; rw [h1]; rfl, ?_, ?_⟩
  · rw [mkTable_rows, List.map_map]
    exact indexed_sigla 0 _
  -- the segments of the paths
  have seg : ∀ {j : Nat} {w : Witness}, (indexed 0 ws)[j]? = some w → ∃ p ∈ ps, p.sigil = w.sigil ∧ ∀ i, i < opening.length →
      ∃ tok, (u (i + 1), [tok]) ∈ p.segs ∧ opening[i]? = some tok.str := by
    intro j w hw
    obtain ⟨p, e1, e2, e3⟩ := C.at hw
    obtain ⟨w1, f1, _, f2⟩ := indexed_strs _ hw
    have hpre := (hop w1 (List.mem_of_getElem? f1)).begins
    have hle := hpre.length_le
    rw [show strings w1 = w.tokens.map Token.str from f2.symm, List.length_map] at hle
    refine ⟨p, List.mem_of_getElem? e1, e2, ?_⟩
    intro i hi
    obtain ⟨t, g1, g2⟩ := hu.seg C (List.mem_of_getElem? e1) e3 hle hi
    refine ⟨t, g2, ?_⟩
    have := hpre.at hi
    rw [show strings w1 = w.tokens.map Token.str from f2.symm, List.getElem?_map, g1] at this
    rw [List.getElem?_eq_getElem hi, ← this]
    rfl
  have hin : ∀ i, i < opening.length → ∀ p ∈ ps, u (i + 1) ∈ p.inner := by
    intro i hi p hp
    have : p.sigil ∈ (indexed 0 ws).map Witness.sigil := by rw [← C.sigils]; exact List.mem_map.mpr ⟨p, hp, rfl⟩
    obtain ⟨w, hw, hwp⟩ := List.mem_map.mp this
    obtain ⟨j, hj⟩ := List.getElem?_of_mem hw
    obtain ⟨p', hp', hs', hk⟩ := seg hj
    obtain rfl := sigil_unique C.ginv hp' hp (by rw [hs', hwp])
    obtain ⟨tok, hm, _⟩ := hk i hi
    exact List.mem_map.mpr ⟨_, hm, rfl⟩
  intro i a ha
  have hi := (List.getElem?_eq_some_iff.mp ha).1
  obtain ⟨c, h2, h3, h4⟩ := opening_column hts hv hs ho h1 C hu (i := i) hi (hin i hi)
  refine ⟨c, h2, h3, ?_⟩
  intro row hrow
  rw [mkTable_rows] at hrow
  obtain ⟨w, hw, rfl⟩ := List.mem_map.mp hrow
  obtain ⟨j, hj⟩ := List.getElem?_of_mem hw
  obtain ⟨p, hp, hps, hk⟩ := seg hj
  obtain ⟨tok, hm, hst⟩ := hk i hi
  refine ⟨tok, ?_, ?_⟩
  · simp only [List.getElem?_map, h2, Option.map_some]
    rw [← hps, h4 p hp _ hm]
  · rw [ha] at hst
    exact (Option.some.inj hst).symm

/-- C85 with segmentation, for the same openings: the first column is not variant, and the common opening stands in it. -/
theorem C85_segmented_partial (env : Env) (hts : TopoSpec env.topo) (ws : List Witness) (hv : Valid ws)
    (hs : ∀ w ∈ ws, w.sigil ≠ []) (opening : List Str) (hne : opening ≠ []) (hop : ∀ w ∈ ws, OpensWith w opening) (o : Opts)
    (ho : ExactMatching o) (hf : o.pfilter = none) (hseg : o.segmentation = true) :
    ∃ t, collateTable env ws o = .ok t ∧ t.rows.map Row.header = ws.map Witness.sigil ∧ SharedOpening t opening := by
  obtain ⟨g, ps, rk, rkf, ord, m, g', ps', rk', rkf', ord', m', h1, C, h1', C', G, u, hu⟩ := opening_core env hts hv hop o ho hf
  have ho' : { o with segmentation := true } = o := by rw [← hseg]
  rw [ho'] at h1'
  have hpos : 0 < opening.length := List.length_pos_iff.mpr hne
  obtain ⟨v, hE, hfirst⟩ := hu.segmented hpos (by
      intro h0
      have := congrArg List.length h0
      rw [indexed_length] at this
      exact hv.ne (List.length_eq_zero_iff.mp this)) C C' G
    (fun w hw => by
      obtain ⟨j, hj⟩ := List.getElem?_of_mem hw
      exact hv.tokens_nodup hj)
    (fun w hw => by
      obtain ⟨j, hj⟩ := List.getElem?_of_mem hw
      obtain ⟨w1, f1, _, f2⟩ := indexed_strs _ hj
      have h2 := (hop w1 (List.mem_of_getElem? f1)).1.length_le
      have h3 := congrArg List.length f2
      simp only [List.length_map, strings] at h2 h3
      omega)
  refine ⟨mkTable (indexed 0 ws) g' rk', by unfold collateTable; rw [h1']; rfl, ?_, ?_⟩
  · rw [mkTable_rows, List.map_map]
    exact indexed_sigla 0 _
  obtain ⟨c, h2, h3, h4⟩ := opening_column hts hv hs ho h1' C' hE (i := 0) (by omega) (by
    intro p hp
    obtain ⟨a, ha, _⟩ := hfirst p hp
    exact List.mem_map.mpr ⟨_, ha.subset (List.mem_singleton.mpr rfl), rfl⟩)
  refine ⟨c, h2, h3, ?_⟩
  intro row hrow
  rw [mkTable_rows] at hrow
  obtain ⟨w, hw, rfl⟩ := List.mem_map.mp hrow
  obtain ⟨j, hj⟩ := List.getElem?_of_mem hw
  obtain ⟨p, e1, e2, e3⟩ := C'.at hj
  have hp := List.mem_of_getElem? e1
  obtain ⟨a, ha, hal⟩ := hfirst p hp
  refine ⟨a, ?_, ?_⟩
  · simp only [List.getElem?_map, h2, Option.map_some]
    rw [← e2, h4 p hp a (ha.subset (List.mem_singleton.mpr rfl))]
  · obtain ⟨w1, f1, _, f2⟩ := indexed_strs _ hj
    have hpre := (hop w1 (List.mem_of_getElem? f1)).1
    have h5 : a.map Token.str <+: strings w1 := by
      obtain ⟨I, hI⟩ := ha
      refine ⟨(I.flatMap Prod.snd).map Token.str, ?_⟩
      rw [show strings w1 = w.tokens.map Token.str from f2.symm, ← e3, ← List.map_append]
      congr 1
      unfold WPath.text
      rw [← hI]
      simp
    exact List.prefix_of_prefix_length_le hpre h5 (by simpa using hal)

/-! ### Why not in general -/

/-- Three witnesses with the same first word, which only the last has again. -/
def openingAgain : List Witness := [wordsWitness "A" ["a"], wordsWitness "B" ["a"], wordsWitness "C" ["a", "b", "a"]]

/-- C85 is false if one witness has a word of the opening again: the only word of the first two witnesses is aligned with the last word
of the third, and the first column is empty in their rows. -/
theorem C85_again_later : Valid openingAgain ∧ (∀ w ∈ openingAgain, [S "a"] <+: strings w) ∧
    (∀ w ∈ openingAgain.dropLast, OpensWith w [S "a"]) ∧
    (collateTable exampleEnv openingAgain { segmentation := false }).map tableSummary =
      .ok ⟨[true, true, false], [S "A", S "B", S "C"], [[none, none, some [S "a"]], [none, none, some [S "a"]],
        [some [S "a"], some [S "b"], some [S "a"]]]⟩ ∧
    (∀ t, collateTable exampleEnv openingAgain { segmentation := false } = .ok t → ¬ AlignedOpening t [S "a"]) ∧
    ∀ t, collateTable exampleEnv openingAgain {} = .ok t → ¬ SharedOpening t [S "a"] := by
  have h1 : (collateTable exampleEnv openingAgain { segmentation := false }).map tableSummary =
      .ok ⟨[true, true, false], [S "A", S "B", S "C"], [[none, none, some [S "a"]], [none, none, some [S "a"]],
        [some [S "a"], some [S "b"], some [S "a"]]]⟩ := by decide +kernel
  have h2 : ((collateTable exampleEnv openingAgain {}).map tableSummary).map TableSummary.variant = .ok [true, false] := by
    decide +kernel
  refine ⟨valid_of_check (by decide) (by decide) (by decide) (by decide), by decide, by unfold OpensWith; decide +kernel, h1, ?_, ?_⟩
  · intro t ht ha
    rw [ht] at h1
    have h3 := congrArg TableSummary.variant (Except.ok.inj h1)
    simp only [tableSummary] at h3
    obtain ⟨c, h4, h5, _⟩ := ha 0 (S "a") rfl
    have h6 := congrArg (fun l => l[0]?) h3
    simp only [List.getElem?_map, h4] at h6
    simp [h5] at h6
  · intro t ht ha
    rw [ht] at h2
    have h3 := Except.ok.inj h2
    simp only [tableSummary] at h3
    obtain ⟨c, h4, h5, _⟩ := ha
    have h6 := congrArg (fun l => l[0]?) h3
    simp only [List.getElem?_map, h4] at h6
    simp [h5] at h6

/-- Likewise if the first witness has it again; no word stands twice in a row. -/
theorem C85_again_first : Valid [wordsWitness "A" ["a", "b", "a"], wordsWitness "B" ["a"]] ∧
    (∀ w ∈ [wordsWitness "A" ["a", "b", "a"], wordsWitness "B" ["a"]], [S "a"] <+: strings w ∧ NoRepeats w) ∧
    (collateTable exampleEnv [wordsWitness "A" ["a", "b", "a"], wordsWitness "B" ["a"]] { segmentation := false }).map tableSummary =
      .ok ⟨[true, true, false], [S "A", S "B"], [[some [S "a"], some [S "b"], some [S "a"]], [none, none, some [S "a"]]]⟩ :=
  C78_beginning

/-! ### Example -/

/-- Three witnesses with a common opening. -/
def commonOpening : List Witness :=
  [wordsWitness "A" ["in", "the", "x", "y", "x", "y"], wordsWitness "B" ["in", "the", "y", "x"], wordsWitness "C" ["in", "the"]]

/-- The hypotheses of C85 are met, and the opening is aligned. -/
example : TopoSpec exampleEnv.topo ∧ Valid commonOpening ∧ (∀ w ∈ commonOpening, OpensWith w [S "in", S "the"]) ∧
    (collateTable exampleEnv commonOpening { segmentation := false }).map (fun t => (tableSummary t).cells) =
      .ok [[some [S "in"], some [S "the"], some [S "x"], some [S "y"], some [S "x"], some [S "y"]],
        [some [S "in"], some [S "the"], none, some [S "y"], some [S "x"], none],
        [some [S "in"], some [S "the"], none, none, none, none]] := by
  refine ⟨kahn_spec, valid_of_check (by decide) (by decide) (by decide) (by decide), ?_, by decide +kernel⟩
  unfold OpensWith
  decide +kernel

end CollateX
