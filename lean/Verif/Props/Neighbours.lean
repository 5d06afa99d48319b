import Verif.Props.Variant
import Verif.Props.Grouping
/-
Neighbouring columns of the table: C80.
-/

namespace CollateX
open Spec

section
variable {cc : CharClass} {ws : List Witness} {seg : Bool} {g : VGraph} {ps : List WPath} {rk : Ranking} {rkf : VId → Nat}
  {ord : List VId} {m : Nat}

theorem WPath.inner_path {p : WPath} {v : VId} (h : v ∈ p.inner) : v ∈ p.path := by
  unfold WPath.path
  simp [h]

/-- Vertices of a path with neighbouring ranks are neighbours on it. -/
theorem Collated.consec (C : Collated cc ws seg g ps rk rkf ord m) {p : WPath} (hp : p ∈ ps) {u v : VId} (hu : u ∈ p.path)
    (hv : v ∈ p.path) (h : rkf v = rkf u + 1) : Consec p.path u v := by
  obtain ⟨i, hi⟩ := List.getElem?_of_mem hu
  obtain ⟨j, hj⟩ := List.getElem?_of_mem hv
  have hij : i < j := by
    by_contra hge
    have := rank_path_lt C.ginv C.rank hp (i - j) j v u hj (by rw [show j + (i - j) = i by omega]; exact hi)
    omega
  have := rank_path_lt C.ginv C.rank hp (j - i) i u v hi (by rw [show i + (j - i) = j by omega]; exact hj)
  obtain rfl : j = i + 1 := by omega
  exact consec_iff_getElem.mpr ⟨i, hi, hj⟩

/-- Two vertices of neighbouring ranks that are on the same paths can be joined. -/
theorem Collated.joinable (C : Collated cc ws seg g ps rk rkf ord m) {u v : VId} (hu : ∃ p ∈ ps, u ∈ p.path) (hve : v ≠ endV)
    (hr : rkf v = rkf u + 1) (hsame : ∀ p ∈ ps, u ∈ p.path ↔ v ∈ p.path) : Joinable g u v := by
  obtain ⟨p, hp, hup⟩ := hu
  refine (joinable_iff C.ginv.edges_nd).mpr ⟨(C.ginv.edges_iff _ _).mpr ⟨p, hp, C.consec hp hup ((hsame p hp).mp hup) hr⟩, ?_, hve, ?_⟩
  · intro b hb
    obtain ⟨q, hq, hc⟩ := (C.ginv.edges_iff _ _).mp hb
    have h2 := C.consec hq hc.mem_left ((hsame q hq).mp hc.mem_left) hr
    obtain ⟨i, h3, h4⟩ := consec_iff_getElem.mp hc
    obtain ⟨j, h5, h6⟩ := consec_iff_getElem.mp h2
    obtain ⟨l1, e1⟩ := List.getElem?_eq_some_iff.mp h3
    obtain ⟨l2, e2⟩ := List.getElem?_eq_some_iff.mp h5
    obtain rfl := ((C.ginv.path_nodup hq).getElem_inj_iff (hi := l1) (hj := l2)).mp (by rw [e1, e2])
    rw [h4] at h6
    exact Option.some.inj h6
  · intro a ha
    obtain ⟨q, hq, hc⟩ := (C.ginv.edges_iff _ _).mp ha
    have h2 := C.consec hq ((hsame q hq).mpr hc.mem_right) hc.mem_right hr
    obtain ⟨i, h3, h4⟩ := consec_iff_getElem.mp hc
    obtain ⟨j, h5, h6⟩ := consec_iff_getElem.mp h2
    obtain ⟨l1, e1⟩ := List.getElem?_eq_some_iff.mp h4
    obtain ⟨l2, e2⟩ := List.getElem?_eq_some_iff.mp h6
    have hij := ((C.ginv.path_nodup hq).getElem_inj_iff (hi := l1) (hj := l2)).mp (by rw [e1, e2])
    obtain rfl : i = j := by omega
    rw [h3] at h5
    exact Option.some.inj h5

end

/-- C80, no gap without need: for every cell there is a row with the same strings in this column that has a cell in the column before
as well. With and without segmentation, with any filter. -/
theorem C80_no_needless_gap (env : Env) (hts : TopoSpec env.topo) (ws : List Witness) (hv : Valid ws) (hs : ∀ w ∈ ws, w.sigil ≠ [])
    (o : Opts) (ho : ExactMatching o) (t : Table) (h : collateTable env ws o = .ok t) (j : Nat) (row : Row) (hrow : row ∈ t.rows)
    (ts : List Token) (hts' : row.cells[j + 1]? = some (some ts)) :
    ∃ row' ∈ t.rows, (∃ us, row'.cells[j + 1]? = some (some us) ∧ us.map Token.str = ts.map Token.str) ∧
      ∃ vs, row'.cells[j]? = some (some vs) := by
  obtain ⟨g, ps, rk, rkf, ord, m, h1, C, rfl⟩ := table_of env hts hv ho h
  have hsi := indexed_sigil_ne hs
  have hne : indexed 0 ws ≠ [] := by
    intro h0
    have := congrArg List.length h0
    rw [indexed_length] at this
    exact hv.ne (List.length_eq_zero_iff.mp this)
  obtain ⟨e, he, _, _, _, _, hcl, hcell⟩ := C21_of_collation env hts _ _ hv hs o ho g rk h1
  rw [mkTable_rows] at hrow
  obtain ⟨w, hw, rfl⟩ := List.mem_map.mp hrow
  simp only [List.getElem?_map] at hts'
  obtain ⟨c, hc, hd⟩ := Option.map_eq_some_iff.mp hts'
  obtain ⟨v, hvm, hvr, hvc⟩ := (hcell (j + 1) c hc _ _).mp hd
  rw [C.rank.byVertex hvm] at hvr
  have hvr := Option.some.inj hvr
  obtain ⟨p, hp, _, hpm⟩ := (C.carries hsi).mp hvc
  obtain ⟨u, huv, hur⟩ := C.rank.isRank.pred hvm (by omega)
  obtain ⟨q, hq, hcon⟩ := (C.ginv.edges_iff _ _).mp huv
  -- both ends of the edge carry tokens of the witness
  have carry : ∀ x ∈ q.path, 0 < rkf x → x ≠ endV → ∃ us, (x, us) ∈ q.segs := by
    intro x hx hr hxe
    have hxs : x ≠ startV := by
      rintro rfl
      have := (C.start_rank hne C.ginv.start_mem).mpr rfl
      omega
    unfold WPath.path at hx
    simp only [List.mem_append, List.mem_cons, List.not_mem_nil, or_false] at hx
    rcases hx with hx | hx | hx
    · exact absurd hx hxs
    · obtain ⟨⟨y, us⟩, hy, rfl⟩ := List.mem_map.mp hx
      exact ⟨us, hy⟩
    · exact absurd hx hxe
  have hve : v ≠ endV := (C.ginv.segs_in p hp _ hpm).2.2.1
  have hue : u ≠ endV := by
    rintro rfl
    have hb := C.ginv.rank_bounds (C.ne hne) (h := rkf) (fun p hp => C.lt (u := p.1) (v := p.2) hp)
    have := (hb v hvm).2 hve
    omega
  obtain ⟨us, hus⟩ := carry v hcon.mem_right (by omega) hve
  obtain ⟨xs, hxs⟩ := carry u hcon.mem_left (by omega) hue
  obtain ⟨w', hw', hws⟩ : ∃ w' ∈ indexed 0 ws, w'.sigil = q.sigil := by
    have : q.sigil ∈ (indexed 0 ws).map Witness.sigil := by rw [← C.sigils]; exact List.mem_map.mpr ⟨q, hq, rfl⟩
    obtain ⟨w', h1, h2⟩ := List.mem_map.mp this
    exact ⟨w', h1, h2⟩
  have hum : u ∈ g.vertices := (C.ginv.segs_in q hq _ hxs).1
  obtain ⟨c0, hc0⟩ : ∃ c0, (mkTable (indexed 0 ws) g rk).columns[j]? = some c0 := by
    have := (List.getElem?_eq_some_iff.mp hc).1
    exact ⟨_, List.getElem?_eq_getElem (by omega)⟩
  refine ⟨⟨w'.sigil, (mkTable (indexed 0 ws) g rk).columns.map (fun c => dget c.tokens w'.sigil)⟩, ?_, ⟨us, ?_, ?_⟩, xs, ?_⟩
  · rw [mkTable_rows]
    exact List.mem_map.mpr ⟨w', hw', rfl⟩
  · simp only [List.getElem?_map, hc, Option.map_some, Option.some.injEq]
    refine (hcell (j + 1) c hc _ _).mpr ⟨v, hvm, ?_, (C.carries hsi).mpr ⟨q, hq, hws.symm, hus⟩⟩
    rw [C.rank.byVertex hvm, hvr]
  · exact C.uniform q hq p hp v us ts hus hpm
  · simp only [List.getElem?_map, hc0, Option.map_some, Option.some.injEq]
    refine (hcell j c0 hc0 _ _).mpr ⟨u, hum, ?_, (C.carries hsi).mpr ⟨q, hq, hws.symm, hxs⟩⟩
    rw [C.rank.byVertex hum]
    congr 1
    omega

/-- C80, segments are as long as they can be: with segmentation, two vertices of neighbouring ranks do not carry tokens of the same
witnesses. -/
theorem C80_groups_differ (env : Env) (hts : TopoSpec env.topo) (ws ws' : List Witness) (hv : Valid ws) (hs : ∀ w ∈ ws, w.sigil ≠ [])
    (o : Opts) (ho : ExactMatching o) (hseg : o.segmentation = true) (g : VGraph) (rk : Ranking)
    (h : collateRanked env ws o = .ok (ws', g, rk)) (u v : Nat) (k : Nat) (hu : u ∈ g.vertices) (hus : u ≠ startV) (hvm : v ∈ g.vertices)
    (hve : v ≠ endV) (hur : dget rk.byVertex u = some k) (hvr : dget rk.byVertex v = some (k + 1)) :
    ∃ σ, ¬ ((∃ ts, CarriesAt g u σ ts) ↔ ∃ ts, CarriesAt g v σ ts) := by
  obtain ⟨rfl, ps, rkf, ord, m, C⟩ := collated_of env hts hv ho h
  have hsi := indexed_sigil_ne hs
  have hne : indexed 0 ws ≠ [] := by
    intro h0
    have := congrArg List.length h0
    rw [indexed_length] at this
    exact hv.ne (List.length_eq_zero_iff.mp this)
  rw [C.rank.byVertex hu] at hur
  rw [C.rank.byVertex hvm] at hvr
  have hur := Option.some.inj hur
  have hvr := Option.some.inj hvr
  have hue : u ≠ endV := by
    rintro rfl
    have hb := C.ginv.rank_bounds (C.ne hne) (h := rkf) (fun p hp => C.lt (u := p.1) (v := p.2) hp)
    have := (hb v hvm).2 hve
    omega
  have hvs : v ≠ startV := by
    rintro rfl
    have := (C.start_rank hne C.ginv.start_mem).mpr rfl
    omega
  by_contra hno
  have hall : ∀ σ, (∃ ts, CarriesAt g u σ ts) ↔ ∃ ts, CarriesAt g v σ ts := by
    intro σ
    by_contra hσ
    exact hno ⟨σ, hσ⟩
  have onpath : ∀ {x : VId}, x ≠ startV → x ≠ endV → ∀ p ∈ ps, x ∈ p.path ↔ ∃ ts, CarriesAt g x p.sigil ts := by
    intro x h1 h2 p hp
    constructor
    · intro hx
      unfold WPath.path at hx
      simp only [List.mem_append, List.mem_cons, List.not_mem_nil, or_false] at hx
      rcases hx with hx | hx | hx
      · exact absurd hx h1
      · obtain ⟨⟨y, us⟩, hy, rfl⟩ := List.mem_map.mp hx
        exact ⟨us, (C.carries hsi).mpr ⟨p, hp, rfl, hy⟩⟩
      · exact absurd hx h2
    · rintro ⟨ts, hx⟩
      obtain ⟨q, hq, hqs, hm⟩ := (C.carries hsi).mp hx
      obtain rfl := sigil_unique C.ginv hq hp hqs
      exact WPath.inner_path (List.mem_map.mpr ⟨_, hm, rfl⟩)
  obtain ⟨p, hp, hup⟩ := C.ginv.cover u hu hus hue
  refine C.maximal hseg u v hus (C.joinable ⟨p, hp, WPath.inner_path hup⟩ hve (by omega) ?_)
  intro q hq
  rw [onpath hus hue q hq, onpath hvs hve q hq]
  exact hall q.sigil

/-- C80 in the table: with segmentation, of two neighbouring columns at least one is marked variant. -/
theorem C80_not_both_unanimous (env : Env) (hts : TopoSpec env.topo) (ws : List Witness) (hv : Valid ws) (hs : ∀ w ∈ ws, w.sigil ≠ [])
    (o : Opts) (ho : ExactMatching o) (hseg : o.segmentation = true) (t : Table) (h : collateTable env ws o = .ok t) (j : Nat) (c d : Column)
    (hc : t.columns[j]? = some c) (hd : t.columns[j + 1]? = some d) : c.variant = true ∨ d.variant = true := by
  obtain ⟨g, ps, rk, rkf, ord, m, h1, C, rfl⟩ := table_of env hts hv ho h
  have hsi := indexed_sigil_ne hs
  obtain ⟨e, he, _, _, _, _, hcl, hcell⟩ := C21_of_collation env hts _ _ hv hs o ho g rk h1
  by_contra hno
  rw [not_or, Bool.not_eq_true, Bool.not_eq_true] at hno
  obtain ⟨⟨u, hu⟩, hcu⟩ := (C27_variant_iff env hts _ _ hv hs o ho g rk h1 j c hc).mp hno.1
  obtain ⟨⟨v, hv'⟩, hcv⟩ := (C27_variant_iff env hts _ _ hv hs o ho g rk h1 (j + 1) d hd).mp hno.2
  have all : ∀ {j : Nat} {c : Column} {x : VId}, (mkTable (indexed 0 ws) g rk).columns[j]? = some c →
      (∀ y ∈ g.vertices, dget rk.byVertex y = some (j + 1) ↔ y = x) → (∀ w ∈ ws, ∃ ts, dget c.tokens w.sigil = some ts) →
      x ∈ g.vertices ∧ dget rk.byVertex x = some (j + 1) ∧ x ≠ startV ∧ x ≠ endV ∧
        ∀ σ, (∃ ts, CarriesAt g x σ ts) ↔ σ ∈ ws.map Witness.sigil := by
    intro j c x hc hx hall
    have key : ∀ w ∈ ws, ∃ ts, x ∈ g.vertices ∧ dget rk.byVertex x = some (j + 1) ∧ CarriesAt g x w.sigil ts := by
      intro w hw
      obtain ⟨ts, hts⟩ := hall w hw
      obtain ⟨y, hy1, hy2, hy3⟩ := (hcell j c hc _ _).mp hts
      obtain rfl := (hx y hy1).mp hy2
      exact ⟨ts, hy1, hy2, hy3⟩
    obtain ⟨w, hw⟩ := List.exists_mem_of_ne_nil ws hv.ne
    obtain ⟨ts, k1, k2, k3⟩ := key w hw
    obtain ⟨p, hp, _, hpm⟩ := (C.carries hsi).mp k3
    refine ⟨k1, k2, (C.ginv.segs_in p hp _ hpm).2.1, (C.ginv.segs_in p hp _ hpm).2.2.1, ?_⟩
    intro σ
    constructor
    · rintro ⟨us, hus⟩
      obtain ⟨q, hq, rfl, _⟩ := (C.carries hsi).mp hus
      rw [← indexed_sigla 0 ws, ← C.sigils]
      exact List.mem_map.mpr ⟨q, hq, rfl⟩
    · intro hσ
      obtain ⟨w, hw, rfl⟩ := List.mem_map.mp hσ
      obtain ⟨ts, _, _, h⟩ := key w hw
      exact ⟨ts, h⟩
  obtain ⟨a1, a2, a3, a4, a5⟩ := all hc hu hcu
  obtain ⟨b1, b2, b3, b4, b5⟩ := all hd hv' hcv
  obtain ⟨σ, hσ⟩ := C80_groups_differ env hts ws _ hv hs o ho hseg g rk h1 u v (j + 1) a1 a3 b1 b4 a2 b2
  exact hσ ((a5 σ).trans (b5 σ).symm)

/-! ### Cases, and where gaps are -/

/-- C80 has no mirror image: in `a b c e` against `x y e` nobody has a word in the column after `y` among those who have `y`; the gap
stands after the words, not before them. -/
theorem C80_gap_after : Valid endingWitnesses ∧
    (collateTable exampleEnv endingWitnesses { segmentation := false }).map tableSummary =
      .ok ⟨[true, true, true, false], [S "A", S "B"], [[some [S "a"], some [S "b"], some [S "c"], some [S "e"]],
        [some [S "x"], some [S "y"], none, some [S "e"]]]⟩ :=
  ⟨C66_columns_differ.1, C66_columns_differ.2.1⟩

/-- With near matching C80 does not hold: `a` moves to the column of `ab`, and nobody has `a` and a word before it. -/
theorem C80_near : Valid [wordsWitness "A" ["a"], wordsWitness "B" ["x", "ab"]] ∧
    (collateTable nearEnv [wordsWitness "A" ["a"], wordsWitness "B" ["x", "ab"]] { segmentation := false, nearMatch := true }).map
      tableSummary = .ok ⟨[true, true], [S "A", S "B"], [[none, some [S "a"]], [some [S "x"], some [S "ab"]]]⟩ :=
  ⟨valid_of_check (by decide) (by decide) (by decide) (by decide), by decide +kernel⟩

/-- Without segmentation neighbouring columns can both be unanimous. -/
example : (collateTable exampleEnv [wordsWitness "A" ["a", "b"], wordsWitness "B" ["a", "b"]] { segmentation := false }).map tableSummary =
    .ok ⟨[false, false], [S "A", S "B"], [[some [S "a"], some [S "b"]], [some [S "a"], some [S "b"]]]⟩ := by
  decide +kernel

/-- Three witnesses with two common runs. -/
def twoRuns : List Witness :=
  [wordsWitness "A" ["k", "a", "b", "x", "c", "d"], wordsWitness "B" ["a", "b", "y", "c", "d"], wordsWitness "C" ["a", "b", "c", "d", "e"]]

/-- They meet the hypotheses of C80; two columns are unanimous and not neighbours. -/
example : Valid twoRuns ∧ (∀ w ∈ twoRuns, w.sigil ≠ []) ∧ ExactMatching {} ∧
    (collateTable exampleEnv twoRuns { segmentation := true }).map tableSummary =
      .ok ⟨[true, false, true, false, true], [S "A", S "B", S "C"],
        [[some [S "k"], some [S "a", S "b"], some [S "x"], some [S "c", S "d"], none],
          [none, some [S "a", S "b"], some [S "y"], some [S "c", S "d"], none],
          [none, some [S "a", S "b"], none, some [S "c", S "d"], some [S "e"]]]⟩ :=
  ⟨valid_of_check (by decide) (by decide) (by decide) (by decide), by decide, ⟨rfl, rfl, rfl⟩, by decide +kernel⟩

end CollateX
