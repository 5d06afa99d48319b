import Verif.Props.ThreeComputed
/-
C115: a further witness takes no column away from a table.
-/

namespace CollateX.Spec
open CollateX

/-- The columns in which a row has something, from left to right. -/
def wordColumns (r : Row) : List Nat := (List.range r.cells.length).filter (fun j => (cellAt r j).isSome)

end CollateX.Spec

namespace CollateX
open Spec

/-- Ranks grow with the paths. -/
theorem rank_grows {g g' : VGraph} {ps ps' : List WPath} {rkf rkf' : VId → Nat} (hg : GInv g ps) (hg' : GInv g' ps')
    (R : IsRank g rkf) (R' : IsRank g' rkf') (hp : ∀ p ∈ ps, ∃ p' ∈ ps', p'.inner = p.inner) {v : VId} (hv : v ∈ g.vertices) :
    rkf v ≤ rkf' v := by
  refine IsRank.le hg.wf R (f := rkf') ?_ _ v hv rfl
  rintro ⟨a, b⟩ he
  obtain ⟨p, h1, h2⟩ := (hg.edges_iff a b).mp he
  obtain ⟨p', h3, h4⟩ := hp p h1
  refine R'.lt hg'.wf ((hg'.edges_iff a b).mpr ⟨p', h3, ?_⟩)
  unfold WPath.path at h2 ⊢
  rw [h4]
  exact h2

section
variable {cc : CharClass} {ws : List Witness} {g : VGraph} {ps : List WPath} {rk : Ranking} {rkf : VId → Nat} {ord : List VId} {m : Nat}

/-- The columns of the words of a witness are the ranks of the vertices of its path. -/
theorem Collated.wordColumns_eq (C : Collated cc ws false g ps rk rkf ord m) (hs : ∀ w ∈ ws, w.sigil ≠ []) (hv : ws ≠ []) {k : Nat} {row : Row}
    {p : WPath} (hr : (mkTable ws g rk).rows[k]? = some row) (hp : ps[k]? = some p) :
    wordColumns row = p.inner.map (fun v => rkf v - 1) := by
  obtain ⟨w, hw, _, hc⟩ := row_at hr
  have hpm := List.mem_of_getElem? hp
  have hlen : row.cells.length = (mkTable ws g rk).columns.length := by rw [hc, List.length_map]
  have hbd := C.ginv.rank_bounds (C.ne hv) (h := rkf) (fun p hp => C.lt (u := p.1) (v := p.2) hp)
  have hcols := (C.columns_at hv).1
  have hin : ∀ v ∈ p.inner, 0 < rkf v ∧ rkf v < rkf endV := by
    intro v hvp
    obtain ⟨s, h1, rfl⟩ := List.mem_map.mp hvp
    have h2 := C.ginv.segs_in p hpm _ h1
    have h3 := (hbd _ h2.1).1 h2.2.1
    exact ⟨by omega, (hbd _ h2.1).2 h2.2.2.1⟩
  have hinc : (p.inner.map (fun v => rkf v - 1)).Pairwise (· < ·) := by
    rw [List.pairwise_map]
    refine (C.inner_increasing hpm).imp_of_mem ?_
    intro a b ha hb h
    have := hin a ha
    omega
  have hsrt : (wordColumns row).Pairwise (· < ·) := List.Pairwise.filter _ List.pairwise_lt_range
  refine List.Perm.eq_of_pairwise (le := (· < ·)) (fun a b _ _ h1 h2 => by omega) hsrt hinc ?_
  rw [List.perm_ext_iff_of_nodup (hsrt.imp (fun h => by omega)) (hinc.imp (fun h => by omega))]
  intro j
  unfold wordColumns
  rw [List.mem_filter, List.mem_range, hlen, List.mem_map]
  constructor
  · rintro ⟨h1, h2⟩
    obtain ⟨l, h3⟩ := Option.isSome_iff_exists.mp h2
    obtain ⟨v, t, h4, h5, _⟩ := (C.cellAt_iff hs hv hr hp h1 l).mp h3
    exact ⟨v, List.mem_map.mpr ⟨_, h4, rfl⟩, by omega⟩
  · rintro ⟨v, h1, rfl⟩
    have h2 := hin v h1
    have hj : rkf v - 1 < (mkTable ws g rk).columns.length := by omega
    obtain ⟨⟨u, ts⟩, h3, rfl⟩ := List.mem_map.mp h1
    obtain ⟨t, ht⟩ := C.single rfl p hpm _ h3
    simp only at ht h2 hj
    subst ht
    refine ⟨hj, ?_⟩
    rw [(C.cellAt_iff hs hv hr hp hj [t.str]).mpr ⟨u, t, h3, by omega, rfl⟩]
    rfl

end

/-- C115, as far as it holds: if one more witness is collated, the unsegmented table has at least as many columns as before and at most as
many more as the witness has words; and no word of the earlier witnesses moves to the left. The condition: no collation of fewer than all
(but two or more) of the earlier witnesses has two vertices with the same reading on one rank. What is missing: without the condition
the statement is false (`C115_narrower`), and so it is for other ways of collating. -/
theorem C115_wider_partial (env : Env) (hts : TopoSpec env.topo) (us : List Witness) (w : Witness) (hv : Valid (us ++ [w])) (hne : us ≠ [])
    (hsg : ∀ u ∈ us ++ [w], u.sigil ≠ []) (o : Opts) (ho : ExactMatching o) (hf : o.pfilter = none) (hseg : o.segmentation = false)
    (htw : ∀ m, 2 ≤ m → m < us.length → ∀ us' g rk, collateRanked env (us.take m) o = .ok (us', g, rk) → Spec.TwinFree g rk) :
    ∃ t0 t, collateTable env us o = .ok t0 ∧ collateTable env (us ++ [w]) o = .ok t ∧
      t0.columns.length ≤ t.columns.length ∧ t.columns.length ≤ t0.columns.length + (strings w).length ∧
      ∀ (k : Nat) row0 row, t0.rows[k]? = some row0 → t.rows[k]? = some row → List.Forall₂ (· ≤ ·) (wordColumns row0) (wordColumns row) := by
  have ho' : { o with segmentation := false } = o := by cases o; simp_all
  obtain ⟨g, rk, qs, P, rkf, ord, m, g0, rk0, qs0, rkf0, ord0, m0, k1, C, hlen, k2, C0, hinner, ⟨len, f, hf1, hf2, hf3⟩, _⟩ :=
    further_core hts hv hne hsg ho hf (by rw [ho']; exact htw)
  rw [ho'] at k1 k2
  have hsi := indexed_sigil_ne hsg
  have hsi0 := indexed_sigil_ne (ws := us) (fun u hu => hsg u (by simp [hu]))
  have hi : indexed 0 (us ++ [w]) ≠ [] := by
    intro h
    have := congrArg List.length h
    rw [indexed_length] at this
    simp at this
  have hi0 : indexed 0 us ≠ [] := by
    intro h
    have := congrArg List.length h
    rw [indexed_length] at this
    exact hne (List.length_eq_zero_iff.mp this)
  have hgrow : ∀ {v}, v ∈ g0.vertices → rkf0 v ≤ rkf v := by
    intro v hv
    refine rank_grows C0.ginv C.ginv C0.rank.isRank C.rank.isRank ?_ hv
    intro p hp
    have : p.inner ∈ qs.map WPath.inner := by rw [hinner]; exact List.mem_map.mpr ⟨p, hp, rfl⟩
    obtain ⟨p', h1, h2⟩ := List.mem_map.mp this
    exact ⟨p', by simp [h1], h2⟩
  have hc0 := (C0.columns_at hi0).1
  have hc := (C.columns_at hi).1
  have he := hgrow C0.ginv.end_mem
  have hm0 := rank_end C0.ginv (C0.ne hi0) C0.rank
  have hle := IsRank.le C.ginv.wf C.rank.isRank (f := f) hf2 _ endV C.ginv.end_mem rfl
  refine ⟨mkTable (indexed 0 us) g0 rk0, mkTable (indexed 0 (us ++ [w])) g rk, by unfold collateTable; rw [k2]; rfl,
    by unfold collateTable; rw [k1]; rfl, by omega, by omega, ?_⟩
  intro k row0 row h0 h1
  have hk : k < qs0.length := by
    rw [← C0.rows_length]
    exact (List.getElem?_eq_some_iff.mp h0).1
  have hll : qs.length = qs0.length := by simpa using congrArg List.length hinner
  have hp0 : qs0[k]? = some qs0[k] := List.getElem?_eq_getElem hk
  have hp : (qs ++ [P])[k]? = some qs[k] := by
    rw [List.getElem?_append_left (by omega)]
    exact List.getElem?_eq_getElem (by omega)
  have hsame : qs[k].inner = qs0[k].inner := by
    have := congrArg (fun l => l[k]?) hinner
    simp only [List.getElem?_map, hp0, List.getElem?_eq_getElem (show k < qs.length by omega), Option.map_some] at this
    exact Option.some.inj this
  rw [C0.wordColumns_eq hsi0 hi0 h0 hp0, C.wordColumns_eq hsi hi h1 hp, hsame]
  rw [List.forall₂_map_left_iff, List.forall₂_map_right_iff, List.forall₂_same]
  intro v hvp
  obtain ⟨s, h2, rfl⟩ := List.mem_map.mp hvp
  have := hgrow (C0.ginv.segs_in _ (List.mem_of_getElem? hp0) _ h2).1
  omega

/-- Up to two earlier witnesses there is no condition on the collation. -/
theorem C115_third_partial (env : Env) (hts : TopoSpec env.topo) (us : List Witness) (w : Witness) (hv : Valid (us ++ [w])) (hne : us ≠ [])
    (h2 : us.length ≤ 2) (hsg : ∀ u ∈ us ++ [w], u.sigil ≠ []) (o : Opts) (ho : ExactMatching o) (hf : o.pfilter = none)
    (hseg : o.segmentation = false) :
    ∃ t0 t, collateTable env us o = .ok t0 ∧ collateTable env (us ++ [w]) o = .ok t ∧
      t0.columns.length ≤ t.columns.length ∧ t.columns.length ≤ t0.columns.length + (strings w).length ∧
      ∀ (k : Nat) row0 row, t0.rows[k]? = some row0 → t.rows[k]? = some row → List.Forall₂ (· ≤ ·) (wordColumns row0) (wordColumns row) :=
  C115_wider_partial env hts us w hv hne hsg o ho hf hseg (by intro m h3 h4; omega)

/-- With three earlier witnesses it is enough that the second repeats no word. -/
theorem C115_fourth_partial (env : Env) (hts : TopoSpec env.topo) (us : List Witness) (w : Witness) (hv : Valid (us ++ [w])) (hne : us ≠ [])
    (h3 : us.length ≤ 3) (hsg : ∀ u ∈ us ++ [w], u.sigil ≠ []) (hrep : ∀ w, us[1]? = some w → NoRepeats w) (o : Opts) (ho : ExactMatching o)
    (hf : o.pfilter = none) (hseg : o.segmentation = false) :
    ∃ t0 t, collateTable env us o = .ok t0 ∧ collateTable env (us ++ [w]) o = .ok t ∧
      t0.columns.length ≤ t.columns.length ∧ t.columns.length ≤ t0.columns.length + (strings w).length ∧
      ∀ (k : Nat) row0 row, t0.rows[k]? = some row0 → t.rows[k]? = some row → List.Forall₂ (· ≤ ·) (wordColumns row0) (wordColumns row) :=
  C115_wider_partial env hts us w hv hne hsg o ho hf hseg (by
    intro n h4 h5 us' g rk h
    have hvu : Valid us := by
      have := hv.take (n := us.length) (List.length_pos_iff.mpr hne)
      rwa [List.take_left] at this
    exact twinFree_three hts hvu (fun w hw => hsg w (List.mem_append_left _ hw)) hrep ho hf hseg (by omega) (by omega) h)

/-- Three witnesses; the third has a word before all others. -/
def widerWitnesses : List Witness := [wordsWitness "A" ["the", "black", "cat"], wordsWitness "B" ["the", "cat", "sat"],
  wordsWitness "C" ["a", "the", "old", "cat"]]

/-- A case of C115: `a` needs a column of its own, `old` stands with `black`; all words of the others move by one. -/
example : ∃ t0 t, collateTable exampleEnv (widerWitnesses.take 2) { segmentation := false } = .ok t0 ∧
    collateTable exampleEnv widerWitnesses { segmentation := false } = .ok t ∧ t0.columns.length = 4 ∧ t.columns.length = 5 ∧
    t0.rows.map wordColumns = [[0, 1, 2], [0, 2, 3]] ∧ t.rows.map wordColumns = [[1, 2, 3], [1, 3, 4], [0, 1, 2, 3]] ∧
    ∀ (k : Nat) row0 row, t0.rows[k]? = some row0 → t.rows[k]? = some row → List.Forall₂ (· ≤ ·) (wordColumns row0) (wordColumns row) := by
  obtain ⟨t0, t, h1, h2, _, _, h3⟩ := C115_third_partial exampleEnv kahn_spec (widerWitnesses.take 2) (wordsWitness "C" ["a", "the", "old", "cat"])
    (valid_of_check (by decide) (by decide) (by decide) (by decide)) (by decide) (by decide) (by decide) { segmentation := false }
    ⟨rfl, rfl, rfl⟩ rfl rfl
  have e1 : (collateTable exampleEnv (widerWitnesses.take 2) { segmentation := false }).map (fun t => (t.columns.length, t.rows.map wordColumns)) =
      .ok (4, [[0, 1, 2], [0, 2, 3]]) := by decide +kernel
  have e2 : (collateTable exampleEnv widerWitnesses { segmentation := false }).map (fun t => (t.columns.length, t.rows.map wordColumns)) =
      .ok (5, [[1, 2, 3], [1, 3, 4], [0, 1, 2, 3]]) := by decide +kernel
  have h2' : collateTable exampleEnv widerWitnesses { segmentation := false } = .ok t := h2
  rw [h1] at e1
  rw [h2'] at e2
  have e1 := Prod.mk.inj (Except.ok.inj e1)
  have e2 := Prod.mk.inj (Except.ok.inj e2)
  exact ⟨t0, t, h1, h2', e1.1, e2.1, e1.2, e2.2, h3⟩

/-- Four witnesses with repeated words, and one of a single other word. -/
def narrowerWitnesses : List Witness := [wordsWitness "A" ["z", "z", "a", "b", "c"], wordsWitness "B" ["d", "e", "f", "g", "z", "x"],
  wordsWitness "C" ["p", "q", "r", "z", "z", "a", "b", "c"], wordsWitness "D" ["r", "z", "p", "z", "z"], wordsWitness "E" ["~"]]

/-- C115 is false without the condition: with the witness `~`, two columns fewer are made of the others, and words move to the left. -/
theorem C115_narrower : Valid narrowerWitnesses ∧ ∃ t0 t, collateTable exampleEnv (narrowerWitnesses.take 4) { segmentation := false } = .ok t0 ∧
    collateTable exampleEnv narrowerWitnesses { segmentation := false } = .ok t ∧ t0.columns.length = 10 ∧ t.columns.length = 8 ∧
    (t0.rows.map wordColumns)[0]? = some [3, 6, 7, 8, 9] ∧ (t.rows.map wordColumns)[0]? = some [3, 4, 5, 6, 7] := by
  refine ⟨valid_of_check (by decide) (by decide) (by decide) (by decide), ?_⟩
  have e1 : (collateTable exampleEnv (narrowerWitnesses.take 4) { segmentation := false }).map
      (fun t => (t.columns.length, (t.rows.map wordColumns)[0]?)) = .ok (10, some [3, 6, 7, 8, 9]) := by decide +kernel
  have e2 : (collateTable exampleEnv narrowerWitnesses { segmentation := false }).map
      (fun t => (t.columns.length, (t.rows.map wordColumns)[0]?)) = .ok (8, some [3, 4, 5, 6, 7]) := by decide +kernel
  cases h1 : collateTable exampleEnv (narrowerWitnesses.take 4) { segmentation := false } with
  | error e => rw [h1] at e1; cases e1
  | ok t0 =>
    cases h2 : collateTable exampleEnv narrowerWitnesses { segmentation := false } with
    | error e => rw [h2] at e2; cases e2
    | ok t =>
      rw [h1] at e1
      rw [h2] at e2
      have e1 := Prod.mk.inj (Except.ok.inj e1)
      have e2 := Prod.mk.inj (Except.ok.inj e2)
      exact ⟨t0, t, rfl, rfl, e1.1, e2.1, e1.2, e2.2⟩

end CollateX
