import Verif.Proofs.NearOrder
import Verif.Props.NearCells
import Verif.Props.Order
/-
Property C106: near matching and the choice of the topological order.
-/

namespace CollateX
open Spec

/-- C106, two witnesses: near matching leads to the same rows and the same marks of the columns with any two topological sort functions.

Missing from the full claim: more than two witnesses, for which `C106_three_witnesses` disproves it. -/
theorem C106_two_witnesses_partial (env : Env) (hts : TopoSpec env.topo) (ts' : TopoFn) (hts' : TopoSpec ts') (ws : List Witness) (hv : Valid ws)
    (hs : ∀ w ∈ ws, w.sigil ≠ []) (h2 : ws.length = 2) (o : Opts) (ho : NearMatching o) :
    ∃ t t', collateTable env ws o = .ok t ∧ collateTable { env with topo := ts' } ws o = .ok t' ∧ t.rows = t'.rows ∧
      t.columns.map Column.variant = t'.columns.map Column.variant := by
  obtain ⟨g, ps, r, rk₀, ord₀, m₀, r', rk₀', ord₀', m₀', h0, h0', C₀, C₀'⟩ :=
    collateRanked_same (env := env) (env' := { env with topo := ts' }) hts hts' rfl hv { o with nearMatch := false } ⟨ho.astar, ho.detect, rfl⟩
  have hseg : ({ o with nearMatch := false } : Opts).segmentation = false := ho.seg
  rw [hseg] at C₀ C₀'
  obtain ⟨rk, ord, m, B, C, h1⟩ := near_base_of env hts hv ho h0 C₀
  obtain ⟨rk', ord', m', B', C', h1'⟩ := near_base_of { env with topo := ts' } hts' hv ho h0' C₀'
  have hne : indexed 0 ws ≠ [] := by
    intro h0
    have := congrArg List.length h0
    rw [indexed_length] at this
    exact hv.ne (List.length_eq_zero_iff.mp this)
  have hps := C.ne hne
  have hlen2 : ps.length = 2 := by rw [C.length, indexed_length, h2]
  have hA : AtMostTwo ps := atMostTwo_of_length (by omega)
  obtain ⟨n, q, f, a1, R, hinc, hcrit, _, hnear, hstay, hplaced⟩ := performNearMatch_two B C.ginv hps hA env.ratio
  obtain ⟨n', q', f', a1', R', hinc', hcrit', _, hnear', hstay', hplaced'⟩ := performNearMatch_two B' C'.ginv hps hA env.ratio
  have hff := near_two_unique B C B' C' hne hlen2 hinc hcrit hnear hstay hplaced hinc' hcrit' hnear' hstay' hplaced'
  rw [a1] at h1
  have h1'' : collateRanked { env with topo := ts' } ws o = .ok (indexed 0 ws, g.withNear n', q') := by rw [h1', a1']; rfl
  have hb : ∀ v ∈ ord, v ≠ startV → v ≠ endV → 0 < f v ∧ f v + 1 < m := by
    intro v hv h4 h5
    have hb := C.ginv.rank_bounds hps (h := f) hinc v (B.mem.mp hv)
    have hfend : f endV = rk endV := hcrit _ (B.mem.mpr B.endv) .last
    have := (C.end_rank hne).1
    have := hb.1 h4
    have := hb.2 h5
    omega
  have hb' : ∀ v ∈ ord', v ≠ startV → v ≠ endV → 0 < f' v ∧ f' v + 1 < m' := by
    intro v hv h4 h5
    have hb := C.ginv.rank_bounds hps (h := f') hinc' v (B'.mem.mp hv)
    have hfend : f' endV = rk' endV := hcrit' _ (B'.mem.mpr B'.endv) .last
    have := (C'.end_rank hne).1
    have := hb.1 h4
    have := hb.2 h5
    omega
  obtain ⟨L, hby, _⟩ := near_columns B C hne R hcrit hb
  obtain ⟨L', hby', _⟩ := near_columns B' C' hne R' hcrit' hb'
  obtain rfl : m = m' := C.m_eq C'
  have hat : ∀ w ∈ indexed 0 ws, ∃ p ∈ ps, p.sigil = w.sigil := by
    intro w hw
    obtain ⟨i, hw'⟩ := List.getElem?_of_mem hw
    obtain ⟨p, hp', hpw, _⟩ := C.at hw'
    exact ⟨p, List.mem_of_getElem? hp', hpw⟩
  have hinner : ∀ p ∈ ps, p.inner.Pairwise (fun a b => f a < f b) := by
    intro p hp
    have := C.ginv.path_increasing hinc hp
    unfold WPath.path at this
    exact (List.pairwise_append.mp (List.pairwise_cons.mp this).2).1
  have hsame : ∀ {γ : Type} {h : Column → γ}, (∀ c c' : Column, c.variant = c'.variant →
      (∀ w ∈ indexed 0 ws, dget c.tokens w.sigil = dget c'.tokens w.sigil) → h c = h c') →
      (mkTable (indexed 0 ws) g q).columns.map h = (mkTable (indexed 0 ws) g q').columns.map h :=
    fun hh => hby.columns_same hby' hff C.ginv hinner hat (indexed_sigil_ne hs) hh
  refine ⟨mkTable (indexed 0 ws) g q, mkTable (indexed 0 ws) g q', ?_, ?_, ?_, ?_⟩
  · unfold collateTable
    rw [h1]
    show Except.ok _ = _
    rw [mkTable_withNear]
  · unfold collateTable
    rw [h1'']
    show Except.ok _ = _
    rw [mkTable_withNear]
  · rw [mkTable_rows, mkTable_rows]
    apply List.map_congr_left
    intro w hw
    rw [hsame (fun c c' _ h => h w hw)]
  · exact hsame (fun c c' h _ => h)

/-- Three witnesses in which a word can be moved beside a word that is itself moved, or not, depending on which is looked at first. -/
def movingWitnesses : List Witness :=
  [wordsWitness "A" ["the", "the", "rat"], wordsWitness "B" ["then", "a"], wordsWitness "C" ["them", "cat"]]

/-- C106 is false for three witnesses: the table depends on which topological order is returned. -/
theorem C106_three_witnesses :
    Valid movingWitnesses ∧ (∀ w ∈ movingWitnesses, w.sigil ≠ []) ∧ NearMatching { segmentation := false, nearMatch := true } ∧
      TopoSpec nearEnv.topo ∧ TopoSpec kahnReversed ∧
      ((collateTable nearEnv movingWitnesses { segmentation := false, nearMatch := true }).map (fun t => t.rows.map (fun r => r.cells.map
          (Option.map (fun l => l.map Token.str))))).toOption =
        some [[some [S "the"], some [S "the"], some [S "rat"]], [some [S "then"], none, some [S "a"]], [some [S "them"], none, some [S "cat"]]] ∧
      ((collateTable { nearEnv with topo := kahnReversed } movingWitnesses { segmentation := false, nearMatch := true }).map (fun t => t.rows.map
          (fun r => r.cells.map (Option.map (fun l => l.map Token.str))))).toOption =
        some [[some [S "the"], some [S "the"], some [S "rat"]], [some [S "then"], some [S "a"], none], [some [S "them"], none, some [S "cat"]]] :=
  ⟨valid_of_check (by decide) (by decide) (by decide) (by decide), by decide, ⟨rfl, rfl, rfl, rfl⟩, kahn_spec, kahnReversed_spec,
    by decide +kernel, by decide +kernel⟩

/-- The hypotheses of the partial theorem are met by two functions that order the vertices differently, for texts in which a word is moved. -/
example : TopoSpec nearEnv.topo ∧ TopoSpec kahnReversed ∧ Valid (movingWitnesses.take 2) ∧ (movingWitnesses.take 2).length = 2 ∧
    ((collateRanked nearEnv (movingWitnesses.take 2) { segmentation := false, nearMatch := true }).map (fun r => r.2.2.byVertex)).toOption ≠
    ((collateRanked { nearEnv with topo := kahnReversed } (movingWitnesses.take 2) { segmentation := false, nearMatch := true }).map
      (fun r => r.2.2.byVertex)).toOption ∧
    ((collateTable nearEnv (movingWitnesses.take 2) { segmentation := false, nearMatch := true }).map (fun t => t.rows.map (fun r => r.cells.map
          (Option.map (fun l => l.map Token.str))))).toOption =
        some [[some [S "the"], some [S "the"], some [S "rat"]], [some [S "then"], none, some [S "a"]]] :=
  ⟨kahn_spec, kahnReversed_spec, valid_of_check (by decide) (by decide) (by decide) (by decide), rfl, by decide +kernel, by decide +kernel⟩

end CollateX
