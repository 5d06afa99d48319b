import Verif.Proofs.Grouping
import Verif.Proofs.Best
import Verif.Props.Ranks
import Verif.Props.Nested
/-
Property C66: segmentation groups tokens, it does not align them otherwise.
-/

namespace CollateX
open Spec

/-- A vertex of the graph has `t` for the witness `σ` and `u` for the witness `τ` at the same place. -/
def Spec.Together (g : VGraph) (σ τ : Str) (t u : Token) : Prop :=
  ∃ (v : Nat) (ts us : List Token) (k : Nat), CarriesAt g v σ ts ∧ CarriesAt g v τ us ∧ ts[k]? = some t ∧ us[k]? = some u

/-- A vertex of a collated graph, seen from its paths. -/
theorem Collated.together {cc : CharClass} {ws : List Witness} {seg : Bool} {g : VGraph} {ps : List WPath} {rk : Ranking}
    {rkf : VId → Nat} {ord : List VId} {m : Nat} (C : Collated cc ws seg g ps rk rkf ord m) (hs : ∀ w ∈ ws, w.sigil ≠ [])
    (σ τ : Str) (t u : Token) :
    Together g σ τ t u ↔ ∃ p ∈ ps, ∃ q ∈ ps, p.sigil = σ ∧ q.sigil = τ ∧ SamePlace p q t u := by
  constructor
  · rintro ⟨v, ts, us, k, h1, h2, h3, h4⟩
    obtain ⟨p, hp, e1, m1⟩ := (C.carries hs).mp h1
    obtain ⟨q, hq, e2, m2⟩ := (C.carries hs).mp h2
    exact ⟨p, hp, q, hq, e1, e2, v, ts, us, k, m1, m2, h3, h4⟩
  · rintro ⟨p, hp, q, hq, e1, e2, v, ts, us, k, m1, m2, h3, h4⟩
    exact ⟨v, ts, us, k, (C.carries hs).mpr ⟨p, hp, e1, m1⟩, (C.carries hs).mpr ⟨q, hq, e2, m2⟩, h3, h4⟩

theorem mem_of_sigils {ps qs : List WPath} (h : ps.map WPath.sigil = qs.map WPath.sigil) {p : WPath} (hp : p ∈ ps) :
    ∃ q ∈ qs, p.sigil = q.sigil := by
  have : p.sigil ∈ qs.map WPath.sigil := h ▸ List.mem_map.mpr ⟨p, hp, rfl⟩
  obtain ⟨q, hq, he⟩ := List.mem_map.mp this
  exact ⟨q, hq, he.symm⟩

/-- C66. Collating the same witnesses with and without segmentation gives graphs in which exactly the same tokens stand at the same
place of a vertex, whether they are of the same witness or of different ones, and the table with segmentation has no more
columns. -/
theorem C66_grouping (env : Env) (hts : TopoSpec env.topo) (ws : List Witness) (hv : Valid ws) (hs : ∀ w ∈ ws, w.sigil ≠ [])
    (o : Opts) (ho : ExactMatching o) :
    ∃ ws' g rk g' rk', collateRanked env ws { o with segmentation := false } = .ok (ws', g, rk) ∧
      collateRanked env ws { o with segmentation := true } = .ok (ws', g', rk') ∧
      (∀ σ τ t u, Together g' σ τ t u ↔ Together g σ τ t u) ∧
      (mkTable ws' g' rk').columns.length ≤ (mkTable ws' g rk).columns.length := by
  obtain ⟨g, ps, rk, rkf, ord, m, g', ps', rk', rkf', ord', m', h1, C, h2, C', G⟩ :=
    collateRanked_both env hts hv o ho.astar ho.detect ho.near
  have hsi := indexed_sigil_ne hs
  have hne : indexed 0 ws ≠ [] := by
    intro h
    have := congrArg List.length h
    rw [indexed_length] at this
    exact hv.ne (List.eq_nil_of_length_eq_zero this)
  refine ⟨_, g, rk, g', rk', h1, h2, ?_, ?_⟩
  · intro σ τ t u
    rw [C.together hsi, C'.together hsi]
    constructor
    · rintro ⟨p, hp, q, hq, rfl, rfl, h⟩
      obtain ⟨p0, hp0, e1⟩ := mem_of_sigils G.sigils hp
      obtain ⟨q0, hq0, e2⟩ := mem_of_sigils G.sigils hq
      exact ⟨p0, hp0, q0, hq0, e1.symm, e2.symm, (G.places p hp q hq p0 hp0 q0 hq0 e1 e2 t u).mp h⟩
    · rintro ⟨p0, hp0, q0, hq0, rfl, rfl, h⟩
      obtain ⟨p, hp, e1⟩ := mem_of_sigils G.sigils.symm hp0
      obtain ⟨q, hq, e2⟩ := mem_of_sigils G.sigils.symm hq0
      exact ⟨p, hp, q, hq, e1.symm, e2.symm, (G.places p hp q hq p0 hp0 q0 hq0 e1.symm e2.symm t u).mpr h⟩
  · have c1 := (C.columns_at hne).1
    have c2 := (C'.columns_at hne).1
    have hle := C'.rank.isRank.le C'.ginv.wf (f := rkf)
      (G.order rkf (fun e he => C.rank.isRank.lt C.ginv.wf he)) _ endV C'.ginv.end_mem rfl
    omega

/-- Two witnesses that agree in the last token only. -/
def endingWitnesses : List Witness := [wordsWitness "A" ["a", "b", "c", "e"], wordsWitness "B" ["x", "y", "e"]]

/-- The columns are another matter: a column of the segmented table can hold tokens of different witnesses that stand in
different columns of the other table, here `c` and `y`. -/
theorem C66_columns_differ : Valid endingWitnesses ∧
    (collateTable exampleEnv endingWitnesses { segmentation := false }).map tableSummary =
      .ok ⟨[true, true, true, false], [S "A", S "B"], [[some [S "a"], some [S "b"], some [S "c"], some [S "e"]],
        [some [S "x"], some [S "y"], none, some [S "e"]]]⟩ ∧
    (collateTable exampleEnv endingWitnesses { segmentation := true }).map tableSummary =
      .ok ⟨[true, false], [S "A", S "B"], [[some [S "a", S "b", S "c"], some [S "e"]], [some [S "x", S "y"], some [S "e"]]]⟩ :=
  ⟨valid_of_check (by decide) (by decide) (by decide) (by decide), by decide +kernel, by decide +kernel⟩

/-! ### Examples -/

/-- Three witnesses, two of them with a run of common tokens. -/
def runWitnesses : List Witness :=
  [wordsWitness "A" ["a", "b", "c", "d"], wordsWitness "B" ["a", "b", "x", "d", "e"], wordsWitness "C" ["c", "d", "e"]]

/-- The hypotheses of C66 are met; the tables with and without segmentation are different. -/
example : TopoSpec exampleEnv.topo ∧ Valid runWitnesses ∧ (∀ w ∈ runWitnesses, w.sigil ≠ []) ∧ ExactMatching {} ∧
    (collateTable exampleEnv runWitnesses { segmentation := false }).map tableSummary =
      .ok ⟨[true, true, true, false, true], [S "A", S "B", S "C"],
        [[some [S "a"], some [S "b"], some [S "c"], some [S "d"], none],
         [some [S "a"], some [S "b"], some [S "x"], some [S "d"], some [S "e"]],
         [none, none, some [S "c"], some [S "d"], some [S "e"]]]⟩ ∧
    (collateTable exampleEnv runWitnesses { segmentation := true }).map tableSummary =
      .ok ⟨[true, true, false, true], [S "A", S "B", S "C"],
        [[some [S "a", S "b"], some [S "c"], some [S "d"], none],
         [some [S "a", S "b"], some [S "x"], some [S "d"], some [S "e"]],
         [none, some [S "c"], some [S "d"], some [S "e"]]]⟩ :=
  ⟨kahn_spec, valid_of_check (by decide) (by decide) (by decide) (by decide), by decide, ⟨rfl, rfl, rfl⟩, by decide +kernel, by decide +kernel⟩

end CollateX
