import Verif.Proofs.Order
import Verif.Props.Table
import Verif.Props.Near
/-
Property C54: the result does not depend on which topological order networkx returns.
-/

namespace CollateX
open Spec

/-- C54. With exact matching, two topological sort functions (and any two similarity measures) lead to the same graph, the same
rank of every vertex, the same rows and the same variant columns. -/
theorem C54_order_irrelevant (env env' : Env) (hts : TopoSpec env.topo) (hts' : TopoSpec env'.topo) (hcc : env'.cc = env.cc)
    (ws : List Witness) (hv : Valid ws) (hs : ∀ w ∈ ws, w.sigil ≠ []) (o : Opts) (ho : ExactMatching o) :
    (∃ g rk rk', collateRanked env ws o = .ok (indexed 0 ws, g, rk) ∧ collateRanked env' ws o = .ok (indexed 0 ws, g, rk') ∧
      ∀ v, dget rk.byVertex v = dget rk'.byVertex v) ∧
    ∃ t t', collateTable env ws o = .ok t ∧ collateTable env' ws o = .ok t' ∧ t.rows = t'.rows ∧
      t.columns.map Column.variant = t'.columns.map Column.variant := by
  obtain ⟨g, ps, rk, rkf, ord, m, rk', rkf', ord', m', h1, h2, C, C'⟩ := collateRanked_same hts hts' hcc hv o ho
  have hs' := indexed_sigil_ne hs
  refine ⟨⟨g, rk, rk', h1, h2, ?_⟩, mkTable (indexed 0 ws) g rk, mkTable (indexed 0 ws) g rk', ?_, ?_, ?_, ?_⟩
  · intro v
    by_cases hv : v ∈ g.vertices
    · rw [C.rank.byVertex hv, C'.rank.byVertex hv, C.ranks_eq C' v hv]
    · rw [C.rank.st.bv, C'.rank.st.bv, dget_map_not_mem _ _ _ (fun h => hv (C.rank.topo.perm.mem_iff.mp h)),
        dget_map_not_mem _ _ _ (fun h => hv (C'.rank.topo.perm.mem_iff.mp h))]
  · unfold collateTable; rw [h1]; rfl
  · unfold collateTable; rw [h2]; rfl
  · rw [mkTable_rows, mkTable_rows]
    apply List.map_congr_left
    intro w hw
    rw [C.columns_same C' hs' (fun c c' _ h => h w hw)]
  · exact C.columns_same C' hs' (fun c c' h _ => h)

/-- Another topological sort: the nodes are considered in reverse order. -/
def kahnReversed : TopoFn := fun nodes es => kahn nodes.reverse es

theorem kahnReversed_spec : TopoSpec kahnReversed := by
  intro nodes es nd he lay
  obtain ⟨o, h1, h2⟩ := kahn_spec nodes.reverse es (List.nodup_reverse.mpr nd) (by simpa using he) lay
  exact ⟨o, h1, h2.perm.trans (List.reverse_perm nodes), h2.before⟩

/-- Two witnesses that differ in the middle. -/
def middleWitnesses : List Witness := [wordsWitness "A" ["a", "b", "c"], wordsWitness "B" ["a", "d", "c"]]

/-- The hypotheses are met by two functions that order the vertices of the collated graph differently. -/
example : TopoSpec exampleEnv.topo ∧ TopoSpec kahnReversed ∧ Valid middleWitnesses ∧ (∀ w ∈ middleWitnesses, w.sigil ≠ []) ∧
    ((collateRanked exampleEnv middleWitnesses { segmentation := false }).map (fun r => r.2.2.byVertex)).toOption =
      some [(0, 0), (2, 1), (3, 2), (5, 2), (4, 3), (1, 4)] ∧
    ((collateRanked { exampleEnv with topo := kahnReversed } middleWitnesses { segmentation := false }).map
        (fun r => r.2.2.byVertex)).toOption = some [(0, 0), (2, 1), (5, 2), (3, 2), (4, 3), (1, 4)] :=
  ⟨kahn_spec, kahnReversed_spec, valid_of_check (by decide) (by decide) (by decide) (by decide), by decide, by decide +kernel,
    by decide +kernel⟩

end CollateX
