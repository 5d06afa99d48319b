import Verif.Proofs.Untwinned
import Verif.Props.Segmented
/-
Properties C103 and C104 for two witnesses: nothing is left to choose.
-/

namespace CollateX
open Spec

/-- C103: for at most two witnesses, whatever their words, the table is a function of the words, and the short program computes it. -/
theorem C103_two (env : Env) (hts : TopoSpec env.topo) (ws : List Witness) (hv : Valid ws) (hs : ∀ w ∈ ws, w.sigil ≠ []) (h2 : ws.length ≤ 2)
    (o : Opts) (ho : ExactMatching o) (hf : o.pfilter = none) (hseg : o.segmentation = false) :
    ∃ t, collateTable env ws o = .ok t ∧ markedStrings t = (workOf (ws.map strings)).shown :=
  C103_computed env hts ws hv hs o ho hf hseg (by
    have := untwinned_two (ts := ws.map strings) (by rw [List.length_map]; exact h2)
    rwa [List.length_map] at this)

/-- C104: the same with segmentation. -/
theorem C104_two (env : Env) (hts : TopoSpec env.topo) (ws : List Witness) (hv : Valid ws) (hs : ∀ w ∈ ws, w.sigil ≠ []) (h2 : ws.length ≤ 2)
    (o : Opts) (ho : ExactMatching o) (hf : o.pfilter = none) (hseg : o.segmentation = true) :
    ∃ t, collateTable env ws o = .ok t ∧ markedStrings t = (workOf (ws.map strings)).shownSegmented :=
  C104_computed env hts ws hv hs o ho hf hseg (by
    have := untwinned_two (ts := ws.map strings) (by rw [List.length_map]; exact h2)
    rwa [List.length_map] at this)

/-- The hypotheses are met, with repeated words. -/
example : Valid [wordsWitness "A" ["a", "cat", "a", "dog", "ran"], wordsWitness "B" ["a", "dog", "a", "dog", "ran"]] ∧
    (workOf ([wordsWitness "A" ["a", "cat", "a", "dog", "ran"], wordsWitness "B" ["a", "dog", "a", "dog", "ran"]].map strings)).shownSegmented =
      [[(false, some [S "a"]), (true, some [S "cat"]), (false, some [S "a", S "dog", S "ran"])],
       [(false, some [S "a"]), (true, some [S "dog"]), (false, some [S "a", S "dog", S "ran"])]] :=
  ⟨valid_of_check (by decide) (by decide) (by decide) (by decide), by decide +kernel⟩

end CollateX
