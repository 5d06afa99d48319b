import Verif.Props.Copied
import Verif.Props.ThreeComputed
/-
C116 for a fourth witness.
-/

namespace CollateX
open Spec

/-- C116 for a fourth witness (or an earlier one) without repeated words, if the second witness has no equal neighbours (what is
missing: other witnesses). -/
theorem C116_fourth_partial (env : Env) (hts : TopoSpec env.topo) (us : List Witness) (w : Witness) (hv : Valid (us ++ [w]))
    (h3 : us.length ≤ 3) (hrep : ∀ w, us[1]? = some w → NoRepeats w) (hsg : ∀ u ∈ us ++ [w], u.sigil ≠ []) (o : Opts)
    (ho : ExactMatching o) (hf : o.pfilter = none) (hseg : o.segmentation = false) (hd : (strings w).Nodup) {i : Nat} {u : Witness}
    (hu : us[i]? = some u) {k r l a : Nat} (hc : Copied k r l a (strings u) (strings w)) :
    ∃ t0 t, collateTable env us o = .ok t0 ∧ collateTable env (us ++ [w]) o = .ok t ∧ 2 * k ≤ 2 * lastAgreed t + a ∧
      t.columns.length + 2 * k ≤ t0.columns.length + a + 2 * lastAgreed t := by
  have hne : us ≠ [] := by rintro rfl; cases hu
  obtain ⟨t0, t, h4, h5, h6⟩ := C116_copied_partial env hts us w hv hsg o ho hf hseg (by
    intro n h4 h5 us' g rk h
    have hvu : Valid us := by
      have := hv.take (n := us.length) (List.length_pos_iff.mpr hne)
      rwa [List.take_left] at this
    exact twinFree_three hts hvu (fun w hw => hsg w (List.mem_append_left _ hw)) hrep ho hf hseg (by omega) (by omega) h) hu hc
  exact ⟨t0, t, h4, h5, h6 (C101_distinct _ _ hd)⟩

/-- Three witnesses of a text. -/
def threeCopies : List Witness := [wordsWitness "A" ["the", "cat", "sat"], wordsWitness "B" ["the", "black", "cat", "sat"],
  wordsWitness "C" ["a", "black", "cat", "sat", "there"]]

/-- A case: the fourth witness is the third with a word replaced and a word left out; three words were kept and agree. -/
example : ∃ t0 t, collateTable exampleEnv threeCopies { segmentation := false } = .ok t0 ∧
    collateTable exampleEnv (threeCopies ++ [wordsWitness "D" ["a", "white", "cat", "there"]]) { segmentation := false } = .ok t ∧
    3 ≤ lastAgreed t ∧ t.columns.length + 6 ≤ t0.columns.length + 2 * lastAgreed t := by
  obtain ⟨t0, t, h1, h2, h3, h4⟩ := C116_fourth_partial exampleEnv kahn_spec threeCopies (wordsWitness "D" ["a", "white", "cat", "there"])
    (valid_of_check (by decide) (by decide) (by decide) (by decide)) (by decide) (by
      intro w hw i a e1 e2
      obtain rfl := Option.some.inj hw
      have hd : ∀ i < 4, (strings (wordsWitness "B" ["the", "black", "cat", "sat"]))[i]? ≠
          (strings (wordsWitness "B" ["the", "black", "cat", "sat"]))[i + 1]? := by decide
      exact hd i (List.getElem?_eq_some_iff.mp e1).1 (by rw [e1, e2])) (by decide)
    { segmentation := false } ⟨rfl, rfl, rfl⟩ rfl rfl (by decide) (i := 2) rfl (.keep _ (.replace _ _ (.keep _ (.leave _ (.keep _ .nil)))))
  exact ⟨t0, t, h1, h2, by omega, by omega⟩

end CollateX
