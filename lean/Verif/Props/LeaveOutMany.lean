import Verif.Props.LeaveOut
/-
C110 for common words on both sides and any number of witnesses.
-/

namespace CollateX
open Spec

/-- C110 on both sides, any number of witnesses, without segmentation, if no two nodes of a column have the same word while the texts
are collated, neither with the common beginning nor without it (missing: as in `C110_opening_partial` and `C110_ending_partial`). -/
theorem C110_both_partial (env : Env) (hts : TopoSpec env.topo) (ws us : List Witness) (hv : Valid ws) (hs : ∀ w ∈ ws, w.sigil ≠ [])
    (hvu : Valid us) (hsu : ∀ w ∈ us, w.sigil ≠ []) (hrep : ∀ w ∈ ws.tail, NoRepeats w)
    (hu : ∀ n < ws.length, (workOf ((ws.map strings).take n)).Untwinned) (P Q : List Str)
    (hus : ws.map strings = us.map (fun u => P ++ strings u ++ Q)) (hop : ∀ w ∈ ws, ∀ a ∈ P, (strings w).count a = 1)
    (hu' : ∀ n < us.length, (workOf ((us.map (fun u => strings u ++ Q)).take n)).Untwinned)
    (o : Opts) (ho : ExactMatching o) (hf : o.pfilter = none) (hseg : o.segmentation = false) :
    ∃ t t', collateTable env ws o = .ok t ∧ collateTable env us o = .ok t' ∧
      markedStrings t = (markedStrings t').map (fun r => agreedCells P ++ r ++ agreedCells Q) := by
  obtain ⟨hvm, hsm, hrm, e1, e2⟩ := middle_ready hv hs hvu hrep hus
  have hum : ∀ n < (ws.map (withoutFirst P.length)).length,
      (workOf (((ws.map (withoutFirst P.length)).map strings).take n)).Untwinned := by
    intro n hn
    rw [e2]
    have hlen := congrArg List.length hus
    simp only [List.length_map] at hlen hn
    exact hu' n (by omega)
  obtain ⟨t, t1, k1, k2, k3⟩ := C110_opening_partial env hts ws _ hv hs hvm hsm hrep hu P e1 hop o ho hf hseg
  obtain ⟨t1', t', k4, k5, k6⟩ := C110_ending_partial env hts _ us hvm hsm hvu hsu hrm hum Q e2 o ho hf hseg
  obtain rfl := Except.ok.inj (k2.symm.trans k4)
  refine ⟨t, t', k1, k5, ?_⟩
  rw [k3, k6, List.map_map]
  apply List.map_congr_left
  intro r _
  simp [Function.comp]

/-- The same with segmentation, if the rests neither all begin nor all end with the same word. -/
theorem C110_both_segmented_partial (env : Env) (hts : TopoSpec env.topo) (ws us : List Witness) (hv : Valid ws) (hs : ∀ w ∈ ws, w.sigil ≠ [])
    (hvu : Valid us) (hsu : ∀ w ∈ us, w.sigil ≠ []) (hrep : ∀ w ∈ ws.tail, NoRepeats w)
    (hu : ∀ n < ws.length, (workOf ((ws.map strings).take n)).Untwinned) (P Q : List Str) (hP : P ≠ []) (hQ : Q ≠ [])
    (hus : ws.map strings = us.map (fun u => P ++ strings u ++ Q)) (hop : ∀ w ∈ ws, ∀ a ∈ P, (strings w).count a = 1)
    (hu' : ∀ n < us.length, (workOf ((us.map (fun u => strings u ++ Q)).take n)).Untwinned)
    (hfirst : ¬ ∃ a, ∀ u ∈ us, (strings u).head? = some a) (hlast : ¬ ∃ a, ∀ u ∈ us, (strings u).getLast? = some a)
    (o : Opts) (ho : ExactMatching o) (hf : o.pfilter = none) (hseg : o.segmentation = true) :
    ∃ t t', collateTable env ws o = .ok t ∧ collateTable env us o = .ok t' ∧
      markedStrings t = (markedStrings t').map (fun r => (false, some P) :: (r ++ [(false, some Q)])) := by
  obtain ⟨hvm, hsm, hrm, e1, e2⟩ := middle_ready hv hs hvu hrep hus
  have hum : ∀ n < (ws.map (withoutFirst P.length)).length,
      (workOf (((ws.map (withoutFirst P.length)).map strings).take n)).Untwinned := by
    intro n hn
    rw [e2]
    have hlen := congrArg List.length hus
    simp only [List.length_map] at hlen hn
    exact hu' n (by omega)
  obtain ⟨t, t1, k1, k2, k3⟩ := C110_opening_segmented_partial env hts ws _ hv hs hvm hsm hrep hu P hP e1 hop (by
    rintro ⟨a, ha⟩
    refine hfirst ⟨a, ?_⟩
    intro u hu
    have : strings u ++ Q ∈ (ws.map (withoutFirst P.length)).map strings := by rw [e2]; exact List.mem_map.mpr ⟨u, hu, rfl⟩
    obtain ⟨w, hw, he⟩ := List.mem_map.mp this
    have := ha w hw
    rw [he, List.head?_append] at this
    cases hh : strings u with
    | nil =>
      have h0 : u.tokens.map Token.str = [] := hh
      exact absurd (List.map_eq_nil_iff.mp h0) (hvu.tokens u hu).1
    | cons x l =>
      rw [hh] at this
      simpa using this) o ho hf hseg
  obtain ⟨t1', t', k4, k5, k6⟩ := C110_ending_segmented_partial env hts _ us hvm hsm hvu hsu hrm hum Q hQ e2
    hlast o ho hf hseg
  obtain rfl := Except.ok.inj (k2.symm.trans k4)
  refine ⟨t, t', k1, k5, ?_⟩
  rw [k3, k6, List.map_map]
  apply List.map_congr_left
  intro r _
  rfl

/-- Four witnesses with a common beginning and a common end, and what stands between. -/
def framedFour : List Witness := [wordsWitness "A" ["so", "the", "cat", "sat", "."], wordsWitness "B" ["so", "a", "cat", "ran", "."],
  wordsWitness "C" ["so", "the", "dog", "."], wordsWitness "D" ["so", "a", "dog", "ran", "."]]

def betweenFour : List Witness := [wordsWitness "A" ["the", "cat", "sat"], wordsWitness "B" ["a", "cat", "ran"],
  wordsWitness "C" ["the", "dog"], wordsWitness "D" ["a", "dog", "ran"]]

/-- The hypotheses of both are met by four witnesses. -/
example : Valid framedFour ∧ Valid betweenFour ∧ (∀ w ∈ framedFour.tail, NoRepeats w) ∧
    (∀ n < framedFour.length, (workOf ((framedFour.map strings).take n)).Untwinned) ∧
    (∀ n < betweenFour.length, (workOf ((betweenFour.map (fun u => strings u ++ [S "."])).take n)).Untwinned) ∧
    framedFour.map strings = betweenFour.map (fun u => [S "so"] ++ strings u ++ [S "."]) ∧
    (∀ w ∈ framedFour, ∀ a ∈ [S "so"], (strings w).count a = 1) ∧
    (¬ ∃ a, ∀ u ∈ betweenFour, (strings u).head? = some a) ∧ ¬ ∃ a, ∀ u ∈ betweenFour, (strings u).getLast? = some a := by
  have k1 : ∀ n : Fin 4, (workOf ((framedFour.map strings).take n)).Untwinned := by decide +kernel
  have k2 : ∀ n : Fin 4, (workOf ((betweenFour.map (fun u => strings u ++ [S "."])).take n)).Untwinned := by decide +kernel
  refine ⟨valid_of_check (by decide) (by decide) (by decide) (by decide), valid_of_check (by decide) (by decide) (by decide) (by decide),
    ?_, fun n hn => k1 ⟨n, hn⟩, fun n hn => k2 ⟨n, hn⟩, by decide, by decide, ?_, ?_⟩
  · intro w hw i a h1 h2
    have hd : ∀ w ∈ framedFour.tail, ∀ i < (strings w).length, (strings w)[i]? ≠ (strings w)[i + 1]? := by decide
    exact hd w hw i (List.getElem?_eq_some_iff.mp h1).1 (by rw [h1, h2])
  · rintro ⟨a, ha⟩
    have h1 := ha (wordsWitness "A" ["the", "cat", "sat"]) (by simp [betweenFour])
    have h2 := ha (wordsWitness "B" ["a", "cat", "ran"]) (by simp [betweenFour])
    exact absurd (h1.trans h2.symm) (by decide)
  · rintro ⟨a, ha⟩
    have h1 := ha (wordsWitness "A" ["the", "cat", "sat"]) (by simp [betweenFour])
    have h2 := ha (wordsWitness "B" ["a", "cat", "ran"]) (by simp [betweenFour])
    exact absurd (h1.trans h2.symm) (by decide)

end CollateX
