import Verif.Proofs.Beginning
import Verif.Props.Renaming
/-
Property C59: whether witnesses added at the end change how the earlier ones are aligned with each other.
-/

namespace CollateX
open Spec

/-- C59, as far as it holds: with exact matching and no filter, two tokens of the first `n` witnesses are on one vertex of the graph
of all witnesses exactly when they are on one vertex of the graph of the first `n` witnesses, provided that no collation of fewer
than `n` (and two or more) of the first witnesses has two vertices with the same reading on one rank.
What is missing: without this condition the statement is false (`C59_later_witness_can_matter`). -/
theorem C59_beginning_partial (env : Env) (hts : TopoSpec env.topo) (ws : List Witness) (hv : Valid ws) (hs : ∀ w ∈ ws, w.sigil ≠ [])
    (o : Opts) (ho : ExactMatching o) (hf : o.pfilter = none) (n : Nat) (hn0 : 0 < n) (hn : n ≤ ws.length)
    (htw : ∀ m, 2 ≤ m → m < n → ∀ us g rk,
      collateRanked env (ws.take m) { o with segmentation := false } = .ok (us, g, rk) → TwinFree g rk) :
    ∃ us g rk us' g' rk', collateRanked env ws { o with segmentation := false } = .ok (us, g, rk) ∧
      collateRanked env (ws.take n) { o with segmentation := false } = .ok (us', g', rk') ∧
      ∀ k i l j, k < n → l < n → (SharesVertex us g k i l j ↔ SharesVertex us' g' k i l j) :=
  collateRanked_prefix hts hv hs ho hf hn0 hn htw

/-- C59 for the first two witnesses, without further conditions: how they are aligned with each other does not depend on what
follows. -/
theorem C59_first_two (env : Env) (hts : TopoSpec env.topo) (ws : List Witness) (hv : Valid ws) (hs : ∀ w ∈ ws, w.sigil ≠ [])
    (o : Opts) (ho : ExactMatching o) (hf : o.pfilter = none) (hn : 2 ≤ ws.length) :
    ∃ us g rk us' g' rk', collateRanked env ws { o with segmentation := false } = .ok (us, g, rk) ∧
      collateRanked env (ws.take 2) { o with segmentation := false } = .ok (us', g', rk') ∧
      ∀ k i l j, k < 2 → l < 2 → (SharesVertex us g k i l j ↔ SharesVertex us' g' k i l j) :=
  C59_beginning_partial env hts ws hv hs o ho hf 2 (by omega) hn (by intro m h1 h2; omega)

/-! ### The counterexample -/

/-- A check for `Holds`. -/
def holdsCheck (us : List Witness) (x : Vertex) (k i : Nat) : Bool :=
  match us[k]? with
  | none => false
  | some w =>
    match w.tokens[i]?, dget x.tokens w.sigil with
    | some t, some ts => decide (t ∈ ts)
    | _, _ => false

theorem holdsCheck_iff {us : List Witness} {x : Vertex} {k i : Nat} : holdsCheck us x k i = true ↔ Holds us x k i := by
  unfold holdsCheck Holds
  cases h : us[k]? with
  | none => simp
  | some w =>
    cases h1 : w.tokens[i]? with
    | none => simp [h1]
    | some t =>
      cases h2 : dget x.tokens w.sigil with
      | none => simp [h1, h2]
      | some ts => simp [h1, h2]

/-- A check for `SharesVertex`. -/
def sharesCheck (us : List Witness) (g : VGraph) (k i l j : Nat) : Bool :=
  g.nodes.any fun p => match dget g.nodes p.1 with
    | some x => holdsCheck us x k i && holdsCheck us x l j
    | none => false

theorem sharesCheck_iff {us : List Witness} {g : VGraph} {k i l j : Nat} :
    sharesCheck us g k i l j = true ↔ SharesVertex us g k i l j := by
  unfold sharesCheck SharesVertex
  rw [List.any_eq_true]
  constructor
  · rintro ⟨p, _, h⟩
    cases hx : dget g.nodes p.1 with
    | none => rw [hx] at h; cases h
    | some x =>
      rw [hx] at h
      simp only [Bool.and_eq_true, holdsCheck_iff] at h
      exact ⟨p.1, x, hx, h⟩
  · rintro ⟨v, x, hx, h⟩
    refine ⟨(v, x), dget_mem hx, ?_⟩
    simp only [hx, Bool.and_eq_true, holdsCheck_iff]
    exact h

/-- Five witnesses; the last shares no word with the others. -/
def laterWitness : List Witness :=
  [wordsWitness "A" ["z", "z", "a", "b", "c"], wordsWitness "B" ["d", "e", "f", "g", "z", "x"],
   wordsWitness "C" ["p", "q", "r", "z", "z", "a", "b", "c"], wordsWitness "D" ["p", "q", "r", "z", "z"], wordsWitness "E" ["~"]]

/-- C59 is false without the condition on twins. The second `z` of the fourth witness is aligned with the second `z` of the third;
but if a fifth witness is added, with a single word that occurs nowhere else, it is not. (`split_lcp_array_into_intervals`, lines
68–98, reports nested intervals inner first when a smaller value closes them, but outer first when the array ends. The word of the
fifth witness is sorted behind all `z`, so their blocks come in another order, and another of the two twins is entered last.) -/
theorem C59_later_witness_can_matter : ∃ (env : Env) (ws : List Witness) (n : Nat) (o : Opts), TopoSpec env.topo ∧ Valid ws ∧
    (∀ w ∈ ws, w.sigil ≠ []) ∧ ExactMatching o ∧ o.pfilter = none ∧ 0 < n ∧ n ≤ ws.length ∧
    ∃ us g rk us' g' rk', collateRanked env ws { o with segmentation := false } = .ok (us, g, rk) ∧
      collateRanked env (ws.take n) { o with segmentation := false } = .ok (us', g', rk') ∧
      ∃ k i l j, k < n ∧ l < n ∧ ¬ SharesVertex us g k i l j ∧ SharesVertex us' g' k i l j := by
  have e1 : (collateRanked nearEnv laterWitness { segmentation := false }).map (fun r => sharesCheck r.1 r.2.1 3 4 2 4) = .ok false := by
    decide +kernel
  have e2 : (collateRanked nearEnv (laterWitness.take 4) { segmentation := false }).map (fun r => sharesCheck r.1 r.2.1 3 4 2 4) =
      .ok true := by decide +kernel
  cases h1 : collateRanked nearEnv laterWitness { segmentation := false } with
  | error e => rw [h1] at e1; cases e1
  | ok r =>
    cases h2 : collateRanked nearEnv (laterWitness.take 4) { segmentation := false } with
    | error e => rw [h2] at e2; cases e2
    | ok r' =>
      rw [h1] at e1
      rw [h2] at e2
      have e1 : sharesCheck r.1 r.2.1 3 4 2 4 = false := Except.ok.inj e1
      have e2 := Except.ok.inj e2
      refine ⟨nearEnv, laterWitness, 4, {}, kahn_spec, valid_of_check (by decide) (by decide) (by decide) (by decide), by decide,
        ⟨rfl, rfl, rfl⟩, rfl, by decide, by decide, r.1, r.2.1, r.2.2, r'.1, r'.2.1, r'.2.2, h1, h2, 3, 4, 2, 4, by decide, by decide, ?_,
        sharesCheck_iff.mp e2⟩
      rw [← sharesCheck_iff, e1]
      exact Bool.noConfusion

/-- The hypotheses of `C59_beginning_partial` are met with `n = 3` of four witnesses; `cat` of the third is with `cat` of the first
both times, `white` with `white` of the second, and not with `black` of the first. -/
example : TopoSpec exampleEnv.topo ∧ Valid (threeWitnesses ++ [wordsWitness "D" ["black", "cat", "the"]]) ∧
    (∀ w ∈ threeWitnesses ++ [wordsWitness "D" ["black", "cat", "the"]], w.sigil ≠ []) ∧ ExactMatching {} ∧
    (∀ m, 2 ≤ m → m < 3 → ∀ us g rk,
      collateRanked exampleEnv ((threeWitnesses ++ [wordsWitness "D" ["black", "cat", "the"]]).take m) { segmentation := false } =
        .ok (us, g, rk) → TwinFree g rk) ∧
    (collateRanked exampleEnv (threeWitnesses ++ [wordsWitness "D" ["black", "cat", "the"]]) { segmentation := false }).map
      (fun r => (sharesCheck r.1 r.2.1 2 2 0 2, sharesCheck r.1 r.2.1 2 1 1 1, sharesCheck r.1 r.2.1 2 1 0 1)) = .ok (true, true, false) ∧
    (collateRanked exampleEnv threeWitnesses { segmentation := false }).map
      (fun r => (sharesCheck r.1 r.2.1 2 2 0 2, sharesCheck r.1 r.2.1 2 1 1 1, sharesCheck r.1 r.2.1 2 1 0 1)) = .ok (true, true, false) := by
  refine ⟨kahn_spec, valid_of_check (by decide) (by decide) (by decide) (by decide), by decide, ⟨rfl, rfl, rfl⟩, ?_, by decide +kernel,
    by decide +kernel⟩
  intro n h2 h3 us g rk h
  obtain rfl : n = 2 := by omega
  apply twinFree_of_check
  have hc : (collateRanked exampleEnv ((threeWitnesses ++ [wordsWitness "D" ["black", "cat", "the"]]).take 2)
      { segmentation := false }).map (fun r => twinCheck r.2.1 r.2.2) = .ok true := by
    decide +kernel
  rw [h] at hc
  exact Except.ok.inj hc

end CollateX
