import Verif.Proofs.Nested
import Verif.Props.Identical
import Verif.Props.Near
/-
Properties C52 and C53: witnesses that only leave out tokens, witnesses that only add tokens.
-/

namespace CollateX
open Spec

/-- The strings of a witness. -/
def Spec.strings (w : Witness) : List Str := w.tokens.map Token.str

/-- Row `k` of the table has a cell in every column, each other row has the same strings wherever it has a cell, and the variant
columns are those where a row has none. -/
structure Spec.CoveredBy (t : Table) (k : Nat) : Prop where
  full : ∃ row, t.rows[k]? = some row ∧ (∀ c ∈ row.cells, c ≠ none) ∧
    ∀ row' ∈ t.rows, ∀ (j : Nat) (a : List Token), row'.cells[j]? = some (some a) → ∃ b, row.cells[j]? = some (some b) ∧
      a.map Token.str = b.map Token.str
  variant : ∀ (j : Nat) (c : Column), t.columns[j]? = some c → (c.variant = true ↔ ∃ row ∈ t.rows, row.cells[j]? = some none)

/-- From the path with all vertices to the table. -/
theorem coveredBy_of_base {cc : CharClass} {ws : List Witness} {seg : Bool} {g : VGraph} {ps : List WPath} {rk : Ranking}
    {rkf : VId → Nat} {ord : List VId} {m : Nat} {p : WPath} (hb : Base p ps) (C : Collated cc ws seg g ps rk rkf ord m)
    (hs : ∀ w ∈ ws, w.sigil ≠ []) {k : Nat} {w : Witness} (hw : ws[k]? = some w) (hp : ps[k]? = some p) :
    CoveredBy (mkTable ws g rk) k := by
  obtain ⟨p', hp', h1, h2⟩ := C.at hw
  rw [hp] at hp'
  obtain rfl := Option.some.inj hp'
  have hcell : ∀ (w' : Witness) (j : Nat) (a : Option (List Token)),
      ((mkTable ws g rk).columns.map (fun c => dget c.tokens w'.sigil))[j]? = some a →
      ∃ c, (mkTable ws g rk).columns[j]? = some c ∧ dget c.tokens w'.sigil = a := by
    intro w' j a h
    rw [List.getElem?_map] at h
    exact Option.map_eq_some_iff.mp h
  refine ⟨⟨_, by rw [mkTable_rows, List.getElem?_map, hw]; rfl, ?_, ?_⟩, ?_⟩
  · intro c hc hn
    obtain ⟨col, hcol, he⟩ := List.mem_map.mp hc
    obtain ⟨ts, ht⟩ := (hb.column C hs hcol).1
    rw [h1] at ht
    rw [ht, hn] at he
    cases he
  · intro row' hrow' j a ha
    rw [mkTable_rows] at hrow'
    obtain ⟨w', hw', rfl⟩ := List.mem_map.mp hrow'
    obtain ⟨c, hc, hd⟩ := hcell w' j _ ha
    obtain ⟨q1, q2, _⟩ := hb.column C hs (List.mem_of_getElem? hc)
    obtain ⟨b, hb'⟩ := q1
    refine ⟨b, ?_, q2 w' hw' a b hd hb'⟩
    simp only
    rw [List.getElem?_map, hc, Option.map_some, ← h1, hb']
  · intro j c hc
    rw [(hb.column C hs (List.mem_of_getElem? hc)).2.2]
    constructor
    · rintro ⟨w', hw', hd⟩
      refine ⟨_, by rw [mkTable_rows]; exact List.mem_map.mpr ⟨w', hw', rfl⟩, ?_⟩
      simp only
      rw [List.getElem?_map, hc, Option.map_some, hd]
    · rintro ⟨row, hrow, hn⟩
      rw [mkTable_rows] at hrow
      obtain ⟨w', hw', rfl⟩ := List.mem_map.mp hrow
      obtain ⟨c', hc', hd⟩ := hcell w' j _ hn
      rw [hc] at hc'
      obtain rfl := Option.some.inj hc'
      exact ⟨w', hw', hd⟩

/-- C52. If every witness only leaves out tokens of the first one, the first row of the table has a cell in every column, and
every other row has the same strings there or nothing; columns are variant exactly where something is left out. Without
segmentation there is one column per token of the first witness. -/
theorem C52_omissions (env : Env) (hts : TopoSpec env.topo) (w0 : Witness) (ws : List Witness) (hv : Valid (w0 :: ws))
    (hs : ∀ w ∈ w0 :: ws, w.sigil ≠ []) (hsub : ∀ w ∈ ws, (strings w).Sublist (strings w0)) (o : Opts) (ho : ExactMatching o)
    (hf : o.pfilter = none) :
    ∃ t, collateTable env (w0 :: ws) o = .ok t ∧ t.rows.map Row.header = (w0 :: ws).map Witness.sigil ∧ CoveredBy t 0 ∧
      (o.segmentation = false → t.columns.length = w0.tokens.length) := by
  obtain ⟨g, ps, rk, rkf, ord, m, h1, C, p, hp, hb⟩ := collateRanked_inv env hts hv o ho.astar ho.detect ho.near
    (Q := fun _ _ ps => ∃ p, ps[0]? = some p ∧ Base p ps) (R := fun _ ps => ∃ p, ps[0]? = some p ∧ Base p ps)
    (fun ti hti L B => by
      refine ⟨?_, ?_, fun _ _ _ _ h => h⟩
      · rw [hf]
        rintro s s' ps w P rkf o m r cube cells al hs hne hw hs' hst ⟨p, hp, hb⟩
        obtain ⟨x0, hx0⟩ : ∃ x0, ti.ws[0]? = some x0 := ⟨_, List.getElem?_eq_getElem (by rw [hti, indexed_length]; simp)⟩
        refine ⟨p, ?_, hb.append hs hst (hb.aligned L B hs hw hst hx0 hp ?_)⟩
        · rw [List.getElem?_append_left (List.getElem?_eq_some_iff.mp hp).1]; exact hp
        · rw [hti] at hw hx0
          obtain ⟨a, e1, _, e2⟩ := indexed_strs _ hw
          obtain ⟨b, e3, _, e4⟩ := indexed_strs _ hx0
          rw [e2, e4]
          obtain ⟨n, hn⟩ : ∃ n, ps.length = n + 1 := ⟨ps.length - 1, by have := List.length_pos_of_mem hb.mem; omega⟩
          rw [hn] at e1
          simp only [List.getElem?_cons_succ] at e1
          simp only [List.getElem?_cons_zero, Option.some.injEq] at e3
          subst e3
          exact hsub a (List.mem_of_getElem? e1)
      · intro w s _ _
        exact ⟨_, rfl, by simp, by simp⟩) (fun _ => base_join env.cc 0)
  obtain ⟨x0, hx0⟩ : ∃ x0, (indexed 0 (w0 :: ws))[0]? = some x0 := ⟨_, List.getElem?_eq_getElem (by rw [indexed_length]; simp)⟩
  refine ⟨mkTable (indexed 0 (w0 :: ws)) g rk, ?_, ?_, coveredBy_of_base hb C (indexed_sigil_ne hs) hx0 hp, ?_⟩
  · unfold collateTable; rw [h1]; rfl
  · rw [mkTable_rows, List.map_map]
    exact indexed_sigla 0 _
  · intro hseg
    rw [hb.columns C (indexed_sigil_ne hs) hx0 hp hseg]
    obtain ⟨b, e3, _, e4⟩ := indexed_strs _ hx0
    simp only [List.getElem?_cons_zero, Option.some.injEq] at e3
    subst e3
    simpa using congrArg List.length e4

/-- No two neighbouring strings are equal. -/
def Spec.NoRepeats (w : Witness) : Prop := ∀ (i : Nat) (a : Str), (strings w)[i]? = some a → (strings w)[i + 1]? ≠ some a

/-- C53 for witnesses without equal neighbouring tokens (what is missing: witnesses with equal neighbours, for which the claim
is false, see `C53_repeats`). If every witness only adds tokens to the one before it, the last row of the table has a cell in
every column, and every other row has the same strings there or nothing. -/
theorem C53_additions_partial (env : Env) (hts : TopoSpec env.topo) (ws : List Witness) (wl : Witness) (hv : Valid (ws ++ [wl]))
    (hs : ∀ w ∈ ws ++ [wl], w.sigil ≠ [])
    (hsub : ∀ (i : Nat) (w w' : Witness), (ws ++ [wl])[i]? = some w → (ws ++ [wl])[i + 1]? = some w' →
      (strings w).Sublist (strings w') ∧ NoRepeats w') (o : Opts) (ho : ExactMatching o) (hf : o.pfilter = none) :
    ∃ t, collateTable env (ws ++ [wl]) o = .ok t ∧ t.rows.map Row.header = (ws ++ [wl]).map Witness.sigil ∧
      CoveredBy t ws.length ∧ (o.segmentation = false → t.columns.length = wl.tokens.length) := by
  obtain ⟨g, ps, rk, rkf, ord, m, h1, C, p, hp, hb⟩ := collateRanked_inv env hts hv o ho.astar ho.detect ho.near
    (Q := fun _ _ ps => ∃ p, ps[ps.length - 1]? = some p ∧ Base p ps) (R := fun _ ps => ∃ p, ps[ws.length]? = some p ∧ Base p ps)
    (fun ti hti L B => by
      refine ⟨?_, ?_, ?_⟩
      · rw [hf]
        rintro s s' ps w P rkf o m r cube cells al hs hne hw hs' hst ⟨p, hp, hb⟩
        have hlen := (List.getElem?_eq_some_iff.mp hw).1
        have hpl : 0 < ps.length := List.length_pos_of_mem hb.mem
        obtain ⟨x0, hx0⟩ : ∃ x0, ti.ws[ps.length - 1]? = some x0 := ⟨_, List.getElem?_eq_getElem (by omega)⟩
        have key : (x0.tokens.map Token.str).Sublist (w.tokens.map Token.str) ∧
            ∀ (i : Nat) (a : Str), (w.tokens.map Token.str)[i]? = some a → (w.tokens.map Token.str)[i + 1]? ≠ some a := by
          have hw' := hw
          have hx0' := hx0
          rw [hti] at hw' hx0'
          obtain ⟨a, e1, _, e2⟩ := indexed_strs _ hw'
          obtain ⟨b, e3, _, e4⟩ := indexed_strs _ hx0'
          rw [e2, e4]
          exact hsub (ps.length - 1) b a e3 (by rw [show ps.length - 1 + 1 = ps.length by omega]; exact e1)
        refine ⟨P, by simp, hb.next hst (hb.covered L B hs hw hst hx0 hp key.1 key.2)⟩
      · intro w s _ _
        exact ⟨_, rfl, by simp, by simp⟩
      · rintro s ps _ hlen ⟨p, hp, hb⟩
        rw [hlen, hti, indexed_length] at hp
        exact ⟨p, by simpa using hp, hb⟩) (fun _ => base_join env.cc ws.length)
  obtain ⟨x0, hx0⟩ : ∃ x0, (indexed 0 (ws ++ [wl]))[ws.length]? = some x0 :=
    ⟨_, List.getElem?_eq_getElem (by rw [indexed_length]; simp)⟩
  refine ⟨mkTable (indexed 0 (ws ++ [wl])) g rk, ?_, ?_, coveredBy_of_base hb C (indexed_sigil_ne hs) hx0 hp, ?_⟩
  · unfold collateTable; rw [h1]; rfl
  · rw [mkTable_rows, List.map_map]
    exact indexed_sigla 0 _
  · intro hseg
    rw [hb.columns C (indexed_sigil_ne hs) hx0 hp hseg]
    obtain ⟨b, e3, _, e4⟩ := indexed_strs _ hx0
    simp only [List.getElem?_append_right (Nat.le_refl _), Nat.sub_self, List.getElem?_cons_zero, Option.some.injEq] at e3
    subst e3
    simpa using congrArg List.length e4

/-- Two witnesses, the second of which only adds tokens, the same one three times. -/
def repeatedWitnesses : List Witness := [wordsWitness "A" ["the", "cat"], wordsWitness "B" ["the", "cat", "the", "the", "the"]]

/-- C53 is false for witnesses with equal neighbours: three added tokens `the` are aligned, one below the other, with the
`the` of the first witness (a step down within a column of matches scores a point), and `cat` is not aligned with `cat`. -/
theorem C53_repeats : Valid repeatedWitnesses ∧ (strings (wordsWitness "A" ["the", "cat"])).Sublist
      (strings (wordsWitness "B" ["the", "cat", "the", "the", "the"])) ∧
    (collateTable exampleEnv repeatedWitnesses { segmentation := false }).map tableSummary =
      .ok ⟨[true, true, true, true, false, true], [S "A", S "B"], [[none, none, none, none, some [S "the"], some [S "cat"]],
        [some [S "the"], some [S "cat"], some [S "the"], some [S "the"], some [S "the"], none]]⟩ ∧
    ∀ t, collateTable exampleEnv repeatedWitnesses { segmentation := false } = .ok t → ¬ CoveredBy t 1 := by
  have hsum : (collateTable exampleEnv repeatedWitnesses { segmentation := false }).map tableSummary =
      .ok ⟨[true, true, true, true, false, true], [S "A", S "B"], [[none, none, none, none, some [S "the"], some [S "cat"]],
        [some [S "the"], some [S "cat"], some [S "the"], some [S "the"], some [S "the"], none]]⟩ := by decide +kernel
  refine ⟨valid_of_check (by decide) (by decide) (by decide) (by decide), by decide, hsum, ?_⟩
  intro t ht hc
  rw [ht] at hsum
  have h2 : (tableSummary t).cells = [[none, none, none, none, some [S "the"], some [S "cat"]],
        [some [S "the"], some [S "cat"], some [S "the"], some [S "the"], some [S "the"], none]] := by
    have := Except.ok.inj hsum
    rw [this]
  obtain ⟨row, h3, h4, _⟩ := hc.full
  have h5 := congrArg (fun l => l[1]?) h2
  simp only [tableSummary, List.getElem?_map, h3, Option.map_some, List.getElem?_cons_succ, List.getElem?_cons_zero,
    Option.some.injEq] at h5
  have h6 : (none : Option (List Str)) ∈ row.cells.map (Option.map (List.map Token.str)) := by rw [h5]; simp
  obtain ⟨c, h7, h8⟩ := List.mem_map.mp h6
  exact h4 c h7 (by simpa using h8)

/-! ### Examples -/

/-- The hypotheses of C52 are met; the omitted tokens are repeated ones. -/
example : TopoSpec exampleEnv.topo ∧ (∀ w ∈ [wordsWitness "B" ["a", "c", "b"], wordsWitness "C" ["b", "b"]],
      (strings w).Sublist (strings (wordsWitness "A" ["a", "b", "b", "c", "a", "b"]))) ∧
    Valid [wordsWitness "A" ["a", "b", "b", "c", "a", "b"], wordsWitness "B" ["a", "c", "b"], wordsWitness "C" ["b", "b"]] ∧
    (collateTable exampleEnv [wordsWitness "A" ["a", "b", "b", "c", "a", "b"], wordsWitness "B" ["a", "c", "b"],
      wordsWitness "C" ["b", "b"]] { segmentation := false }).map tableSummary =
    .ok ⟨[true, true, true, true, true, false], [S "A", S "B", S "C"],
      [[some [S "a"], some [S "b"], some [S "b"], some [S "c"], some [S "a"], some [S "b"]],
       [some [S "a"], none, none, some [S "c"], none, some [S "b"]],
       [none, none, some [S "b"], none, none, some [S "b"]]]⟩ :=
  ⟨kahn_spec, by decide, valid_of_check (by decide) (by decide) (by decide) (by decide), by decide +kernel⟩

/-- Witnesses that grow. -/
def growingWitnesses : List Witness :=
  [wordsWitness "A" ["b", "c"], wordsWitness "B" ["b", "a", "c"], wordsWitness "C" ["b", "c", "b", "a", "b", "c"]]

/-- The hypotheses of C53 are met; the added tokens are repeated ones, but not next to each other. -/
example : TopoSpec exampleEnv.topo ∧ Valid growingWitnesses ∧
    (∀ (i : Nat) (w w' : Witness), growingWitnesses[i]? = some w → growingWitnesses[i + 1]? = some w' →
      (strings w).Sublist (strings w') ∧ NoRepeats w') ∧
    (collateTable exampleEnv growingWitnesses { segmentation := false }).map tableSummary =
    .ok ⟨[true, true, false, true, true, false], [S "A", S "B", S "C"],
      [[none, none, some [S "b"], none, none, some [S "c"]],
       [none, none, some [S "b"], some [S "a"], none, some [S "c"]],
       [some [S "b"], some [S "c"], some [S "b"], some [S "a"], some [S "b"], some [S "c"]]]⟩ := by
  refine ⟨kahn_spec, valid_of_check (by decide) (by decide) (by decide) (by decide), ?_, by decide +kernel⟩
  have noRep : ∀ w : Witness, (∀ i ∈ List.range (strings w).length, (strings w)[i]? ≠ (strings w)[i + 1]?) → NoRepeats w := by
    intro w h i a h1 h2
    exact h i (List.mem_range.mpr (List.getElem?_eq_some_iff.mp h1).1) (by rw [h1, h2])
  intro i w w' h1 h2
  match i with
  | 0 =>
    obtain rfl := Option.some.inj h1
    obtain rfl := Option.some.inj h2
    exact ⟨by decide, noRep _ (by decide)⟩
  | 1 =>
    obtain rfl := Option.some.inj h1
    obtain rfl := Option.some.inj h2
    exact ⟨by decide, noRep _ (by decide)⟩
  | (n + 2) => simp [growingWitnesses] at h2

end CollateX
