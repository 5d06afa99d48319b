import Verif.Proofs.Identical
import Verif.Props.Index
import Verif.Props.Graph
import Verif.Props.Table
/-
Properties C29 and C30: identical witnesses and single witnesses.
-/

namespace CollateX
open Spec

theorem rows_of_same {env : Env} {ws : List Witness} (hv : Valid ws) (hs : ∀ w ∈ ws, w.sigil ≠ []) {seg : Bool} {g : VGraph}
    {ps : List WPath} {rk : Ranking} {rkf : VId → Nat} {ord : List VId} {m : Nat} {l : List Str}
    (hl : ∀ w ∈ ws, w.tokens.map Token.str = l) (C : Collated env.cc (indexed 0 ws) seg g ps rk rkf ord m) (hsp : SamePath ps) :
    ∀ row ∈ (mkTable (indexed 0 ws) g rk).rows, row.cells.map (Option.map (List.map Token.str)) =
      if seg then [some l] else l.map (fun s => some [s]) := by
  intro row hrow
  obtain ⟨i, hi⟩ := List.getElem?_of_mem hrow
  obtain ⟨w, hw, _, hcells⟩ := row_at hi
  obtain ⟨w0, hw0, _, hstr⟩ := indexed_strs ws hw
  have hw0m := List.mem_of_getElem? hw0
  have hne : w.tokens ≠ [] := by
    intro h
    rw [h] at hstr
    have : w0.tokens = [] := by simpa using hstr.symm
    exact (hv.tokens w0 hw0m).1 this
  rw [hcells, hsp.cells C (indexed_sigil_ne hs) hw hne]
  have hwl : w.tokens.map Token.str = l := by rw [hstr]; exact hl w0 hw0m
  cases seg with
  | true => simp [hwl]
  | false => simp only [Bool.false_eq_true, if_false, ← hwl, List.map_map]; rfl

/-- C29. Witnesses that all have the strings `l` align completely: no column is variant; without segmentation every row has
one string of `l` per column, with segmentation there is one column, and every row has all of `l` in it. -/
theorem C29_identical_witnesses (env : Env) (hts : TopoSpec env.topo) (ws : List Witness) (hv : Valid ws)
    (hs : ∀ w ∈ ws, w.sigil ≠ []) (l : List Str) (hl : ∀ w ∈ ws, w.tokens.map Token.str = l) (o : Opts) (ho : ExactMatching o)
    (hf : o.pfilter = none) :
    ∃ t, collateTable env ws o = .ok t ∧ (∀ c ∈ t.columns, c.variant = false) ∧
      t.columns.length = (if o.segmentation then 1 else l.length) ∧ t.rows.map Row.header = ws.map Witness.sigil ∧
      ∀ row ∈ t.rows, row.cells.map (Option.map (List.map Token.str)) =
        if o.segmentation then [some l] else l.map (fun s => some [s]) := by
  obtain ⟨g, ps, rk, rkf, ord, m, h1, C, hsp⟩ := collateRanked_inv env hts hv o ho.astar ho.detect ho.near
    (Q := fun _ _ ps => SamePath ps) (R := fun _ ps => SamePath ps) (fun ti hti L B => by
      refine ⟨?_, ?_, fun _ _ _ _ h => h⟩
      · rw [hf]
        apply samePath_step L B
        intro w hw x hx
        rw [hti] at hw hx
        obtain ⟨i, hw⟩ := List.getElem?_of_mem hw
        obtain ⟨j, hx⟩ := List.getElem?_of_mem hx
        obtain ⟨w0, h1, _, h2⟩ := indexed_strs ws hw
        obtain ⟨x0, h3, _, h4⟩ := indexed_strs ws hx
        rw [h2, h4, hl _ (List.mem_of_getElem? h1), hl _ (List.mem_of_getElem? h3)]
      · intro w s _ _ p hp q hq
        simp only [List.mem_singleton] at hp hq
        rw [hp, hq]) (fun _ => samePath_join env.cc)
  have hrows := rows_of_same hv hs hl C hsp
  refine ⟨mkTable (indexed 0 ws) g rk, ?_, fun c hc => (hsp.column C (indexed_sigil_ne hs) hc).1, ?_, ?_, hrows⟩
  · unfold collateTable; rw [h1]; rfl
  · obtain ⟨w, ws', hws⟩ := List.exists_cons_of_ne_nil hv.ne
    obtain ⟨w1, hw1⟩ : ∃ w1, (indexed 0 ws)[0]? = some w1 :=
      ⟨_, List.getElem?_eq_getElem (by rw [indexed_length, hws]; simp)⟩
    have := hrows _ (by rw [mkTable_rows]; exact List.mem_map.mpr ⟨w1, List.mem_of_getElem? hw1, rfl⟩)
    have := congrArg List.length this
    simp only [List.length_map] at this
    rw [this]
    split <;> simp
  · rw [mkTable_rows, List.map_map]
    exact indexed_sigla 0 ws

/-- C30. A single witness gives one row: one column per token without segmentation, one column with all tokens with
segmentation, never variant; whatever the properties filter. -/
theorem C30_single_witness (env : Env) (hts : TopoSpec env.topo) (w : Witness) (hv : Valid [w]) (hs : w.sigil ≠ [])
    (o : Opts) (ho : ExactMatching o) :
    ∃ t, collateTable env [w] o = .ok t ∧ (∀ c ∈ t.columns, c.variant = false) ∧
      t.columns.length = (if o.segmentation then 1 else w.tokens.length) ∧
      ∃ row, t.rows = [row] ∧ row.header = w.sigil ∧ row.cells.map (Option.map (List.map Token.str)) =
        if o.segmentation then [some (w.tokens.map Token.str)] else w.tokens.map (fun t => some [t.str]) := by
  have hs' : ∀ x ∈ [w], x.sigil ≠ [] := by simpa using hs
  obtain ⟨g, ps, rk, rkf, ord, m, h1, C, hsp⟩ := collateRanked_inv env hts hv o ho.astar ho.detect ho.near
    (Q := fun _ _ _ => True) (R := fun _ ps => SamePath ps) (fun ti hti L B => by
      refine ⟨fun _ _ _ _ _ _ _ _ _ _ _ _ _ _ _ _ _ _ => trivial, fun _ _ _ _ => trivial, ?_⟩
      intro s ps _ hlen _ p hp q hq
      rw [hti, indexed_length] at hlen
      match ps, hlen with
      | [a], _ => simp only [List.mem_singleton] at hp hq; rw [hp, hq]) (fun _ => samePath_join env.cc)
  have hrows := rows_of_same hv hs' (l := w.tokens.map Token.str) (by simp) C hsp
  obtain ⟨w1, hw1⟩ : ∃ w1, indexed 0 [w] = [w1] := by
    match h : indexed 0 [w], indexed_length 0 [w] with
    | [w1], _ => exact ⟨w1, rfl⟩
  have hr1 : (mkTable (indexed 0 [w]) g rk).rows = [{ header := w1.sigil, cells := (mkTable (indexed 0 [w]) g rk).columns.map (fun c => dget c.tokens w1.sigil) }] := by
    rw [mkTable_rows]
    conv_lhs => arg 2; rw [hw1]
    rfl
  have hsig : w1.sigil = w.sigil := by
    have := indexed_sigla 0 [w]
    rw [hw1] at this
    simpa using this
  have h3 := hrows _ (by rw [hr1]; exact List.mem_singleton.mpr rfl)
  refine ⟨mkTable (indexed 0 [w]) g rk, ?_, fun c hc => (hsp.column C (indexed_sigil_ne hs') hc).1, ?_, _, hr1, hsig, ?_⟩
  · unfold collateTable; rw [h1]; rfl
  · have := congrArg List.length h3
    simp only [List.length_map] at this
    rw [this]
    split <;> simp
  · rw [h3, List.map_map]; rfl

/-- Three witnesses that read `the the cat`, the second with a property more. -/
def sameWitnesses : List Witness :=
  [⟨S "A", [⟨S "the", []⟩, ⟨S "the", []⟩, ⟨S "cat", []⟩]⟩,
   ⟨S "B", [⟨S "the", [(.other (S "x"), .str (S "y"))]⟩, ⟨S "the", []⟩, ⟨S "cat", []⟩]⟩,
   ⟨S "C", [⟨S "the", []⟩, ⟨S "the", []⟩, ⟨S "cat", []⟩]⟩]

/-- The hypotheses are met. -/
example : TopoSpec exampleEnv.topo ∧ Valid sameWitnesses ∧ (∀ w ∈ sameWitnesses, w.sigil ≠ []) ∧ ExactMatching {} ∧
    (∀ w ∈ sameWitnesses, w.tokens.map Token.str = [S "the", S "the", S "cat"]) ∧
    (collateTable exampleEnv sameWitnesses { segmentation := false }).map tableSummary =
    .ok ⟨[false, false, false], [S "A", S "B", S "C"], List.replicate 3 [some [S "the"], some [S "the"], some [S "cat"]]⟩ ∧
    (collateTable exampleEnv sameWitnesses {}).map tableSummary =
    .ok ⟨[false], [S "A", S "B", S "C"], List.replicate 3 [some [S "the", S "the", S "cat"]]⟩ := by
  refine ⟨kahn_spec, ⟨by decide, by decide, by decide, ?_⟩, by decide, ⟨rfl, rfl, rfl⟩, by decide, by decide +kernel, by decide +kernel⟩
  intro w hw t ht hsep
  obtain ⟨i, _, h⟩ := hsep
  have hd : ∀ w ∈ sameWitnesses, ∀ t ∈ w.tokens, t.str.head? ≠ some '$' := by decide
  exact hd w hw t ht (by rw [h]; rfl)

end CollateX
