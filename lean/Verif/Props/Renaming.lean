import Verif.Proofs.Sigla
import Verif.Proofs.Filter
import Verif.Props.Table
import Verif.Props.Near
/-
Properties C57 and C58: what the alignment depends on. Neither the names of the witnesses matter, nor (unless two vertices with the
same reading stand side by side) how the tokens are spelt, as long as the same tokens are equal.
-/

namespace CollateX
open Spec

namespace Spec

/-- The inputs have the same pattern: as many witnesses with as many tokens, and the same tokens are equal. -/
structure SamePattern (ws ws' : List Witness) : Prop where
  witnesses : ws.length = ws'.length
  tokens : ∀ (k : Nat) (w w' : Witness), ws[k]? = some w → ws'[k]? = some w' → w.tokens.length = w'.tokens.length
  equal : ∀ (k i l j : Nat) (t t' u u' : Token), tokenAt ws k i = some t → tokenAt ws' k i = some t' → tokenAt ws l j = some u →
    tokenAt ws' l j = some u' → (t.str = u.str ↔ t'.str = u'.str)

/-- A cell of the row of `w` is empty, or holds the tokens with these numbers. -/
def CellIs (w : Witness) : Option (List Token) → Option (List Nat) → Prop :=
  Option.Rel (List.Forall₂ (fun tok i => ∃ u, w.tokens[i]? = some u ∧ SameToken u tok))

/-- The table holds in each cell the tokens with the numbers in the grid; each row goes through all tokens in order. -/
structure GridOf (ws : List Witness) (t : Table) (grid : List (List (Option (List Nat)))) : Prop where
  rows : t.rows.length = ws.length
  lines : grid.length = ws.length
  cells : ∀ (k : Nat) (w : Witness) (row : Row) (ids : List (Option (List Nat))), ws[k]? = some w → t.rows[k]? = some row → grid[k]? = some ids →
    row.header = w.sigil ∧ List.Forall₂ (CellIs w) row.cells ids ∧ (ids.filterMap id).flatten = List.range w.tokens.length

/-- The tables have the same layout: the same columns are marked as variant, and in all cells stand the tokens with the same
numbers. -/
def SameLayout (ws ws' : List Witness) (t t' : Table) : Prop :=
  t.columns.map Column.variant = t'.columns.map Column.variant ∧ ∃ grid, GridOf ws t grid ∧ GridOf ws' t' grid

end Spec

/-! ### From corresponding graphs to tables with the same layout -/

theorem forall₂_middle {α β γ : Type} {P : α → γ → Prop} {Q : β → γ → Prop} {l : List α} {l' : List β}
    (h : List.Forall₂ (fun a b => ∃ c, P a c ∧ Q b c) l l') : ∃ cs, List.Forall₂ P l cs ∧ List.Forall₂ Q l' cs := by
  induction h with
  | nil => exact ⟨[], .nil, .nil⟩
  | cons hp _ ih =>
    obtain ⟨c, h1, h2⟩ := hp
    obtain ⟨cs, h3, h4⟩ := ih
    exact ⟨c :: cs, .cons h1 h3, .cons h2 h4⟩

theorem optionRel_middle {α β γ : Type} {P : α → γ → Prop} {Q : β → γ → Prop} {a : Option α} {b : Option β}
    (h : Option.Rel (fun a b => ∃ c, P a c ∧ Q b c) a b) : ∃ c, Option.Rel P a c ∧ Option.Rel Q b c := by
  cases h with
  | none => exact ⟨none, .none, .none⟩
  | some h =>
    obtain ⟨c, h1, h2⟩ := h
    exact ⟨some c, .some h1, .some h2⟩

theorem optionRel_imp {α β : Type} {P Q : α → β → Prop} {a : Option α} {b : Option β} (h : Option.Rel P a b)
    (hi : ∀ x y, a = some x → P x y → Q x y) : Option.Rel Q a b := by
  cases h with
  | none => exact .none
  | some h => exact .some (hi _ _ rfl h)

theorem forall₂_imp_mem {α β : Type} {P Q : α → β → Prop} {l : List α} {l' : List β} (h : List.Forall₂ P l l')
    (hi : ∀ x ∈ l, ∀ y, P x y → Q x y) : List.Forall₂ Q l l' := by
  induction h with
  | nil => exact .nil
  | cons hp _ ih =>
    exact .cons (hi _ (by simp) _ hp) (ih fun x hx => hi x (by simp [hx]))

theorem forall₂_flatten {α β : Type} {P : α → β → Prop} {l : List (Option (List α))} {l' : List (Option (List β))}
    (h : List.Forall₂ (Option.Rel (List.Forall₂ P)) l l') :
    List.Forall₂ P (l.filterMap id).flatten (l'.filterMap id).flatten := by
  induction h with
  | nil => exact .nil
  | cons hp _ ih =>
    cases hp with
    | none => exact ih
    | some hp => exact forall₂_append hp ih

/-- Numbers of the tokens of a list without repetitions. -/
theorem numbers_eq_range {ts : List Token} (nd : ts.Nodup) {ids : List Nat}
    (h : List.Forall₂ (fun tok i => ts[i]? = some tok) ts ids) : ids = List.range ts.length := by
  have hl := h.length_eq
  rw [List.forall₂_iff_get] at h
  apply List.ext_getElem
  · simpa using hl.symm
  · intro i h1 h2
    have hi : i < ts.length := by omega
    have := h.2 i hi h1
    simp only [List.get_eq_getElem] at this
    obtain ⟨h3, h4⟩ := List.getElem?_eq_some_iff.mp this
    rw [List.getElem_range]
    exact (nd.getElem_inj_iff).mp h4

theorem layout_of_indexed {ws : List Witness} (hv : Valid ws) : ∃ ti : TokenIndex, ti.ws = indexed 0 ws ∧ Layout ti := by
  obtain ⟨ti, _, h, L, _⟩ := hv.tokenIndex
  exact ⟨ti, h, L⟩

/-- One row. -/
theorem row_grid {ws ws' : List Witness} (hv : Valid ws) {k : Nat} {w w' wi wi' : Witness} (hw : (indexed 0 ws)[k]? = some w)
    (hw' : (indexed 0 ws')[k]? = some w') {row row' : Row} (hr : RowRel (TokRel (indexed 0 ws) (indexed 0 ws')) row row')
    (ht : (row.cells.filterMap id).flatten = w.tokens) (ht' : (row'.cells.filterMap id).flatten = w'.tokens)
    (hs : List.Forall₂ SameToken wi.tokens w.tokens) (hs' : List.Forall₂ SameToken wi'.tokens w'.tokens) :
    ∃ ids, List.Forall₂ (CellIs wi) row.cells ids ∧ List.Forall₂ (CellIs wi') row'.cells ids ∧
      (ids.filterMap id).flatten = List.range wi.tokens.length ∧ (ids.filterMap id).flatten = List.range wi'.tokens.length := by
  obtain ⟨ti, hti, L⟩ := layout_of_indexed hv
  rw [← hti] at hw
  have step : List.Forall₂ (Option.Rel (List.Forall₂ (fun t t' => ∃ i : Nat, w.tokens[i]? = some t ∧ w'.tokens[i]? = some t')))
      row.cells row'.cells := by
    refine forall₂_imp_mem hr fun c hc c' hcc => optionRel_imp hcc fun x x' hx hxx => forall₂_imp_mem hxx fun t htx t' htt => ?_
    have hmem : t ∈ w.tokens := by
      rw [← ht]
      subst hx
      exact List.mem_flatten.mpr ⟨x, List.mem_filterMap.mpr ⟨some x, hc, rfl⟩, htx⟩
    obtain ⟨j, hj⟩ := List.getElem?_of_mem hmem
    obtain ⟨k', i, u, u', g1, g2, g3, g4⟩ := htt
    rw [← hti] at g1
    obtain ⟨rfl, rfl⟩ := L.place hw g1 hj g3
    rw [hw'] at g2
    obtain rfl := Option.some.inj g2
    exact ⟨_, hj, g4⟩
  have step2 : List.Forall₂ (fun c c' => ∃ ids, Option.Rel (List.Forall₂ (fun t (i : Nat) => w.tokens[i]? = some t)) c ids ∧
      Option.Rel (List.Forall₂ (fun t (i : Nat) => w'.tokens[i]? = some t)) c' ids) row.cells row'.cells :=
    step.imp fun c c' h => optionRel_middle (optionRel_imp h fun _ _ _ h => forall₂_middle h)
  obtain ⟨ids, h1, h2⟩ := forall₂_middle step2
  have same : ∀ {a b : Witness} {cs : List (Option (List Token))}, List.Forall₂ SameToken a.tokens b.tokens →
      List.Forall₂ (Option.Rel (List.Forall₂ (fun t (i : Nat) => b.tokens[i]? = some t))) cs ids → List.Forall₂ (CellIs a) cs ids := by
    intro a b cs hab hcs
    refine hcs.imp fun c c' h => optionRel_imp h fun _ _ _ h => h.imp fun t i hi => ?_
    obtain ⟨g1, g2⟩ := List.getElem?_eq_some_iff.mp hi
    rw [List.forall₂_iff_get] at hab
    have hl : i < a.tokens.length := by omega
    have := hab.2 i hl g1
    simp only [List.get_eq_getElem, g2] at this
    exact ⟨_, List.getElem?_eq_getElem hl, this⟩
  have hn : (ids.filterMap id).flatten = List.range w.tokens.length := by
    have := forall₂_flatten h1
    rw [ht] at this
    exact numbers_eq_range (L.tokens_nodup hw) this
  have hn' : w'.tokens.length = w.tokens.length := by
    have e1 := (forall₂_flatten h1).length_eq
    have e2 := (forall₂_flatten h2).length_eq
    rw [ht] at e1
    rw [ht'] at e2
    omega
  refine ⟨ids, same hs h1, same hs' h2, ?_, ?_⟩
  · rw [hn, hs.length_eq]
  · rw [hn, hs'.length_eq, hn']

/-- Corresponding graphs give tables with the same layout. -/
theorem sameLayout_of {env : Env} (hts : TopoSpec env.topo) {ws ws' : List Witness} (hv : Valid ws) (hv' : Valid ws')
    (hs : ∀ w ∈ ws, w.sigil ≠ []) (hs' : ∀ w ∈ ws', w.sigil ≠ []) (hl : ws.length = ws'.length) {o : Opts} (ho : ExactMatching o)
    {g g' : VGraph} {rk : Ranking} (h : collateRanked env ws o = .ok (indexed 0 ws, g, rk))
    (h' : collateRanked env ws' o = .ok (indexed 0 ws', g', rk))
    (hg : GRel (SigRel (indexed 0 ws) (indexed 0 ws')) (TokRel (indexed 0 ws) (indexed 0 ws')) g g') :
    ∃ t t', collateTable env ws o = .ok t ∧ collateTable env ws' o = .ok t' ∧ SameLayout ws ws' t t' := by
  obtain ⟨g1, ps, rk1, rkf, ord, m, e1, C⟩ := collateRanked_ok env hts hv o ho.astar ho.detect ho.near
  obtain ⟨g1', ps', rk1', rkf', ord', m', e1', C'⟩ := collateRanked_ok env hts hv' o ho.astar ho.detect ho.near
  rw [h] at e1
  rw [h'] at e1'
  simp only [Except.ok.injEq, Prod.mk.injEq, true_and] at e1 e1'
  obtain ⟨rfl, rfl⟩ := e1
  obtain ⟨rfl, rfl⟩ := e1'
  have hR : OneOne (SigRel (indexed 0 ws) (indexed 0 ws')) :=
    sigRel_oneOne (by rw [indexed_sigla]; exact hv.sigla) (by rw [indexed_sigla]; exact hv'.sigla)
  have hw : List.Forall₂ (fun w w' : Witness => SigRel (indexed 0 ws) (indexed 0 ws') w.sigil w'.sigil) (indexed 0 ws) (indexed 0 ws') := by
    rw [List.forall₂_iff_get]
    refine ⟨by rw [indexed_length, indexed_length, hl], fun i h1 h2 => ⟨i, _, _, ?_, ?_, rfl, rfl⟩⟩ <;> simp [h1, h2]
  obtain ⟨hcol, hrow⟩ := hg.table hR hw rk
  have hr1 : (mkTable (indexed 0 ws) g rk).rows.length = ws.length := by rw [mkTable_rows, List.length_map, indexed_length]
  have hr2 : (mkTable (indexed 0 ws') g' rk).rows.length = ws'.length := by rw [mkTable_rows, List.length_map, indexed_length]
  have hex : ∀ k : Nat, ∃ ids, ∀ w w' row row', ws[k]? = some w → ws'[k]? = some w' → (mkTable (indexed 0 ws) g rk).rows[k]? = some row →
      (mkTable (indexed 0 ws') g' rk).rows[k]? = some row' →
      (row.header = w.sigil ∧ List.Forall₂ (CellIs w) row.cells ids ∧ (ids.filterMap id).flatten = List.range w.tokens.length) ∧
      (row'.header = w'.sigil ∧ List.Forall₂ (CellIs w') row'.cells ids ∧ (ids.filterMap id).flatten = List.range w'.tokens.length) := by
    intro k
    by_cases hk : k < ws.length
    · have hrk : (mkTable (indexed 0 ws) g rk).rows[k]? = some _ := List.getElem?_eq_getElem (by omega)
      have hrk' : (mkTable (indexed 0 ws') g' rk).rows[k]? = some _ := List.getElem?_eq_getElem (by omega)
      obtain ⟨w, hw1, hh, hc⟩ := row_at hrk
      obtain ⟨w', hw1', hh', hc'⟩ := row_at hrk'
      obtain ⟨w0, hw0, hsig, _⟩ := indexed_strs ws hw1
      obtain ⟨w0', hw0', hsig', _⟩ := indexed_strs ws' hw1'
      obtain ⟨p, _, _, htext, hp⟩ := C.row hw1 (by rw [hsig]; exact hs w0 (List.mem_of_getElem? hw0))
      obtain ⟨p', _, _, htext', hp'⟩ := C'.row hw1' (by rw [hsig']; exact hs' w0' (List.mem_of_getElem? hw0'))
      rw [List.forall₂_iff_get] at hrow
      have hrr := hrow.2 k (by omega) (by omega)
      simp only [List.get_eq_getElem] at hrr
      obtain ⟨ids, i1, i2, i3, i4⟩ := row_grid hv hw1 hw1' hrr
        (by rw [hc, hp, ← htext]; unfold WPath.text; rw [List.flatMap_def])
        (by rw [hc', hp', ← htext']; unfold WPath.text; rw [List.flatMap_def]) (sameTokens_at h hw0 hw1) (sameTokens_at h' hw0' hw1')
      refine ⟨ids, ?_⟩
      intro x x' row row' a1 a2 a3 a4
      rw [hw0] at a1
      obtain rfl := Option.some.inj a1
      rw [hw0'] at a2
      obtain rfl := Option.some.inj a2
      rw [hrk] at a3
      obtain rfl := Option.some.inj a3
      rw [hrk'] at a4
      obtain rfl := Option.some.inj a4
      exact ⟨⟨by rw [hh, hsig], i1, i3⟩, ⟨by rw [hh', hsig'], i2, i4⟩⟩
    · refine ⟨[], fun w w' row row' a1 => ?_⟩
      rw [List.getElem?_eq_none (by omega)] at a1
      cases a1
  obtain ⟨f, hf⟩ := Classical.axiomOfChoice hex
  refine ⟨mkTable (indexed 0 ws) g rk, mkTable (indexed 0 ws') g' rk, by unfold collateTable; rw [h]; rfl,
    by unfold collateTable; rw [h']; rfl, forall₂_map_eq hcol (fun _ _ h => h.1), (List.range ws.length).map f, ?_, ?_⟩
  · refine ⟨hr1, by simp, fun k w row ids a1 a2 a3 => ?_⟩
    have hk := (List.getElem?_eq_some_iff.mp a1).1
    rw [List.getElem?_map, List.getElem?_range hk] at a3
    obtain rfl := Option.some.inj a3
    exact (hf k w _ row _ a1 (List.getElem?_eq_getElem (by omega)) a2 (List.getElem?_eq_getElem (by omega))).1
  · refine ⟨hr2, by simp [hl], fun k w row ids a1 a2 a3 => ?_⟩
    have hk := (List.getElem?_eq_some_iff.mp a1).1
    rw [List.getElem?_map, List.getElem?_range (by omega)] at a3
    obtain rfl := Option.some.inj a3
    exact (hf k _ w _ row (List.getElem?_eq_getElem (by omega)) a1 (List.getElem?_eq_getElem (by omega)) a2).2

/-! ### C57 -/

theorem sameEqualities_of {ws ws' : List Witness} (h : SamePattern ws ws') : SameEqualities ws ws' := by
  rintro t t' u u' ⟨k, i, w, w', h1, h2, h3, h4⟩ ⟨l, j, x, x', g1, g2, g3, g4⟩
  exact h.equal k i l j t t' u u' (by unfold tokenAt; rw [h1]; exact h3) (by unfold tokenAt; rw [h2]; exact h4)
    (by unfold tokenAt; rw [g1]; exact g3) (by unfold tokenAt; rw [g2]; exact g4)

theorem shape_of {ws ws' : List Witness} (h : SamePattern ws ws') : Shape ws.length ws ws' := by
  intro k hk
  have h1 : ws[k]? = some ws[k] := List.getElem?_eq_getElem hk
  have h2 : ws'[k]? = some (ws'[k]'(by have := h.witnesses; omega)) := List.getElem?_eq_getElem _
  exact ⟨_, _, h1, h2, h.tokens k _ _ h1 h2⟩

/-- C57, as far as it holds: with exact matching the layout of the table depends only on which tokens are equal, provided that no
collation of a proper beginning of the list of witnesses (two or more of them) has two vertices with the same reading on one rank.
What is missing: without this condition the statement is false (`C57_spelling_can_matter`); and inputs with a `properties_filter`,
which compares more than the strings. -/
theorem C57_spelling_partial (env : Env) (hts : TopoSpec env.topo) (ws ws' : List Witness) (hv : Valid ws) (hv' : Valid ws')
    (hs : ∀ w ∈ ws, w.sigil ≠ []) (hs' : ∀ w ∈ ws', w.sigil ≠ []) (hp : SamePattern ws ws') (o : Opts) (ho : ExactMatching o)
    (hf : o.pfilter = none)
    (htw : ∀ n, 2 ≤ n → n < ws.length → ∀ us g rk,
      collateRanked env (ws.take n) { o with segmentation := false } = .ok (us, g, rk) → TwinFree g rk) :
    ∃ t t', collateTable env ws o = .ok t ∧ collateTable env ws' o = .ok t' ∧ SameLayout ws ws' t t' := by
  obtain ⟨g, g', rk, h1, h2, h3⟩ := collateRanked_same_equalities hts hv hv' hs hs' hp.witnesses (shape_of hp) (sameEqualities_of hp)
    ho hf htw
  exact sameLayout_of hts hv hv' hs hs' hp.witnesses ho h1 h2 h3

/-- C57 for two witnesses, without further conditions. -/
theorem C57_two_witnesses (env : Env) (hts : TopoSpec env.topo) (ws ws' : List Witness) (hv : Valid ws) (hv' : Valid ws')
    (hs : ∀ w ∈ ws, w.sigil ≠ []) (hs' : ∀ w ∈ ws', w.sigil ≠ []) (hp : SamePattern ws ws') (o : Opts) (ho : ExactMatching o)
    (hf : o.pfilter = none) (h2 : ws.length ≤ 2) :
    ∃ t t', collateTable env ws o = .ok t ∧ collateTable env ws' o = .ok t' ∧ SameLayout ws ws' t t' :=
  C57_spelling_partial env hts ws ws' hv hv' hs hs' hp o ho hf (by intro n h3 h4; omega)

/-! ### C58 -/

/-- C58. The names of the witnesses do not matter: with exact matching, with or without a filter, inputs with the same tokens
under different sigla have tables with the same layout. -/
theorem C58_sigla_are_labels (env : Env) (hts : TopoSpec env.topo) (ws ws' : List Witness) (hv : Valid ws) (hv' : Valid ws')
    (hs : ∀ w ∈ ws, w.sigil ≠ []) (hs' : ∀ w ∈ ws', w.sigil ≠ []) (hp : ws.map Witness.tokens = ws'.map Witness.tokens) (o : Opts)
    (ho : ExactMatching o) :
    ∃ t t', collateTable env ws o = .ok t ∧ collateTable env ws' o = .ok t' ∧ SameLayout ws ws' t t' := by
  have hf : List.Forall₂ (fun w w' : Witness => w.tokens = w'.tokens) ws ws' := by
    have hl : ws.length = ws'.length := by simpa using congrArg List.length hp
    rw [List.forall₂_iff_get]
    refine ⟨hl, fun i h1 h2 => ?_⟩
    have h3 : (ws.map Witness.tokens)[i]? = (ws'.map Witness.tokens)[i]? := by rw [hp]
    simpa [h1, h2] using h3
  obtain ⟨g, g', rk, h1, h2, h3⟩ := collateRanked_same_tokens hts hv hv' hs hs' hf ho
  exact sameLayout_of hts hv hv' hs hs' hf.length_eq ho h1 h2 h3

/-! ### Examples -/

/-- The pairs of strings at corresponding places. -/
def stringPairs (ws ws' : List Witness) : List (Str × Str) :=
  (ws.zip ws').flatMap (fun p => (p.1.tokens.map Token.str).zip (p.2.tokens.map Token.str))

theorem samePattern_of_check {ws ws' : List Witness} (h1 : ws.map (fun w => w.tokens.length) = ws'.map (fun w => w.tokens.length))
    (h2 : ∀ p ∈ stringPairs ws ws', ∀ q ∈ stringPairs ws ws', (p.1 = q.1 ↔ p.2 = q.2)) : SamePattern ws ws' := by
  have key : ∀ k i t t', tokenAt ws k i = some t → tokenAt ws' k i = some t' → (t.str, t'.str) ∈ stringPairs ws ws' := by
    intro k i t t' ht ht'
    unfold tokenAt at ht ht'
    obtain ⟨w, hw, ht⟩ := Option.bind_eq_some_iff.mp ht
    obtain ⟨w', hw', ht'⟩ := Option.bind_eq_some_iff.mp ht'
    refine List.mem_flatMap.mpr ⟨(w, w'), ?_, ?_⟩
    · exact List.mem_of_getElem? (List.getElem?_zip_eq_some.mpr ⟨hw, hw'⟩)
    · exact List.mem_of_getElem? (i := i) (List.getElem?_zip_eq_some.mpr
        ⟨by rw [List.getElem?_map, ht]; rfl, by rw [List.getElem?_map, ht']; rfl⟩)
  refine ⟨by simpa using congrArg List.length h1, ?_, ?_⟩
  · intro k w w' hw hw'
    have : (ws.map (fun w => w.tokens.length))[k]? = (ws'.map (fun w => w.tokens.length))[k]? := by rw [h1]
    rw [List.getElem?_map, List.getElem?_map, hw, hw'] at this
    exact Option.some.inj this
  · intro k i l j t t' u u' a1 a2 a3 a4
    exact h2 _ (key k i t t' a1 a2) _ (key l j u u' a3 a4)

/-- Five witnesses with the word `a` in four of them. -/
def twinWitnesses (a : String) : List Witness :=
  [wordsWitness "A" ["cat", a, "b", "c"], wordsWitness "B" ["d", "e", "f", "cat", "ran"],
   wordsWitness "C" ["p", "q", "r", "cat", a, "b", "c"], wordsWitness "D" ["cat"],
   wordsWitness "E" ["p", "q", "r", "s", "cat", a, "b", "c"]]

/-- Which cells of the table are filled. -/
def filledCells (t : Table) : List (List Bool) := t.rows.map (fun r => r.cells.map Option.isSome)

theorem filled_of_gridOf {ws : List Witness} {t : Table} {grid : List (List (Option (List Nat)))} (h : GridOf ws t grid) :
    filledCells t = grid.map (fun ids => ids.map Option.isSome) := by
  unfold filledCells
  apply List.ext_getElem?
  intro k
  rw [List.getElem?_map, List.getElem?_map]
  by_cases hk : k < ws.length
  · have h1 : t.rows[k]? = some (t.rows[k]'(by rw [h.rows]; exact hk)) := List.getElem?_eq_getElem _
    have h2 : grid[k]? = some (grid[k]'(by rw [h.lines]; exact hk)) := List.getElem?_eq_getElem _
    have h3 := (h.cells k _ _ _ (List.getElem?_eq_getElem hk) h1 h2).2.1
    rw [h1, h2]
    simp only [Option.map_some, Option.some.injEq]
    refine forall₂_map_eq h3 fun a b hab => ?_
    unfold CellIs at hab
    cases hab <;> rfl
  · rw [List.getElem?_eq_none (by rw [h.rows]; omega), List.getElem?_eq_none (by rw [h.lines]; omega)]
    rfl

/-- C57 is false without the condition on twins: after four witnesses two vertices `cat` share a rank, and which of the two the
fifth witness is aligned with depends on the alphabetical order of `lay` or `sat` and the other words. -/
theorem C57_spelling_can_matter : ∃ (env : Env) (ws ws' : List Witness) (o : Opts), TopoSpec env.topo ∧ Valid ws ∧ Valid ws' ∧
    (∀ w ∈ ws, w.sigil ≠ []) ∧ (∀ w ∈ ws', w.sigil ≠ []) ∧ SamePattern ws ws' ∧ ExactMatching o ∧ o.pfilter = none ∧
    ∃ t t', collateTable env ws o = .ok t ∧ collateTable env ws' o = .ok t' ∧ ¬ SameLayout ws ws' t t' := by
  have e1 : (collateTable nearEnv (twinWitnesses "lay") { segmentation := false }).map filledCells =
      .ok [[false, false, false, true, false, true, true, true], [true, true, true, false, true, true, false, false],
        [true, true, true, true, false, true, true, true], [false, false, false, false, true, false, false, false],
        [true, true, true, true, true, true, true, true]] := by decide +kernel
  have e2 : (collateTable nearEnv (twinWitnesses "sat") { segmentation := false }).map filledCells =
      .ok [[false, false, false, false, true, true, true, true], [true, true, true, true, true, false, false, false],
        [true, true, true, false, true, true, true, true], [false, false, false, false, true, false, false, false],
        [true, true, true, true, true, true, true, true]] := by decide +kernel
  cases h1 : collateTable nearEnv (twinWitnesses "lay") { segmentation := false } with
  | error e => rw [h1] at e1; cases e1
  | ok t =>
    cases h2 : collateTable nearEnv (twinWitnesses "sat") { segmentation := false } with
    | error e => rw [h2] at e2; cases e2
    | ok t' =>
      refine ⟨nearEnv, twinWitnesses "lay", twinWitnesses "sat", { segmentation := false }, kahn_spec,
        valid_of_check (by decide) (by decide) (by decide) (by decide), valid_of_check (by decide) (by decide) (by decide) (by decide),
        by decide, by decide, samePattern_of_check (by decide) (by decide +kernel), ⟨rfl, rfl, rfl⟩, rfl, t, t', h1, h2, ?_⟩
      rintro ⟨_, grid, g1, g2⟩
      have f1 := filled_of_gridOf g1
      have f2 := filled_of_gridOf g2
      rw [h1] at e1
      rw [h2] at e2
      have e1 := Except.ok.inj e1
      have e2 := Except.ok.inj e2
      rw [f1, ← f2, e2] at e1
      revert e1
      decide

/-- A check for twins. -/
def twinCheck (g : VGraph) (rk : Ranking) : Bool :=
  g.nodes.all fun p => g.nodes.all fun q =>
    decide (p.1 = q.1) || !decide (p.2.label = q.2.label) || !decide (dget rk.byVertex p.1 = dget rk.byVertex q.1)

theorem twinFree_of_check {g : VGraph} {rk : Ranking} (h : twinCheck g rk = true) : TwinFree g rk := by
  intro u v x y hu hv hl hr
  unfold twinCheck at h
  rw [List.all_eq_true] at h
  have h1 := h _ (dget_mem hu)
  rw [List.all_eq_true] at h1
  have h2 := h1 _ (dget_mem hv)
  simpa [hl, hr] using h2

/-- The words of `threeWitnesses`, translated. -/
def translated : List Witness :=
  [wordsWitness "A" ["die", "schwarze", "katze"], wordsWitness "B" ["die", "weiße", "und", "schwarze", "katze"],
   wordsWitness "C" ["die", "weiße", "katze"]]

/-- The hypotheses of `C57_spelling_partial` are met by three witnesses and their translation, and the layout is not trivial. -/
example : TopoSpec exampleEnv.topo ∧ Valid threeWitnesses ∧ Valid translated ∧ (∀ w ∈ threeWitnesses, w.sigil ≠ []) ∧
    (∀ w ∈ translated, w.sigil ≠ []) ∧ SamePattern threeWitnesses translated ∧ ExactMatching {} ∧
    (∀ n, 2 ≤ n → n < threeWitnesses.length → ∀ us g rk,
      collateRanked exampleEnv (threeWitnesses.take n) { segmentation := false } = .ok (us, g, rk) → TwinFree g rk) ∧
    (collateTable exampleEnv threeWitnesses {}).map filledCells =
      .ok [[true, false, false, true, true], [true, true, true, true, true], [true, true, false, false, true]] ∧
    (collateTable exampleEnv translated {}).map filledCells =
      .ok [[true, false, false, true, true], [true, true, true, true, true], [true, true, false, false, true]] := by
  refine ⟨kahn_spec, threeWitnesses_valid, valid_of_check (by decide) (by decide) (by decide) (by decide), by decide, by decide,
    samePattern_of_check (by decide) (by decide +kernel), ⟨rfl, rfl, rfl⟩, ?_, by decide +kernel, by decide +kernel⟩
  intro n h2 h3 us g rk h
  have h3 : n < 3 := h3
  obtain rfl : n = 2 := by omega
  apply twinFree_of_check
  have hc : (collateRanked exampleEnv (threeWitnesses.take 2) { segmentation := false }).map (fun r => twinCheck r.2.1 r.2.2) = .ok true := by
    decide +kernel
  rw [h] at hc
  exact Except.ok.inj hc

/-- The same witnesses under other names: names of witnesses that sort differently. -/
def renamed : List Witness :=
  [⟨S "Z", [⟨S "the", []⟩, ⟨S "black", []⟩, ⟨S "cat", []⟩]⟩,
   ⟨S "Y", [⟨S "the", []⟩, ⟨S "white", []⟩, ⟨S "and", []⟩, ⟨S "black", []⟩, ⟨S "cat", []⟩]⟩,
   ⟨S "A", [⟨S "the", []⟩, ⟨S "white", []⟩, ⟨S "cat", []⟩]⟩]

/-- The hypotheses of C58 are met. -/
example : TopoSpec exampleEnv.topo ∧ Valid threeWitnesses ∧ Valid renamed ∧ (∀ w ∈ threeWitnesses, w.sigil ≠ []) ∧
    (∀ w ∈ renamed, w.sigil ≠ []) ∧ threeWitnesses.map Witness.tokens = renamed.map Witness.tokens ∧ ExactMatching {} ∧
    (collateTable exampleEnv renamed {}).map tableSummary =
    .ok ⟨[false, true, true, true, false], [S "Z", S "Y", S "A"],
      [[some [S "the"], none, none, some [S "black"], some [S "cat"]],
       [some [S "the"], some [S "white"], some [S "and"], some [S "black"], some [S "cat"]],
       [some [S "the"], some [S "white"], none, none, some [S "cat"]]]⟩ :=
  ⟨kahn_spec, threeWitnesses_valid, valid_of_check (by decide) (by decide) (by decide) (by decide), by decide, by decide, by decide,
    ⟨rfl, rfl, rfl⟩, by decide +kernel⟩

end CollateX
