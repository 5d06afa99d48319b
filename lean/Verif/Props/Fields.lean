import Verif.Proofs.Fields
import Verif.Props.Renaming
import Verif.Props.NearCells
/-
Property C74: the alignment depends on the normalised strings alone; the other fields of the tokens, and the sigla, are carried along.
-/

namespace CollateX
open Spec

namespace Spec

/-- Witnesses with the same normalised strings; sigla and token records are arbitrary. -/
def SameStrings (w w' : Witness) : Prop := w.tokens.map Token.str = w'.tokens.map Token.str

instance (w w' : Witness) : Decidable (SameStrings w w') := inferInstanceAs (Decidable (_ = _))

/-- A token record as a filter is shown it: without the fields `_sigil` and `_token_array_position`. -/
def shownFields (d : TokenData) : TokenData := ddel (ddel d .sigil) .pos

/-- The `i`-th tokens of `w` and `w'` (for some `i`), with their bookkeeping fields; the positions agree. -/
def SamePlace (w w' : Witness) (a b : Token) : Prop :=
  ∃ (i : Nat) (u u' : Token), w.tokens[i]? = some u ∧ w'.tokens[i]? = some u' ∧ SameToken u a ∧ SameToken u' b ∧
    ∃ p, dget a.data .pos = some (.nat p) ∧ dget b.data .pos = some (.nat p)

/-- The tables have the same rows and columns, with corresponding tokens in all cells. -/
structure SameCells (ws ws' : List Witness) (t t' : Table) : Prop where
  variant : t.columns.map Column.variant = t'.columns.map Column.variant
  rows : t.rows.length = ws.length ∧ t'.rows.length = ws'.length ∧ ws.length = ws'.length
  cells : ∀ (k : Nat) (w w' : Witness) (row row' : Row), ws[k]? = some w → ws'[k]? = some w' → t.rows[k]? = some row →
    t'.rows[k]? = some row' → row.header = w.sigil ∧ row'.header = w'.sigil ∧
      List.Forall₂ (Option.Rel (List.Forall₂ (SamePlace w w'))) row.cells row'.cells

end Spec

theorem likeTokens_of_strings {w w' : Witness} (h : SameStrings w w') : LikeTokens (fun _ _ => True) w w' := by
  unfold LikeTokens
  unfold SameStrings at h
  have hl : w.tokens.length = w'.tokens.length := by simpa using congrArg List.length h
  rw [List.forall₂_iff_get]
  refine ⟨hl, fun i h1 h2 => ⟨?_, trivial⟩⟩
  have := congrArg (fun l : List Str => l[i]?) h
  simpa [h1, h2] using this

/-- C74. With exact matching and without a filter, inputs with the same normalised strings have tables with the same layout,
whatever the sigla and the other fields of the tokens. -/
theorem C74_only_strings_matter (env : Env) (hts : TopoSpec env.topo) (ws ws' : List Witness) (hv : Valid ws) (hv' : Valid ws')
    (hs : ∀ w ∈ ws, w.sigil ≠ []) (hs' : ∀ w ∈ ws', w.sigil ≠ []) (hp : List.Forall₂ SameStrings ws ws') (o : Opts)
    (ho : ExactMatching o) (hf : o.pfilter = none) :
    ∃ t t', collateTable env ws o = .ok t ∧ collateTable env ws' o = .ok t' ∧ SameLayout ws ws' t t' := by
  obtain ⟨g, g', rk, h1, h2, h3⟩ := collateRanked_like_tokens hts hv hv' hs hs' (hp.imp fun _ _ h => likeTokens_of_strings h)
    (o := o) (by intro f h; rw [hf] at h; cases h) ho
  exact sameLayout_of hts hv hv' hs hs' hp.length_eq ho h1 h2 h3

/-- C74 with a filter: the same holds if corresponding tokens have records that the filter treats alike. -/
theorem C74_filter_sees_what_matters (env : Env) (hts : TopoSpec env.topo) (ws ws' : List Witness) (hv : Valid ws) (hv' : Valid ws')
    (hs : ∀ w ∈ ws, w.sigil ≠ []) (hs' : ∀ w ∈ ws', w.sigil ≠ []) (alike : TokenData → TokenData → Prop)
    (hp : List.Forall₂ (fun w w' : Witness => List.Forall₂ (fun t t' : Token => t.str = t'.str ∧
      alike (shownFields t.data) (shownFields t'.data)) w.tokens w'.tokens) ws ws') (f : PFilter)
    (hf : ∀ d d' e e', alike d d' → alike e e' → f d e = f d' e') (o : Opts) (ho : ExactMatching o) (hof : o.pfilter = some f) :
    ∃ t t', collateTable env ws o = .ok t ∧ collateTable env ws' o = .ok t' ∧ SameLayout ws ws' t t' := by
  obtain ⟨g, g', rk, h1, h2, h3⟩ := collateRanked_like_tokens (Q := alike) hts hv hv' hs hs' hp
    (o := o) (by intro f' h; rw [hof] at h; obtain rfl := Option.some.inj h; exact hf) ho
  exact sameLayout_of hts hv hv' hs hs' hp.length_eq ho h1 h2 h3

/-- Corresponding tokens after indexing. -/
theorem samePlace_of {ws ws' : List Witness} (hsh : Shape ws.length ws ws') {k : Nat} {w w' x x' : Witness} (hw : ws[k]? = some w) (hw' : ws'[k]? = some w')
    (hx : (indexed 0 ws)[k]? = some x) (hx' : (indexed 0 ws')[k]? = some x') {i : Nat} {a b : Token} (ha : x.tokens[i]? = some a)
    (hb : x'.tokens[i]? = some b) : SamePlace w w' a b := by
  rw [indexed_getElem?, hw] at hx
  rw [indexed_getElem?, hw'] at hx'
  obtain rfl := Option.some.inj hx
  obtain rfl := Option.some.inj hx'
  have hk := (List.getElem?_eq_some_iff.mp hw).1
  simp only [indexTokens_getElem?] at ha hb
  obtain ⟨u, hu, rfl⟩ := Option.map_eq_some_iff.mp ha
  obtain ⟨u', hu', rfl⟩ := Option.map_eq_some_iff.mp hb
  refine ⟨i, u, u', hu, hu', sameToken_indexToken _ _ _, sameToken_indexToken _ _ _, 0 + off ws k + i, ?_, ?_⟩
  · unfold indexToken; simp only; rw [dget_dset_self]
  · unfold indexToken; simp only; rw [dget_dset_self, hsh.off k (by omega)]

/-- With near matching, the cells in the row of a witness hold tokens of that witness. -/
theorem near_row_mem (env : Env) (hts : TopoSpec env.topo) {ws : List Witness} (hv : Valid ws) (hs : ∀ w ∈ ws, w.sigil ≠ [])
    {o : Opts} (ho : NearMatching o) {t : Table} (ht : collateTable env ws o = .ok t) {k : Nat} {w : Witness} {row : Row}
    (hw : (indexed 0 ws)[k]? = some w) (hr : t.rows[k]? = some row) {ts : List Token} (hc : some ts ∈ row.cells) {x : Token}
    (hx : x ∈ ts) : x ∈ w.tokens := by
  obtain ⟨g, ps, r, rk, ord, m, f, r', L, C, h0, h1, R, hlen, hm, hcol⟩ := near_table env hts hv ho
  rw [ht] at h1
  obtain rfl := Except.ok.inj h1
  obtain ⟨w', hw', _, hcells⟩ := row_at hr
  rw [hw] at hw'
  obtain rfl := Option.some.inj hw'
  obtain ⟨p, hp, hpw, htext⟩ := C.at hw
  have hpm := List.mem_of_getElem? hp
  obtain ⟨j, h⟩ := List.getElem?_of_mem hc
  rw [hcells, List.getElem?_map] at h
  obtain ⟨c, hc, hd⟩ := Option.map_eq_some_iff.mp h
  have hj := (List.getElem?_eq_some_iff.mp hc).1
  rw [hcol j hj] at hc
  rw [← hpw] at hd
  obtain ⟨v, hvL, hq⟩ := R.col_entry C.ginv (C.sigil_ne (indexed_sigil_ne hs)) (by omega) hc hpm hd
  rw [← htext]
  unfold WPath.text
  exact List.mem_flatMap.mpr ⟨_, hq, hx⟩

/-- C74 with near matching: inputs with the same normalised strings have tables with corresponding tokens in all cells. (As in C34
near matching may lose tokens from the table; then it loses the same ones.) -/
theorem C74_near (env : Env) (hts : TopoSpec env.topo) (ws ws' : List Witness) (hv : Valid ws) (hv' : Valid ws')
    (hs : ∀ w ∈ ws, w.sigil ≠ []) (hs' : ∀ w ∈ ws', w.sigil ≠ []) (hp : List.Forall₂ SameStrings ws ws') (o : Opts)
    (ho : NearMatching o) (hf : o.pfilter = none) :
    ∃ t t', collateTable env ws o = .ok t ∧ collateTable env ws' o = .ok t' ∧ SameCells ws ws' t t' := by
  obtain ⟨t0, ht0⟩ := C33_table env hts ws hv o ho
  obtain ⟨g, ps, r, rk, ord, m, NB, C, e1, e2⟩ := near_base env hts hv ho
  obtain ⟨g', ps', r', rk', ord', m', NB', C', e1', e2'⟩ := near_base env hts hv' ho
  have hlike := hp.imp fun _ _ h => likeTokens_of_strings h
  obtain ⟨g1, g1', rk1, h1, h2, hg⟩ := collateRanked_like_tokens hts hv hv' hs hs' hlike
    (o := { o with nearMatch := false }) (by intro f h; simp only [hf] at h; cases h) ⟨ho.astar, ho.detect, rfl⟩
  rw [e1] at h1
  rw [e1'] at h2
  simp only [Except.ok.injEq, Prod.mk.injEq, true_and] at h1 h2
  obtain ⟨rfl, rfl⟩ := h1
  obtain ⟨rfl, h2⟩ := h2
  rw [h2] at e1' e2' C' NB'
  clear h2
  have ends : ∀ {us : List Witness} {gr : VGraph} {rr : Ranking},
      collateRanked env us { o with nearMatch := false } = .ok (indexed 0 us, gr, rr) →
      HasLabel gr startV (S "start") ∧ HasLabel gr endV (S "end") := by
    intro us gr rr h
    unfold collateRanked at h
    rw [if_neg (by simp [ho.astar])] at h
    simp only [ho.detect] at h
    obtain ⟨q, hq, h⟩ := bind_eq_ok.mp h
    obtain ⟨r0, _, h⟩ := bind_eq_ok.mp h
    simp [ho.seg, bind_ok] at h
    rw [← h.2.1]
    exact collateGraph_ends hq
  have hsi := indexed_sigil_ne hs
  have hsh : Shape ws.length ws ws' := by
    intro k hk
    have hk' : k < ws'.length := by rw [← hp.length_eq]; exact hk
    refine ⟨_, _, List.getElem?_eq_getElem hk, List.getElem?_eq_getElem hk', ?_⟩
    rw [List.forall₂_iff_get] at hp
    have := hp.2 k hk hk'
    simpa using congrArg List.length this
  have hne : ∀ a b, SigRel (indexed 0 ws) (indexed 0 ws') a b → a ≠ [] ∧ b ≠ [] := by
    intro a b hab
    exact sigRel_ne hs hs' hab
  have hT : ∀ t t', TokRel (indexed 0 ws) (indexed 0 ws') t t' → t.str = t'.str := by
    rintro t t' ⟨k, i, w, w', k1, k2, k3, k4⟩
    obtain ⟨x, x1, _, x2⟩ := indexed_strs ws k1
    obtain ⟨x', x1', _, x2'⟩ := indexed_strs ws' k2
    have hxx : SameStrings x x' := by
      rw [List.forall₂_iff_get] at hp
      obtain ⟨b1, b2⟩ := List.getElem?_eq_some_iff.mp x1
      obtain ⟨c1, c2⟩ := List.getElem?_eq_some_iff.mp x1'
      have := hp.2 k b1 c1
      simp only [List.get_eq_getElem, b2, c2] at this
      exact this
    have : (w.tokens.map Token.str)[i]? = (w'.tokens.map Token.str)[i]? := by rw [x2, x2', hxx]
    rw [List.getElem?_map, List.getElem?_map, k3, k4] at this
    exact Option.some.inj this
  have hshown := vertexStr_rel C C' hsi hne hg hT (ends e1).1 (ends e1').1 (ends e1).2 (ends e1').2
  have hnm := performNearMatch_rel env.topo env.ratio (g := g) (g' := g') (r := r) ⟨hg, hshown, rfl⟩
  cases hq : performNearMatch env.topo env.ratio g r with
  | error x =>
    rw [hq] at e2
    unfold collateTable at ht0
    rw [e2] at ht0
    simp [Except.bind, bind] at ht0
  | ok s =>
    rw [hq] at hnm e2
    cases hq' : performNearMatch env.topo env.ratio g' r with
    | error x => rw [hq'] at hnm; cases hnm
    | ok s' =>
      rw [hq'] at hnm e2'
      cases hnm with
      | ok hn =>
        obtain ⟨gn, rn⟩ := s
        obtain ⟨gn', rn'⟩ := s'
        obtain rfl : rn = rn' := hn.ranks
        have hR : OneOne (SigRel (indexed 0 ws) (indexed 0 ws')) :=
          sigRel_oneOne (by rw [indexed_sigla]; exact hv.sigla) (by rw [indexed_sigla]; exact hv'.sigla)
        have hlen := hp.length_eq
        have hw : List.Forall₂ (fun w w' : Witness => SigRel (indexed 0 ws) (indexed 0 ws') w.sigil w'.sigil) (indexed 0 ws) (indexed 0 ws') := by
          rw [List.forall₂_iff_get]
          refine ⟨by rw [indexed_length, indexed_length, hlen], fun i h1 h2 => ⟨i, _, _, ?_, ?_, rfl, rfl⟩⟩ <;> simp [h1, h2]
        obtain ⟨hcol, hrow⟩ := hn.graph.table hR hw rn
        have ht : collateTable env ws o = .ok (mkTable (indexed 0 ws) gn rn) := by unfold collateTable; rw [e2]; rfl
        have ht' : collateTable env ws' o = .ok (mkTable (indexed 0 ws') gn' rn) := by unfold collateTable; rw [e2']; rfl
        refine ⟨mkTable (indexed 0 ws) gn rn, mkTable (indexed 0 ws') gn' rn, ht, ht',
          forall₂_map_eq hcol (fun _ _ h => h.1), ⟨?_, ?_, hlen⟩, ?_⟩
        · rw [mkTable_rows, List.length_map, indexed_length]
        · rw [mkTable_rows, List.length_map, indexed_length]
        · intro k w w' row row' a1 a2 a3 a4
          obtain ⟨x, x1, x2, _⟩ := row_at a3
          obtain ⟨x', x1', x2', _⟩ := row_at a4
          obtain ⟨y, y1, y2, _⟩ := indexed_strs ws x1
          obtain ⟨y', y1', y2', _⟩ := indexed_strs ws' x1'
          rw [a1] at y1
          obtain rfl := Option.some.inj y1
          rw [a2] at y1'
          obtain rfl := Option.some.inj y1'
          refine ⟨by rw [x2, y2], by rw [x2', y2'], ?_⟩
          have hrr : RowRel (TokRel (indexed 0 ws) (indexed 0 ws')) row row' := by
            rw [List.forall₂_iff_get] at hrow
            obtain ⟨b1, b2⟩ := List.getElem?_eq_some_iff.mp a3
            obtain ⟨c1, c2⟩ := List.getElem?_eq_some_iff.mp a4
            have := hrow.2 k b1 c1
            simp only [List.get_eq_getElem, b2, c2] at this
            exact this
          obtain ⟨ti, hti, L⟩ := layout_of_indexed hv
          refine forall₂_imp_mem hrr fun c hc c' hcc => optionRel_imp hcc fun z z' hz hzz => forall₂_imp_mem hzz fun a hta b hab => ?_
          subst hz
          obtain ⟨j, hj⟩ := List.getElem?_of_mem (near_row_mem env hts hv hs ho ht x1 a3 hc hta)
          obtain ⟨k', i, u, u', g1, g2, g3, g4⟩ := hab
          have x1'' := x1
          rw [← hti] at g1 x1''
          obtain ⟨rfl, rfl⟩ := L.place x1'' g1 hj g3
          rw [x1'] at g2
          obtain rfl := Option.some.inj g2
          exact samePlace_of hsh a1 a2 x1 x1' hj g4

/-! ### Concrete cases -/

/-- A token with a written form besides the normalised one. -/
def written (n t : String) : Token := ⟨S n, [(.t, .str (S t)), (.n, .str (S n))]⟩

/-- The witnesses of `threeWitnesses` with other sigla and with written forms. -/
def writtenWitnesses : List Witness :=
  [⟨S "Z", [written "the" "The ", written "black" "blacke ", written "cat" "catte."]⟩,
   ⟨S "Y", [written "the" "Þe ", written "white" "whyte, ", written "and" "& ", written "black" "black ", written "cat" "cat"]⟩,
   ⟨S "A", [⟨S "the", []⟩, written "white" "white ", written "cat" "Cat"]⟩]

/-- The hypotheses of `C74_only_strings_matter` are met. -/
example : TopoSpec exampleEnv.topo ∧ Valid threeWitnesses ∧ Valid writtenWitnesses ∧ (∀ w ∈ threeWitnesses, w.sigil ≠ []) ∧
    (∀ w ∈ writtenWitnesses, w.sigil ≠ []) ∧ List.Forall₂ SameStrings threeWitnesses writtenWitnesses ∧ ExactMatching {} ∧
    ({} : Opts).pfilter = none ∧
    (collateTable exampleEnv writtenWitnesses {}).map tableSummary =
    .ok ⟨[false, true, true, true, false], [S "Z", S "Y", S "A"],
      [[some [S "the"], none, none, some [S "black"], some [S "cat"]],
       [some [S "the"], some [S "white"], some [S "and"], some [S "black"], some [S "cat"]],
       [some [S "the"], some [S "white"], none, none, some [S "cat"]]]⟩ :=
  ⟨kahn_spec, threeWitnesses_valid, valid_of_check (by decide) (by decide) (by decide) (by decide), by decide, by decide,
    .cons (by decide) (.cons (by decide) (.cons (by decide) .nil)), ⟨rfl, rfl, rfl⟩, rfl, by decide +kernel⟩

/-- A token with a part of speech and a line number. -/
def tagged (n pos line : String) : Token := ⟨S n, [(.other (S "pos"), .str (S pos)), (.other (S "line"), .str (S line))]⟩

/-- A filter that admits a match only if the parts of speech agree. -/
def samePos : PFilter := fun d e => decide (dget d (.other (S "pos")) = dget e (.other (S "pos")))

def taggedWitnesses (l1 l2 : String) (p : String) : List Witness :=
  [⟨S "A", [tagged "they" "pron" l1, tagged "fish" "verb" l1]⟩, ⟨S "B", [tagged "they" "pron" l2, tagged "fish" p l2]⟩]

/-- The hypotheses of `C74_filter_sees_what_matters` are met: the line numbers differ, the parts of speech do not. -/
example : Valid (taggedWitnesses "1" "2" "verb") ∧ Valid (taggedWitnesses "3" "5" "verb") ∧
    List.Forall₂ (fun w w' : Witness => List.Forall₂ (fun t t' : Token => t.str = t'.str ∧
      dget (shownFields t.data) (.other (S "pos")) = dget (shownFields t'.data) (.other (S "pos"))) w.tokens w'.tokens)
      (taggedWitnesses "1" "2" "verb") (taggedWitnesses "3" "5" "verb") ∧
    (∀ d d' e e' : TokenData, dget d (.other (S "pos")) = dget d' (.other (S "pos")) →
      dget e (.other (S "pos")) = dget e' (.other (S "pos")) → samePos d e = samePos d' e') := by
  refine ⟨valid_of_check (by decide) (by decide) (by decide) (by decide), valid_of_check (by decide) (by decide) (by decide) (by decide),
    .cons (.cons (by decide) (.cons (by decide) .nil)) (.cons (.cons (by decide) (.cons (by decide) .nil)) .nil), ?_⟩
  intro d d' e e' h1 h2
  simp only [samePos, h1, h2]

/-- C74, the limits: with a filter the other fields matter. The inputs have the same normalised strings; the filter `samePos` keeps
the verb `fish` from the noun `fish`. -/
theorem C74_filter_sees_fields : List.Forall₂ SameStrings (taggedWitnesses "1" "2" "verb") (taggedWitnesses "1" "2" "noun") ∧
    (collateTable exampleEnv (taggedWitnesses "1" "2" "verb") { segmentation := false, pfilter := some samePos }).map tableSummary =
      .ok ⟨[false, false], [S "A", S "B"], [[some [S "they"], some [S "fish"]], [some [S "they"], some [S "fish"]]]⟩ ∧
    (collateTable exampleEnv (taggedWitnesses "1" "2" "noun") { segmentation := false, pfilter := some samePos }).map tableSummary =
      .ok ⟨[false, true], [S "A", S "B"], [[some [S "they"], some [S "fish"]], [some [S "they"], some [S "fish"]]]⟩ :=
  ⟨.cons (by decide) (.cons (by decide) .nil), by decide +kernel, by decide +kernel⟩

/-- The hypotheses of `C74_near` are met; the near match of `colour` with `color` is found whatever the written forms. -/
example : TopoSpec nearEnv.topo ∧
    Valid [wordsWitness "A" ["the", "red", "colour"], wordsWitness "B" ["the", "color"]] ∧
    Valid [⟨S "X", [written "the" "THE", written "red" "rouge", written "colour" "color"]⟩, ⟨S "Y", [written "the" "le", written "color" "red"]⟩] ∧
    List.Forall₂ SameStrings [wordsWitness "A" ["the", "red", "colour"], wordsWitness "B" ["the", "color"]]
      [⟨S "X", [written "the" "THE", written "red" "rouge", written "colour" "color"]⟩, ⟨S "Y", [written "the" "le", written "color" "red"]⟩] ∧
    NearMatching { segmentation := false, nearMatch := true } ∧
    (collateTable nearEnv [⟨S "X", [written "the" "THE", written "red" "rouge", written "colour" "color"]⟩,
      ⟨S "Y", [written "the" "le", written "color" "red"]⟩] { segmentation := false, nearMatch := true }).map tableSummary =
      .ok ⟨[false, true, true], [S "X", S "Y"], [[some [S "the"], some [S "red"], some [S "colour"]], [some [S "the"], none, some [S "color"]]]⟩ :=
  ⟨kahn_spec, valid_of_check (by decide) (by decide) (by decide) (by decide), valid_of_check (by decide) (by decide) (by decide) (by decide),
    .cons (by decide) (.cons (by decide) .nil), ⟨rfl, rfl, rfl, rfl⟩, by decide +kernel⟩

end CollateX
