import Verif.Proofs.Collated
import Verif.Props.Graph
import Verif.Props.Index
/-
Properties of `collate` as a whole: its options and formats (C32, C41, C43), repeated calls (C42).
-/

namespace CollateX
open Spec

/-- C32. Near matching together with segmentation is refused for every valid collation and every output format, properties
filter and layout. -/
theorem C32_near_segmentation (env : Env) (hts : TopoSpec env.topo) (ws : List Witness) (hv : Valid ws) (o : Opts)
    (ha : o.astar = false) (hd : o.detect = false) (hn : o.nearMatch = true) (hseg : o.segmentation = true) :
    collate env ws o = .error .segmentationError := by
  obtain ⟨ti, hti, hws, L, B⟩ := hv.tokenIndex
  obtain ⟨s, ps, h1, h2, h3⟩ := collateGraph_ok hts o.pfilter hti L B
  obtain ⟨rkf, ord, m, rk, h4, h5⟩ := rankingOf_ok hts h2.ginv.wf h2.ginv.near
  simp only [collate, collateRanked, ha, hd, h1, bind_ok, h4, hn, hseg, if_true]
  rfl

example : TopoSpec exampleEnv.topo ∧ Valid threeWitnesses ∧
    collate exampleEnv threeWitnesses { nearMatch := true, output := S "nonsense" } = .error .segmentationError :=
  ⟨kahn_spec, threeWitnesses_valid, by decide +kernel⟩

/-- The documented formats. -/
def Spec.formats : List Str :=
  [S "table", S "html", S "html2", S "json", S "xml", S "tei", S "csv", S "tsv", S "svg", S "svg_simple", S "graph"]

/-- C41. With an output name that is none of the documented ones, `collate` never returns, whatever the collation ... -/
theorem C41_unknown_format_no_result (env : Env) (ws : List Witness) (o : Opts) (h : o.output ∉ formats) :
    ∃ e, collate env ws o = .error e := by
  cases hc : collateRanked env ws o with
  | error e => exact ⟨e, by simp only [collate, hc]; rfl⟩
  | ok r =>
    refine ⟨.exception, ?_⟩
    simp only [formats, List.mem_cons, List.not_mem_nil, or_false, not_or] at h
    simp only [collate, hc, bind_ok, render, h, or_self, if_false]

/-- C41. ... and for a valid collation (exact matching) it is the exception for an unknown format that is raised. -/
theorem C41_unknown_format (env : Env) (hts : TopoSpec env.topo) (ws : List Witness) (hv : Valid ws) (o : Opts)
    (ho : ExactMatching o) (h : o.output ∉ formats) : collate env ws o = .error .exception := by
  obtain ⟨g, ps, rk, rkf, ord, m, h1, _⟩ := collateRanked_ok env hts hv o ho.astar ho.detect ho.near
  simp only [formats, List.mem_cons, List.not_mem_nil, or_false, not_or] at h
  simp only [collate, h1, bind_ok, render, h, or_self, if_false]

/-- C41, the other direction: the formats that need nothing but the graph or the table always succeed. -/
theorem C41_known_formats (env : Env) (hts : TopoSpec env.topo) (ws : List Witness) (hv : Valid ws) (o : Opts)
    (ho : ExactMatching o)
    (h : o.output ∈ [S "table", S "html", S "json", S "svg", S "svg_simple", S "graph"]) :
    ∃ r, collate env ws o = .ok r := by
  obtain ⟨g, ps, rk, rkf, ord, m, h1, _⟩ := collateRanked_ok env hts hv o ho.astar ho.detect ho.near
  simp only [collate, h1, bind_ok]
  simp only [List.mem_cons, List.not_mem_nil, or_false] at h
  unfold render
  rcases h with h | h | h | h | h | h <;> simp only [h]
  · exact ⟨_, rfl⟩
  · exact ⟨_, rfl⟩
  · by_cases hl : o.layout = S "vertical"
    · exact ⟨_, by rw [if_neg (by decide), if_neg (by decide), if_pos trivial, if_pos hl]⟩
    · exact ⟨_, by rw [if_neg (by decide), if_neg (by decide), if_pos trivial, if_neg hl]⟩
  · exact ⟨_, rfl⟩
  · exact ⟨_, rfl⟩
  · exact ⟨_, rfl⟩

example : S "pdf" ∉ formats ∧ ExactMatching { output := S "pdf" } ∧
    collate exampleEnv threeWitnesses { output := S "pdf" } = .error .exception :=
  ⟨by decide, ⟨rfl, rfl, rfl⟩, by decide +kernel⟩

/-! ### C42 -/

theorem dset_dset {K V : Type} [DecidableEq K] (d : Dict K V) (k : K) (a b : V) : dset (dset d k a) k b = dset d k b := by
  induction d with
  | nil => simp [dset]
  | cons p d ih =>
    obtain ⟨k', v'⟩ := p
    by_cases h : k' = k
    · simp [dset, h]
    · simp [dset, h, ih]

theorem dset_comm {K V : Type} [DecidableEq K] (d : Dict K V) {k k' : K} (hne : k ≠ k') (hk : k ∈ d.map Prod.fst) (a b : V) :
    dset (dset d k' b) k a = dset (dset d k a) k' b := by
  induction d with
  | nil => simp at hk
  | cons p d ih =>
    obtain ⟨k1, v1⟩ := p
    by_cases h1 : k1 = k
    · subst h1
      simp [dset, hne]
    · have hk2 : k ∈ d.map Prod.fst := by
        simp only [List.map_cons, List.mem_cons] at hk
        exact hk.resolve_left (fun h => h1 h.symm)
      by_cases h2 : k1 = k'
      · subst h2
        simp [dset, h1]
      · simp [dset, h1, h2, ih hk2]

/-- Indexing a token that was indexed before gives the same as indexing it for the first time. -/
theorem indexToken_indexToken (s s' : Str) (p p' : Nat) (t : Token) : indexToken s p (indexToken s' p' t) = indexToken s p t := by
  unfold indexToken
  simp only [Token.mk.injEq, true_and]
  rw [dset_comm (dset t.data .sigil (.str s')) (k := .sigil) (by decide) (by rw [mem_keys_dset]; simp), dset_dset, dset_dset]

theorem indexTokens_indexTokens (s s' : Str) (ts : List Token) : ∀ p p', indexTokens s p (indexTokens s' p' ts) = indexTokens s p ts := by
  induction ts with
  | nil => intros; rfl
  | cons t ts ih => intros; simp [indexTokens, indexToken_indexToken, ih]

theorem prepLoop_indexed (ws extra : List Witness) : ∀ pos idx st, prepLoop idx (indexed pos ws ++ extra) st = prepLoop idx (ws ++ extra) st := by
  induction ws with
  | nil => intros; rfl
  | cons w ws ih =>
    intro pos idx st
    simp only [indexed, List.cons_append, prepLoop, indexTokens_length, indexTokens_indexTokens, ih]

theorem mkTokenIndex_indexed (ws extra : List Witness) (pos : Nat) :
    mkTokenIndex (indexed pos ws ++ extra) = mkTokenIndex (ws ++ extra) := by
  unfold mkTokenIndex prepare
  rw [prepLoop_indexed]

/-- C42. After a call of `collate` has returned, the collation object (with its mutated tokens) behaves as before: any further
call, with the same or other options, and possibly after adding more witnesses, gives exactly the result (or exception) that it
would have given on the original collation. -/
theorem C42_repeatable (env : Env) (ws ws' : Collation) (o : Opts) (g : VGraph) (rk : Ranking)
    (h : collateRanked env ws o = .ok (ws', g, rk)) (extra : List Witness) (o' : Opts) :
    collate env (ws' ++ extra) o' = collate env (ws ++ extra) o' := by
  obtain ⟨ti, hti, hw⟩ := collateRanked_index h
  have : ws' = indexed 0 ws := by rw [hw, (mkTokenIndex_prepare hti).2.2.1]
  subst this
  unfold collate collateRanked collateGraph
  rw [mkTokenIndex_indexed]

/-- C42, for a call that raised after indexing: the mutated collation is that of the token index. -/
theorem C42_repeatable_after_exception (env : Env) (ws : Collation) (ti : TokenIndex) (h : mkTokenIndex ws = .ok ti)
    (extra : List Witness) (o : Opts) : collate env (ti.ws ++ extra) o = collate env (ws ++ extra) o := by
  rw [(mkTokenIndex_prepare h).2.2.1]
  unfold collate collateRanked collateGraph
  rw [mkTokenIndex_indexed]

/-- The hypothesis is met, and the mutation is real: the collation after the call differs from the one before. -/
example : ∃ ws' g rk, collateRanked exampleEnv threeWitnesses {} = .ok (ws', g, rk) ∧ ws' ≠ threeWitnesses := by
  obtain ⟨g, ps, rk, rkf, ord, m, h1, _⟩ := collateRanked_ok exampleEnv kahn_spec threeWitnesses_valid {} rfl rfl rfl
  exact ⟨_, g, rk, h1, by decide +kernel⟩

/-! ### C43 -/

/-- C43, negation (a): with `astar=True` every call raises TypeError, whatever the collation. -/
theorem C43_astar_raises (env : Env) (ws : Collation) (o : Opts) (ha : o.astar = true) : collate env ws o = .error .typeError := by
  simp only [collate, collateRanked, ha, if_true]
  rfl

/-- C43, negation (b): with `detect_transpositions=True` every valid collation of two or more witnesses raises
AttributeError. -/
theorem C43_transpositions_raise (env : Env) (hts : TopoSpec env.topo) (ws : List Witness) (hv : Valid ws) (h2 : 2 ≤ ws.length)
    (o : Opts) (ha : o.astar = false) (hd : o.detect = true) : collate env ws o = .error .attributeError := by
  obtain ⟨ti, hti, hws, L, B⟩ := hv.tokenIndex
  have hlen : 2 ≤ ti.ws.length := by rw [hws, indexed_length]; exact h2
  match hm : ti.ws, hlen with
  | w0 :: w1 :: rest, _ =>
    obtain ⟨s1, g1, A⟩ := firstWitness_ok L (w := w0) (by rw [hm]; rfl)
    obtain ⟨s2, P, g2, _⟩ := alignStep_ok hts o.pfilter L B A (by simp) (w := w1) (by rw [hm]; rfl)
    have hstep : alignStep env.topo o.pfilter true ti s1 w1 = .error .attributeError := by
      unfold alignStep at g2 ⊢
      obtain ⟨a1, e1, g2⟩ := bind_eq_ok.mp g2
      obtain ⟨a2, e2, g2⟩ := bind_eq_ok.mp g2
      obtain ⟨a3, e3, g2⟩ := bind_eq_ok.mp g2
      obtain ⟨a4, e4, g2⟩ := bind_eq_ok.mp g2
      obtain ⟨a5, e5, g2⟩ := bind_eq_ok.mp g2
      obtain ⟨a6, e6, g2⟩ := bind_eq_ok.mp g2
      obtain ⟨a7, e7, g2⟩ := bind_eq_ok.mp g2
      obtain ⟨a8, e8, g2⟩ := bind_eq_ok.mp g2
      simp only [e1, e2, e3, e4, e5, e6, e7, e8, bind_ok, if_true]
    simp only [collate, collateRanked, ha, hd, collateGraph, hti, bind_ok, hm, g1, alignWitnesses, hstep]
    rfl

/-- C43, negation, in the words of the claim: it is not so that the two options always work. -/
theorem C43_options_do_not_work : ¬ ∀ (ws : List Witness), Valid ws → ∀ o : Opts, (o.astar = true ∨ o.detect = true) →
    o.nearMatch = false → ∃ r, collate exampleEnv ws o = .ok r := by
  intro h
  obtain ⟨r, hr⟩ := h threeWitnesses threeWitnesses_valid { astar := true } (Or.inl rfl) rfl
  rw [C43_astar_raises _ _ _ rfl] at hr
  cases hr

/-- C43, partial. What is left of the claim: with a single witness `detect_transpositions=True` makes no difference. Missing:
the claim for two or more witnesses and for `astar`, which is false (above). -/
theorem C43_single_witness_partial (env : Env) (w : Witness) (o : Opts) :
    collate env [w] o = collate env [w] { o with detect := false } := by
  have key : ∀ d, collateGraph env.topo o.pfilter d [w] = collateGraph env.topo o.pfilter false [w] := by
    intro d
    unfold collateGraph
    cases hti : mkTokenIndex [w] with
    | error e => rfl
    | ok ti =>
      simp only [bind_ok]
      rw [(mkTokenIndex_prepare hti).2.2.1]
      simp only [indexed]
      cases firstWitness ti { sigil := w.sigil, tokens := indexTokens w.sigil 0 w.tokens } with
      | error e => rfl
      | ok s => rfl
  unfold collate collateRanked
  simp only [key o.detect]
  rfl

end CollateX
