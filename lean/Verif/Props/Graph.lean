import Verif.Proofs.Collated
import Verif.Props.SuffixArray
import Verif.Props.Index
/-
Properties of the collated variant graph: C16–C19, C22–C24, C28, C50.
-/

namespace CollateX
open Spec

/-- C18 and C50. The graph of a collation consists of one path per witness: for the `k`-th witness there is a path
from start to end whose vertices carry, for its siglum, exactly its tokens in order; every edge lies on one of these paths;
and the label of an edge is the comma-separated list of the sigla of exactly those witnesses whose path uses it, in collation
order. (With or without segmentation, and for any properties filter. The witnesses `ws'` are the input witnesses up to
bookkeeping keys: C06.) -/
theorem C18_C50_witness_paths (env : Env) (hts : TopoSpec env.topo) (ws ws' : List Witness) (hv : Valid ws)
    (hs : ∀ w ∈ ws, w.sigil ≠ []) (o : Opts) (ho : ExactMatching o) (g : VGraph) (rk : Ranking)
    (h : collateRanked env ws o = .ok (ws', g, rk)) :
    ∃ paths : List (List VId), paths.length = ws'.length ∧
      (∀ (k : Nat) (w : Witness) (path : List VId), ws'[k]? = some w → paths[k]? = some path →
        Reads g w.sigil path w.tokens) ∧
      (∀ p ∈ g.pairs, ∃ path ∈ paths, [p.1, p.2] <:+: path) ∧
      (∀ e ∈ g.edges, sigillaAlong ws' paths e.src e.tgt ≠ [] ∧
        e.label = List.intercalate (S ", ") (sigillaAlong ws' paths e.src e.tgt)) := by
  obtain ⟨rfl, ps, rkf, ord, m, C⟩ := collated_of env hts hv ho h
  have hs' := indexed_sigil_ne hs
  have hcov : ∀ p ∈ g.pairs, ∃ path ∈ ps.map WPath.path, [p.1, p.2] <:+: path := by
    intro p hp
    obtain ⟨q, hq, hc⟩ := (C.ginv.edges_iff p.1 p.2).mp hp
    exact ⟨_, List.mem_map.mpr ⟨q, hq, rfl⟩, hc⟩
  refine ⟨ps.map WPath.path, by simp [C.length], ?_, hcov, ?_⟩
  · intro k w path hw hp
    rw [List.getElem?_map] at hp
    obtain ⟨p, hp', rfl⟩ := Option.map_eq_some_iff.mp hp
    exact C.reads hs' hw hp'
  · intro e he
    refine ⟨?_, ?_⟩
    · obtain ⟨q, hq, hc⟩ := (C.ginv.edges_iff e.src e.tgt).mp (mem_pairs_of_edge he)
      obtain ⟨k, hk⟩ := List.getElem?_of_mem hq
      have hklt := (List.getElem?_eq_some_iff.mp hk).1
      obtain ⟨w, hw⟩ : ∃ w, (indexed 0 ws)[k]? = some w := ⟨_, List.getElem?_eq_getElem (by rw [← C.length]; exact hklt)⟩
      unfold sigillaAlong
      rw [ne_eq, List.map_eq_nil_iff, List.filter_eq_nil_iff]
      intro hall
      have hc' : [e.src, e.tgt] <:+: q.path := hc
      refine hall (w, q.path) ?_ (by simpa using hc')
      refine List.mem_of_getElem? (i := k) ?_
      rw [List.getElem?_zip_eq_some]
      exact ⟨hw, by rw [List.getElem?_map, hk]; rfl⟩
    · rw [C.ginv.lab e he, labelOf_eq ps _ C.sigils]

/-- C17. The collated graph has no directed cycle; every vertex is reachable from start and reaches the end. -/
theorem C17_acyclic (env : Env) (hts : TopoSpec env.topo) (ws ws' : List Witness) (hv : Valid ws)
    (o : Opts) (ho : ExactMatching o) (g : VGraph) (rk : Ranking) (h : collateRanked env ws o = .ok (ws', g, rk)) :
    NoCycle g.pairs ∧ (∀ p ∈ g.pairs, p.1 ∈ g.vertices ∧ p.2 ∈ g.vertices) ∧
      ∀ v ∈ g.vertices, (∃ n, Walk g.pairs startV v n) ∧ ∃ n, Walk g.pairs v endV n := by
  obtain ⟨rfl, ps, rkf, ord, m, C⟩ := collated_of env hts hv ho h
  refine ⟨Layered.noCycle C.ginv.lay, C.ginv.wf.ends, C.ginv.walks ?_⟩
  intro h0
  have := C.length
  rw [h0, indexed_length] at this
  exact hv.ne (List.length_eq_zero_iff.mp this.symm)

/-- C16. Without segmentation, all tokens on one vertex have the same normalised string, which is the vertex's label. -/
theorem C16_equal_tokens (env : Env) (hts : TopoSpec env.topo) (ws ws' : List Witness) (hv : Valid ws)
    (hs : ∀ w ∈ ws, w.sigil ≠ []) (o : Opts) (ho : ExactMatching o) (hseg : o.segmentation = false) (g : VGraph) (rk : Ranking)
    (h : collateRanked env ws o = .ok (ws', g, rk)) (v : VId) (x : Vertex) (hx : dget g.nodes v = some x) (σ : Str)
    (ts : List Token) (hd : dget x.tokens σ = some ts) : ∀ t ∈ ts, t.str = x.label := by
  obtain ⟨rfl, ps, rkf, ord, m, C⟩ := collated_of env hts hv ho h
  obtain ⟨p, hp, _, hm⟩ := (C.carries (indexed_sigil_ne hs)).mp ⟨x, hx, hd⟩
  obtain ⟨t, ht⟩ := C.single hseg p hp _ hm
  simp only at ht
  subst ht
  have := C.labelled p hp v [t] hm x hx
  simp only [List.mem_singleton, forall_eq]
  rw [this]
  simp [segText]

/-- C19. Every token of every witness is on exactly one vertex, once, under its witness's siglum; without segmentation it is
alone there under this siglum. -/
theorem C19_token_once (env : Env) (hts : TopoSpec env.topo) (ws ws' : List Witness) (hv : Valid ws)
    (hs : ∀ w ∈ ws, w.sigil ≠ []) (o : Opts) (ho : ExactMatching o) (g : VGraph) (rk : Ranking)
    (h : collateRanked env ws o = .ok (ws', g, rk)) (k i : Nat) (w : Witness) (t : Token) (hw : ws'[k]? = some w)
    (ht : w.tokens[i]? = some t) :
    ∃ v ts, v ≠ startV ∧ v ≠ endV ∧ CarriesAt g v w.sigil ts ∧ ts.count t = 1 ∧
      (o.segmentation = false → ts = [t]) ∧
      ∀ v' σ ts', CarriesAt g v' σ ts' → t ∈ ts' → v' = v ∧ σ = w.sigil := by
  obtain ⟨rfl, ps, rkf, ord, m, C⟩ := collated_of env hts hv ho h
  have hs' := indexed_sigil_ne hs
  obtain ⟨p, hp, hps, htext⟩ := C.at hw
  have hpm := List.mem_of_getElem? hp
  have hnd := hv.tokens_nodup hw
  rw [← htext] at hnd
  have htm : t ∈ p.text := by rw [htext]; exact List.mem_of_getElem? ht
  unfold WPath.text at htm hnd
  obtain ⟨⟨v, ts⟩, hm, hts'⟩ := List.mem_flatMap.mp htm
  simp only at hts'
  have hin := C.ginv.segs_in p hpm _ hm
  have hnd2 : ts.Nodup ∧ ∀ v' us, (v', us) ∈ p.segs → t ∈ us → v' = v := by
    rw [List.nodup_flatMap] at hnd
    refine ⟨hnd.1 _ hm, ?_⟩
    intro v' us hm' htus
    by_contra hne
    have h2 := List.pairwise_iff_getElem.mp hnd.2
    obtain ⟨a, ha, hae⟩ := List.mem_iff_getElem.mp hm
    obtain ⟨b, hb, hbe⟩ := List.mem_iff_getElem.mp hm'
    rcases Nat.lt_trichotomy a b with hab | hab | hab
    · refine h2 a b ha hb hab (a := t) ?_ ?_
      · simpa [hae] using hts'
      · simpa [hbe] using htus
    · subst hab
      rw [hae] at hbe
      injection hbe with he _
      exact hne he.symm
    · refine h2 b a hb ha hab (a := t) ?_ ?_
      · simpa [hbe] using htus
      · simpa [hae] using hts'
  refine ⟨v, ts, hin.2.1, hin.2.2.1, (C.carries hs').mpr ⟨p, hpm, hps, hm⟩, ?_, ?_, ?_⟩
  · exact List.count_eq_one_of_mem hnd2.1 hts'
  · intro hseg
    obtain ⟨t', ht'⟩ := C.single hseg p hpm _ hm
    simp only at ht'
    subst ht'
    simp only [List.mem_singleton] at hts'
    rw [hts']
  · intro v' σ us hc htus
    obtain ⟨q, hq, hqs, hqm⟩ := (C.carries hs').mp hc
    obtain ⟨l, hl⟩ := List.getElem?_of_mem hq
    have hll := (List.getElem?_eq_some_iff.mp hl).1
    obtain ⟨x, hx⟩ : ∃ x, (indexed 0 ws)[l]? = some x := ⟨_, List.getElem?_eq_getElem (by rw [← C.length]; exact hll)⟩
    obtain ⟨q', hq', _, hqt⟩ := C.at hx
    rw [hl] at hq'
    obtain rfl := Option.some.inj hq'
    have htq : t ∈ x.tokens := by
      rw [← hqt]; exact List.mem_flatMap.mpr ⟨_, hqm, htus⟩
    obtain ⟨j, hj⟩ := List.getElem?_of_mem htq
    obtain ⟨rfl, _⟩ := hv.token_unique hw hx ht hj
    rw [hp] at hl
    obtain rfl := Option.some.inj hl
    exact ⟨hnd2.2 v' us hqm htus, by rw [← hqs, hps]⟩

/-- C19, converse: a vertex other than start and end carries a token, and what a vertex carries for a siglum is a non-empty
run of tokens of the witness with that siglum. -/
theorem C19_vertex_tokens (env : Env) (hts : TopoSpec env.topo) (ws ws' : List Witness) (hv : Valid ws)
    (hs : ∀ w ∈ ws, w.sigil ≠ []) (o : Opts) (ho : ExactMatching o) (g : VGraph) (rk : Ranking)
    (h : collateRanked env ws o = .ok (ws', g, rk)) (v : VId) (hvm : v ∈ g.vertices) :
    (v ≠ startV → v ≠ endV → ∃ σ ts, CarriesAt g v σ ts) ∧
    (∀ σ ts, CarriesAt g v σ ts → v ≠ startV ∧ v ≠ endV ∧ ts ≠ [] ∧
      ∃ w ∈ ws', w.sigil = σ ∧ ts <:+: w.tokens) := by
  obtain ⟨rfl, ps, rkf, ord, m, C⟩ := collated_of env hts hv ho h
  have hs' := indexed_sigil_ne hs
  constructor
  · intro h1 h2
    obtain ⟨p, hp, hvp⟩ := C.ginv.cover v hvm h1 h2
    obtain ⟨⟨v', ts⟩, hm, rfl⟩ := List.mem_map.mp hvp
    exact ⟨p.sigil, ts, (C.carries hs').mpr ⟨p, hp, rfl, hm⟩⟩
  · intro σ ts hc
    obtain ⟨p, hp, hps, hm⟩ := (C.carries hs').mp hc
    have hin := C.ginv.segs_in p hp _ hm
    refine ⟨hin.2.1, hin.2.2.1, hin.2.2.2, ?_⟩
    obtain ⟨k, hk⟩ := List.getElem?_of_mem hp
    have hkl := (List.getElem?_eq_some_iff.mp hk).1
    obtain ⟨w, hw⟩ : ∃ w, (indexed 0 ws)[k]? = some w := ⟨_, List.getElem?_eq_getElem (by rw [← C.length]; exact hkl)⟩
    obtain ⟨p', hp', h3, h4⟩ := C.at hw
    rw [hk] at hp'
    obtain rfl := Option.some.inj hp'
    refine ⟨w, List.mem_of_getElem? hw, by rw [← hps, h3], ?_⟩
    rw [← h4]
    unfold WPath.text
    obtain ⟨A, R, hR⟩ := List.append_of_mem hm
    rw [hR, List.flatMap_append, List.flatMap_cons]
    exact ⟨A.flatMap Prod.snd, R.flatMap Prod.snd, by simp⟩

/-- C28. Collating valid input (exact matching) always succeeds: it yields a graph, a ranking and a table, and
`output="table"` returns that table. -/
theorem C28_collate_succeeds (env : Env) (hts : TopoSpec env.topo) (ws : List Witness) (hv : Valid ws) (o : Opts)
    (ho : ExactMatching o) :
    ∃ ws' g rk, collateRanked env ws o = .ok (ws', g, rk) ∧
      collateTable env ws o = .ok (mkTable ws' g rk) ∧
      (o.output = S "table" → collate env ws o = .ok (.table (mkTable ws' g rk))) := by
  obtain ⟨g, ps, rk, rkf, ord, m, h1, h2⟩ := collateRanked_ok env hts hv o ho.astar ho.detect ho.near
  refine ⟨_, g, rk, h1, ?_, ?_⟩
  · unfold collateTable; rw [h1]; rfl
  · intro hout
    unfold collate render
    rw [h1]
    simp only [bind_ok, hout]
    rfl

/-- C22. Joining keeps every reading: `join` of the unsegmented graph succeeds, it gives the graph of the segmented collation,
and every witness is read from both graphs, with the same tokens. -/
theorem C22_join_preserves (env : Env) (hts : TopoSpec env.topo) (ws ws' : List Witness) (hv : Valid ws)
    (hs : ∀ w ∈ ws, w.sigil ≠ []) (o : Opts) (ho : ExactMatching o) (hseg : o.segmentation = false) (g : VGraph) (rk : Ranking)
    (h : collateRanked env ws o = .ok (ws', g, rk)) :
    ∃ g' rk', join env.cc g = .ok g' ∧ collateRanked env ws { o with segmentation := true } = .ok (ws', g', rk') ∧
      ∀ w ∈ ws', (∃ path, Reads g w.sigil path w.tokens) ∧ ∃ path', Reads g' w.sigil path' w.tokens := by
  obtain ⟨rfl, ps, rkf, ord, m, C⟩ := collated_of env hts hv ho h
  have ho' : ExactMatching { o with segmentation := true } := ⟨ho.astar, ho.detect, ho.near⟩
  obtain ⟨g', ps', rk', rkf', ord', m', h1, C'⟩ := collateRanked_ok env hts hv { o with segmentation := true } ho.astar ho.detect ho.near
  have hs' := indexed_sigil_ne hs
  refine ⟨g', rk', ?_, h1, ?_⟩
  · unfold collateRanked at h h1
    rw [if_neg (by simp [ho.astar])] at h h1
    obtain ⟨r, hr, h⟩ := bind_eq_ok.mp h
    simp only [hr, bind_ok] at h1
    obtain ⟨rk1, hrk, h⟩ := bind_eq_ok.mp h
    simp only [hrk, bind_ok, ho.near, hseg] at h h1
    simp [bind_ok] at h
    simp [bind_ok] at h1
    obtain ⟨g2, hj, h1⟩ := bind_eq_ok.mp h1
    obtain ⟨rk2, _, h1⟩ := bind_eq_ok.mp h1
    injection h1 with h1
    injection h1 with _ h1
    injection h1 with h1 _
    rw [← h.2.1, ← h1]
    exact hj
  · intro w hw
    obtain ⟨k, hk⟩ := List.getElem?_of_mem hw
    obtain ⟨p, hp, _⟩ := C.at hk
    obtain ⟨p', hp', _⟩ := C'.at hk
    exact ⟨⟨_, C.reads hs' hk hp⟩, _, C'.reads hs' hk hp'⟩

/-- C23. `join` terminates on every graph a collation produces: from some number of loop iterations on, allowing more does not
change the (successful) result. -/
theorem C23_join_terminates (env : Env) (hts : TopoSpec env.topo) (ws ws' : List Witness) (hv : Valid ws)
    (o : Opts) (ho : ExactMatching o) (hseg : o.segmentation = false) (g : VGraph) (rk : Ranking)
    (h : collateRanked env ws o = .ok (ws', g, rk)) :
    ∃ g' N, ∀ fuel, N ≤ fuel → joinLoop env.cc fuel g [] ((g.outEdges startV).map Edge.tgt).reverse = .ok g' := by
  obtain ⟨rfl, ps, rkf, ord, m, C⟩ := collated_of env hts hv ho h
  obtain ⟨g', ps', j1, _⟩ := join_ok env.cc (labelled_step env.cc) C.ginv C.labelled C.uniform (C.single hseg)
  refine ⟨g', joinFuel g, ?_⟩
  intro fuel hf
  obtain ⟨k, rfl⟩ : ∃ k, fuel = joinFuel g + k := ⟨fuel - joinFuel g, by omega⟩
  exact joinLoop_mono _ _ _ _ _ _ j1 k

/-- C24. After segmentation no further join is possible, and all witnesses on a vertex have the same sequence of normalised
strings there. -/
theorem C24_segmentation_maximal_uniform (env : Env) (hts : TopoSpec env.topo) (ws ws' : List Witness) (hv : Valid ws)
    (hs : ∀ w ∈ ws, w.sigil ≠ []) (o : Opts) (ho : ExactMatching o) (hseg : o.segmentation = true) (g : VGraph) (rk : Ranking)
    (h : collateRanked env ws o = .ok (ws', g, rk)) :
    FullySegmented g ∧ ∀ v σ τ ts us, CarriesAt g v σ ts → CarriesAt g v τ us → ts.map Token.str = us.map Token.str := by
  obtain ⟨rfl, ps, rkf, ord, m, C⟩ := collated_of env hts hv ho h
  have hs' := indexed_sigil_ne hs
  refine ⟨Maximal.fullySegmented C.ginv (C.maximal hseg), ?_⟩
  intro v σ τ ts us h1 h2
  obtain ⟨p, hp, _, hpm⟩ := (C.carries hs').mp h1
  obtain ⟨q, hq, _, hqm⟩ := (C.carries hs').mp h2
  exact C.uniform p hp q hq v ts us hpm hqm

/-- C51. The label of a vertex is the text of the tokens any of its witnesses has there. -/
theorem C51_vertex_label (env : Env) (hts : TopoSpec env.topo) (ws ws' : List Witness) (hv : Valid ws)
    (hs : ∀ w ∈ ws, w.sigil ≠ []) (o : Opts) (ho : ExactMatching o) (g : VGraph) (rk : Ranking)
    (h : collateRanked env ws o = .ok (ws', g, rk)) (v : VId) (x : Vertex) (hx : dget g.nodes v = some x) (σ : Str)
    (ts : List Token) (hd : dget x.tokens σ = some ts) : x.label = segmentLabel env.cc (ts.map Token.str) := by
  obtain ⟨rfl, ps, rkf, ord, m, C⟩ := collated_of env hts hv ho h
  obtain ⟨p, hp, _, hm⟩ := (C.carries (indexed_sigil_ne hs)).mp ⟨x, hx, hd⟩
  rw [C.labelled p hp v ts hm x hx]
  generalize ts.map Token.str = l
  cases l with
  | nil => rfl
  | cons s rest =>
    simp only [segText, segmentLabel, List.flatMap]
    congr 2
    apply List.map_congr_left
    intro m _
    cases m with
    | nil => rfl
    | cons c m =>
      by_cases hc : env.cc.word c = true <;> simp [joinLabel, hc]

/-! ### Examples -/

/-- ASCII character classes, Kahn's algorithm. -/
def exampleEnv : Env := ⟨asciiClass, kahn, fun _ _ => 0⟩

/-- Three witnesses: `the black cat`, `the white and black cat`, `the white cat`. -/
def threeWitnesses : List Witness :=
  [⟨S "A", [⟨S "the", []⟩, ⟨S "black", []⟩, ⟨S "cat", []⟩]⟩,
   ⟨S "B", [⟨S "the", []⟩, ⟨S "white", []⟩, ⟨S "and", []⟩, ⟨S "black", []⟩, ⟨S "cat", []⟩]⟩,
   ⟨S "C", [⟨S "the", []⟩, ⟨S "white", []⟩, ⟨S "cat", []⟩]⟩]

theorem threeWitnesses_valid : Valid threeWitnesses := by
  refine ⟨by decide, by decide, by decide, ?_⟩
  intro w hw t ht hsep
  obtain ⟨i, _, h⟩ := hsep
  have hd : ∀ w ∈ threeWitnesses, ∀ t ∈ w.tokens, t.str.head? ≠ some '$' := by decide
  exact hd w hw t ht (by rw [h]; rfl)

/-- Summary of a graph: vertices with label and number of tokens per siglum; edges. -/
structure Summary where
  nodes : List (VId × Str × List (Str × Nat))
  edges : List Edge
  deriving DecidableEq

def summary (r : Collation × VGraph × Ranking) : Summary :=
  ⟨r.2.1.nodes.map (fun p => (p.1, p.2.label, p.2.tokens.map (fun q => (q.1, q.2.length)))), r.2.1.edges⟩

/-- The hypotheses of the theorems of this file are met, without segmentation ... -/
example : TopoSpec exampleEnv.topo ∧ Valid threeWitnesses ∧ (∀ w ∈ threeWitnesses, w.sigil ≠ []) ∧
    ExactMatching { segmentation := false } ∧
    (collateRanked exampleEnv threeWitnesses { segmentation := false }).map summary =
      .ok ⟨[(0, S "start", []), (1, S "end", []), (2, S "the", [(S "A", 1), (S "B", 1), (S "C", 1)]),
            (3, S "black", [(S "A", 1), (S "B", 1)]), (4, S "cat", [(S "A", 1), (S "B", 1), (S "C", 1)]),
            (5, S "white", [(S "B", 1), (S "C", 1)]), (6, S "and", [(S "B", 1)])],
           [⟨0, 2, S "A, B, C"⟩, ⟨2, 3, S "A"⟩, ⟨3, 4, S "A, B"⟩, ⟨4, 1, S "A, B, C"⟩, ⟨2, 5, S "B, C"⟩, ⟨5, 6, S "B"⟩,
            ⟨6, 3, S "B"⟩, ⟨5, 4, S "C"⟩]⟩ :=
  ⟨kahn_spec, threeWitnesses_valid, by decide, ⟨rfl, rfl, rfl⟩, by decide +kernel⟩

/-- ... and with it. -/
example : ExactMatching {} ∧ (collateRanked exampleEnv exampleWitnesses {}).map summary =
      .ok ⟨[(0, S "start", []), (1, S "end", []), (2, S "the", [(S "A", 1)]), (3, S "quick fox", [(S "A", 2), (S "B", 2)]),
            (5, S "the", [(S "B", 1)])],
           [⟨0, 2, S "A"⟩, ⟨2, 3, S "A"⟩, ⟨0, 3, S "B"⟩, ⟨5, 1, S "B"⟩, ⟨3, 1, S "A"⟩, ⟨3, 5, S "B"⟩]⟩ :=
  ⟨⟨rfl, rfl, rfl⟩, by decide +kernel⟩

end CollateX
