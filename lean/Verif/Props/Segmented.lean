import Verif.Props.Progressive
/-
Property C104: segmentation puts together what always stands together.
-/

namespace CollateX
open Spec

section
variable {cc : CharClass} {ws : List Witness} {g g0 : VGraph} {ps ps0 : List WPath} {rk : Ranking} {rkf : VId → Nat} {ord : List VId} {m : Nat}
  {W : Work} {K : VId → List VId} {word : VId → Str}

/-- The segments of the short program are the chains of vertices. -/
theorem Chained.segments (H : Chained g0 ps0 word K g ps) (h0 : GInv g0 ps0) (hg : GInv g ps) (hmax : Maximal g) (N : Nodes W g0 ps0) :
    W.segments = ps.map (fun p => p.inner.map (fun v => (K v).map (· - 2))) := by
  have h1 : List.Forall₂ (fun (p p0 : WPath) => p0.inner = p.inner.flatMap K) ps ps0 := H.paths
  unfold Work.segments
  have hl : ps.length = ps0.length := h1.length_eq
  have hl2 : ps0.length = W.rows.length := by simpa using congrArg List.length N.rows
  apply List.ext_getElem?
  intro k
  rw [List.getElem?_map, List.getElem?_map]
  by_cases hk : k < ps.length
  · obtain ⟨p, hp⟩ : ∃ p, ps[k]? = some p := ⟨_, List.getElem?_eq_getElem hk⟩
    obtain ⟨p0, hp0⟩ : ∃ p, ps0[k]? = some p := ⟨_, List.getElem?_eq_getElem (by omega)⟩
    obtain ⟨r, hr⟩ : ∃ p, W.rows[k]? = some p := ⟨_, List.getElem?_eq_getElem (by omega)⟩
    have he : p0.inner = p.inner.flatMap K := by
      have := (List.forall₂_iff_get.mp h1).2 k hk (by omega)
      obtain ⟨_, q⟩ := List.getElem?_eq_some_iff.mp hp
      obtain ⟨_, q0⟩ := List.getElem?_eq_some_iff.mp hp0
      simpa [q, q0] using this
    have hin : p0.inner = r.map (· + 2) := by
      have := congrArg (fun l => l[k]?) N.rows
      simpa [List.getElem?_map, hp0, hr] using this
    rw [hp, hr, Option.map_some, Option.map_some, H.splits h0 hg hmax N (List.mem_of_getElem? hp) he (List.mem_of_getElem? hr) hin]
  · rw [List.getElem?_eq_none (by omega), List.getElem?_eq_none (by omega)]
    rfl

theorem Chained.first (H : Chained g0 ps0 word K g ps) {v : VId} (hv : v ∈ g.vertices) : Work.first ((K v).map (· - 2)) = v - 2 := by
  obtain ⟨l, hl⟩ := H.head v hv
  rw [hl]
  rfl

/-- The joined graph has the first vertices of the chains. -/
theorem Chained.nodes (H : Chained g0 ps0 word K g ps) (h0 : GInv g0 ps0) (hg : GInv g ps) (hmax : Maximal g) (N : Nodes W g0 ps0) :
    Nodes W.heads g ps := by
  refine ⟨fun v hv => N.bound v (H.sub v hv), ?_⟩
  unfold Work.heads
  simp only
  rw [H.segments h0 hg hmax N, List.map_map, List.map_map]
  apply List.map_congr_left
  intro p hp
  simp only [Function.comp, List.map_map]
  conv_lhs => rw [← List.map_id p.inner]
  apply List.map_congr_left
  intro v hv
  obtain ⟨q, hq, rfl⟩ := List.mem_map.mp hv
  obtain ⟨h1, h2, h3, _⟩ := hg.segs_in p hp q hq
  simp only [Function.comp]
  rw [H.first h1]
  have h2 : q.1 ≠ 0 := h2
  have h3 : q.1 ≠ 1 := h3
  show q.1 = q.1 - 2 + 2
  omega

/-- The table of segments. -/
theorem Collated.shownSegmented (C : Collated cc ws true g ps rk rkf ord m)
    (H : Chained g0 ps0 (fun v => (W.words[v - 2]?).getD []) K g ps) (h0 : GInv g0 ps0) (N : Nodes W g0 ps0)
    (hs : ∀ w ∈ ws, w.sigil ≠ []) (hne : ws ≠ [])
    (hmark : ∀ j c, (mkTable ws g rk).columns[j]? = some c → (c.variant = false ↔
      (∃ v, ∀ u ∈ g.vertices, dget rk.byVertex u = some (j + 1) ↔ u = v) ∧ ∀ w ∈ ws, ∃ ts, dget c.tokens w.sigil = some ts)) :
    markedStrings (mkTable ws g rk) = W.shownSegmented := by
  have hmax : Maximal g := C.maximal rfl
  rw [C.shown_nodes (H.nodes h0 C.ginv hmax N) (fun n => (K (n + 2)).map (fun v => (W.words[v - 2]?).getD []))
    (fun p hp n ts h => H.words p hp (n + 2) ts h) hs hne hmark]
  unfold Work.shownSegmented
  have hsg := H.segments h0 C.ginv hmax N
  have hrows : W.heads.rows = W.segments.map (List.map Work.first) := rfl
  rw [hrows, List.map_map]
  apply List.map_congr_left
  intro r hr
  apply List.map_congr_left
  intro x _
  congr 1
  unfold Work.nodeAt
  rw [List.find?_map, Option.map_map]
  cases hf : r.find? ((fun n => decide (W.heads.column n = x + 1)) ∘ Work.first) with
  | none =>
    have hf : r.find? (fun s => decide (W.heads.column (Work.first s) = x + 1)) = none := hf
    rw [hf]
    rfl
  | some s =>
    have hf' : r.find? (fun s => decide (W.heads.column (Work.first s) = x + 1)) = some s := hf
    rw [hf', Option.map_some, Option.map_some]
    have hm := List.mem_of_find?_eq_some hf
    rw [hsg] at hr
    obtain ⟨p, hp, rfl⟩ := List.mem_map.mp hr
    obtain ⟨v, hv, rfl⟩ := List.mem_map.mp hm
    obtain ⟨q, hq, rfl⟩ := List.mem_map.mp hv
    obtain ⟨h1, h2, h3, _⟩ := C.ginv.segs_in p hp q hq
    have h2 : q.1 ≠ 0 := h2
    have h3 : q.1 ≠ 1 := h3
    simp only [Function.comp]
    rw [H.first h1, show q.1 - 2 + 2 = q.1 by omega]
    congr 1
    -- all vertices of the chain are nodes
    obtain ⟨p0, hp0, he⟩ : ∃ p0 ∈ ps0, p0.inner = p.inner.flatMap K := by
      obtain ⟨k, hk⟩ := List.getElem?_of_mem hp
      obtain ⟨q1, q2⟩ := List.getElem?_eq_some_iff.mp hk
      have hl := H.paths.length_eq
      have := (List.forall₂_iff_get.mp H.paths).2 k q1 (by omega)
      refine ⟨ps0[k]'(by omega), List.getElem_mem _, ?_⟩
      simpa [q2] using this
    have hall : ∀ y ∈ K q.1, ∃ s, W.words[y - 2]? = some s := by
      intro y hy
      have : y ∈ p0.inner := by rw [he]; exact List.mem_flatMap.mpr ⟨_, hv, hy⟩
      obtain ⟨z, hz, rfl⟩ := List.mem_map.mp this
      obtain ⟨g1, g2, g3, _⟩ := h0.segs_in p0 hp0 z hz
      have := N.bound _ g1
      have g2 : z.1 ≠ 0 := g2
      have g3 : z.1 ≠ 1 := g3
      exact ⟨_, List.getElem?_eq_getElem (by omega)⟩
    rw [List.filterMap_map]
    generalize K q.1 = l at hall
    induction l with
    | nil => rfl
    | cons y l ih =>
      obtain ⟨s, hs⟩ := hall y (by simp)
      rw [List.map_cons, List.filterMap_cons, ih (fun y hy => hall y (by simp [hy]))]
      simp [hs]

end

/-- The same with the graph before the joins. -/
theorem segmented_core (env : Env) (hts : TopoSpec env.topo) (ws : List Witness) (hv : Valid ws) (hs : ∀ w ∈ ws, w.sigil ≠ []) (o : Opts)
    (ho : ExactMatching o) (hf : o.pfilter = none) (hseg : o.segmentation = true) :
    ∃ t W g0 ps0, collateTable env ws o = .ok t ∧ Worked (ws.map strings) W ∧ Tracks W g0 ps0 ∧ GInv g0 ps0 ∧ markedStrings t = W.shownSegmented := by
  let R : VGraph → List WPath → Prop := fun g ps => ∃ W g0 ps0, (Worked (ws.map strings) W ∧ Tracks W g0 ps0 ∧ GInv g0 ps0) ∧
    ∃ K, Chained g0 ps0 (fun v => (W.words[v - 2]?).getD []) K g ps
  obtain ⟨g, rk, ps, rkf, ord, m, h1, C, W, g0, ps0, ⟨hW, hT, h0⟩, K, H⟩ := worked_inv env hts ws hv o ho hf (R := R)
    (fun W g ps h1 h2 h3 h4 => ⟨W, g, ps, ⟨h1, h2, h3⟩, _, chained_first h2 h4⟩)
    (fun _ g ps v c x a1 a2 a3 a4 a5 a6 => by
      obtain ⟨W, g0, ps0, h, hK⟩ := a6
      exact ⟨W, g0, ps0, h, chained_join env.cc h.2.2 _ g ps v c x a1 a2 a3 a4 a5 hK⟩)
  rw [hseg] at C
  have hne : indexed 0 ws ≠ [] := by
    intro h0
    have := congrArg List.length h0
    rw [indexed_length] at this
    exact hv.1 (List.length_eq_zero_iff.mp this)
  refine ⟨mkTable (indexed 0 ws) g rk, W, g0, ps0, ?_, hW, hT, h0, ?_⟩
  · unfold collateTable
    rw [h1]
    rfl
  · exact C.shownSegmented H h0 hT.nodes (indexed_sigil_ne hs) hne (marks_indexed env hts ws hv hs o ho g rk h1)

/-- C104: with segmentation, the rows and marks of the table of any number of witnesses are those of the short program, each text cut wherever a
word and the next one do not always stand together. -/
theorem C104_segmented (env : Env) (hts : TopoSpec env.topo) (ws : List Witness) (hv : Valid ws) (hs : ∀ w ∈ ws, w.sigil ≠ []) (o : Opts)
    (ho : ExactMatching o) (hf : o.pfilter = none) (hseg : o.segmentation = true) :
    ∃ t W, collateTable env ws o = .ok t ∧ Worked (ws.map strings) W ∧ markedStrings t = W.shownSegmented := by
  obtain ⟨t, W, _, _, h1, h2, _, _, h3⟩ := segmented_core env hts ws hv hs o ho hf hseg
  exact ⟨t, W, h1, h2, h3⟩

/-- C104: as long as no two nodes of a column have the same word, the table is a function of the words of the witnesses, and the short program
computes it. -/
theorem C104_computed (env : Env) (hts : TopoSpec env.topo) (ws : List Witness) (hv : Valid ws) (hs : ∀ w ∈ ws, w.sigil ≠ []) (o : Opts)
    (ho : ExactMatching o) (hf : o.pfilter = none) (hseg : o.segmentation = true)
    (hu : ∀ n < ws.length, (workOf ((ws.map strings).take n)).Untwinned) :
    ∃ t, collateTable env ws o = .ok t ∧ markedStrings t = (workOf (ws.map strings)).shownSegmented := by
  obtain ⟨t, W, h1, h2, h3⟩ := C104_segmented env hts ws hv hs o ho hf hseg
  refine ⟨t, h1, ?_⟩
  rw [h3, h2.unique (by rw [List.length_map]; exact hu)]

/-- C104: what the rows and marks are depends on the words alone, not on the sigla, the topological sort, the other properties of the tokens or
the layout. -/
theorem C104_words_only (env env' : Env) (hts : TopoSpec env.topo) (hts' : TopoSpec env'.topo) (ws ws' : List Witness) (hv : Valid ws)
    (hv' : Valid ws') (hs : ∀ w ∈ ws, w.sigil ≠ []) (hs' : ∀ w ∈ ws', w.sigil ≠ []) (o o' : Opts) (ho : ExactMatching o)
    (ho' : ExactMatching o') (hf : o.pfilter = none) (hf' : o'.pfilter = none) (hseg : o.segmentation = true)
    (hseg' : o'.segmentation = true) (hw : ws.map strings = ws'.map strings)
    (hu : ∀ n < ws.length, (workOf ((ws.map strings).take n)).Untwinned) :
    ∃ t t', collateTable env ws o = .ok t ∧ collateTable env' ws' o' = .ok t' ∧ markedStrings t = markedStrings t' := by
  obtain ⟨t, h1, h2⟩ := C104_computed env hts ws hv hs o ho hf hseg hu
  have hl : ws.length = ws'.length := by simpa using congrArg List.length hw
  obtain ⟨t', h3, h4⟩ := C104_computed env' hts' ws' hv' hs' o' ho' hf' hseg' (by rw [← hw, ← hl]; exact hu)
  exact ⟨t, t', h1, h3, by rw [h2, h4, hw]⟩

/-- Three witnesses with words that always stand together. -/
def segWitnesses : List Witness := [wordsWitness "A" ["the", "black", "cat", "ran", "home"],
  wordsWitness "B" ["the", "white", "and", "black", "cat", "ran", "home"], wordsWitness "C" ["the", "white", "and", "cat", "ran", "home"]]

/-- The hypotheses are met: `white` and `and` always stand together, and so do `cat`, `ran` and `home`. -/
example : TopoSpec exampleEnv.topo ∧ Valid segWitnesses ∧ (∀ w ∈ segWitnesses, w.sigil ≠ []) ∧ ExactMatching {} ∧
    (∀ n < segWitnesses.length, (workOf ((segWitnesses.map strings).take n)).Untwinned) ∧
    (workOf (segWitnesses.map strings)).segments =
      [[[0], [1], [2, 3, 4]], [[0], [5, 6], [1], [2, 3, 4]], [[0], [5, 6], [2, 3, 4]]] ∧
    (workOf (segWitnesses.map strings)).shownSegmented =
      [[(false, some [S "the"]), (true, none), (true, some [S "black"]), (false, some [S "cat", S "ran", S "home"])],
       [(false, some [S "the"]), (true, some [S "white", S "and"]), (true, some [S "black"]), (false, some [S "cat", S "ran", S "home"])],
       [(false, some [S "the"]), (true, some [S "white", S "and"]), (true, none), (false, some [S "cat", S "ran", S "home"])]] := by
  refine ⟨kahn_spec, valid_of_check (by decide) (by decide) (by decide) (by decide), by decide, ⟨rfl, rfl, rfl⟩, ?_, by decide +kernel,
    by decide +kernel⟩
  have : ∀ n : Fin 3, (workOf ((segWitnesses.map strings).take n)).Untwinned := by decide +kernel
  exact fun n hn => this ⟨n, hn⟩

end CollateX
