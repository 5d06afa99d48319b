import Verif.Proofs.Drawing
import Verif.Props.Export
import Verif.Props.Near
/-
The drawing of the variant graph: C62.
-/

namespace CollateX
open Spec

/-- The ranking that `collate` works with is the ranking of its graph. -/
theorem collateRanked_ranking {env : Env} {ws ws' : List Witness} {o : Opts} {g : VGraph} {rk : Ranking}
    (h : collateRanked env ws o = .ok (ws', g, rk)) : rankingOf env.topo g = .ok rk := by
  unfold collateRanked at h
  split at h
  · cases h
  · obtain ⟨r, _, h⟩ := bind_eq_ok.mp h
    obtain ⟨rk0, hrk0, h⟩ := bind_eq_ok.mp h
    obtain ⟨p, hp, h⟩ := bind_eq_ok.mp h
    split at h
    · obtain ⟨g', _, h⟩ := bind_eq_ok.mp h
      obtain ⟨rk', hrk', h⟩ := bind_eq_ok.mp h
      have h := Except.ok.inj h
      simp only [Prod.mk.injEq] at h
      rw [← h.2.1, ← h.2.2]
      exact hrk'
    · rename_i hseg
      have h := Except.ok.inj h
      simp only [Prod.mk.injEq] at h
      rw [← h.2.1, ← h.2.2]
      split at hp
      · unfold performNearMatch at hp
        obtain ⟨o1, _, hp⟩ := bind_eq_ok.mp hp
        obtain ⟨s, _, hp⟩ := bind_eq_ok.mp hp
        obtain ⟨r', hr', hp⟩ := bind_eq_ok.mp hp
        obtain rfl := Except.ok.inj hp
        exact hr'
      · obtain rfl := Except.ok.inj hp
        exact hrk0

/-- The tokens at a vertex have a text. -/
theorem node_texts {cc : CharClass} {ws : List Witness} {seg : Bool} {g : VGraph} {ps : List WPath} {rk : Ranking} {rkf : VId → Nat}
    {ord : List VId} {m : Nat} (C : Collated cc (indexed 0 ws) seg g ps rk rkf ord m)
    {env : Env} {o : Opts} {g' : VGraph} {rk' : Ranking} (hc : collateRanked env ws o = .ok (indexed 0 ws, g', rk')) (hs : ∀ w ∈ ws, w.sigil ≠ []) (hx : HasTexts ws) :
    ∀ p ∈ g.nodes, (p.2.tokens.map Prod.fst).Nodup ∧ ∀ q ∈ p.2.tokens, ∃ s, TextOf q.2 s := by
  intro p hp
  have hd : dget g.nodes p.1 = some p.2 := (dget_iff_mem C.ginv.nd).mpr hp
  have hnd := C.ginv.tok_nd _ _ hd
  refine ⟨hnd, ?_⟩
  intro q hq
  obtain ⟨pw, hpw, _, hseg⟩ := (C.carries (indexed_sigil_ne hs)).mp ⟨p.2, hd, (dget_iff_mem hnd).mpr hq⟩
  obtain ⟨k, hk⟩ := List.getElem?_of_mem hpw
  have hlt : k < (indexed 0 ws).length := by
    rw [← C.length]
    exact (List.getElem?_eq_some_iff.mp hk).1
  obtain ⟨p', hp', _, htext⟩ := C.at (List.getElem?_eq_getElem hlt)
  rw [hk] at hp'
  obtain rfl := Option.some.inj hp'
  have hlt' : k < ws.length := by rw [indexed_length] at hlt; exact hlt
  have hsame := sameTokens_at hc (List.getElem?_eq_getElem hlt') (List.getElem?_eq_getElem hlt)
  obtain ⟨s, h1⟩ := exists_textOf (hx _ (List.getElem_mem hlt'))
  have h2 := (textOf_sameToken hsame).mp h1
  rw [← htext] at h2
  obtain ⟨a, b, hab⟩ := List.append_of_mem hseg
  unfold WPath.text at h2
  rw [hab, List.flatMap_append, List.flatMap_cons] at h2
  obtain ⟨_, y, _, h3, _⟩ := textOf_append.mp h2
  obtain ⟨x, _, h4, _⟩ := textOf_append.mp h3
  exact ⟨x, h4⟩

/-- The graph of a collation, with exact or near matching, and its ranking, can be drawn. -/
theorem drawing_of (env : Env) (hts : TopoSpec env.topo) (ws : List Witness) (hv : Valid ws) (hs : ∀ w ∈ ws, w.sigil ≠ [])
    (hx : HasTexts ws) (o : Opts) (ho : ExactMatching o ∨ NearMatching o) (simple : Bool) :
    ∃ (ws' : Collation) (g : VGraph) (rk : Ranking) (ds : List Drawn) (rank : Nat → Nat) (name : Nat → Str),
      collateRanked env ws o = .ok (ws', g, rk) ∧ drawGraph env.topo simple g = .ok ds ∧
      (∀ v ∈ g.vertices, dget rk.byVertex v = some (rank v)) ∧ DrawnAs g rank simple ds name ∧
      dashedOf ds = (g.vertices.flatMap (fun v => g.near.filter (fun e => e.1 = v))).map (fun e => (name e.1, name e.2)) := by
  rcases ho with ho | ho
  · obtain ⟨g, ps, rk, rkf, ord, m, h1, C⟩ := collateRanked_ok env hts hv o ho.astar ho.detect ho.near
    have hnd : ord.Nodup := C.rank.topo.perm.nodup_iff.mpr C.ginv.nd
    obtain ⟨ds, name, h2, h3⟩ := drawGraph_ok (collateRanked_ranking h1) C.ginv.nd C.rank.topo.perm (C.rank.ranked hnd) C.ginv.wf.ends
      (by rw [C.ginv.near]; simp) (node_texts C h1 hs hx) simple
    exact ⟨_, g, rk, ds, rkf, name, h1, h2, fun v hv => C.rank.byVertex hv, h3⟩
  · obtain ⟨g, ps, r, rk, ord, m, B, C, h0, h1⟩ := near_base env hts hv ho
    obtain ⟨s, h2, n, f, h3, R, h4, _⟩ := performNearMatch_ok B env.ratio
    rw [h2] at h1
    have h1' : collateRanked env ws o = .ok (indexed 0 ws, s.1, s.2) := h1
    have hvert : s.1.vertices = g.vertices := by rw [h3]; rfl
    have hpairs : s.1.pairs = g.pairs := by rw [h3]; rfl
    have hnodes : s.1.nodes = g.nodes := by rw [h3]; rfl
    have hnear : s.1.near = n := by rw [h3]; rfl
    have hperm : ord.Perm s.1.vertices := by rw [hvert]; exact B.rank.topo.perm
    obtain ⟨ds, name, h5, h6⟩ := drawGraph_ok (collateRanked_ranking h1') (by rw [hvert]; exact B.wf.nd) hperm R
      (by rw [hpairs, hvert]; exact B.wf.ends)
      (by rw [hnear]; exact fun p hp => ⟨hperm.mem_iff.mp (h4 p hp).1, hperm.mem_iff.mp (h4 p hp).2.1⟩)
      (by rw [hnodes]; exact node_texts C h0 hs hx) simple
    refine ⟨_, s.1, s.2, ds, f, name, h1', h5, ?_, h6⟩
    intro v hv
    rw [R.bv]
    exact dget_map_self f ord v (hperm.mem_iff.mpr hv)

/-- C62. For `output="svg"` and `output="svg_simple"`, with exact or near matching, the drawing shows the graph of the collation: every
vertex has a node of its own, every edge is drawn once with its label, every near-match edge once, and two vertices are in a group
exactly if they have the same rank. In the simple drawing a node shows the label of the vertex (`#` for an empty one); in the full
drawing it shows the label, the rank, and the readings, each with its witnesses, such that each witness of the vertex is listed once
and, if its reading has no `&`, with that reading. -/
theorem C62_drawing_partial (env : Env) (hts : TopoSpec env.topo) (ws : List Witness) (hv : Valid ws) (hs : ∀ w ∈ ws, w.sigil ≠ [])
    (hx : HasTexts ws) (o : Opts) (ho : ExactMatching o ∨ NearMatching o) (simple : Bool) :
    ∃ (ws' : Collation) (g : VGraph) (rk : Ranking) (ds : List Drawn) (rank : Nat → Nat) (name : Nat → Str),
      collateRanked env ws o = .ok (ws', g, rk) ∧
      collate env ws { o with output := if simple then S "svg_simple" else S "svg" } = .ok (.svg g) ∧
      drawGraph env.topo simple g = .ok ds ∧
      (∀ v ∈ g.vertices, dget rk.byVertex v = some (rank v)) ∧ DrawnAs g rank simple ds name := by
  obtain ⟨ws', g, rk, ds, rank, name, h1, h2, h3, h4, _⟩ := drawing_of env hts ws hv hs hx o ho simple
  refine ⟨ws', g, rk, ds, rank, name, h1, ?_, h2, h3, h4⟩
  have h1' : collateRanked env ws { o with output := if simple then S "svg_simple" else S "svg" } = .ok (ws', g, rk) := h1
  simp only [collate, h1', bind_ok]
  unfold render
  rw [if_pos]
  cases simple
  · exact Or.inl rfl
  · exact Or.inr rfl

/-- `&lt;` in one witness and `<` in the other, with the same normalised form. -/
def entityWitnesses : List Witness :=
  [⟨S "A", [⟨S "x", [(.t, .str (S "&lt;")), (.n, .str (S "x"))]⟩]⟩, ⟨S "B", [⟨S "x", [(.t, .str (S "<")), (.n, .str (S "x"))]⟩]⟩]

theorem entityWitnesses_valid : Valid entityWitnesses := valid_of_check (by decide) (by decide) (by decide) (by decide)

theorem entityWitnesses_texts : HasTexts entityWitnesses := by
  have h : ∀ w ∈ entityWitnesses, ∀ t ∈ w.tokens, dget t.data .t = some (.str (S "&lt;")) ∨ dget t.data .t = some (.str (S "<")) := by
    decide
  intro w hw t ht
  rcases h w hw t ht with h | h <;> exact ⟨_, h⟩

/-- The drawing of a collation. -/
def drawingOf (env : Env) (ws : List Witness) (o : Opts) (simple : Bool) : Py (List Drawn) := do
  let (_, g, _) ← collateRanked env ws o
  drawGraph env.topo simple g

/-- C62, the limit: `&` is not escaped, so that the readings `&lt;` and `<` are shown as one reading of both witnesses. -/
theorem C62_ampersand : Valid entityWitnesses ∧ HasTexts entityWitnesses ∧
    (drawingOf exampleEnv entityWitnesses {} false).map (fun ds => (nodesOf ds)[2]?) =
      .ok (some (S "3", fullLabel (S "x") 1 [(S "&lt;", [S "A", S "B"])])) :=
  ⟨entityWitnesses_valid, entityWitnesses_texts, by decide +kernel⟩

/-- The hypotheses of C62 are met; the drawing of `a b` and `a c`. -/
example : TopoSpec exampleEnv.topo ∧ Valid plainWitnesses ∧ (∀ w ∈ plainWitnesses, w.sigil ≠ []) ∧ HasTexts plainWitnesses ∧
    ExactMatching {} ∧ NearMatching { segmentation := false, nearMatch := true } ∧
    drawingOf exampleEnv plainWitnesses {} true = .ok [.node (S "1") (S "start"), .node (S "2") (S "end"), .node (S "3") (S "a"),
      .node (S "4") (S "b"), .node (S "5") (S "c"), .edge (S "1") (S "3") (S "A, B"), .edge (S "3") (S "4") (S "A"),
      .edge (S "3") (S "5") (S "B"), .edge (S "4") (S "2") (S "A"), .edge (S "5") (S "2") (S "B"),
      .same [S "1"], .same [S "3"], .same [S "4", S "5"], .same [S "2"]] :=
  ⟨kahn_spec, plainWitnesses_valid, by decide, plainWitnesses_texts, ⟨rfl, rfl, rfl⟩, ⟨rfl, rfl, rfl, rfl⟩, by decide +kernel⟩

end CollateX
