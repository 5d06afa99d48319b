import Verif.Proofs.JoinLoop
import Verif.Proofs.Aligner
import Verif.Proofs.Valid
import Verif.Model.Collate
/-
The whole of `collate` (exact matching) up to the ranking.
-/

namespace CollateX
open Spec

/-- The text of a segment: the token strings, with a space before each one (but the first) that does not start with a
non-word character. -/
def segText (cc : CharClass) : List Str → Str
  | [] => []
  | s :: rest => s ++ (rest.map (joinLabel cc [])).flatten

theorem joinLabel_eq (cc : CharClass) (l m : Str) : joinLabel cc l m = l ++ joinLabel cc [] m := by
  unfold joinLabel
  cases m with
  | nil => simp
  | cons c m => simp only; split <;> simp

theorem segText_snoc (cc : CharClass) {l : List Str} (h : l ≠ []) (m : Str) :
    segText cc (l ++ [m]) = joinLabel cc (segText cc l) m := by
  cases l with
  | nil => exact absurd rfl h
  | cons s rest =>
    rw [joinLabel_eq]
    simp [segText]

/-- The label of a vertex is the text of the tokens of any witness on it. -/
def Labelled (cc : CharClass) (g : VGraph) (ps : List WPath) : Prop :=
  ∀ p ∈ ps, ∀ v ts, (v, ts) ∈ p.segs → ∀ x, dget g.nodes v = some x → x.label = segText cc (ts.map Token.str)

theorem labelled_step (cc : CharClass) : StepInv cc (Labelled cc) := by
  intro g ps v c x hg J hvs hx hsingle hl
  have hvc := J.ne hg
  obtain ⟨hvm, hcm⟩ := hg.wf.ends _ J.edge
  simp only at hvm hcm
  obtain ⟨xv, hxv⟩ := exists_dget_of_mem_keys hvm
  obtain ⟨xc, hxc⟩ := exists_dget_of_mem_keys hcm
  have hlab : x.label = joinLabel cc xv.label xc.label := by
    unfold joinVertices VGraph.vertexE at hx
    rw [dgetE_of_dget hxv, dgetE_of_dget hxc] at hx
    simp only [bind_ok] at hx
    obtain ⟨x', h1, h2⟩ := bind_eq_ok.mp hx
    have hcne : ∀ s ts, (s, ts) ∈ xc.tokens → ts ≠ [] := by
      intro s ts hm
      have hd := dget_of_mem (hg.tok_nd c xc hxc) hm
      by_cases hs : s = []
      · subst hs; exact (hg.tok0 c xc hxc ts hd).1
      · obtain ⟨p, hp, _, hseg⟩ := (hg.tok c xc hxc s hs ts).mp hd
        exact (hg.segs_in p hp _ hseg).2.2.2
    obtain ⟨x'', h3, h4, _⟩ := joinTokens_ok xc.tokens { xv with label := joinLabel cc xv.label xc.label }
      (hg.tok_nd v xv hxv) (hg.tok_nd c xc hxc) hcne
    rw [h3] at h1
    obtain rfl := Except.ok.inj h1
    have h5 := Except.ok.inj h2
    have h6 : dget (g.setVertex v x'').nodes v = dget (g.setVertex v x).nodes v := by rw [h5]
    have h7 : ∀ y : Vertex, dget (g.setVertex v y).nodes v = some y := by
      intro y
      unfold VGraph.setVertex
      have := dget_map_nodes g.nodes v (fun _ => y) v
      simp only at this
      rw [this, if_pos trivial, hxv]; rfl
    rw [h7, h7] at h6
    rw [← Option.some.inj h6, h4]
  intro p' hp' u ts hts y hy
  obtain ⟨p, hp, rfl⟩ := List.mem_map.mp hp'
  have huc : u ≠ c := by
    have : u ∈ (joined g c v x).vertices := List.mem_map.mpr ⟨_, dget_mem hy, rfl⟩
    exact (mem_vertices_joined.mp this).2
  rw [dget_joined hvc hg.nd hvm huc] at hy
  rcases (J.mem_segs hg hvs hp).mp hts with ⟨h1, h2, h3⟩ | ⟨rfl, t1, t2, h1, h2, rfl⟩
  · rw [if_neg h1] at hy
    exact hl p hp u ts h3 y hy
  · rw [if_pos rfl] at hy
    obtain rfl := Option.some.inj hy
    obtain ⟨t, rfl⟩ := hsingle p hp t2 h2
    rw [hlab, hl p hp _ _ h1 xv hxv, hl p hp _ _ h2 xc hxc, List.map_append]
    have hne : t1.map Token.str ≠ [] := by
      have := (hg.segs_in p hp _ h1).2.2.2
      simpa using this
    rw [List.map_cons, List.map_nil, segText_snoc cc hne]
    simp [segText]

/-! ### From the aligner's invariant -/

theorem AInv.single {ti : TokenIndex} {s : AlignSt} {ps : List WPath} (h : AInv ti s ps) :
    ∀ p ∈ ps, ∀ q ∈ p.segs, ∃ t, q.2 = [t] := by
  intro p hp q hq
  obtain ⟨k, hk, rfl⟩ := List.getElem_of_mem hp
  have hlt : k < ti.ws.length := lt_of_lt_of_le hk h.len
  have := (h.reads k ti.ws[k] ps[k] (List.getElem?_eq_getElem hlt) (List.getElem?_eq_getElem hk)).2
  have h2 : q.2 ∈ ps[k].segs.map Prod.snd := List.mem_map.mpr ⟨q, hq, rfl⟩
  rw [this] at h2
  obtain ⟨t, _, ht⟩ := List.mem_map.mp h2
  exact ⟨t, ht.symm⟩

theorem AInv.labelled {ti : TokenIndex} {s : AlignSt} {ps : List WPath} (h : AInv ti s ps) (cc : CharClass) :
    Labelled cc s.g ps := by
  intro p hp v ts hts x hx
  obtain ⟨t, ht⟩ := h.single p hp _ hts
  simp only at ht
  subst ht
  rw [h.label p hp v t hts x hx]
  simp [segText]

theorem AInv.uniform {ti : TokenIndex} {s : AlignSt} {ps : List WPath} (h : AInv ti s ps) : Uniform ps := by
  intro p hp q hq v ts us hts hus
  obtain ⟨t, ht⟩ := h.single p hp _ hts
  obtain ⟨u, hu⟩ := h.single q hq _ hus
  simp only at ht hu
  subst ht; subst hu
  obtain ⟨x, hx⟩ := exists_dget_of_mem_keys (h.ginv.segs_in p hp _ hts).1
  simp only [List.map_cons, List.map_nil, List.cons.injEq, and_true]
  rw [← h.label p hp v t hts x hx, ← h.label q hq v u hus x hx]

theorem AInv.readings {ti : TokenIndex} {s : AlignSt} {ps : List WPath} (h : AInv ti s ps)
    (hlen : ps.length = ti.ws.length) : readings ps = ti.ws.map (fun w => (w.sigil, w.tokens)) := by
  unfold CollateX.readings
  apply List.ext_getElem
  · simp [hlen]
  · intro k h1 h2
    rw [List.length_map] at h1 h2
    rw [List.getElem_map, List.getElem_map]
    obtain ⟨g1, g2⟩ := h.reads k ti.ws[k] ps[k] (List.getElem?_eq_getElem h2) (List.getElem?_eq_getElem h1)
    rw [g1]
    congr 1
    unfold WPath.text
    rw [List.flatMap_def, g2]
    generalize ti.ws[k].tokens = l
    induction l with
    | nil => rfl
    | cons a l ih => simp [ih]

/-- What is known of the result of `collate` up to the ranking. -/
structure Collated (cc : CharClass) (ws : List Witness) (seg : Bool) (g : VGraph) (ps : List WPath) (rk : Ranking)
    (rkf : VId → Nat) (ord : List VId) (m : Nat) : Prop where
  ginv : GInv g ps
  readings : readings ps = ws.map (fun w => (w.sigil, w.tokens))
  uniform : Uniform ps
  labelled : Labelled cc g ps
  single : seg = false → ∀ p ∈ ps, ∀ q ∈ p.segs, ∃ t, q.2 = [t]
  maximal : seg = true → Maximal g
  rank : RankingOf g rkf ord m rk

/-- Collating, with anything that holds after the first witness, is kept by every further witness (`Q`) and by every
join (`R`). -/
theorem collateRanked_inv (env : Env) (hts : TopoSpec env.topo) {ws : List Witness} (hv : Valid ws) (o : Opts)
    (ha : o.astar = false) (hd : o.detect = false) (hn : o.nearMatch = false) {Q : TokenIndex → AlignSt → List WPath → Prop}
    {R : VGraph → List WPath → Prop}
    (hQ : ∀ ti, ti.ws = indexed 0 ws → Layout ti → BlocksOK ti → StepKeeps env.topo o.pfilter ti (Q ti) ∧
      (∀ w s, ti.ws[0]? = some w → AInv ti s [⟨w.sigil, newSegs [] 2 w.tokens⟩] → Q ti s [⟨w.sigil, newSegs [] 2 w.tokens⟩]) ∧
      (∀ s ps, AInv ti s ps → ps.length = ti.ws.length → Q ti s ps → R s.g ps))
    (hR : o.segmentation = true → StepInv env.cc R) :
    ∃ g ps rk rkf ord m, collateRanked env ws o = .ok (indexed 0 ws, g, rk) ∧
      Collated env.cc (indexed 0 ws) o.segmentation g ps rk rkf ord m ∧ R g ps := by
  obtain ⟨ti, hti, hws, L, B⟩ := hv.tokenIndex
  obtain ⟨hQ1, hQ2, hQ3⟩ := hQ ti hws L B
  obtain ⟨s, ps, h1, h2, h3, hq⟩ := collateGraph_inv hts o.pfilter hti L B hQ1 hQ2
  have hr := hQ3 s ps h2 h3 hq
  obtain ⟨rkf, ord, m, rk, h4, h5⟩ := rankingOf_ok hts h2.ginv.wf h2.ginv.near
  cases hseg : o.segmentation with
  | false =>
    refine ⟨s.g, ps, rk, rkf, ord, m, ?_, ?_, hr⟩
    · unfold collateRanked
      rw [if_neg (by simp [ha]), hd, h1]
      simp only [bind_ok, h4, hn, hseg]
      simp [hws, bind_ok]
    · refine ⟨h2.ginv, ?_, h2.uniform, h2.labelled _, fun _ => h2.single, by simp, h5⟩
      rw [h2.readings h3, hws]
  | true =>
    have hstep : StepInv env.cc (fun g ps => Labelled env.cc g ps ∧ R g ps) :=
      fun g ps v c x a1 a2 a3 a4 a5 a6 => ⟨labelled_step env.cc g ps v c x a1 a2 a3 a4 a5 a6.1, hR hseg g ps v c x a1 a2 a3 a4 a5 a6.2⟩
    obtain ⟨g', ps', j1, j2, j3, j4, j5, j6⟩ := join_ok env.cc hstep h2.ginv ⟨h2.labelled env.cc, hr⟩ h2.uniform h2.single
    obtain ⟨rkf', ord', m', rk', h4', h5'⟩ := rankingOf_ok hts j2.wf j2.near
    refine ⟨g', ps', rk', rkf', ord', m', ?_, ?_, j6.2⟩
    · unfold collateRanked
      rw [if_neg (by simp [ha]), hd, h1]
      simp only [bind_ok, h4, hn, hseg]
      simp [hws, j1, h4', bind_ok]
    · refine ⟨j2, ?_, j4, j6.1, by simp, fun _ => j5, h5'⟩
      rw [j3, h2.readings h3, hws]

theorem collateRanked_ok (env : Env) (hts : TopoSpec env.topo) {ws : List Witness} (hv : Valid ws) (o : Opts)
    (ha : o.astar = false) (hd : o.detect = false) (hn : o.nearMatch = false) :
    ∃ g ps rk rkf ord m, collateRanked env ws o = .ok (indexed 0 ws, g, rk) ∧
      Collated env.cc (indexed 0 ws) o.segmentation g ps rk rkf ord m := by
  obtain ⟨g, ps, rk, rkf, ord, m, h1, h2, _⟩ := collateRanked_inv env hts hv o ha hd hn (Q := fun _ _ _ => True)
    (R := fun _ _ => True) (fun _ _ _ _ => ⟨fun _ _ _ _ _ _ _ _ _ _ _ _ _ _ _ _ _ _ => trivial, fun _ _ _ _ => trivial,
      fun _ _ _ _ _ => trivial⟩) (fun _ _ _ _ _ _ _ _ _ _ _ _ => trivial)
  exact ⟨g, ps, rk, rkf, ord, m, h1, h2⟩

end CollateX
