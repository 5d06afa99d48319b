import Verif.Proofs.Sigla
import Verif.Props.Near
/-
Near matching on inputs that differ only in the sigla and in token fields that play no part.
-/

namespace CollateX
open Spec

/-! ### The labels of the start and end vertices -/

theorem dget_append_left {K V : Type} [DecidableEq K] {d : Dict K V} {k : K} {v : V} (e : Dict K V) (h : dget d k = some v) :
    dget (d ++ e) k = some v := by
  induction d with
  | nil => cases h
  | cons p d ih =>
    obtain ⟨a, b⟩ := p
    simp only [List.cons_append, dget] at h ⊢
    split at h
    · rw [if_pos ‹_›]; exact h
    · rw [if_neg ‹_›]; exact ih h

/-- Vertex `v` has the label `l`. -/
def HasLabel (g : VGraph) (v : VId) (l : Str) : Prop := ∃ x, dget g.nodes v = some x ∧ x.label = l

theorem HasLabel.addVertex {g : VGraph} {v : VId} {l : Str} (h : HasLabel g v l) (t : Token) (σ : Str) :
    HasLabel (g.addVertex t σ).1 v l := by
  obtain ⟨x, h1, h2⟩ := h
  exact ⟨x, dget_append_left _ h1, h2⟩

theorem dget_map_if {V : Type} {d : Dict Nat V} (f : V → V) (u v : Nat) :
    dget (d.map (fun p => if p.1 = u then (p.1, f p.2) else p)) v = (dget d v).map (fun x => if v = u then f x else x) := by
  induction d with
  | nil => rfl
  | cons p d ih =>
    obtain ⟨a, b⟩ := p
    simp only [List.map_cons]
    by_cases h : a = u
    · rw [if_pos h]
      simp only [dget]
      split
      · rename_i e; subst e; simp [h]
      · exact ih
    · rw [if_neg h]
      simp only [dget]
      split
      · rename_i e; subst e; simp [h]
      · exact ih

theorem HasLabel.addTokenAt {g : VGraph} {v : VId} {l : Str} (h : HasLabel g v l) (u : VId) (σ : Str) (t : Token) :
    HasLabel (g.addTokenAt u σ t) v l := by
  obtain ⟨x, h1, h2⟩ := h
  unfold VGraph.addTokenAt HasLabel
  simp only
  rw [dget_map_if (V := Vertex) (fun x => x.addToken σ t), h1]
  refine ⟨_, rfl, ?_⟩
  split
  · rw [addToken_label]; exact h2
  · exact h2

theorem HasLabel.connect {g : VGraph} {v : VId} {l : Str} (h : HasLabel g v l) (a b : VId) (σ : Str) :
    HasLabel (g.connect a b σ) v l := by
  unfold VGraph.connect
  split <;> exact h

theorem HasLabel.merge {g : VGraph} {v : VId} {l : Str} (h : HasLabel g v l) (σ : Str) (ts : List Token) (al : Dict Token VId) :
    HasLabel (merge g σ ts al).1 v l := by
  have key : ∀ (ts : List Token) (s : MergeSt), HasLabel s.g v l → HasLabel (ts.foldl (mergeStep σ al) s).g v l := by
    intro ts
    induction ts with
    | nil => intro s h; exact h
    | cons t ts ih =>
      intro s h
      apply ih
      unfold mergeStep
      split
      · exact (h.addVertex t σ).connect _ _ _
      · exact (h.addTokenAt _ σ t).connect _ _ _
  exact (key ts _ h).connect _ _ _

theorem HasLabel.align {ts : TopoFn} {pf : Option PFilter} {ti : TokenIndex} {v : VId} {l : Str} (ws : List Witness) : ∀ {s s' : AlignSt},
    HasLabel s.g v l → alignWitnesses ts pf false ti ws s = .ok s' → HasLabel s'.g v l := by
  induction ws with
  | nil =>
    intro s s' h e
    obtain rfl := Except.ok.inj e
    exact h
  | cons w ws ih =>
    intro s s' h e
    obtain ⟨s1, h1, e⟩ := bind_eq_ok.mp e
    refine ih ?_ e
    unfold alignStep at h1
    obtain ⟨_, _, h1⟩ := bind_eq_ok.mp h1
    obtain ⟨_, _, h1⟩ := bind_eq_ok.mp h1
    obtain ⟨_, _, h1⟩ := bind_eq_ok.mp h1
    obtain ⟨al, _, h1⟩ := bind_eq_ok.mp h1
    obtain ⟨_, _, h1⟩ := bind_eq_ok.mp h1
    obtain ⟨_, _, h1⟩ := bind_eq_ok.mp h1
    obtain ⟨_, _, h1⟩ := bind_eq_ok.mp h1
    obtain ⟨_, _, h1⟩ := bind_eq_ok.mp h1
    simp only [Bool.false_eq_true, if_false] at h1
    rw [← Except.ok.inj h1]
    exact h.merge _ _ _

/-- The aligner leaves the labels of the start and end vertices alone. -/
theorem collateGraph_ends {ts : TopoFn} {pf : Option PFilter} {ws : Collation} {r : TokenIndex × AlignSt}
    (h : collateGraph ts pf false ws = .ok r) : HasLabel r.2.g startV (S "start") ∧ HasLabel r.2.g endV (S "end") := by
  unfold collateGraph at h
  obtain ⟨ti, _, h⟩ := bind_eq_ok.mp h
  split at h
  · cases h
  · rename_i w rest _
    obtain ⟨s, h1, h⟩ := bind_eq_ok.mp h
    obtain ⟨s', h2, h⟩ := bind_eq_ok.mp h
    have e := Except.ok.inj h
    subst e
    have h0 : HasLabel s.g startV (S "start") ∧ HasLabel s.g endV (S "end") := by
      unfold firstWitness at h1
      obtain ⟨_, _, h1⟩ := bind_eq_ok.mp h1
      obtain ⟨_, _, h1⟩ := bind_eq_ok.mp h1
      obtain ⟨_, _, h1⟩ := bind_eq_ok.mp h1
      rw [← Except.ok.inj h1]
      have i1 : HasLabel VGraph.init startV (S "start") := ⟨_, rfl, rfl⟩
      have i2 : HasLabel VGraph.init endV (S "end") := ⟨_, rfl, rfl⟩
      exact ⟨i1.merge _ _ _, i2.merge _ _ _⟩
    exact ⟨h0.1.align _ h2, h0.2.align _ h2⟩

/-! ### Near matching -/

section
variable {R : Str → Str → Prop} {T : Token → Token → Prop}

/-- Corresponding states of near matching. -/
structure NRel (R : Str → Str → Prop) (T : Token → Token → Prop) (s s' : VGraph × Ranking) : Prop where
  graph : GRel R T s.1 s'.1
  shown : ∀ v, s.1.vertexStr v = s'.1.vertexStr v
  ranks : s.2 = s'.2

theorem targetRanks_rel {es es' : List Edge} (h : List.Forall₂ ERel es es') (r : Ranking) : targetRanks r es = targetRanks r es' := by
  induction h with
  | nil => rfl
  | cons he _ ih => unfold targetRanks; rw [he.2, ih]

theorem GRel.connectNear {g g' : VGraph} (h : GRel R T g g') (u v : VId) : GRel R T (g.connectNear u v) (g'.connectNear u v) := by
  unfold VGraph.connectNear
  rw [h.near]
  split
  · exact h
  · exact ⟨h.nodes, h.edges, rfl, h.next⟩

theorem connectNear_vertexStr (g : VGraph) (u v w : VId) : (g.connectNear u v).vertexStr w = g.vertexStr w := by
  unfold VGraph.connectNear
  split <;> rfl

theorem nearEdge_rel (ts : TopoFn) (ratio : RatioFn) (v : VId) {s s' : VGraph × Ranking} (h : NRel R T s s') {e e' : Edge} (he : ERel e e') :
    PyRel (NRel R T) (nearEdge ts ratio v s e) (nearEdge ts ratio v s' e') := by
  obtain ⟨g, r⟩ := s
  obtain ⟨g', r'⟩ := s'
  obtain rfl : r = r' := h.ranks
  have hg : GRel R T g g' := h.graph
  have hs : ∀ v, g.vertexStr v = g'.vertexStr v := h.shown
  unfold nearEdge
  simp only
  rw [he.1, targetRanks_rel (hg.outEdges e'.src) r]
  cases dgetE r.byVertex v with
  | error x => exact .error x
  | ok rv =>
    simp only [bind_ok]
    cases dgetE r.byVertex e'.src with
    | error x => exact .error x
    | ok rs =>
      simp only [bind_ok]
      split
      · cases targetRanks r (g'.outEdges e'.src) with
        | error x => exact .error x
        | ok outs =>
          simp only [bind_ok]
          split
          · exact .ok h
          · cases verticesOfRanks r rs (rv - rs) with
            | error x => exact .error x
            | ok cands =>
              simp only [bind_ok]
              have hw : (fun c => ratio (g.vertexStr e'.src) (g.vertexStr c)) = fun c => ratio (g'.vertexStr e'.src) (g'.vertexStr c) := by
                funext c
                rw [hs, hs]
              rw [hw]
              cases winner (fun c => ratio (g'.vertexStr e'.src) (g'.vertexStr c)) (cands.filter (fun c => c ≠ e'.src)) with
              | error x => exact .error x
              | ok w =>
                simp only [bind_ok]
                have hc := hg.connectNear w e'.src
                rw [hc.ranking]
                cases rankingOf ts (g'.connectNear w e'.src) with
                | error x => exact .error x
                | ok r2 =>
                  refine .ok ⟨hc, fun u => ?_, rfl⟩
                  rw [connectNear_vertexStr, connectNear_vertexStr]
                  exact hs u
      · exact .ok h

theorem nearEdges_rel (ts : TopoFn) (ratio : RatioFn) (v : VId) {es es' : List Edge} (he : List.Forall₂ ERel es es') :
    ∀ {s s' : VGraph × Ranking}, NRel R T s s' → PyRel (NRel R T) (nearEdges ts ratio v es s) (nearEdges ts ratio v es' s') := by
  induction he with
  | nil => intro s s' h; exact .ok h
  | cons hp _ ih =>
    intro s s' h
    exact (nearEdge_rel ts ratio v h hp).bind fun _ _ h2 => ih h2

theorem nearVertices_rel (ts : TopoFn) (ratio : RatioFn) (vs : List VId) :
    ∀ {s s' : VGraph × Ranking}, NRel R T s s' → PyRel (NRel R T) (nearVertices ts ratio vs s) (nearVertices ts ratio vs s') := by
  induction vs with
  | nil => intro s s' h; exact .ok h
  | cons v vs ih =>
    intro s s' h
    exact (nearEdges_rel ts ratio v (h.graph.inEdges v) h).bind fun _ _ h2 => ih h2

theorem performNearMatch_rel (ts : TopoFn) (ratio : RatioFn) {g g' : VGraph} {r : Ranking} (h : NRel R T (g, r) (g', r)) :
    PyRel (NRel R T) (performNearMatch ts ratio g r) (performNearMatch ts ratio g' r) := by
  unfold performNearMatch
  have ht : g.topo ts = g'.topo ts := by
    have hp : g.edges.map (fun e => (e.src, e.tgt)) = g'.edges.map (fun e => (e.src, e.tgt)) := h.graph.pairs
    unfold VGraph.topo
    rw [h.graph.vertices, hp]
  rw [ht]
  cases g'.topo ts with
  | error x => exact .error x
  | ok order =>
    simp only [bind_ok]
    refine (nearVertices_rel ts ratio order.reverse h).bind fun s s' h2 => ?_
    rw [h2.graph.ranking]
    cases rankingOf ts s'.1 with
    | error x => exact .error x
    | ok r2 => exact .ok ⟨h2.graph, h2.shown, rfl⟩

end

/-- Corresponding graphs show the same readings if corresponding tokens have the same string. -/
theorem vertexStr_rel {R : Str → Str → Prop} {T : Token → Token → Prop} {cc : CharClass} {ws ws' : List Witness} {g g' : VGraph}
    {ps ps' : List WPath} {rk rk' : Ranking} {rkf rkf' : VId → Nat} {ord ord' : List VId} {m m' : Nat}
    (C : Collated cc ws false g ps rk rkf ord m) (C' : Collated cc ws' false g' ps' rk' rkf' ord' m')
    (hs : ∀ w ∈ ws, w.sigil ≠ []) (hne : ∀ a b, R a b → a ≠ [] ∧ b ≠ [])
    (h : GRel R T g g') (hT : ∀ t t', T t t' → t.str = t'.str) {a b : Str}
    (h1 : HasLabel g startV a) (h1' : HasLabel g' startV a) (h2 : HasLabel g endV b) (h2' : HasLabel g' endV b) :
    ∀ v, g.vertexStr v = g'.vertexStr v := by
  intro v
  have hv := DRel.get oneOne_eq h.nodes (k := v) (k' := v) rfl
  unfold VGraph.vertexStr
  by_cases e1 : v = startV
  · obtain ⟨x, x1, x2⟩ := h1
    obtain ⟨y, y1, y2⟩ := h1'
    rw [e1, x1, y1]
    simp only [x2, y2]
  by_cases e2 : v = endV
  · obtain ⟨x, x1, x2⟩ := h2
    obtain ⟨y, y1, y2⟩ := h2'
    rw [e2, x1, y1]
    simp only [x2, y2]
  cases e : dget g.nodes v with
  | none =>
    rw [e] at hv
    generalize dget g'.nodes v = y at hv
    cases hv
    rfl
  | some x =>
    rw [e] at hv
    cases e' : dget g'.nodes v with
    | none => rw [e'] at hv; cases hv
    | some x' =>
      rw [e'] at hv
      cases hv with
      | some hx =>
        have hvm : v ∈ g.vertices := List.mem_map.mpr ⟨_, dget_mem e, rfl⟩
        obtain ⟨p, hp, hpv⟩ := C.ginv.cover v hvm e1 e2
        obtain ⟨⟨v', us⟩, hq, rfl⟩ := List.mem_map.mp hpv
        obtain ⟨t, ht⟩ := C.single rfl p hp _ hq
        simp only at ht e e' hx e1 e2
        subst ht
        have hps := C.sigil_ne hs p hp
        have ht2 := (C.ginv.tok v' x e p.sigil hps [t]).mpr ⟨p, hp, rfl, hq⟩
        have hlab := C.labelled p hp v' [t] hq x e
        have hmem := dget_mem ht2
        have hd : ∃ σ' ts', (σ', ts') ∈ x'.tokens ∧ R p.sigil σ' ∧ List.Forall₂ T [t] ts' := by
          unfold VRel DRel at hx
          obtain ⟨i, hi⟩ := List.getElem?_of_mem hmem
          have hl := hx.length_eq
          rw [List.forall₂_iff_get] at hx
          obtain ⟨g1, g2⟩ := List.getElem?_eq_some_iff.mp hi
          have := hx.2 i g1 (by omega)
          simp only [List.get_eq_getElem, g2] at this
          exact ⟨_, _, List.getElem_mem (by omega), this.1, this.2⟩
        obtain ⟨σ', ts', d1, d2, d3⟩ := hd
        cases d3 with
        | @cons _ t' _ l' hT' d3 =>
          cases d3
          have nd' := C'.ginv.tok_nd v' x' e'
          have d4 := (dget_iff_mem nd').mpr d1
          obtain ⟨p', hp', _, hq'⟩ := (C'.ginv.tok v' x' e' σ' (hne _ _ d2).2 [t']).mp d4
          have hlab' := C'.labelled p' hp' v' [t'] hq' x' e'
          simp only
          rw [hlab, hlab']
          simp [segText, hT _ _ hT']

end CollateX
