import Verif.Model.NearWeights
import Verif.Props.Drawing
import Verif.Props.NearCells
import Verif.Props.NearOutputs
/-
The weights of near-match edges: C98.
-/

namespace CollateX
open Spec

/-! ### Weights do not change what near matching does -/

theorem highest_winner (score : VId → Nat) (l : List VId) :
    (l = [] ∧ highest (l.map score) = .error .valueError ∧ winner score l = .error .valueError) ∨
    ∃ w, winner score l = .ok w ∧ highest (l.map score) = .ok (score w) := by
  cases l with
  | nil => exact Or.inl ⟨rfl, rfl, rfl⟩
  | cons c cs =>
    refine Or.inr ⟨_, rfl, ?_⟩
    simp only [highest, List.map_cons]
    congr 1
    induction cs generalizing c with
    | nil => rfl
    | cons d cs ih =>
      simp only [List.map_cons, List.foldl_cons]
      rw [← ih]
      congr 1
      split <;> omega

/-- The keys are the near edges, and each weight is the ratio of the two vertices. -/
def WeightsOf (ratio : RatioFn) (g : VGraph) (W : Weights) : Prop :=
  W.map Prod.fst = g.near ∧ ∀ p ∈ W, p.2 = ratio (g.vertexStr p.1.2) (g.vertexStr p.1.1)

theorem nearEdgeW_eq (ts : TopoFn) (ratio : RatioFn) (v : VId) (g : VGraph) (r : Ranking) (W : Weights) (e : Edge) :
    (nearEdgeW ts ratio v (g, r, W) e).map (fun s => (s.1, s.2.1)) = nearEdge ts ratio v (g, r) e ∧
    ∀ s, nearEdgeW ts ratio v (g, r, W) e = .ok s → (g.near.Nodup ∧ WeightsOf ratio g W) → s.1.near.Nodup ∧ WeightsOf ratio s.1 s.2.2 := by
  unfold nearEdgeW nearEdge
  simp only
  cases dgetE r.byVertex v with
  | error x => exact ⟨rfl, fun s h => by cases h⟩
  | ok rv =>
    cases dgetE r.byVertex e.src with
    | error x => exact ⟨rfl, fun s h => by cases h⟩
    | ok rs =>
      simp only [bind_ok]
      split
      · cases targetRanks r (g.outEdges e.src) with
        | error x => exact ⟨rfl, fun s h => by cases h⟩
        | ok outs =>
          simp only [bind_ok]
          split
          · refine ⟨rfl, fun s h hW => ?_⟩
            obtain rfl := Except.ok.inj h
            exact hW
          · cases verticesOfRanks r rs (rv - rs) with
            | error x => exact ⟨rfl, fun s h => by cases h⟩
            | ok cands =>
              simp only [bind_ok]
              rcases highest_winner (fun c => ratio (g.vertexStr e.src) (g.vertexStr c)) (cands.filter (fun c => c ≠ e.src)) with
                ⟨_, h1, h2⟩ | ⟨w, h1, h2⟩
              · rw [h1, h2]
                exact ⟨rfl, fun s h => by cases h⟩
              · rw [h1, h2]
                simp only [bind_ok]
                cases rankingOf ts (g.connectNear w e.src) with
                | error x => exact ⟨rfl, fun s h => by cases h⟩
                | ok r' =>
                  refine ⟨rfl, fun s h hW => ?_⟩
                  obtain rfl := Except.ok.inj h
                  obtain ⟨hn, hk, hw⟩ := hW
                  have hstr : ∀ u, (g.connectNear w e.src).vertexStr u = g.vertexStr u := by
                    intro u
                    unfold VGraph.connectNear
                    split <;> rfl
                  have hnear : (g.connectNear w e.src).near = if (w, e.src) ∈ g.near then g.near else g.near ++ [(w, e.src)] := by
                    unfold VGraph.connectNear
                    split <;> rfl
                  refine ⟨?_, ?_, ?_⟩
                  · simp only
                    rw [hnear]
                    split
                    · exact hn
                    · rename_i hne
                      exact List.nodup_append.mpr ⟨hn, by simp, by
                        intro a ha b hb
                        rw [List.mem_singleton.mp hb]
                        exact fun h => hne (h ▸ ha)⟩
                  · simp only
                    rw [keys_dset, hk, hnear]
                    by_cases hm : (w, e.src) ∈ g.near
                    · rw [if_pos hm, if_pos hm]
                    · rw [if_neg hm, if_neg hm]
                  · intro p hp
                    simp only
                    rw [hstr, hstr]
                    have hnd : ((dset W (w, e.src) (ratio (g.vertexStr e.src) (g.vertexStr w))).map Prod.fst).Nodup :=
                      nodup_keys_dset (by rw [hk]; exact hn) _ _
                    have hd := dget_of_mem hnd (k := p.1) (v := p.2) hp
                    rw [dget_dset] at hd
                    split at hd
                    · rename_i hpe
                      rw [← Option.some.inj hd, ← hpe]
                    · exact hw p (dget_mem hd)
      · refine ⟨rfl, fun s h hW => ?_⟩
        obtain rfl := Except.ok.inj h
        exact hW

theorem nearEdgesW_eq (ts : TopoFn) (ratio : RatioFn) (v : VId) : ∀ (es : List Edge) (g : VGraph) (r : Ranking) (W : Weights),
    (nearEdgesW ts ratio v es (g, r, W)).map (fun s => (s.1, s.2.1)) = nearEdges ts ratio v es (g, r) ∧
    ∀ s, nearEdgesW ts ratio v es (g, r, W) = .ok s → (g.near.Nodup ∧ WeightsOf ratio g W) → s.1.near.Nodup ∧ WeightsOf ratio s.1 s.2.2
  | [], g, r, W => ⟨rfl, fun s h hW => by obtain rfl := Except.ok.inj h; exact hW⟩
  | e :: es, g, r, W => by
    obtain ⟨h1, h2⟩ := nearEdgeW_eq ts ratio v g r W e
    unfold nearEdgesW nearEdges
    cases hs : nearEdgeW ts ratio v (g, r, W) e with
    | error x =>
      rw [hs] at h1
      rw [← h1]
      exact ⟨rfl, fun s h => by cases h⟩
    | ok s' =>
      obtain ⟨g', r', W'⟩ := s'
      rw [hs] at h1
      rw [← h1]
      obtain ⟨k1, k2⟩ := nearEdgesW_eq ts ratio v es g' r' W'
      exact ⟨k1, fun s h hW => k2 s h (h2 _ hs hW)⟩

theorem nearVerticesW_eq (ts : TopoFn) (ratio : RatioFn) : ∀ (vs : List VId) (g : VGraph) (r : Ranking) (W : Weights),
    (nearVerticesW ts ratio vs (g, r, W)).map (fun s => (s.1, s.2.1)) = nearVertices ts ratio vs (g, r) ∧
    ∀ s, nearVerticesW ts ratio vs (g, r, W) = .ok s → (g.near.Nodup ∧ WeightsOf ratio g W) → s.1.near.Nodup ∧ WeightsOf ratio s.1 s.2.2
  | [], g, r, W => ⟨rfl, fun s h hW => by obtain rfl := Except.ok.inj h; exact hW⟩
  | v :: vs, g, r, W => by
    obtain ⟨h1, h2⟩ := nearEdgesW_eq ts ratio v (g.inEdges v) g r W
    unfold nearVerticesW nearVertices
    simp only
    cases hs : nearEdgesW ts ratio v (g.inEdges v) (g, r, W) with
    | error x =>
      rw [hs] at h1
      rw [← h1]
      exact ⟨rfl, fun s h => by cases h⟩
    | ok s' =>
      obtain ⟨g', r', W'⟩ := s'
      rw [hs] at h1
      rw [← h1]
      obtain ⟨k1, k2⟩ := nearVerticesW_eq ts ratio vs g' r' W'
      exact ⟨k1, fun s h hW => k2 s h (h2 _ hs hW)⟩

/-- Near matching with weights is near matching without them, and a set of weights. -/
theorem performNearMatchW_eq (ts : TopoFn) (ratio : RatioFn) (g : VGraph) (r : Ranking) :
    (performNearMatchW ts ratio g r).map (fun s => (s.1, s.2.1)) = performNearMatch ts ratio g r ∧
    ∀ s, performNearMatchW ts ratio g r = .ok s → g.near = [] → s.1.near.Nodup ∧ WeightsOf ratio s.1 s.2.2 := by
  unfold performNearMatchW performNearMatch
  cases g.topo ts with
  | error x => exact ⟨rfl, fun s h => by cases h⟩
  | ok order =>
    simp only [bind_ok]
    obtain ⟨h1, h2⟩ := nearVerticesW_eq ts ratio order.reverse g r []
    cases hs : nearVerticesW ts ratio order.reverse (g, r, []) with
    | error x =>
      rw [hs] at h1
      rw [← h1]
      exact ⟨rfl, fun s h => by cases h⟩
    | ok s' =>
      rw [hs] at h1
      rw [← h1]
      obtain ⟨g', r', W'⟩ := s'
      simp only [bind_ok, Except.map]
      cases hr : rankingOf ts g' with
      | error x => exact ⟨rfl, fun s h => by cases h⟩
      | ok r'' =>
        refine ⟨rfl, fun s h hn => ?_⟩
        obtain rfl := Except.ok.inj h
        exact h2 (g', r', W') hs ⟨by rw [hn]; simp, by rw [hn]; rfl, by simp⟩

theorem weightLabels_ok {fmt : Nat → Str} {W : Weights} {wt : Nat × Nat → Nat} : ∀ {es : List (Nat × Nat)}, (∀ e ∈ es, dget W e = some (wt e)) →
    weightLabels fmt W es = .ok (es.map (fun e => fmt (wt e)))
  | [], _ => rfl
  | e :: es, h => by
    unfold weightLabels
    rw [dgetE_of_dget (h e (by simp)), weightLabels_ok (es := es) (fun e he => h e (by simp [he]))]
    rfl

/-! ### C98 -/

/-- The near edges drawn with their labels: source, target, label. -/
def Spec.labelled (ds : List Drawn) (labels : List Str) : List (Str × Str × Str) :=
  ((dashedOf ds).zip labels).map (fun p => (p.1.1, p.1.2, p.2))

/-- C98. With near matching the drawing has one dashed line for every near edge, and its label is the similarity of the two vertices it
joins: the ratio of the label of the moved vertex and the label of the vertex it was moved to. The graph and the ranking are those of
the collation. -/
theorem C98_near_weights (env : Env) (hts : TopoSpec env.topo) (ws : List Witness) (hv : Valid ws) (hs : ∀ w ∈ ws, w.sigil ≠ [])
    (hx : HasTexts ws) (o : Opts) (ho : NearMatching o) (simple : Bool) (fmt : Nat → Str) :
    ∃ (ws' : Collation) (g : VGraph) (r : Ranking) (g' : VGraph) (r' : Ranking) (W : Weights) (ds : List Drawn) (labels : List Str)
      (rank : Nat → Nat) (name : Nat → Str),
      collateRanked env ws { o with nearMatch := false } = .ok (ws', g, r) ∧
      performNearMatchW env.topo env.ratio g r = .ok (g', r', W) ∧ collateRanked env ws o = .ok (ws', g', r') ∧
      drawGraph env.topo simple g' = .ok ds ∧ DrawnAs g' rank simple ds name ∧
      nearLabels fmt W g' = .ok labels ∧ labels.length = g'.near.length ∧ g'.near.Nodup ∧
      (∀ q ∈ labelled ds labels, ∃ e ∈ g'.near, ∃ ls lw, Shows g' e.2 ls ∧ Shows g' e.1 lw ∧
        q = (name e.1, name e.2, fmt (env.ratio ls lw))) ∧
      ∀ e ∈ g'.near, ∃ ls lw, Shows g' e.2 ls ∧ Shows g' e.1 lw ∧ (name e.1, name e.2, fmt (env.ratio ls lw)) ∈ labelled ds labels := by
  obtain ⟨g, ps, r, rk, ord, m, B, C, h0, h1⟩ := near_base env hts hv ho
  obtain ⟨s, h2, n, f, h3, R, h4, _⟩ := performNearMatch_ok B env.ratio
  obtain ⟨ws', g1, rk1, ds, rank, name, k1, k2, k3, k4, k5⟩ := drawing_of env hts ws hv hs hx o (Or.inr ho) simple
  rw [h1, h2] at k1
  have k1 := Except.ok.inj k1
  simp only [Prod.mk.injEq] at k1
  obtain ⟨rfl, rfl, rfl⟩ := k1
  obtain ⟨w1, w2⟩ := performNearMatchW_eq env.topo env.ratio g r
  rw [h2] at w1
  cases hW : performNearMatchW env.topo env.ratio g r with
  | error x => rw [hW] at w1; cases w1
  | ok sW =>
    rw [hW] at w1
    have w1 := Except.ok.inj w1
    obtain ⟨g', r', W⟩ := sW
    subst w1
    obtain ⟨hnn, hk, hw⟩ := w2 _ hW B.nil
    simp only at hnn hk hw k2 k3 k4 k5 h3 R
    have hvert : g'.vertices = g.vertices := by rw [h3]; rfl
    have hnd : g'.vertices.Nodup := by rw [hvert]; exact B.wf.nd
    have hnear : g'.near = n := by rw [h3]; rfl
    have hin : ∀ e ∈ g'.near, e.1 ∈ g'.vertices ∧ e.2 ∈ g'.vertices := by
      intro e he
      rw [hnear] at he
      rw [hvert]
      exact ⟨B.mem.mp (h4 e he).1, B.mem.mp (h4 e he).2.1⟩
    have hperm : (g'.vertices.flatMap (fun v => g'.near.filter (fun e => e.1 = v))).Perm g'.near :=
      flatMap_filter_perm (fun e : Nat × Nat => e.1) hnd g'.near (fun e he => (hin e he).1)
    have hlab := weightLabels_ok (fmt := fmt) (W := W) (wt := fun e => env.ratio (g'.vertexStr e.2) (g'.vertexStr e.1))
      (es := g'.vertices.flatMap (fun v => g'.near.filter (fun e => e.1 = v))) (by
        intro e he
        have he := hperm.mem_iff.mp he
        rw [← hk] at he
        obtain ⟨p, hp, rfl⟩ := List.mem_map.mp he
        rw [← hw p hp]
        exact dget_of_mem (by rw [hk]; exact hnn) hp)
    have hshow : ∀ v ∈ g'.vertices, Shows g' v (g'.vertexStr v) := by
      intro v hv
      obtain ⟨p, hp, rfl⟩ := List.mem_map.mp hv
      refine ⟨p.2, hp, ?_⟩
      unfold VGraph.vertexStr
      rw [dget_of_mem hnd hp]
      by_cases h : p.2.label = []
      · exact Or.inr ⟨h, by simp [h]⟩
      · exact Or.inl ⟨h, by simp [h]⟩
    have hl : labelled ds ((g'.vertices.flatMap (fun v => g'.near.filter (fun e => e.1 = v))).map
        (fun e => fmt (env.ratio (g'.vertexStr e.2) (g'.vertexStr e.1)))) =
        (g'.vertices.flatMap (fun v => g'.near.filter (fun e => e.1 = v))).map
          (fun e => (name e.1, name e.2, fmt (env.ratio (g'.vertexStr e.2) (g'.vertexStr e.1)))) := by
      unfold labelled
      rw [k5, List.zip_map', List.map_map]
      rfl
    refine ⟨_, g, r, g', r', W, ds, _, rank, name, h0, hW, by rw [h1, h2]; rfl, k2, k4, hlab, ?_, hnn, ?_, ?_⟩
    · rw [List.length_map]
      exact hperm.length_eq
    · intro q hq
      rw [hl] at hq
      obtain ⟨e, he, rfl⟩ := List.mem_map.mp hq
      have he := hperm.mem_iff.mp he
      exact ⟨e, he, _, _, hshow _ (hin e he).2, hshow _ (hin e he).1, rfl⟩
    · intro e he
      refine ⟨_, _, hshow _ (hin e he).2, hshow _ (hin e he).1, ?_⟩
      rw [hl]
      exact List.mem_map.mpr ⟨e, hperm.mem_iff.mpr he, rfl⟩

/-- C98, the columns: with at most two witnesses a dashed line joins two vertices of the same column. -/
theorem C98_same_column (env : Env) (hts : TopoSpec env.topo) (ws : List Witness) (hv : Valid ws) (h2 : ws.length ≤ 2)
    (o : Opts) (ho : NearMatching o) :
    ∃ (ws' : Collation) (g : VGraph) (r : Ranking), collateRanked env ws o = .ok (ws', g, r) ∧
      ∀ e ∈ g.near, ∃ k, dget r.byVertex e.1 = some k ∧ dget r.byVertex e.2 = some k := by
  obtain ⟨g, ps, r, rk, ord, m, B, C, h0, h1⟩ := near_base env hts hv ho
  have hne : indexed 0 ws ≠ [] := by
    intro h0
    have := congrArg List.length h0
    rw [indexed_length] at this
    exact hv.ne (List.length_eq_zero_iff.mp this)
  obtain ⟨n, r', f, h3, R, hinc, hcrit, hge, hnear, hstay, hplaced⟩ := performNearMatch_two B C.ginv (C.ne hne)
    (atMostTwo_of_length (by rw [C.length, indexed_length]; exact h2)) env.ratio
  obtain ⟨s, k2, n', f', k3, R', k4, _⟩ := performNearMatch_ok B env.ratio
  rw [h3] at k2
  obtain rfl := Except.ok.inj k2
  obtain rfl : n = n' := congrArg VGraph.near k3
  rw [h3] at h1
  refine ⟨_, _, _, h1, ?_⟩
  intro e he
  obtain ⟨a1, a2, a3⟩ := hnear e he
  obtain ⟨_, b2, _⟩ := k4 e he
  refine ⟨f e.1, ?_, ?_⟩
  · rw [R.bv, dget_map_self f ord e.1 a1]
  · rw [R.bv, dget_map_self f ord e.2 b2, a3, a2]

/-! ### Cases -/

/-- The near edges of a collation with their weights, and the ranks. -/
def nearSummary (env : Env) (ws : List Witness) : Py (List (Nat × Nat) × Weights × Dict Nat Nat) := do
  let (_, g, r) ← collateRanked env ws { segmentation := false }
  let (g', r', W) ← performNearMatchW env.topo env.ratio g r
  .ok (g'.near, W, r'.byVertex)

/-- Three witnesses for which a dashed line joins vertices of different columns: the vertex that another was moved to was moved later. -/
theorem C98_three : Valid [wordsWitness "A" ["t", "qa"], wordsWitness "B" ["qc"], wordsWitness "C" ["p", "k", "pa"]] ∧
    nearSummary nearEnv [wordsWitness "A" ["t", "qa"], wordsWitness "B" ["qc"], wordsWitness "C" ["p", "k", "pa"]] =
      .ok ([(7, 3), (3, 4), (5, 2)], [((7, 3), 500000), ((3, 4), 500000), ((5, 2), 0)],
        [(0, 0), (2, 1), (3, 3), (4, 2), (5, 1), (6, 2), (7, 3), (1, 4)]) :=
  ⟨valid_of_check (by decide) (by decide) (by decide) (by decide), by decide +kernel⟩

/-- Two witnesses of the repository's tests, with texts. -/
def dogTextWitnesses : List Witness := [textWitness "A" ["over", "this", "dog"], textWitness "B" ["over", "there", "that", "dog"]]

theorem dogTextWitnesses_texts : HasTexts dogTextWitnesses := by
  intro w hw
  simp only [dogTextWitnesses, List.mem_cons, List.not_mem_nil, or_false] at hw
  rcases hw with rfl | rfl <;> exact textWitness_texts

/-- C98: `this` is moved to `that`; their ratio is 0.5 (ratios are in millionths here), and the dashed line has that label. -/
example : TopoSpec nearEnv.topo ∧ Valid dogTextWitnesses ∧ (∀ w ∈ dogTextWitnesses, w.sigil ≠ []) ∧ HasTexts dogTextWitnesses ∧
    dogTextWitnesses.length ≤ 2 ∧ NearMatching { segmentation := false, nearMatch := true } ∧
    nearSummary nearEnv dogTextWitnesses =
      .ok ([(6, 3)], [((6, 3), 500000)], [(0, 0), (2, 1), (3, 3), (5, 2), (6, 3), (4, 4), (1, 5)]) ∧
    nearEnv.ratio (S "this") (S "that") = 500000 ∧
    (drawingOf nearEnv dogTextWitnesses { segmentation := false, nearMatch := true } true).map dashedOf = .ok [(S "7", S "4")] ∧
    (drawingOf nearEnv dogTextWitnesses { segmentation := false, nearMatch := true } true).map (fun ds => (nodesOf ds)[6]?) =
      .ok (some (S "7", S "that")) :=
  ⟨kahn_spec, valid_of_check (by decide) (by decide) (by decide) (by decide), by decide, dogTextWitnesses_texts, by decide,
    ⟨rfl, rfl, rfl, rfl⟩, by decide +kernel, by decide +kernel, by decide +kernel, by decide +kernel⟩

end CollateX
