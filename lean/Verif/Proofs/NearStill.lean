import Verif.Proofs.NearTwo
import Verif.Proofs.Collated
/-
When near matching does nothing: the loop of `perform_near_match` on a graph without, and with, a vertex that can move.
-/

namespace CollateX
open Spec

section
variable {ts : TopoFn} {g : VGraph} {rk : VId → Nat} {o : List VId} {m : Nat} {r : Ranking}

/-- Without a vertex that can move, near matching returns what it was given. -/
theorem performNearMatch_still (B : NearBase ts g rk o m r) (ratio : RatioFn)
    (h : ∀ e ∈ g.edges, rk e.tgt ≤ rk e.src + 1 ∨ ∃ x, (e.src, x) ∈ g.pairs ∧ rk x = rk e.src + 1) :
    performNearMatch ts ratio g r = .ok (g, r) := by
  have R := B.rank.ranked B.nd
  obtain ⟨s, h1, h2⟩ := nearVertices_inv ts ratio g (fun _ s => s = (g, r))
    (by rintro _ s rfl v; rfl)
    (by
      rintro e es s he rfl
      rcases nearEdge_cases ts ratio R B.ends (B.full (fun _ _ _ => rfl)) he with ⟨hc, _⟩ | ⟨w, hw, a1, a2, a3, _⟩
      · exact ⟨_, hc, rfl⟩
      · rcases h e he with h | ⟨x, h1, h2⟩
        · omega
        · exact absurd h2 (a3 x h1))
    o.reverse (g, r) rfl
  subst h2
  obtain ⟨r', f, b1, -⟩ := rankingOf_near B.nd B.topo B.pass R [] (by simp)
  rw [withNear_self B.nil] at b1
  have e : rankingOf ts g = .ok r := by
    unfold rankingOf
    rw [B.topo]
    simp only [bind_ok, B.pass]
    have : ∀ (l : List VId), nearPass g l r = .ok r := by
      intro l
      induction l with
      | nil => rfl
      | cons v l ih =>
        have hn : g.inNear v = [] := by simp [VGraph.inNear, B.nil]
        simp [nearPass, hn, nearSteps, bind_ok, ih]
    exact this _
  unfold performNearMatch
  rw [B.topo]
  simp only [bind_ok, h1, e]

/-- A vertex that can move is moved, or another one was before it: the graph gets a near edge. -/
theorem performNearMatch_moves (B : NearBase ts g rk o m r) (ratio : RatioFn) {e : Edge} (he : e ∈ g.edges)
    (h1 : rk e.src + 1 < rk e.tgt) (h2 : ∀ x, (e.src, x) ∈ g.pairs → rk x ≠ rk e.src + 1) :
    ∃ s, performNearMatch ts ratio g r = .ok s ∧ s.1.near ≠ [] := by
  have R := B.rank.ranked B.nd
  have hmem : e ∈ o.reverse.flatMap g.inEdges := by
    rw [List.mem_flatMap]
    exact ⟨e.tgt, by simpa using (B.ends _ (mem_pairs_of_edge he)).2, mem_inEdges.mpr ⟨he, rfl⟩⟩
  obtain ⟨s, k1, ⟨n, f, k2, k3, k4, k5⟩, k6⟩ := nearVertices_inv ts ratio g
    (fun es s => NearSt g rk o m s ∧ (s.1.near ≠ [] ∨ (s = (g, r) ∧ e ∈ es)))
    (by rintro _ s ⟨⟨n, f, h, _⟩, _⟩ v; rw [h]; rfl)
    (by
      rintro e' es ⟨g', r'⟩ he' ⟨hst, hor⟩
      have hst' := hst
      obtain ⟨n, f, h, h3, h4, h5⟩ := hst'
      simp only at h h3
      subst h
      rcases nearEdge_cases ts ratio h3 (g := g.withNear n) B.ends (B.full h5) he' with ⟨hc, hd⟩ | ⟨w, hw, a1, a2, a3, a4, a5, _, a6⟩
      · refine ⟨_, hc, hst, ?_⟩
        rcases hor with hor | ⟨hor, hm⟩
        · exact .inl hor
        · refine .inr ⟨hor, ?_⟩
          rcases List.mem_cons.mp hm with rfl | hm
          · exfalso
            obtain ⟨i1, i2⟩ := Prod.mk.inj hor
            subst i2
            have hf : ∀ v ∈ o, f v = rk v := by
              intro v hv
              have e1 := dget_map_self f o v hv
              have e2 := dget_map_self rk o v hv
              rw [← h3.bv] at e1
              rw [← R.bv] at e2
              rw [e1] at e2
              exact Option.some.inj e2
            have m1 := B.ends _ (mem_pairs_of_edge he)
            have e1 := hf _ m1.1
            have e2 := hf _ m1.2
            simp only at e1 e2
            rcases hd with hd | ⟨x, x1, x2⟩
            · omega
            · have e3 := hf x (B.ends _ x1).2
              exact h2 x x1 (by omega)
          · exact hm
      · have hs := B.moved h3 h5 (mem_pairs_of_edge he') a2 a3
        rw [connectNear_withNear] at a6
        obtain ⟨r2, b1, b2⟩ := NearSt.rerank B (n := if (w, e'.src) ∈ n then n else n ++ [(w, e'.src)]) (by
          intro p hp
          split at hp
          · exact h4 p hp
          · rcases List.mem_append.mp hp with hp | hp
            · exact h4 p hp
            · simp only [List.mem_singleton] at hp
              subst hp
              exact ⟨hw, (B.ends _ (mem_pairs_of_edge he')).1, hs⟩)
        rw [b1] at a6
        refine ⟨_, a6, b2, .inl ?_⟩
        show (if (w, e'.src) ∈ n then n else n ++ [(w, e'.src)]) ≠ []
        split
        · rename_i hin
          exact List.ne_nil_of_mem hin
        · simp)
    o.reverse (g, r) ⟨⟨[], rk, (withNear_self B.nil).symm, R, by simp, fun _ _ _ => rfl⟩, .inr ⟨rfl, hmem⟩⟩
  rcases k6 with k6 | ⟨_, k6⟩
  swap
  · simp at k6
  obtain ⟨r2, b1, b2⟩ := NearSt.rerank B k4
  refine ⟨(s.1, r2), ?_, k6⟩
  unfold performNearMatch
  rw [B.topo]
  simp only [bind_ok, k1]
  rw [k2, b1]
  rfl

end

/-- After an inner vertex of a path comes another. -/
theorem consec_after {p : WPath} {u : VId} (h : u ∈ p.inner) : ∃ x, Consec p.path u x := by
  obtain ⟨a, b, hab⟩ := List.append_of_mem h
  unfold WPath.path Consec
  rw [hab]
  cases b with
  | nil => exact ⟨endV, startV :: a, [], by simp⟩
  | cons x b => exact ⟨x, startV :: a, b ++ [endV], by simp⟩

end CollateX
