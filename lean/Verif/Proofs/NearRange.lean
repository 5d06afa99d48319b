import Verif.Proofs.Near
/-
Near matching moves no vertex to the rank of start or end.
-/

namespace CollateX
open Spec

section
variable {ts : TopoFn} {g : VGraph} {rk : VId → Nat} {o : List VId} {m : Nat} {r : Ranking}

/-- The state during near matching, with the ranks of the inner vertices. -/
def NearIn (g : VGraph) (rk : VId → Nat) (o : List VId) (m : Nat) (s : VGraph × Ranking) : Prop :=
  ∃ n f, s.1 = g.withNear n ∧ RankedBy o f m s.2 ∧ (∀ p ∈ n, p.1 ∈ o ∧ p.2 ∈ o ∧ ¬ Crit g rk p.2 ∧ p.1 ≠ startV ∧ p.1 ≠ endV) ∧
    (∀ c ∈ o, Crit g rk c → f c = rk c) ∧ (∀ v ∈ o, v ≠ startV → v ≠ endV → 0 < f v ∧ f v + 1 < m)

theorem NearIn.rerank (B : NearBase ts g rk o m r) (hin : ∀ v ∈ o, v ≠ startV → v ≠ endV → 0 < rk v ∧ rk v + 1 < m)
    {n : List (VId × VId)} (hn : ∀ p ∈ n, p.1 ∈ o ∧ p.2 ∈ o ∧ ¬ Crit g rk p.2 ∧ p.1 ≠ startV ∧ p.1 ≠ endV) :
    ∃ r', rankingOf ts (g.withNear n) = .ok r' ∧ NearIn g rk o m (g.withNear n, r') := by
  obtain ⟨r', f, h1, h2, h3, _, h5⟩ := rankingOf_near B.nd B.topo B.pass (B.rank.ranked B.nd) n (fun p hp => (hn p hp).1)
  refine ⟨r', h1, n, f, rfl, h2, hn, ?_, ?_⟩
  · intro c _ hc
    apply h3
    apply inNear_nil
    rintro p hp rfl
    exact (hn p hp).2.2.1 hc
  · intro v hv hs he
    exact h5 (fun k => 0 < k ∧ k + 1 < m) (fun p hp => hin _ (hn p hp).1 (hn p hp).2.2.2.1 (hn p hp).2.2.2.2) v (hin v hv hs he)

/-- Near matching keeps the inner vertices away from start and end. -/
theorem performNearMatch_inside (B : NearBase ts g rk o m r) (hin : ∀ v ∈ o, v ≠ startV → v ≠ endV → 0 < rk v ∧ rk v + 1 < m)
    (hs0 : rk startV = 0) (hso : startV ∈ o) (he0 : 0 < rk endV) (ratio : RatioFn) :
    ∃ s, performNearMatch ts ratio g r = .ok s ∧ NearIn g rk o m s := by
  have hend := B.last
  have hse : startV ≠ endV := by decide
  have hcs : Crit g rk startV := by
    obtain ⟨c, hc, h1, h2⟩ := B.level 0 (by omega)
    by_cases h3 : c = startV
    · rw [← h3]; exact h1
    · by_cases h4 : c = endV
      · subst h4
        omega
      · have := (hin c hc h3 h4).1
        omega
  obtain ⟨s, h1, n, f, h2, h3, h4, h5, h6⟩ := nearVertices_inv ts ratio g (fun _ s => NearIn g rk o m s)
    (by rintro _ s ⟨n, f, h, _⟩ v; rw [h]; rfl)
    (by
      rintro e es ⟨g', r'⟩ he ⟨n, f, h, h3, h4, h5, h6⟩
      simp only at h h3
      subst h
      rcases nearEdge_cases ts ratio h3 (g := g.withNear n) B.ends (B.full h5) he with ⟨hc, _⟩ | ⟨w, hw, a1, a2, a3, a4, a5, _, a6⟩
      · exact ⟨_, hc, n, f, rfl, h3, h4, h5, h6⟩
      · have hs := B.moved h3 h5 (mem_pairs_of_edge he) a2 a3
        have hsrc := (B.ends _ (mem_pairs_of_edge he)).1
        have htgt := h3.lt _ (B.ends _ (mem_pairs_of_edge he)).2
        simp only at htgt hsrc
        have hwe : w ≠ endV := by
          rintro rfl
          rw [h5 _ hw .last] at a5
          omega
        have hws : w ≠ startV := by
          rintro rfl
          rw [h5 _ hw hcs] at a4
          have hse' : e.src ≠ endV := by
            intro h0
            rw [h0] at hs
            exact hs .last
          have := (h6 _ hsrc (Ne.symm a1) hse').1
          omega
        rw [connectNear_withNear] at a6
        obtain ⟨r2, b1, b2⟩ := NearIn.rerank B hin (n := if (w, e.src) ∈ n then n else n ++ [(w, e.src)]) (by
          intro p hp
          split at hp
          · exact h4 p hp
          · rcases List.mem_append.mp hp with hp | hp
            · exact h4 p hp
            · simp only [List.mem_singleton] at hp
              subst hp
              exact ⟨hw, (B.ends _ (mem_pairs_of_edge he)).1, hs, hws, hwe⟩)
        rw [b1] at a6
        exact ⟨_, a6, b2⟩)
    o.reverse (g, r) ⟨[], rk, (withNear_self B.nil).symm, B.rank.ranked B.nd, by simp, fun _ _ _ => rfl, hin⟩
  obtain ⟨r2, b1, b2⟩ := NearIn.rerank B hin h4
  refine ⟨(s.1, r2), ?_, ?_⟩
  · unfold performNearMatch
    rw [B.topo]
    simp only [bind_ok, h1]
    rw [h2, b1]
    rfl
  · rw [h2]; exact b2

end

end CollateX
