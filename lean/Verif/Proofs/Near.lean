import Verif.Proofs.Collated
import Verif.Props.Ranks
import Verif.Model.NearMatching
/-
Near matching: the second loop of the ranking, one move, and the invariants kept by all moves.
-/

namespace CollateX
open Spec

/-! ### The second loop of the ranking -/

/-- A consistent ranking of the vertices `o`: each has the rank `f v < m` and is listed once, under that rank. -/
structure RankedBy (o : List VId) (f : VId → Nat) (m : Nat) (r : Ranking) : Prop where
  bv : r.byVertex = o.map (fun v => (v, f v))
  br : ∃ L : Nat → List VId, r.byRank = (List.range m).map (fun k => (k, L k)) ∧
    (∀ k < m, (L k).Nodup) ∧ (∀ k < m, ∀ v, v ∈ L k ↔ v ∈ o ∧ f v = k)
  lt : ∀ v ∈ o, f v < m

theorem nearStep_ok {o : List VId} (nd : o.Nodup) {f : VId → Nat} {m : Nat} {r : Ranking} (R : RankedBy o f m r) {u v : VId}
    (hu : u ∈ o) (hv : v ∈ o) :
    ∃ r', nearStep v r u = .ok r' ∧ RankedBy o (fun w => if w = v then f u else f w) m r' := by
  obtain ⟨L, hbr, hnd, hmem⟩ := R.br
  have hfu := R.lt u hu
  have hfv := R.lt v hv
  have h1 : dgetE r.byVertex u = .ok (f u) := dgetE_of_dget (by rw [R.bv]; exact dget_map_self f o u hu)
  have h2 : dgetE r.byVertex v = .ok (f v) := dgetE_of_dget (by rw [R.bv]; exact dget_map_self f o v hv)
  have h3 : dgetE r.byRank (f v) = .ok (L (f v)) := dgetE_of_dget (by rw [hbr, dget_range_map, if_pos hfv])
  have hin : v ∈ L (f v) := (hmem _ hfv v).mpr ⟨hv, rfl⟩
  have e1 : dset r.byRank (f v) ((L (f v)).erase v) =
      (List.range m).map (fun k => (k, if k = f v then (L (f v)).erase v else L k)) := by
    rw [hbr, dset_map_pair _ _ List.nodup_range _ _ (List.mem_range.mpr hfv)]
  have h4 : dgetE (dset r.byRank (f v) ((L (f v)).erase v)) (f u) =
      .ok (if f u = f v then (L (f v)).erase v else L (f u)) :=
    dgetE_of_dget (by rw [e1, dget_range_map, if_pos hfu])
  have e2 : nearStep v r u = .ok ⟨dset r.byVertex v (f u), dset (dset r.byRank (f v) ((L (f v)).erase v)) (f u)
      ((if f u = f v then (L (f v)).erase v else L (f u)) ++ [v])⟩ := by
    unfold nearStep
    simp only [h1, h2, h3, bind_ok]
    rw [if_pos hin, h4]
    rfl
  refine ⟨_, e2, ⟨?_, ?_, ?_⟩⟩
  · simp only
    rw [R.bv, dset_map_pair _ _ nd _ _ hv]
  · refine ⟨fun k => if k = f u then (if f u = f v then (L (f v)).erase v else L (f u)) ++ [v] else
      (if k = f v then (L (f v)).erase v else L k), ?_, ?_, ?_⟩
    · simp only
      rw [e1, dset_map_pair _ _ List.nodup_range _ _ (List.mem_range.mpr hfu)]
    · intro k hk
      have hne : (L (f v)).erase v |>.Nodup := (hnd _ hfv).erase v
      have hnv : v ∉ (L (f v)).erase v := fun h => ((hnd _ hfv).mem_erase_iff.mp h).1 rfl
      simp only
      split
      · rw [List.nodup_append]
        refine ⟨?_, by simp, ?_⟩
        · split
          · exact hne
          · exact hnd _ hfu
        · rintro a ha b hb rfl
          simp at hb
          subst hb
          split at ha
          · exact hnv ha
          · rename_i hc; exact hc ((hmem _ hfu a).mp ha).2.symm
      · split
        · exact hne
        · exact hnd k hk
    · intro k hk w
      have her : w ∈ (L (f v)).erase v ↔ w ≠ v ∧ w ∈ o ∧ f w = f v := by
        rw [(hnd _ hfv).mem_erase_iff, hmem _ hfv]
      simp only
      by_cases hwv : w = v
      · subst hwv
        simp only [if_true]
        by_cases hk1 : k = f u
        · subst hk1; simp [hv]
        · rw [if_neg hk1]
          constructor
          · intro h
            split at h
            · exact absurd rfl (her.mp h).1
            · rename_i h5
              exact absurd ((hmem k hk w).mp h).2.symm h5
          · rintro ⟨_, h⟩; exact absurd h.symm hk1
      · rw [if_neg hwv]
        by_cases hk1 : k = f u
        · subst hk1
          rw [if_pos rfl, List.mem_append]
          simp only [List.mem_singleton, hwv, or_false]
          split
          · rename_i h5; rw [her, h5]; simp [hwv]
          · exact hmem _ hfu w
        · rw [if_neg hk1]
          split
          · rename_i h5; rw [her, h5]; simp [hwv]
          · exact hmem k hk w
  · intro w hw
    show (if w = v then f u else f w) < m
    split
    · exact hfu
    · exact R.lt w hw

theorem nearSteps_ok {o : List VId} (nd : o.Nodup) {m : Nat} {v : VId} (hv : v ∈ o) :
    ∀ (us : List VId), (∀ u ∈ us, u ∈ o) → ∀ (f : VId → Nat) (r : Ranking), RankedBy o f m r →
      ∃ r' f', nearSteps v us r = .ok r' ∧ RankedBy o f' m r' ∧ (∀ w, w ≠ v → f' w = f w) ∧ (us = [] → f' v = f v) ∧
        (∀ u, us = [u] → f' v = f u) ∧ (f' v = f v ∨ ∃ u ∈ us, f' v = f u) := by
  intro us
  induction us with
  | nil => intro _ f r R; exact ⟨r, f, rfl, R, fun _ _ => rfl, fun _ => rfl, by simp, .inl rfl⟩
  | cons u us ih =>
    intro hus f r R
    obtain ⟨r1, h1, R1⟩ := nearStep_ok nd R (hus u (by simp)) hv
    obtain ⟨r2, f2, h2, R2, h3, h4, h5, h6⟩ := ih (fun x hx => hus x (by simp [hx])) _ r1 R1
    refine ⟨r2, f2, ?_, R2, ?_, by simp, ?_, ?_⟩
    · simp only [nearSteps, h1, bind_ok, h2]
    · intro w hw; rw [h3 w hw, if_neg hw]
    · intro x hx
      simp only [List.cons.injEq] at hx
      obtain ⟨rfl, rfl⟩ := hx
      rw [h4 rfl, if_pos rfl]
    · rcases h6 with h6 | ⟨x, hx, h6⟩
      · rw [if_pos rfl] at h6
        exact .inr ⟨u, by simp, h6⟩
      · by_cases hxv : x = v
        · rw [if_pos hxv] at h6
          exact .inr ⟨u, by simp, h6⟩
        · rw [if_neg hxv] at h6
          exact .inr ⟨x, by simp [hx], h6⟩

theorem nearPass_ok {g : VGraph} {o : List VId} (nd : o.Nodup) {m : Nat} (hn : ∀ p ∈ g.near, p.1 ∈ o) :
    ∀ (vs : List VId), (∀ v ∈ vs, v ∈ o) → vs.Nodup → ∀ (f : VId → Nat) (r : Ranking), RankedBy o f m r →
      ∃ r' f', nearPass g vs r = .ok r' ∧ RankedBy o f' m r' ∧ (∀ w, w ∉ vs → f' w = f w) ∧
        (∀ w, g.inNear w = [] → f' w = f w) ∧
        (∀ w ∈ vs, ∀ u, g.inNear w = [u] → g.inNear u = [] → f' w = f u) ∧
        (∀ P : Nat → Prop, (∀ p ∈ g.near, P (f p.1)) → ∀ w, P (f w) → P (f' w)) := by
  intro vs
  induction vs with
  | nil => intro _ _ f r R; exact ⟨r, f, rfl, R, fun _ _ => rfl, fun _ _ => rfl, by simp, fun _ _ _ h => h⟩
  | cons v vs ih =>
    intro hvs hnd f r R
    obtain ⟨hv, hnd'⟩ := List.nodup_cons.mp hnd
    have hus : ∀ u ∈ g.inNear v, u ∈ o := by
      intro u hu
      obtain ⟨p, hp, rfl⟩ := List.mem_map.mp hu
      exact hn p (List.mem_filter.mp hp).1
    obtain ⟨r1, f1, h1, R1, a1, a2, a3, a4⟩ := nearSteps_ok nd (hvs v (by simp)) (g.inNear v) hus f r R
    obtain ⟨r2, f2, h2, R2, b1, b2, b3, b4⟩ := ih (fun x hx => hvs x (by simp [hx])) hnd' f1 r1 R1
    have hstay : ∀ w, g.inNear w = [] → f1 w = f w := by
      intro w hw
      by_cases hwv : w = v
      · subst hwv; exact a2 hw
      · exact a1 w hwv
    refine ⟨r2, f2, ?_, R2, ?_, ?_, ?_, ?_⟩
    · simp only [nearPass, h1, bind_ok, h2]
    · intro w hw
      rw [List.mem_cons, not_or] at hw
      rw [b1 w hw.2, a1 w hw.1]
    · intro w hw; rw [b2 w hw, hstay w hw]
    · intro w hw u h3 h4
      rcases List.mem_cons.mp hw with rfl | hw
      · rw [b1 _ hv, a3 u h3]
      · rw [b3 w hw u h3 h4, hstay u h4]
    · intro P hP1 x hx
      have hone : ∀ w, P (f w) → P (f1 w) := by
        intro w hw
        by_cases hwv : w = v
        · subst hwv
          rcases a4 with h | ⟨u, hu, h⟩
          · rw [h]; exact hw
          · obtain ⟨p, hp, rfl⟩ := List.mem_map.mp hu
            rw [h]; exact hP1 p (List.mem_filter.mp hp).1
        · rw [a1 w hwv]; exact hw
      exact b4 P (fun p hp => hone _ (hP1 p hp)) x (hone x hx)

/-- The same graph with other near edges. -/
def VGraph.withNear (g : VGraph) (n : List (VId × VId)) : VGraph := { g with near := n }

theorem withNear_self {g : VGraph} (h : g.near = []) : g.withNear [] = g := by
  cases g; simp only at h; subst h; rfl

theorem rankPass_withNear (g : VGraph) (n : List (VId × VId)) (vs : List VId) (r : Ranking) :
    rankPass (g.withNear n) vs r = rankPass g vs r := by
  induction vs generalizing r with
  | nil => rfl
  | cons v vs ih =>
    simp only [rankPass]
    have : (g.withNear n).inEdges v = g.inEdges v := rfl
    rw [this]
    cases rankOfIn r.byVertex (g.inEdges v) 0 with
    | error e => rfl
    | ok k => simp only [bind_ok]; exact ih _

theorem RankingOf.ranked {g : VGraph} {rk : VId → Nat} {o : List VId} {m : Nat} {r : Ranking} (h : RankingOf g rk o m r)
    (nd : o.Nodup) : RankedBy o rk m r where
  bv := h.st.bv
  br := ⟨_, h.st.br, fun _ _ => nd.filter _, fun k _ v => by rw [List.mem_filter]; simp⟩
  lt := h.st.lt

/-- The ranking of a graph with near edges among its vertices: it never fails, vertices without a near edge into them keep
their rank, and a single near edge from such a vertex moves its target to that rank. -/
theorem rankingOf_near {ts : TopoFn} {g : VGraph} {rk : VId → Nat} {o : List VId} {m : Nat} {r : Ranking}
    (nd : o.Nodup) (ht : g.topo ts = .ok o) (hp : rankPass g o ⟨[], []⟩ = .ok r) (R : RankedBy o rk m r)
    (n : List (VId × VId)) (hn : ∀ p ∈ n, p.1 ∈ o) :
    ∃ r' f, rankingOf ts (g.withNear n) = .ok r' ∧ RankedBy o f m r' ∧ (∀ w, (g.withNear n).inNear w = [] → f w = rk w) ∧
      (∀ w ∈ o, ∀ u, (g.withNear n).inNear w = [u] → (g.withNear n).inNear u = [] → f w = rk u) ∧
      (∀ P : Nat → Prop, (∀ p ∈ n, P (rk p.1)) → ∀ w, P (rk w) → P (f w)) := by
  obtain ⟨r', f, h1, h2, _, h4, h5, h6⟩ := nearPass_ok (g := g.withNear n) nd hn o.reverse (by simp)
    (List.nodup_reverse.mpr nd) rk r R
  refine ⟨r', f, ?_, h2, h4, fun w hw => h5 w (by simpa using hw), h6⟩
  unfold rankingOf
  have : (g.withNear n).topo ts = g.topo ts := rfl
  rw [this, ht]
  simp only [bind_ok, rankPass_withNear, hp, h1]

/-! ### One edge -/

theorem targetRanks_ok {o : List VId} {f : VId → Nat} {m : Nat} {r : Ranking} (R : RankedBy o f m r) (es : List Edge)
    (h : ∀ e ∈ es, e.tgt ∈ o) : targetRanks r es = .ok (es.map (fun e => f e.tgt)) := by
  induction es with
  | nil => rfl
  | cons e es ih =>
    simp only [targetRanks]
    rw [dgetE_of_dget (by rw [R.bv]; exact dget_map_self f o e.tgt (h e (by simp))), ih (fun x hx => h x (by simp [hx]))]
    rfl

theorem verticesOfRanks_ok {o : List VId} {f : VId → Nat} {m : Nat} {r : Ranking} (R : RankedBy o f m r) :
    ∀ (k lo : Nat), lo + k ≤ m → ∃ l, verticesOfRanks r lo k = .ok l ∧ (∀ v, v ∈ l ↔ v ∈ o ∧ lo ≤ f v ∧ f v < lo + k) ∧
      l.Pairwise (fun u v => f u ≤ f v) := by
  obtain ⟨L, hbr, _, hmem⟩ := R.br
  intro k
  induction k with
  | zero => intro lo _; exact ⟨[], rfl, by intro v; simp, .nil⟩
  | succ k ih =>
    intro lo hlo
    obtain ⟨l, h1, h2, h3⟩ := ih (lo + 1) (by omega)
    refine ⟨L lo ++ l, ?_, ?_, ?_⟩
    · simp only [verticesOfRanks]
      rw [dgetE_of_dget (by rw [hbr, dget_range_map, if_pos (by omega)]), h1]
      rfl
    · intro v
      rw [List.mem_append, h2, hmem lo (by omega)]
      constructor
      · rintro (⟨a, b⟩ | ⟨a, b, c⟩)
        · exact ⟨a, by omega, by omega⟩
        · exact ⟨a, by omega, by omega⟩
      · rintro ⟨a, b, c⟩
        by_cases hb : f v = lo
        · exact .inl ⟨a, hb⟩
        · exact .inr ⟨a, by omega, by omega⟩
    · rw [List.pairwise_append]
      refine ⟨List.pairwise_of_forall_mem_list (fun a ha b hb => ?_), h3, fun a ha b hb => ?_⟩
      · rw [((hmem lo (by omega) a).mp ha).2, ((hmem lo (by omega) b).mp hb).2]
      · rw [((hmem lo (by omega) a).mp ha).2]
        have := ((h2 b).mp hb).2.1
        omega

/-- The winner is one of the candidates, none scores higher, and those before it score less. -/
theorem winner_ok (score : VId → Nat) (l : List VId) (h : l ≠ []) :
    ∃ w ∈ l, winner score l = .ok w ∧ (∀ c ∈ l, score c ≤ score w) ∧ ∃ A B, l = A ++ w :: B ∧ ∀ a ∈ A, score a < score w := by
  obtain ⟨c, cs, rfl⟩ := List.exists_cons_of_ne_nil h
  have key : ∀ (cs : List VId) (c : VId), ∃ w, cs.foldl (fun best d => if score d > score best then d else best) c = w ∧
      (∀ x ∈ c :: cs, score x ≤ score w) ∧ ((w = c) ∨ ∃ A B, cs = A ++ w :: B ∧ ∀ a ∈ c :: A, score a < score w) := by
    intro cs
    induction cs with
    | nil => intro c; exact ⟨c, rfl, by simp, .inl rfl⟩
    | cons d cs ih =>
      intro c
      simp only [List.foldl_cons]
      obtain ⟨w, h1, h2, h3⟩ := ih (if score d > score c then d else c)
      refine ⟨w, h1, ?_, ?_⟩
      · have h3 := h2 _ (List.mem_cons_self)
        have h4 : score c ≤ score (if score d > score c then d else c) ∧ score d ≤ score (if score d > score c then d else c) := by
          split <;> omega
        intro x hx
        rcases List.mem_cons.mp hx with rfl | hx
        · omega
        · rcases List.mem_cons.mp hx with rfl | hx
          · omega
          · exact h2 x (List.mem_cons_of_mem _ hx)
      · rcases h3 with h3 | ⟨A, B, h3, h4⟩
        · split at h3
          · rename_i hgt
            subst h3
            exact .inr ⟨[], cs, rfl, by simpa using hgt⟩
          · exact .inl h3
        · refine .inr ⟨d :: A, B, by rw [h3]; rfl, ?_⟩
          have h5 := h4 _ List.mem_cons_self
          intro a ha
          rcases List.mem_cons.mp ha with rfl | ha
          · split at h5 <;> omega
          · rcases List.mem_cons.mp ha with rfl | ha
            · split at h5 <;> omega
            · exact h4 a (List.mem_cons_of_mem _ ha)
  obtain ⟨w, h1, h2, h3⟩ := key cs c
  have h4 : ∃ A B, c :: cs = A ++ w :: B ∧ ∀ a ∈ A, score a < score w := by
    rcases h3 with rfl | ⟨A, B, h3, h4⟩
    · exact ⟨[], cs, rfl, by simp⟩
    · exact ⟨c :: A, B, by rw [h3]; rfl, h4⟩
  refine ⟨w, ?_, by rw [← h1]; rfl, h2, h4⟩
  obtain ⟨A, B, h5, _⟩ := h4
  rw [h5]
  simp

/-- What happens at one edge: nothing, or a move of its source to the rank of another vertex in the window. -/
theorem nearEdge_cases (ts : TopoFn) (ratio : RatioFn) {g : VGraph} {o : List VId} {f : VId → Nat} {m : Nat} {r : Ranking}
    (R : RankedBy o f m r) (hends : ∀ p ∈ g.pairs, p.1 ∈ o ∧ p.2 ∈ o) (full : ∀ k < m, ∃ c ∈ o, f c = k) {e : Edge}
    (he : e ∈ g.edges) :
    (nearEdge ts ratio e.tgt (g, r) e = .ok (g, r) ∧
      (f e.tgt ≤ f e.src + 1 ∨ ∃ x, (e.src, x) ∈ g.pairs ∧ f x = f e.src + 1)) ∨
    ∃ w ∈ o, w ≠ e.src ∧ f e.src + 1 < f e.tgt ∧ (∀ x, (e.src, x) ∈ g.pairs → f x ≠ f e.src + 1) ∧
      f e.src ≤ f w ∧ f w < f e.tgt ∧
      (∀ c ∈ o, c ≠ e.src → f e.src ≤ f c → f c < f e.tgt →
        ratio (g.vertexStr e.src) (g.vertexStr c) ≤ ratio (g.vertexStr e.src) (g.vertexStr w) ∧
        (f c < f w → ratio (g.vertexStr e.src) (g.vertexStr c) < ratio (g.vertexStr e.src) (g.vertexStr w))) ∧
      nearEdge ts ratio e.tgt (g, r) e = (rankingOf ts (g.connectNear w e.src)).bind (fun r' => .ok (g.connectNear w e.src, r')) := by
  have hp : e.src ∈ o ∧ e.tgt ∈ o := hends _ (mem_pairs_of_edge he)
  have h1 : dgetE r.byVertex e.tgt = .ok (f e.tgt) := dgetE_of_dget (by rw [R.bv]; exact dget_map_self f o _ hp.2)
  have h2 : dgetE r.byVertex e.src = .ok (f e.src) := dgetE_of_dget (by rw [R.bv]; exact dget_map_self f o _ hp.1)
  unfold nearEdge
  simp only [h1, h2, bind_ok]
  by_cases hgap : ((f e.tgt : Nat) : Int) - (f e.src : Nat) > 1
  swap
  · rw [if_neg hgap]; exact .inl ⟨rfl, .inl (by omega)⟩
  rw [if_pos hgap, targetRanks_ok R _ (fun x hx => (hends _ (mem_pairs_of_edge (mem_outEdges.mp hx).1)).2)]
  simp only [bind_ok]
  by_cases hone : (1 : Int) ∈ ((g.outEdges e.src).map (fun e => f e.tgt)).map (fun (k : Nat) => (k : Int) - (f e.src : Nat))
  · rw [if_pos hone]
    refine .inl ⟨rfl, .inr ?_⟩
    rw [List.map_map] at hone
    obtain ⟨x, hx1, hx2⟩ := List.mem_map.mp hone
    obtain ⟨hx3, hx4⟩ := mem_outEdges.mp hx1
    simp only [Function.comp] at hx2
    refine ⟨x.tgt, ?_, by omega⟩
    rw [← hx4]
    exact mem_pairs_of_edge hx3
  rw [if_neg hone]
  have hlt := R.lt _ hp.2
  obtain ⟨l, hl1, hl2, hl3⟩ := verticesOfRanks_ok R (f e.tgt - f e.src) (f e.src) (by omega)
  rw [hl1]
  simp only [bind_ok]
  have hne : l.filter (fun c => c ≠ e.src) ≠ [] := by
    obtain ⟨c, hc, hfc⟩ := full (f e.src + 1) (by omega)
    intro h0
    have : c ∈ l.filter (fun c => c ≠ e.src) := by
      rw [List.mem_filter]
      refine ⟨(hl2 c).mpr ⟨hc, by omega, by omega⟩, ?_⟩
      have : c ≠ e.src := by rintro rfl; omega
      simpa using this
    rw [h0] at this
    simp at this
  obtain ⟨w, hw, hwin, hmax, A, C, hAC, hfirst⟩ := winner_ok (fun c => ratio (g.vertexStr e.src) (g.vertexStr c)) _ hne
  rw [hwin]
  simp only [bind_ok]
  obtain ⟨hw1, hw2⟩ := List.mem_filter.mp hw
  obtain ⟨a1, a2, a3⟩ := (hl2 w).mp hw1
  refine .inr ⟨w, a1, by simpa using hw2, by omega, ?_, a2, by omega, ?_, ?_⟩
  · intro x hx hfx
    apply hone
    obtain ⟨lb, hlb⟩ := mem_pairs.mp hx
    rw [List.map_map]
    refine List.mem_map.mpr ⟨⟨e.src, x, lb⟩, mem_outEdges.mpr ⟨hlb, rfl⟩, ?_⟩
    simp only [Function.comp]
    omega
  · intro c hc hcs hc1 hc2
    have hm : c ∈ l.filter (fun c => decide (c ≠ e.src)) := List.mem_filter.mpr ⟨(hl2 c).mpr ⟨hc, hc1, by omega⟩, by simpa using hcs⟩
    refine ⟨hmax c hm, fun hlt => ?_⟩
    have hs := hl3.filter (fun c => decide (c ≠ e.src))
    rw [hAC] at hm hs
    rcases List.mem_append.mp hm with hm | hm
    · exact hfirst c hm
    · rcases List.mem_cons.mp hm with rfl | hm
      · omega
      · have := (List.pairwise_cons.mp (List.pairwise_append.mp hs).2.1).1 c hm
        omega
  · rfl

/-! ### The loop -/

/-- An invariant of the moves, relative to the edges still to come. -/
theorem nearVertices_inv (ts : TopoFn) (ratio : RatioFn) (g : VGraph) (P : List Edge → VGraph × Ranking → Prop)
    (hin : ∀ es s, P es s → ∀ v, s.1.inEdges v = g.inEdges v)
    (hstep : ∀ e es s, e ∈ g.edges → P (e :: es) s → ∃ s', nearEdge ts ratio e.tgt s e = .ok s' ∧ P es s') :
    ∀ (vs : List VId) (s : VGraph × Ranking), P (vs.flatMap g.inEdges) s →
      ∃ s', nearVertices ts ratio vs s = .ok s' ∧ P [] s' := by
  have hes : ∀ (v : VId) (es : List Edge), (∀ e ∈ es, e ∈ g.edges ∧ e.tgt = v) → ∀ rest s, P (es ++ rest) s →
      ∃ s', nearEdges ts ratio v es s = .ok s' ∧ P rest s' := by
    intro v es
    induction es with
    | nil => intro _ rest s h; exact ⟨s, rfl, h⟩
    | cons e es ih =>
      intro hv rest s h
      obtain ⟨h1, h2⟩ := hv e (by simp)
      obtain ⟨s1, h3, h4⟩ := hstep e (es ++ rest) s h1 h
      obtain ⟨s2, h5, h6⟩ := ih (fun x hx => hv x (by simp [hx])) rest s1 h4
      refine ⟨s2, ?_, h6⟩
      rw [h2] at h3
      simp only [nearEdges, h3, bind_ok, h5]
  intro vs
  induction vs with
  | nil => intro s h; exact ⟨s, rfl, h⟩
  | cons v vs ih =>
    intro s h
    rw [List.flatMap_cons] at h
    obtain ⟨s1, h1, h2⟩ := hes v (g.inEdges v) (fun e he => mem_inEdges.mp he) _ s h
    obtain ⟨s2, h3, h4⟩ := ih s1 h2
    refine ⟨s2, ?_, h4⟩
    simp only [nearVertices]
    rw [hin _ _ h v, h1]
    simp only [bind_ok, h3]

/-! ### Critical vertices -/

/-- The vertices from which the last vertex is reached with the rank growing by one at every step: those on a longest path. -/
inductive Crit (g : VGraph) (rk : VId → Nat) : VId → Prop
  | last : Crit g rk endV
  | step {u v : VId} : (u, v) ∈ g.pairs → Crit g rk v → rk v = rk u + 1 → Crit g rk u

/-- The collated graph before near matching. -/
structure NearBase (ts : TopoFn) (g : VGraph) (rk : VId → Nat) (o : List VId) (m : Nat) (r : Ranking) : Prop where
  wf : WF g
  nil : g.near = []
  topo : g.topo ts = .ok o
  pass : rankPass g o ⟨[], []⟩ = .ok r
  rank : RankingOf g rk o m r
  last : m = rk endV + 1
  endv : endV ∈ g.vertices

section
variable {ts : TopoFn} {g : VGraph} {rk : VId → Nat} {o : List VId} {m : Nat} {r : Ranking}

theorem NearBase.mem (B : NearBase ts g rk o m r) {v : VId} : v ∈ o ↔ v ∈ g.vertices := B.rank.topo.perm.mem_iff

theorem NearBase.nd (B : NearBase ts g rk o m r) : o.Nodup := B.rank.topo.perm.nodup_iff.mpr B.wf.nd

theorem NearBase.ends (B : NearBase ts g rk o m r) : ∀ p ∈ g.pairs, p.1 ∈ o ∧ p.2 ∈ o :=
  fun p hp => ⟨B.mem.mpr (B.wf.ends p hp).1, B.mem.mpr (B.wf.ends p hp).2⟩

/-- Every rank has a critical vertex. -/
theorem NearBase.level (B : NearBase ts g rk o m r) : ∀ k < m, ∃ c ∈ o, Crit g rk c ∧ rk c = k := by
  have key : ∀ d k, k + d = rk endV → ∃ c ∈ o, Crit g rk c ∧ rk c = k := by
    intro d
    induction d with
    | zero => intro k hk; exact ⟨endV, B.mem.mpr B.endv, .last, by omega⟩
    | succ d ih =>
      intro k hk
      obtain ⟨c, hc, h1, h2⟩ := ih (k + 1) (by omega)
      obtain ⟨u, hu, h3⟩ := B.rank.isRank.pred (B.mem.mp hc) (by omega)
      exact ⟨u, (B.ends _ hu).1, .step hu h1 h3.symm, by omega⟩
  intro k hk
  have := B.last
  exact key (rk endV - k) k (by omega)

theorem NearBase.full (B : NearBase ts g rk o m r) {f : VId → Nat} (hf : ∀ c ∈ o, Crit g rk c → f c = rk c) :
    ∀ k < m, ∃ c ∈ o, f c = k := by
  intro k hk
  obtain ⟨c, hc, h1, h2⟩ := B.level k hk
  exact ⟨c, hc, by rw [hf c hc h1, h2]⟩

theorem connectNear_withNear (g : VGraph) (n : List (VId × VId)) (u v : VId) :
    (g.withNear n).connectNear u v = g.withNear (if (u, v) ∈ n then n else n ++ [(u, v)]) := by
  unfold VGraph.connectNear VGraph.withNear
  simp only
  split <;> rfl

theorem mem_inNear {g : VGraph} {n : List (VId × VId)} {u w : VId} : u ∈ (g.withNear n).inNear w ↔ (u, w) ∈ n := by
  unfold VGraph.inNear VGraph.withNear
  simp

theorem inNear_nil {g : VGraph} {n : List (VId × VId)} {w : VId} (h : ∀ p ∈ n, p.2 ≠ w) : (g.withNear n).inNear w = [] := by
  rw [List.eq_nil_iff_forall_not_mem]
  intro u hu
  exact h _ (mem_inNear.mp hu) rfl

theorem inNear_single {g : VGraph} {n : List (VId × VId)} (hnd : (n.map Prod.snd).Nodup) {u w : VId} (h : (u, w) ∈ n) :
    (g.withNear n).inNear w = [u] := by
  induction n with
  | nil => simp at h
  | cons p n ih =>
    simp only [List.map_cons, List.nodup_cons] at hnd
    rcases List.mem_cons.mp h with rfl | h
    · have e : n.filter (fun e => e.2 = w) = [] := by
        rw [List.filter_eq_nil_iff]
        intro q hq hqw
        simp at hqw
        exact hnd.1 (List.mem_map.mpr ⟨q, hq, hqw⟩)
      simp [VGraph.inNear, VGraph.withNear, e]
    · have hp : p.2 ≠ w := fun hp => hnd.1 (List.mem_map.mpr ⟨(u, w), h, hp.symm⟩)
      have := ih hnd.2 h
      simp only [VGraph.inNear, VGraph.withNear] at this ⊢
      rw [List.filter_cons_of_neg (by simpa using hp)]
      exact this

/-- A vertex that is moved is not critical. -/
theorem NearBase.moved (B : NearBase ts g rk o m r) {f : VId → Nat} {r' : Ranking} (R : RankedBy o f m r')
    (hf : ∀ c ∈ o, Crit g rk c → f c = rk c) {s t : VId} (he : (s, t) ∈ g.pairs) (h1 : f s + 1 < f t)
    (h2 : ∀ x, (s, x) ∈ g.pairs → f x ≠ f s + 1) : ¬ Crit g rk s := by
  intro hc
  have hs := (B.ends _ he).1
  have ht := (B.ends _ he).2
  have e1 := hf s hs hc
  cases hc with
  | last =>
    have := R.lt t ht
    have := B.last
    omega
  | step hu hv hr =>
    have h3 := hf _ (B.ends _ hu).2 hv
    simp only at h3
    exact h2 _ hu (by omega)

/-- The state during near matching. -/
def NearSt (g : VGraph) (rk : VId → Nat) (o : List VId) (m : Nat) (s : VGraph × Ranking) : Prop :=
  ∃ n f, s.1 = g.withNear n ∧ RankedBy o f m s.2 ∧ (∀ p ∈ n, p.1 ∈ o ∧ p.2 ∈ o ∧ ¬ Crit g rk p.2) ∧
    (∀ c ∈ o, Crit g rk c → f c = rk c)

theorem NearSt.rerank (B : NearBase ts g rk o m r) {n : List (VId × VId)}
    (hn : ∀ p ∈ n, p.1 ∈ o ∧ p.2 ∈ o ∧ ¬ Crit g rk p.2) :
    ∃ r', rankingOf ts (g.withNear n) = .ok r' ∧ NearSt g rk o m (g.withNear n, r') := by
  obtain ⟨r', f, h1, h2, h3, _⟩ := rankingOf_near B.nd B.topo B.pass (B.rank.ranked B.nd) n (fun p hp => (hn p hp).1)
  refine ⟨r', h1, n, f, rfl, h2, hn, ?_⟩
  intro c _ hc
  apply h3
  apply inNear_nil
  rintro p hp rfl
  exact (hn p hp).2.2 hc

/-- Near matching never fails, and keeps the ranking consistent. -/
theorem performNearMatch_ok (B : NearBase ts g rk o m r) (ratio : RatioFn) :
    ∃ s, performNearMatch ts ratio g r = .ok s ∧ NearSt g rk o m s := by
  obtain ⟨s, h1, n, f, h2, h3, h4, h5⟩ := nearVertices_inv ts ratio g (fun _ s => NearSt g rk o m s)
    (by rintro _ s ⟨n, f, h, _⟩ v; rw [h]; rfl)
    (by
      rintro e es ⟨g', r'⟩ he ⟨n, f, h, h3, h4, h5⟩
      simp only at h h3
      subst h
      rcases nearEdge_cases ts ratio h3 (g := g.withNear n) B.ends (B.full h5) he with ⟨hc, _⟩ | ⟨w, hw, a1, a2, a3, a4, a5, _, a6⟩
      · exact ⟨_, hc, n, f, rfl, h3, h4, h5⟩
      · have hs := B.moved h3 h5 (mem_pairs_of_edge he) a2 a3
        rw [connectNear_withNear] at a6
        obtain ⟨r2, b1, b2⟩ := NearSt.rerank B (n := if (w, e.src) ∈ n then n else n ++ [(w, e.src)]) (by
          intro p hp
          split at hp
          · exact h4 p hp
          · rcases List.mem_append.mp hp with hp | hp
            · exact h4 p hp
            · simp only [List.mem_singleton] at hp
              subst hp
              exact ⟨hw, (B.ends _ (mem_pairs_of_edge he)).1, hs⟩)
        rw [b1] at a6
        exact ⟨_, a6, b2⟩)
    o.reverse (g, r) ⟨[], rk, (withNear_self B.nil).symm, B.rank.ranked B.nd, by simp, fun _ _ _ => rfl⟩
  obtain ⟨r2, b1, b2⟩ := NearSt.rerank B h4
  refine ⟨(s.1, r2), ?_, ?_⟩
  · unfold performNearMatch
    rw [B.topo]
    simp only [bind_ok, h1]
    rw [h2, b1]
    rfl
  · rw [h2]; exact b2

end

end CollateX
