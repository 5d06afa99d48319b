import Verif.Proofs.NearProgram
import Verif.Proofs.Order
/-
Near matching of two witnesses: where the vertices end up does not depend on the topological order.
-/

namespace CollateX
open Spec

theorem exists_above : ∀ l : List Nat, ∃ N : Nat, ∀ v ∈ l, v < N + 2
  | [] => ⟨0, by simp⟩
  | a :: l => by
    obtain ⟨N, h⟩ := exists_above l
    refine ⟨N + a, fun v hv => ?_⟩
    rcases List.mem_cons.mp hv with rfl | hv
    · omega
    · have := h v hv
      omega

section
variable {cc : CharClass} {ws : List Witness} {g : VGraph} {ps : List WPath} {r : Ranking} {rk : VId → Nat} {o : List VId} {m : Nat}

/-- Any graph of single tokens as rows of nodes. -/
theorem Collated.tells (C : Collated cc ws false g ps r rk o m) :
    ∃ W : Work, Nodes W g ps ∧ ∀ p ∈ ps, ∀ v t, (v, [t]) ∈ p.segs → W.words[v - 2]? = some t.str := by
  obtain ⟨N, hN⟩ := exists_above g.vertices
  refine ⟨⟨(List.range N).map (fun n => ((dget g.nodes (n + 2)).map Vertex.label).getD []), ps.map (fun p => p.inner.map (· - 2))⟩, ⟨?_, ?_⟩, ?_⟩
  · simpa using hN
  · rw [List.map_map]
    apply List.map_congr_left
    intro p hp
    simp only [Function.comp, List.map_map]
    symm
    rw [List.map_congr_left (g := id), List.map_id]
    intro v hv
    obtain ⟨s, hs, rfl⟩ := List.mem_map.mp hv
    have h := C.ginv.segs_in p hp s hs
    have h1 : s.1 ≠ 0 := h.2.1
    have h2 : s.1 ≠ 1 := h.2.2.1
    simp only [Function.comp, id]
    omega
  · intro p hp v t hv
    have h := C.ginv.segs_in p hp _ hv
    have h1 : v ≠ 0 := h.2.1
    have h2 : v ≠ 1 := h.2.2.1
    have h3 := hN v h.1
    obtain ⟨x, hx⟩ := exists_dget_of_mem_keys (d := g.nodes) h.1
    have hl := C.labelled p hp _ _ hv x hx
    have hl' : x.label = t.str := by simpa [segText] using hl
    simp only [List.getElem?_map]
    rw [List.getElem?_range (by omega), Option.map_some, show v - 2 + 2 = v by omega, hx]
    simp [hl']

end

section
variable {cc : CharClass} {ws : List Witness} {g : VGraph} {ps : List WPath} {ts ts' : TopoFn} {r r' : Ranking} {rk rk' f f' : VId → Nat}
  {o o' : List VId} {m m' : Nat} {near near' : List (VId × VId)} {ratio : RatioFn}

/-- Two witnesses: the ranks after near matching. -/
theorem near_two_unique (B : NearBase ts g rk o m r) (C : Collated cc ws false g ps r rk o m) (B' : NearBase ts' g rk' o' m' r')
    (C' : Collated cc ws false g ps r' rk' o' m') (hne : ws ≠ []) (hlen : ps.length = 2)
    (hinc : ∀ p ∈ g.pairs, f p.1 < f p.2) (hcrit : ∀ c ∈ o, Crit g rk c → f c = rk c)
    (hnear : ∀ p ∈ near, p.1 ∈ o ∧ f p.2 = rk p.1 ∧ f p.1 = rk p.1) (hstay : ∀ w ∈ o, (∀ p ∈ near, p.2 ≠ w) → f w = rk w)
    (hplaced : ∀ e ∈ g.edges, ¬ Crit g rk e.src → NearPlaced ratio g rk o near f e.src e.tgt)
    (hinc' : ∀ p ∈ g.pairs, f' p.1 < f' p.2) (hcrit' : ∀ c ∈ o', Crit g rk' c → f' c = rk' c)
    (hnear' : ∀ p ∈ near', p.1 ∈ o' ∧ f' p.2 = rk' p.1 ∧ f' p.1 = rk' p.1) (hstay' : ∀ w ∈ o', (∀ p ∈ near', p.2 ≠ w) → f' w = rk' w)
    (hplaced' : ∀ e ∈ g.edges, ¬ Crit g rk' e.src → NearPlaced ratio g rk' o' near' f' e.src e.tgt) : ∀ v ∈ g.vertices, f v = f' v := by
  have hA : AtMostTwo ps := atMostTwo_of_length (by omega)
  have hps := C.ne hne
  obtain ⟨W, N, hW⟩ := C.tells
  obtain ⟨p, q, rfl⟩ : ∃ p q, ps = [p, q] := List.length_eq_two.mp hlen
  have hpq : p ≠ q := by
    rintro rfl
    have := C.ginv.sig_nd
    simp at this
  have key : ∀ x ∈ [p, q], ∀ v ∈ x.inner, f v = f' v := by
    intro x hx v hv
    obtain ⟨y, hy, hxy⟩ : ∃ y ∈ [p, q], x ≠ y := by
      simp only [List.mem_cons, List.not_mem_nil, or_false] at hx
      rcases hx with rfl | rfl
      · exact ⟨q, by simp, hpq⟩
      · exact ⟨p, by simp, hpq.symm⟩
    obtain ⟨a, _, ha⟩ := N.row_of hx
    obtain ⟨b, _, hb⟩ := N.row_of hy
    have e1 := moved_eq B C hne N hW hA hinc hcrit hnear hstay hplaced hx hy hxy ha hb
    have e2 := moved_eq B' C' hne N hW hA hinc' hcrit' hnear' hstay' hplaced' hx hy hxy ha hb
    rw [e1] at e2
    rw [ha] at hv
    obtain ⟨n, hn, rfl⟩ := List.mem_map.mp hv
    exact List.map_inj_left.mp e2 n hn
  intro v hv
  obtain ⟨x, hx, hvx⟩ := on_path C.ginv hps hv
  simp only [WPath.path, List.mem_cons, List.mem_append, List.not_mem_nil, or_false] at hvx
  have hrk := C.ranks_eq C' v hv
  rcases hvx with rfl | h | rfl
  · have h0 := (C.start_rank hne hv).mpr rfl
    have h1 : Crit g rk startV := by
      obtain ⟨c, hc1, hc2, hc3⟩ := B.level 0 (by have := B.last; omega)
      have := (C.start_rank hne (B.mem.mp hc1)).mp hc3
      exact this ▸ hc2
    have h1' : Crit g rk' startV := by
      obtain ⟨c, hc1, hc2, hc3⟩ := B'.level 0 (by have := B'.last; omega)
      have := (C'.start_rank hne (B'.mem.mp hc1)).mp hc3
      exact this ▸ hc2
    rw [hcrit _ (B.mem.mpr hv) h1, hcrit' _ (B'.mem.mpr hv) h1', hrk]
  · exact key x hx v h
  · rw [hcrit _ (B.mem.mpr hv) .last, hcrit' _ (B'.mem.mpr hv) .last, hrk]

end

end CollateX
