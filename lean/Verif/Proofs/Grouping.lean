import Verif.Proofs.CollateOK
import Verif.Proofs.Collated
/-
The graph with segmentation compared with the graph without.
-/

namespace CollateX
open Spec

/-- Two tokens at the same place of the same vertex. -/
def SamePlace (p q : WPath) (t u : Token) : Prop :=
  ∃ (v : VId) (a b : List Token) (k : Nat), (v, a) ∈ p.segs ∧ (v, b) ∈ q.segs ∧ a[k]? = some t ∧ b[k]? = some u

section
variable {g : VGraph} {ps : List WPath} {v c : VId}

/-- A join moves tokens that share a place together, and brings no others together. -/
theorem Joinable.samePlace (J : Joinable g v c) (hg : GInv g ps) (hU : Uniform ps) (hvs : v ≠ startV) {p q : WPath} (hp : p ∈ ps)
    (hq : q ∈ ps) (t u : Token) : SamePlace (contractPath v c p) (contractPath v c q) t u ↔ SamePlace p q t u := by
  have hlen : ∀ {x a b}, (x, a) ∈ p.segs → (x, b) ∈ q.segs → a.length = b.length := by
    intro x a b h1 h2
    have := congrArg List.length (hU p hp q hq x a b h1 h2)
    simpa using this
  have hvc := J.ne hg
  -- what else a path through one of the two vertices has
  have hother : ∀ {p : WPath}, p ∈ ps → ((∃ a, (v, a) ∈ p.segs) ↔ ∃ a, (c, a) ∈ p.segs) := by
    intro p hp
    rcases J.segs hg hvs hp with ⟨⟨h1, h2⟩, _⟩ | ⟨A, B, ts, us, h1, _⟩
    · constructor
      · rintro ⟨a, ha⟩; exact absurd (List.mem_map.mpr ⟨_, ha, rfl⟩) h1
      · rintro ⟨a, ha⟩; exact absurd (List.mem_map.mpr ⟨_, ha, rfl⟩) h2
    · rw [h1]
      exact ⟨fun _ => ⟨us, by simp⟩, fun _ => ⟨ts, by simp⟩⟩
  constructor
  · rintro ⟨x, a, b, k, h1, h2, h3, h4⟩
    rcases (J.mem_segs hg hvs hp).mp h1 with ⟨a1, a2, a3⟩ | ⟨rfl, t1, t2, a1, a2, rfl⟩
    · rcases (J.mem_segs hg hvs hq).mp h2 with ⟨_, _, b3⟩ | ⟨h, _⟩
      · exact ⟨x, a, b, k, a3, b3, h3, h4⟩
      · exact absurd h a1
    · rcases (J.mem_segs hg hvs hq).mp h2 with ⟨h, _⟩ | ⟨_, u1, u2, b1, b2, rfl⟩
      · exact absurd rfl h
      · have hl := hlen a1 b1
        by_cases hk : k < t1.length
        · rw [List.getElem?_append_left hk] at h3
          rw [List.getElem?_append_left (by omega)] at h4
          exact ⟨x, t1, u1, k, a1, b1, h3, h4⟩
        · rw [List.getElem?_append_right (by omega)] at h3 h4
          rw [← hl] at h4
          exact ⟨c, t2, u2, k - t1.length, a2, b2, h3, h4⟩
  · rintro ⟨x, a, b, k, h1, h2, h3, h4⟩
    by_cases hxv : x = v
    · subst hxv
      obtain ⟨a2, ha2⟩ := (hother hp).mp ⟨a, h1⟩
      obtain ⟨b2, hb2⟩ := (hother hq).mp ⟨b, h2⟩
      refine ⟨x, a ++ a2, b ++ b2, k, (J.mem_segs hg hvs hp).mpr (Or.inr ⟨rfl, a, a2, h1, ha2, rfl⟩),
        (J.mem_segs hg hvs hq).mpr (Or.inr ⟨rfl, b, b2, h2, hb2, rfl⟩), ?_, ?_⟩
      · rw [List.getElem?_append_left (List.getElem?_eq_some_iff.mp h3).1]; exact h3
      · rw [List.getElem?_append_left (List.getElem?_eq_some_iff.mp h4).1]; exact h4
    · by_cases hxc : x = c
      · subst hxc
        obtain ⟨a2, ha2⟩ := (hother hp).mpr ⟨a, h1⟩
        obtain ⟨b2, hb2⟩ := (hother hq).mpr ⟨b, h2⟩
        have hl := hlen ha2 hb2
        refine ⟨v, a2 ++ a, b2 ++ b, a2.length + k, (J.mem_segs hg hvs hp).mpr (Or.inr ⟨rfl, a2, a, ha2, h1, rfl⟩),
          (J.mem_segs hg hvs hq).mpr (Or.inr ⟨rfl, b2, b, hb2, h2, rfl⟩), ?_, ?_⟩
        · rw [List.getElem?_append_right (by omega), Nat.add_sub_cancel_left]; exact h3
        · rw [hl, List.getElem?_append_right (by omega), Nat.add_sub_cancel_left]; exact h4
      · exact ⟨x, a, b, k, (J.mem_segs hg hvs hp).mpr (Or.inl ⟨hxv, hxc, h1⟩),
          (J.mem_segs hg hvs hq).mpr (Or.inl ⟨hxv, hxc, h2⟩), h3, h4⟩

end

/-- The paths of the joined graph have the same tokens together, and an order of the vertices of the first graph is still one. -/
structure Grouped (g0 : VGraph) (ps0 : List WPath) (g : VGraph) (ps : List WPath) : Prop where
  uniform : Uniform ps
  sigils : ps.map WPath.sigil = ps0.map WPath.sigil
  places : ∀ p ∈ ps, ∀ q ∈ ps, ∀ p0 ∈ ps0, ∀ q0 ∈ ps0, p.sigil = p0.sigil → q.sigil = q0.sigil →
    ∀ t u, SamePlace p q t u ↔ SamePlace p0 q0 t u
  order : ∀ f : VId → Nat, (∀ e ∈ g0.pairs, f e.1 < f e.2) → ∀ e ∈ g.pairs, f e.1 < f e.2

theorem grouped_join (cc : CharClass) (g0 : VGraph) (ps0 : List WPath) : StepInv cc (Grouped g0 ps0) := by
  intro g ps v c x hg J hvs _ _ h
  refine ⟨h.uniform.contract hg J hvs, ?_, ?_, ?_⟩
  · rw [List.map_map]
    exact h.sigils
  · intro p hp q hq p0 hp0 q0 hq0 e1 e2 t u
    obtain ⟨p', hp', rfl⟩ := List.mem_map.mp hp
    obtain ⟨q', hq', rfl⟩ := List.mem_map.mp hq
    rw [J.samePlace hg h.uniform hvs hp' hq']
    exact h.places p' hp' q' hq' p0 hp0 q0 hq0 e1 e2 t u
  · rintro f hf ⟨a, b⟩ he
    rcases (mem_pairs_joined (J.ne hg)).mp he with ⟨h1, _⟩ | ⟨rfl, h1⟩
    · exact h.order f hf _ h1
    · have := h.order f hf _ J.edge
      have := h.order f hf _ h1
      simp only at *
      omega

/-- Collating without and with segmentation, with a property of the paths that every step of the alignment keeps. -/
theorem collateRanked_both_inv (env : Env) (hts : TopoSpec env.topo) {ws : List Witness} (hv : Valid ws) (o : Opts)
    (ha : o.astar = false) (hd : o.detect = false) (hn : o.nearMatch = false) {R : List WPath → Prop}
    (hR : ∀ ti, ti.ws = indexed 0 ws → Layout ti → BlocksOK ti → StepKeeps env.topo o.pfilter ti (fun _ => R) ∧
      ∀ w s, ti.ws[0]? = some w → AInv ti s [⟨w.sigil, newSegs [] 2 w.tokens⟩] → R [⟨w.sigil, newSegs [] 2 w.tokens⟩]) :
    ∃ g ps rk rkf ord m g' ps' rk' rkf' ord' m',
      collateRanked env ws { o with segmentation := false } = .ok (indexed 0 ws, g, rk) ∧
      Collated env.cc (indexed 0 ws) false g ps rk rkf ord m ∧
      collateRanked env ws { o with segmentation := true } = .ok (indexed 0 ws, g', rk') ∧
      Collated env.cc (indexed 0 ws) true g' ps' rk' rkf' ord' m' ∧ Grouped g ps g' ps' ∧ R ps := by
  obtain ⟨ti, hti, hws, L, B⟩ := hv.tokenIndex
  obtain ⟨hR1, hR2⟩ := hR ti hws L B
  obtain ⟨s, ps, h1, h2, h3, hr⟩ := collateGraph_inv hts o.pfilter hti L B (Q := fun _ => R) hR1 hR2
  obtain ⟨rkf, ord, m, rk, h4, h5⟩ := rankingOf_ok hts h2.ginv.wf h2.ginv.near
  have hstep : StepInv env.cc (fun g' ps' => Labelled env.cc g' ps' ∧ Grouped s.g ps g' ps') :=
    fun g ps v c x a1 a2 a3 a4 a5 a6 => ⟨labelled_step env.cc g ps v c x a1 a2 a3 a4 a5 a6.1,
      grouped_join env.cc _ _ g ps v c x a1 a2 a3 a4 a5 a6.2⟩
  have h0 : Grouped s.g ps s.g ps := by
    refine ⟨h2.uniform, rfl, ?_, fun f hf => hf⟩
    intro p hp q hq p0 hp0 q0 hq0 e1 e2 t u
    obtain rfl := sigil_unique h2.ginv hp hp0 e1
    obtain rfl := sigil_unique h2.ginv hq hq0 e2
    exact Iff.rfl
  obtain ⟨g', ps', j1, j2, j3, j4, j5, j6⟩ := join_ok env.cc hstep h2.ginv ⟨h2.labelled env.cc, h0⟩ h2.uniform h2.single
  obtain ⟨rkf', ord', m', rk', h4', h5'⟩ := rankingOf_ok hts j2.wf j2.near
  refine ⟨s.g, ps, rk, rkf, ord, m, g', ps', rk', rkf', ord', m', ?_, ?_, ?_, ?_, j6.2, hr⟩
  · unfold collateRanked
    rw [if_neg (by simp [ha]), hd, h1]
    simp only [bind_ok, h4, hn]
    simp [hws, bind_ok]
  · refine ⟨h2.ginv, ?_, h2.uniform, h2.labelled _, fun _ => h2.single, by simp, h5⟩
    rw [h2.readings h3, hws]
  · unfold collateRanked
    rw [if_neg (by simp [ha]), hd, h1]
    simp only [bind_ok, h4, hn]
    simp [hws, j1, h4', bind_ok]
  · refine ⟨j2, ?_, j4, j6.1, by simp, fun _ => j5, h5'⟩
    rw [j3, h2.readings h3, hws]

/-- Collating without and with segmentation. -/
theorem collateRanked_both (env : Env) (hts : TopoSpec env.topo) {ws : List Witness} (hv : Valid ws) (o : Opts)
    (ha : o.astar = false) (hd : o.detect = false) (hn : o.nearMatch = false) :
    ∃ g ps rk rkf ord m g' ps' rk' rkf' ord' m',
      collateRanked env ws { o with segmentation := false } = .ok (indexed 0 ws, g, rk) ∧
      Collated env.cc (indexed 0 ws) false g ps rk rkf ord m ∧
      collateRanked env ws { o with segmentation := true } = .ok (indexed 0 ws, g', rk') ∧
      Collated env.cc (indexed 0 ws) true g' ps' rk' rkf' ord' m' ∧ Grouped g ps g' ps' := by
  obtain ⟨g, ps, rk, rkf, ord, m, g', ps', rk', rkf', ord', m', h1, h2, h3, h4, h5, _⟩ :=
    collateRanked_both_inv env hts hv o ha hd hn (R := fun _ => True)
      (fun _ _ _ _ => ⟨fun _ _ _ _ _ _ _ _ _ _ _ _ _ _ _ _ _ _ => trivial, fun _ _ _ _ => trivial⟩)
  exact ⟨g, ps, rk, rkf, ord, m, g', ps', rk', rkf', ord', m', h1, h2, h3, h4, h5⟩

end CollateX
