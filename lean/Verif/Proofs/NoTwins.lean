import Verif.Props.Best
import Verif.Props.Segmented
import Verif.Proofs.Untwinned
import Verif.Props.Renaming
/-
Two witnesses, of which the second has no equal neighbours: no two vertices of one rank have the same label.
-/

namespace CollateX
open Spec

section
variable {cc : CharClass} {a b : Witness} {p P : WPath} {g : VGraph} {rk : Ranking} {rkf : VId → Nat} {ord : List VId} {m : Nat}

/-- Two vertices of one path with the same rank are equal. -/
theorem Collated.same_rank_inner {seg : Bool} {ws : List Witness} {ps : List WPath} (C : Collated cc ws seg g ps rk rkf ord m) {q : WPath} (hq : q ∈ ps)
    {u v : VId} (hu : u ∈ q.inner) (hv : v ∈ q.inner) (h : rkf u = rkf v) : u = v := by
  rcases pairwise_total (C.inner_increasing hq) hu hv with h' | h' | h'
  · exact h'
  · omega
  · omega

/-- If as many columns have equal strings as there are shared vertices, two vertices of one rank have different strings. -/
theorem Collated.no_twins (C : Collated cc [a, b] false g [p, P] rk rkf ord m) (hsi : ∀ w ∈ [a, b], w.sigil ≠ [])
    (hle : (agreeing g a b ord rkf m).length ≤ (P.inner.filter (· ∈ p.inner)).length) {u v : VId} {s t : Token}
    (hu : (u, [s]) ∈ p.segs) (hv : (v, [t]) ∈ P.segs) (hr : rkf u = rkf v) (hst : s.str = t.str) : u = v := by
  obtain ⟨h1, h2⟩ := C.shared_agree hsi
  have h3 := nodup_length_le h1 h2
  rw [List.length_map] at h3
  have hall := subset_of_length h1 h2 (by rw [List.length_map]; omega)
  obtain ⟨p', hp', hpa, _⟩ := C.at (k := 0) (w := a) rfl
  obtain ⟨q', hq', hqb, _⟩ := C.at (k := 1) (w := b) rfl
  obtain rfl : p = p' := by simpa using hp'
  obtain rfl : P = q' := by simpa using hq'
  have hpm : p ∈ [p, P] := by simp
  have hqm : P ∈ [p, P] := by simp
  have hk := C.byRank.lt u (C.ginv.segs_in p hpm _ hu).1
  have c1 := (C.byRank.cell C.ginv hpm (C.sigil_ne hsi _ hpm) (C.inner_increasing hpm) [a, b].length hk [s]).mpr ⟨_, hu, rfl, rfl⟩
  have c2 := (C.byRank.cell C.ginv hqm (C.sigil_ne hsi _ hqm) (C.inner_increasing hqm) [a, b].length hk [t]).mpr ⟨_, hv, hr.symm, rfl⟩
  obtain ⟨c, hc, d1⟩ := Option.bind_eq_some_iff.mp c1
  rw [hc] at c2
  simp only [Option.bind_some] at c2
  have hag : rkf u ∈ agreeing g a b ord rkf m := by
    refine List.mem_filter.mpr ⟨List.mem_range.mpr hk, ?_⟩
    rw [hc]
    simp only [Option.map_some, Option.getD_some, decide_eq_true_eq]
    rw [← hpa, ← hqb, d1, c2]
    simp [CollateX.cellStr, hst]
  obtain ⟨x, hx, hxr⟩ := List.mem_map.mp (hall _ hag)
  obtain ⟨hxq, hxp⟩ := List.mem_filter.mp hx
  simp only [decide_eq_true_eq] at hxp
  have e1 := C.same_rank_inner hpm hxp (List.mem_map.mpr ⟨_, hu, rfl⟩) hxr
  have e2 := C.same_rank_inner hqm hxq (List.mem_map.mpr ⟨_, hv, rfl⟩) (hxr.trans hr)
  exact e1.symm.trans e2

end

/-- The collation of two witnesses of which the second has no equal neighbours: two vertices with one rank and one string are equal. -/
theorem two_untwinned (env : Env) (hts : TopoSpec env.topo) (wA wB : Witness) (hv : Valid [wA, wB])
    (hs : ∀ w ∈ [wA, wB], w.sigil ≠ []) (hrep : NoRepeats wB) (o : Opts) (ho : ExactMatching o) (hf : o.pfilter = none)
    (hseg : o.segmentation = false) :
    ∃ g rk ps rkf ord m, collateRanked env [wA, wB] o = .ok (indexed 0 [wA, wB], g, rk) ∧
      Collated env.cc (indexed 0 [wA, wB]) false g ps rk rkf ord m ∧
      ∀ q ∈ ps, ∀ q' ∈ ps, ∀ (u v : VId) (s t : Token), (u, [s]) ∈ q.segs → (v, [t]) ∈ q'.segs → rkf u = rkf v → s.str = t.str → u = v := by
  obtain ⟨g, rk, a, b, p, P, rkf, ord, m, hab, h1, C, hsi, hA, hB, len, f, f1, f2, f3⟩ := best_core env hts wA wB hv hs hrep o ho hf hseg
  have harr := C.arrangement hsi
  rw [hA, hB] at harr
  have h2 := f3 _ harr.2
  have h4 := C.columns_le (by simp)
  have h5 := C.rank.isRank.le C.ginv.wf f2 _ endV C.ginv.end_mem rfl
  have h6 := balance_eq ((mkTable [a, b] g rk).columns.map (fun c => (cellStr (dget c.tokens a.sigil), cellStr (dget c.tokens b.sigil))))
  rw [List.length_map, C.agreeing_length] at h6
  have hle : (agreeing g a b ord rkf m).length ≤ (P.inner.filter (· ∈ p.inner)).length := by omega
  refine ⟨g, rk, [p, P], rkf, ord, m, by rw [hab]; exact h1, by rw [hab]; exact C, ?_⟩
  intro q hq q' hq' u v s t hu hv hr hst
  have hu' : u ∈ q.inner := List.mem_map.mpr ⟨_, hu, rfl⟩
  have hv' : v ∈ q'.inner := List.mem_map.mpr ⟨_, hv, rfl⟩
  simp only [List.mem_cons, List.not_mem_nil, or_false] at hq hq'
  rcases hq with rfl | rfl <;> rcases hq' with rfl | rfl
  · exact C.same_rank_inner (by simp) hu' hv' hr
  · exact C.no_twins hsi hle hu hv hr hst
  · exact (C.no_twins hsi hle hv hu hr.symm hst.symm).symm
  · exact C.same_rank_inner (by simp) hu' hv' hr

/-- There are no twins. -/
theorem two_twinFree (env : Env) (hts : TopoSpec env.topo) (wA wB : Witness) (hv : Valid [wA, wB])
    (hs : ∀ w ∈ [wA, wB], w.sigil ≠ []) (hrep : NoRepeats wB) (o : Opts) (ho : ExactMatching o) (hf : o.pfilter = none)
    (hseg : o.segmentation = false) {us : List Witness} {g : VGraph} {rk : Ranking} (h : collateRanked env [wA, wB] o = .ok (us, g, rk)) :
    Spec.TwinFree g rk := by
  obtain ⟨g', rk', ps, rkf, ord, m, h1, C, hno⟩ := two_untwinned env hts wA wB hv hs hrep o ho hf hseg
  rw [h1] at h
  have h := Except.ok.inj h
  simp only [Prod.mk.injEq] at h
  obtain ⟨_, rfl, rfl⟩ := h
  have hne : ps ≠ [] := C.ne (by intro h0; have := congrArg List.length h0; rw [indexed_length] at this; simp at this)
  have hbd := C.ginv.rank_bounds hne (h := rkf) (fun p hp => C.rank.isRank.lt C.ginv.wf (u := p.1) (v := p.2) hp)
  intro u v x y hx hy hl hr
  have hum : u ∈ g'.vertices := List.mem_map.mpr ⟨_, dget_mem hx, rfl⟩
  have hvm : v ∈ g'.vertices := List.mem_map.mpr ⟨_, dget_mem hy, rfl⟩
  rw [C.rank.byVertex hum, C.rank.byVertex hvm] at hr
  have hr := Option.some.inj hr
  have hse := (hbd endV C.ginv.end_mem).1 (by decide)
  by_cases u0 : u = startV
  · subst u0
    by_contra hc
    have := (hbd v hvm).1 (fun e => hc e.symm)
    omega
  by_cases u1 : u = endV
  · subst u1
    by_contra hc
    have := (hbd v hvm).2 (fun e => hc e.symm)
    omega
  by_cases v0 : v = startV
  · subst v0
    have := (hbd u hum).1 u0
    omega
  by_cases v1 : v = endV
  · subst v1
    have := (hbd u hum).2 u1
    omega
  obtain ⟨q, hq, huq⟩ := C.ginv.cover u hum u0 u1
  obtain ⟨q', hq', hvq⟩ := C.ginv.cover v hvm v0 v1
  obtain ⟨⟨u', su⟩, hu, rfl⟩ := List.mem_map.mp huq
  obtain ⟨⟨v', sv⟩, hv, rfl⟩ := List.mem_map.mp hvq
  obtain ⟨s, hs'⟩ := C.single rfl q hq _ hu
  obtain ⟨t, ht'⟩ := C.single rfl q' hq' _ hv
  simp only at hs' ht'
  subst hs' ht'
  have l1 := C.labelled q hq _ _ hu x hx
  have l2 := C.labelled q' hq' _ _ hv y hy
  have l1' : x.label = s.str := by simpa [segText] using l1
  have l2' : y.label = t.str := by simpa [segText] using l2
  exact hno q hq q' hq' u' v' s t hu hv hr (by rw [← l1', ← l2', hl])

/-- A graph without twins is that of nodes without twins. -/
theorem Tracks.untwinned {cc : CharClass} {ws : List Witness} {W : Work} {g : VGraph} {ps : List WPath} {rk : Ranking} {rkf : VId → Nat}
    {ord : List VId} {m : Nat} (T : Tracks W g ps) (C : Collated cc ws false g ps rk rkf ord m) (hne : ps ≠ []) (h : Spec.TwinFree g rk) :
    W.Untwinned := by
  unfold Work.Untwinned
  refine List.Nodup.map_on ?_ List.nodup_range
  have key : ∀ n, n < W.words.length → ∃ x, dget g.nodes (n + 2) = some x ∧ W.words[n]? = some x.label ∧
      dget rk.byVertex (n + 2) = some (W.column n) := by
    intro n hn
    obtain ⟨hv, h0, h1⟩ := T.inner hn
    obtain ⟨q, hq, hvq⟩ := C.ginv.cover _ hv h0 h1
    obtain ⟨⟨v, us⟩, hu, he⟩ := List.mem_map.mp hvq
    simp only at he
    subst he
    obtain ⟨t, ht⟩ := C.single rfl q hq _ hu
    simp only at ht
    subst ht
    obtain ⟨x, hx⟩ := exists_dget_of_mem_keys (d := g.nodes) hv
    have l1 : x.label = t.str := by simpa [segText] using C.labelled q hq _ _ hu x hx
    have hw := T.words q hq _ t hu
    rw [Nat.add_sub_cancel] at hw
    exact ⟨x, hx, by rw [hw, l1], by rw [C.rank.byVertex hv, T.nodes.column C.ginv hne C.rank hv]⟩
  intro n hn k hk he
  simp only [Prod.mk.injEq] at he
  obtain ⟨x, x1, x2, x3⟩ := key n (List.mem_range.mp hn)
  obtain ⟨y, y1, y2, y3⟩ := key k (List.mem_range.mp hk)
  have := h _ _ x y x1 y1 (by rw [x2, y2] at he; exact Option.some.inj he.2) (by rw [x3, y3, he.1])
  omega

/-- The short program makes no twins of such texts. -/
theorem work_untwinned (wA wB : Witness) (hv : Valid [wA, wB]) (hs : ∀ w ∈ [wA, wB], w.sigil ≠ []) (hrep : NoRepeats wB) :
    (workOf [strings wA, strings wB]).Untwinned := by
  obtain ⟨g, rk, ps, rkf, ord, m, W, h1, C, hW, T⟩ := worked_core exampleEnv kahn_spec [wA, wB] hv { segmentation := false } ⟨rfl, rfl, rfl⟩ rfl rfl
  have h2 := two_twinFree exampleEnv kahn_spec wA wB hv hs hrep { segmentation := false } ⟨rfl, rfl, rfl⟩ rfl rfl h1
  have hne : ps ≠ [] := C.ne (by intro h0; have := congrArg List.length h0; rw [indexed_length] at this; simp at this)
  have := hW.unique (untwinned_two (ts := [wA, wB].map strings) (by simp))
  rw [show [strings wA, strings wB] = [wA, wB].map strings from rfl, ← this]
  exact T.untwinned C hne h2

/-- So a third text can be collated by the short program. -/
theorem untwinned_three {ws : List Witness} (hv : Valid ws) (hs : ∀ w ∈ ws, w.sigil ≠ []) (h3 : ws.length ≤ 3)
    (hrep : ∀ w, ws[1]? = some w → NoRepeats w) : ∀ n < ws.length, (workOf ((ws.map strings).take n)).Untwinned := by
  intro n hn
  match ws, n, h3, hn with
  | _ :: _, 0, _, _ => exact untwinned_nil
  | A :: _, 1, _, _ => exact untwinned_single (strings A)
  | [A, B, C], 2, _, _ =>
    refine work_untwinned A B ?_ (fun w hw => hs w (by simp at hw ⊢; tauto)) (hrep B rfl)
    exact hv.take (n := 2) (by omega)
  | [_], n + 1, _, hn => simp at hn
  | [_, _], n + 2, _, hn => simp at hn
  | [_, _, _], n + 3, _, hn => simp at hn

end CollateX
