import Verif.Props.NearCells
/-
When near matching keeps a witness, exactly: C34 for any number of witnesses.
-/

namespace CollateX
open Spec

/-- Tokens read in order of rank: their vertices, with increasing ranks. -/
theorem read_by_rank {f : VId → Nat} {segs : List (VId × List Token)} (F : Nat → Option (List Token))
    (hF : ∀ k ts, F k = some ts → ∃ v x, ts = [x] ∧ (v, [x]) ∈ segs ∧ f v = k) (ks : List Nat) (hks : ks.Pairwise (· < ·)) :
    ∃ q : List (VId × Token), (ks.filterMap F).flatten = q.map Prod.snd ∧ (∀ p ∈ q, (p.1, [p.2]) ∈ segs ∧ f p.1 ∈ ks) ∧
      q.Pairwise (fun a b => f a.1 < f b.1) := by
  induction ks with
  | nil => exact ⟨[], rfl, by simp, .nil⟩
  | cons k ks ih =>
    obtain ⟨h1, h2⟩ := List.pairwise_cons.mp hks
    obtain ⟨q, a, b, c⟩ := ih h2
    rw [List.filterMap_cons]
    cases hk : F k with
    | none => exact ⟨q, a, fun p hp => ⟨(b p hp).1, by simp [(b p hp).2]⟩, c⟩
    | some ts =>
      obtain ⟨v, x, rfl, hv, hf⟩ := hF k ts hk
      refine ⟨(v, x) :: q, by simp [a], ?_, List.pairwise_cons.mpr ⟨?_, c⟩⟩
      · intro p hp
        rcases List.mem_cons.mp hp with rfl | hp
        · exact ⟨hv, by simp [hf]⟩
        · exact ⟨(b p hp).1, by simp [(b p hp).2]⟩
      · intro p hp
        rw [show f (v, x).1 = k from hf]
        exact h1 _ (b p hp).2

/-- C34 for any number of witnesses: let `vs` be the vertices with the tokens of a witness. With near matching the row of the witness has
all these tokens in order if and only if the columns of these vertices increase from each to the next. (So a token is lost or out of order
exactly if near matching moved a vertex of the witness to or past the column of its next one.) -/
theorem C34_row_iff (env : Env) (hts : TopoSpec env.topo) (ws : List Witness) (hv : Valid ws) (hs : ∀ w ∈ ws, w.sigil ≠ []) (o : Opts)
    (ho : NearMatching o) :
    ∃ ws' g rk, collateRanked env ws o = .ok (ws', g, rk) ∧ collateTable env ws o = .ok (mkTable ws' g rk) ∧
      List.Forall₂ (fun w w' => w.sigil = w'.sigil ∧ List.Forall₂ SameToken w.tokens w'.tokens) ws ws' ∧
      ∀ (k : Nat) (w' : Witness) (row : Row), ws'[k]? = some w' → (mkTable ws' g rk).rows[k]? = some row →
        ∃ (vs : List Nat) (ranks : List Nat), List.Forall₂ (fun v t => CarriesAt g v w'.sigil [t]) vs w'.tokens ∧
          vs.map (dget rk.byVertex) = ranks.map some ∧
          ((row.cells.filterMap id).flatten = w'.tokens ↔ ranks.Pairwise (· < ·)) := by
  obtain ⟨g, ps, r, rk, ord, m, B, C, h0, h1⟩ := near_base env hts hv ho
  have hne : indexed 0 ws ≠ [] := by
    intro h0
    have := congrArg List.length h0
    rw [indexed_length] at this
    exact hv.ne (List.length_eq_zero_iff.mp this)
  obtain ⟨hm, hend⟩ := C.end_rank hne
  have hb := C.ginv.rank_bounds (C.ne hne) (h := rk) (fun p hp => C.lt (u := p.1) (v := p.2) hp)
  have hpos : 0 < rk endV := by
    have : startV ≠ endV := by decide
    have := (hb _ C.ginv.start_mem).2 this
    omega
  have hs0 := (C.start_rank hne C.ginv.start_mem).mpr rfl
  obtain ⟨s, h2, n, f, h3, R, _, hcrit, hin⟩ := performNearMatch_inside B
    (by
      intro v hv h1 h2
      have h3 := (hb v (B.mem.mp hv)).1 h1
      have h4 := (hb v (B.mem.mp hv)).2 h2
      omega) hs0 (B.mem.mpr C.ginv.start_mem) hpos env.ratio
  rw [h2] at h1
  obtain ⟨L, hbr, hnd, hmem⟩ := R.br
  have hby : ByRank g f m L s.2 := ⟨hbr, hnd, fun k hk v => by rw [hmem k hk v, B.mem], fun v hv => R.lt v (B.mem.mpr hv)⟩
  have hnodes : s.1.nodes = g.nodes := by rw [h3]; rfl
  have htab : mkTable (indexed 0 ws) s.1 s.2 = mkTable (indexed 0 ws) g s.2 := by rw [h3, mkTable_withNear]
  refine ⟨indexed 0 ws, s.1, s.2, h1, ?_, ?_, ?_⟩
  · unfold collateTable
    rw [h1]
    rfl
  · rw [List.forall₂_iff_get]
    refine ⟨(indexed_length 0 ws).symm, ?_⟩
    intro k hk1 hk2
    have e1 : ws[k]? = some ws[k] := List.getElem?_eq_getElem hk1
    have e2 : (indexed 0 ws)[k]? = some (indexed 0 ws)[k] := List.getElem?_eq_getElem hk2
    obtain ⟨w0, hw0, hsig, _⟩ := indexed_strs ws e2
    rw [e1] at hw0
    obtain rfl := Option.some.inj hw0
    exact ⟨hsig.symm, sameTokens_at h0 e1 e2⟩
  · intro k w' row hw' hr
    rw [htab] at hr
    obtain ⟨w'', hw'', _, hcells⟩ := row_at hr
    rw [hw'] at hw''
    obtain rfl := Option.some.inj hw''
    obtain ⟨p, hp, hps, htext⟩ := C.at hw'
    have hpm := List.mem_of_getElem? hp
    have hsp := C.sigil_ne (indexed_sigil_ne hs)
    have hsingle := C.single rfl p hpm
    have hndt := hv.tokens_nodup hw'
    have htoks : List.Forall₂ (fun (q : VId × List Token) t => q.2 = [t]) p.segs w'.tokens := by
      rw [← htext]
      unfold WPath.text
      generalize p.segs = l at hsingle
      induction l with
      | nil => exact .nil
      | cons q l ih =>
        obtain ⟨x, hx⟩ := hsingle q (by simp)
        rw [List.flatMap_cons, hx]
        exact .cons hx (ih (fun q hq => hsingle q (by simp [hq])))
    have hvs : List.Forall₂ (fun v t => CarriesAt s.1 v w'.sigil [t]) p.inner w'.tokens := by
      unfold WPath.inner
      rw [List.forall₂_map_left_iff, List.forall₂_iff_get]
      refine ⟨htoks.length_eq, ?_⟩
      intro i hi1 hi2
      have e := (List.forall₂_iff_get.mp htoks).2 i hi1 hi2
      simp only [List.get_eq_getElem] at e ⊢
      have hc : CarriesAt g p.segs[i].1 w'.sigil [w'.tokens[i]] :=
        (C.carries (indexed_sigil_ne hs)).mpr ⟨p, hpm, hps, by rw [← e]; exact List.getElem_mem _⟩
      unfold CarriesAt at hc ⊢
      rw [hnodes]
      exact hc
    refine ⟨p.inner, p.inner.map f, hvs, ?_, ?_⟩
    · rw [List.map_map]
      apply List.map_congr_left
      intro v hvm
      obtain ⟨q, hq, rfl⟩ := List.mem_map.mp hvm
      rw [R.bv]
      exact dget_map_self f ord _ (B.mem.mpr (C.ginv.segs_in p hpm q hq).1)
    · constructor
      · intro hrow
        rw [hcells, ← hps, hby.columns, List.filterMap_map, List.filterMap_filterMap] at hrow
        obtain ⟨q, a, b, c⟩ := read_by_rank (f := f) (segs := p.segs)
          (fun k => if k < m then (colAt g (indexed 0 ws).length L k).bind (fun c => dget c.tokens p.sigil) else none) (by
            intro k ts hk
            split at hk
            · rename_i hkm
              obtain ⟨c, hc, hd⟩ := Option.bind_eq_some_iff.mp hk
              obtain ⟨v, hvL, hq⟩ := hby.col_entry C.ginv hsp hkm hc hpm hd
              obtain ⟨x, hx⟩ := hsingle _ hq
              simp only at hx
              subst hx
              exact ⟨v, x, rfl, hq, ((hmem k hkm v).mp hvL).2⟩
            · cases hk) (List.range m) List.pairwise_lt_range
        have e : q.map Prod.snd = w'.tokens := by
          rw [← a, ← hrow]
          congr 1
          apply List.filterMap_congr
          intro k hk
          rw [if_pos (List.mem_range.mp hk)]
          rfl
        have e2 : q.map Prod.fst = p.inner := by
          unfold WPath.inner
          apply List.ext_getElem?
          intro i
          rw [List.getElem?_map, List.getElem?_map]
          have hlen : q.length = p.segs.length := by rw [htoks.length_eq, ← e, List.length_map]
          by_cases hi : i < q.length
          · have hi' : i < p.segs.length := by omega
            rw [List.getElem?_eq_getElem hi, List.getElem?_eq_getElem hi']
            simp only [Option.map_some, Option.some.injEq]
            obtain ⟨j, hj⟩ := List.getElem?_of_mem (b q[i] (List.getElem_mem hi)).1
            obtain ⟨hj1, hj2⟩ := List.getElem?_eq_some_iff.mp hj
            have t1 := (List.forall₂_iff_get.mp htoks).2 j hj1 (by rw [← htoks.length_eq]; exact hj1)
            simp only [List.get_eq_getElem, hj2, List.cons.injEq, and_true] at t1
            have t2 : q[i].2 = w'.tokens[i]'(by rw [← htoks.length_eq]; exact hi') := by
              have := congrArg (fun l => l[i]?) e
              simpa [List.getElem?_map, List.getElem?_eq_getElem hi, List.getElem?_eq_getElem (show i < w'.tokens.length by rw [← htoks.length_eq]; exact hi')] using this
            rw [t2] at t1
            have hij : i = j := (List.Nodup.getElem_inj_iff hndt).mp t1
            subst hij
            rw [hj2]
          · rw [List.getElem?_eq_none (by omega), List.getElem?_eq_none (by omega)]
            rfl
        rw [← e2, List.map_map, List.pairwise_map]
        exact c
      · intro hinc
        rw [List.pairwise_map] at hinc
        have hrow := hby.row C.ginv hpm (hsp p hpm) hinc (indexed 0 ws)
        rw [hcells, ← hps, hrow, ← htext]
        unfold WPath.text
        rw [List.flatMap_def]

/-- The witnesses of `C34_three_witnesses` meet the hypotheses. The vertices of B are 7, 4, 5 and 6, in columns 4, 3, 4 and 5: its row
loses a token. Those of A are 2, 3, 4, 5 and 6, in columns 1 to 5, and its row is complete. -/
example : TopoSpec nearEnv.topo ∧ Valid losingWitnesses ∧ (∀ w ∈ losingWitnesses, w.sigil ≠ []) ∧
    NearMatching { segmentation := false, nearMatch := true } ∧
    (collateRanked nearEnv losingWitnesses { segmentation := false, nearMatch := true }).map (fun r =>
      r.2.1.nodes.map (fun n => (n.1, n.2.tokens.map Prod.fst, n.2.tokens.flatMap (fun q => q.2.map Token.str)))) =
      .ok [(0, [], []), (1, [], []), (2, [S "A"], [S "x1"]), (3, [S "A"], [S "x2"]), (4, [S "A", S "B"], [S "w", S "w"]),
        (5, [S "A", S "B"], [S "yyyy", S "yyyy"]), (6, [S "A", S "B", S "C"], [S "v", S "v", S "v"]),
        (7, [S "B", S "C"], [S "yyyz", S "yyyz"])] ∧
    (collateRanked nearEnv losingWitnesses { segmentation := false, nearMatch := true }).map (fun r => r.2.2.byVertex) =
      .ok [(0, 0), (2, 1), (3, 2), (7, 4), (4, 3), (5, 4), (6, 5), (1, 6)] ∧
    ¬ ([4, 3, 4, 5] : List Nat).Pairwise (· < ·) ∧ ([1, 2, 3, 4, 5] : List Nat).Pairwise (· < ·) :=
  ⟨kahn_spec, losingWitnesses_valid, by decide, ⟨rfl, rfl, rfl, rfl⟩, by decide +kernel, by decide +kernel, by decide, by decide⟩

end CollateX
