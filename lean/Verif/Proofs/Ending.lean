import Verif.Proofs.Copies
import Verif.Proofs.Variant
/-
Witnesses with a common ending.
-/

namespace CollateX
open Spec

/-! ### The last vertices of the paths -/

/-- All paths have the same vertices on their last `k` places before the end: `u i` is the vertex `i` places before the end. -/
structure EndsIn (k : Nat) (u : Nat → VId) (ps : List WPath) : Prop where
  at_end : ∀ i, i ≤ k → ∀ p ∈ ps, p.path.reverse[i]? = some (u i)

section
variable {g : VGraph} {ps : List WPath} {rkf : VId → Nat} {o : List VId} {m : Nat} {r : Ranking} {k : Nat} {u : Nat → VId}

theorem reverse_consec {l : List VId} {i : Nat} {a b : VId} (h1 : l.reverse[i + 1]? = some a) (h2 : l.reverse[i]? = some b) :
    Consec l a b := by
  have hl := (List.getElem?_eq_some_iff.mp h1).1
  rw [List.length_reverse] at hl
  rw [List.getElem?_reverse (by omega)] at h1 h2
  exact consec_iff_getElem.mpr ⟨l.length - 1 - (i + 1), h1, by rw [show l.length - 1 - (i + 1) + 1 = l.length - 1 - i by omega]; exact h2⟩

theorem consec_reverse {l : List VId} {a b : VId} (h : Consec l a b) : ∃ i : Nat, l.reverse[i + 1]? = some a ∧ l.reverse[i]? = some b := by
  obtain ⟨j, h1, h2⟩ := consec_iff_getElem.mp h
  have hl := (List.getElem?_eq_some_iff.mp h2).1
  refine ⟨l.length - 1 - (j + 1), ?_, ?_⟩
  · rw [List.getElem?_reverse (by omega), show l.length - 1 - (l.length - 1 - (j + 1) + 1) = j by omega]; exact h1
  · rw [List.getElem?_reverse (by omega), show l.length - 1 - (l.length - 1 - (j + 1)) = j + 1 by omega]; exact h2

theorem path_reverse_zero (p : WPath) : p.path.reverse[0]? = some endV := by
  unfold WPath.path
  simp

theorem EndsIn.zero (h : EndsIn k u ps) (hne : ps ≠ []) : u 0 = endV := by
  obtain ⟨p, hp⟩ := List.exists_mem_of_ne_nil ps hne
  have := h.at_end 0 (by omega) p hp
  rw [path_reverse_zero] at this
  exact (Option.some.inj this).symm

/-- The ranks of the last vertices, and that they are alone on their ranks. -/
theorem EndsIn.rank (h : EndsIn k u ps) (hne : ps ≠ []) (hg : GInv g ps) (R : RankingOf g rkf o m r) : ∀ i, i ≤ k →
    rkf (u i) + i = rkf endV ∧ ∀ v ∈ g.vertices, rkf v + i = rkf endV → v = u i := by
  have hedge : ∀ p ∈ g.pairs, rkf p.1 < rkf p.2 := fun p hp => R.isRank.lt hg.wf hp
  have hbd := hg.rank_bounds hne hedge
  obtain ⟨p, hp⟩ := List.exists_mem_of_ne_nil ps hne
  intro i
  induction i using Nat.strong_induction_on with
  | _ i ih =>
    intro hi
    cases i with
    | zero =>
      rw [h.zero hne]
      refine ⟨rfl, ?_⟩
      intro v hv he
      by_contra hve
      have := (hbd v hv).2 hve
      omega
    | succ i =>
      obtain ⟨h1, h2⟩ := ih i (by omega) (by omega)
      have hui := h.at_end i (by omega) p hp
      have huj := h.at_end (i + 1) hi p hp
      have huv : u i ∈ g.vertices := path_mem_vertices hg hp (List.mem_reverse.mp (List.mem_of_getElem? hui))
      have hlt := hedge _ ((hg.edges_iff _ _).mpr ⟨p, hp, reverse_consec huj hui⟩)
      simp only at hlt
      obtain ⟨x, hx, hxr⟩ := R.isRank.pred huv (by omega)
      obtain ⟨q, hq, hcon⟩ := (hg.edges_iff _ _).mp hx
      obtain ⟨j, hj1, hj2⟩ := consec_reverse hcon
      have hji : j = i := by
        have h3 := h.at_end i (by omega) q hq
        obtain ⟨l1, e1⟩ := List.getElem?_eq_some_iff.mp hj2
        obtain ⟨l2, e2⟩ := List.getElem?_eq_some_iff.mp h3
        exact ((List.nodup_reverse.mpr (hg.path_nodup hq)).getElem_inj_iff (hi := l1) (hj := l2)).mp (by rw [e1, e2])
      subst hji
      rw [h.at_end (j + 1) hi q hq] at hj1
      obtain rfl := Option.some.inj hj1
      refine ⟨by omega, ?_⟩
      intro v hv he
      have hve : v ≠ endV := by rintro rfl; omega
      have : ∃ q ∈ ps, v ∈ q.path := by
        by_cases hvs : v = startV
        · exact ⟨p, hp, by rw [hvs]; unfold WPath.path; simp⟩
        · obtain ⟨q, hq, hvq⟩ := hg.cover v hv hvs hve
          exact ⟨q, hq, by unfold WPath.path; simp [hvq]⟩
      obtain ⟨q, hq, hvq⟩ := this
      obtain ⟨l, hl⟩ := List.getElem?_of_mem (List.mem_reverse.mpr hvq)
      have hll := (List.getElem?_eq_some_iff.mp hl).1
      rw [List.length_reverse] at hll
      have hz := path_reverse_zero q
      rw [List.getElem?_reverse (by omega)] at hz
      have hl' := hl
      rw [List.getElem?_reverse hll] at hl'
      have hle := rank_path_lt hg R hq l _ _ _ hl' (by
        rw [show q.path.length - 1 - l + l = q.path.length - 1 - 0 by omega]; exact hz)
      by_cases hlj : l = j + 1
      · subst hlj
        rw [h.at_end _ hi q hq] at hl
        exact (Option.some.inj hl).symm
      · exfalso
        have := h.at_end l (by omega) q hq
        rw [hl] at this
        obtain rfl := Option.some.inj this
        have := (ih l (by omega) (by omega)).1
        omega

end

/-! ### The table of scores -/

section
variable {cube : Cube} {width h : Nat} {cells : List (List Score)}

/-- One more token gains at most two. -/
theorem TableEq.down_le (ht : TableEq cube width h cells) (hneg : ∀ x : Nat, cube.has (-1) (x : Int) = false) (y : Nat) :
    ∀ (x : Nat) (p c : Score), cellOf cells y x = some p → cellOf cells (y + 1) x = some c → c.g ≤ p.g + 2 := by
  intro x
  induction x with
  | zero =>
    intro p c hp hc
    rw [ht.col0 y c p hc hp]
    simp only [gap]
    omega
  | succ x ih =>
    intro p c hp hc
    have hb := ht.bounds hc
    obtain ⟨ul, hul⟩ := ht.exists_cell (y := y) (x := x) (by omega) (by omega)
    obtain ⟨left, hleft⟩ := ht.exists_cell (y := y + 1) (x := x) (by omega) (by omega)
    have h1 := ih ul left hul hleft
    have h2 := ht.cell_ge hneg .right hul (by simpa [Step.move] using hp)
    have h5 := congrArg Score.g (ht.inner y x c ul left p hc hul hleft hp)
    rw [max3_g, scoreCell_g, fromUpper_g hneg] at h5
    have e3 : (gap (x + 1) (y + 1) left).g = left.g - 1 := rfl
    rw [e3] at h5
    simp only [Step.score] at h2
    have h6 : Step.score cube.rel .down (x + 1, y) ≤ 1 := by unfold Step.score; split <;> omega
    split at h5 <;> omega

/-- One more column gains at most two, if no two tokens in a row match there. -/
theorem TableEq.right_le (ht : TableEq cube width h cells) (hneg : ∀ x : Nat, cube.has (-1) (x : Int) = false) {x : Nat}
    (hx : ∀ y : Nat, ¬ (cube.rel y x = true ∧ cube.rel (y + 1) x = true)) :
    ∀ (y : Nat) (p c : Score), cellOf cells y x = some p → cellOf cells y (x + 1) = some c → c.g ≤ p.g + 2 := by
  intro y
  induction y with
  | zero =>
    intro p c hp hc
    rw [ht.row0 x c p hc hp]
    simp only [gap]
    omega
  | succ y ih =>
    intro p c hp hc
    have hb := ht.bounds hc
    obtain ⟨ul, hul⟩ := ht.exists_cell (y := y) (x := x) (by omega) (by omega)
    obtain ⟨up, hup⟩ := ht.exists_cell (y := y) (x := x + 1) (by omega) (by omega)
    have h1 := ih ul up hul hup
    have h2 := ht.cell_ge hneg .down hul (by simpa [Step.move] using hp)
    have h5 := congrArg Score.g (ht.inner y x c ul p up hc hul hp hup)
    rw [max3_g, scoreCell_g, fromUpper_g hneg] at h5
    have e3 : (gap (x + 1) (y + 1) p).g = p.g - 1 := rfl
    rw [e3] at h5
    have h6 : Step.score cube.rel .down (x + 1, y) = -1 := by
      unfold Step.score
      refine if_neg ?_
      rintro ⟨a1, a2, a3, a4⟩
      refine hx (y - 1) ⟨?_, ?_⟩
      · simpa using a3
      · rw [Nat.sub_add_cancel a2]; simpa using a4
    have h7 : -1 ≤ Step.score cube.rel .down (x, y) := by unfold Step.score; split <;> omega
    split at h5 <;> omega

/-- A match is taken wherever it is met on the way back, if no two tokens in a row match in its column. -/
theorem TableEq.take_match (ht : TableEq cube width h cells) (hneg : ∀ x : Nat, cube.has (-1) (x : Int) = false) {y x : Nat} {c : Score}
    (hx : ∀ y : Nat, ¬ (cube.rel y x = true ∧ cube.rel (y + 1) x = true)) (hm : cube.rel y x = true)
    (hc : cellOf cells (y + 1) (x + 1) = some c) : c.type = .match ∧ c.py = y ∧ c.px = x := by
  have hb := ht.bounds hc
  obtain ⟨ul, hul⟩ := ht.exists_cell (y := y) (x := x) (by omega) (by omega)
  obtain ⟨left, hleft⟩ := ht.exists_cell (y := y + 1) (x := x) (by omega) (by omega)
  obtain ⟨up, hup⟩ := ht.exists_cell (y := y) (x := x + 1) (by omega) (by omega)
  have h0 := ht.cell_ok _ _ ul hul
  have h1 := ht.down_le hneg y x ul left hul hleft
  have h2 := ht.right_le hneg hx y ul up hul hup
  have h6 : Step.score cube.rel .down (x + 1, y) = -1 := by
    unfold Step.score
    refine if_neg ?_
    rintro ⟨a1, a2, a3, a4⟩
    refine hx (y - 1) ⟨?_, ?_⟩
    · simpa using a3
    · rw [Nat.sub_add_cancel a2]; simpa using a4
  have e1 : ((y + 1 : Nat) : Int) - 1 = (y : Int) := by omega
  have e2 : ((x + 1 : Nat) : Int) - 1 = (x : Int) := by omega
  have hs : scoreCell cube (x + 1) (y + 1) ul = { type := .match, x := x + 1, y := y + 1, px := ul.x, py := ul.y, g := ul.g + 1 } := by
    unfold scoreCell
    rw [e1, e2]
    exact if_pos hm
  have hmax : c = scoreCell cube (x + 1) (y + 1) ul := by
    rw [ht.inner y x c ul left up hc hul hleft hup]
    have g1 : ¬ (gap (x + 1) (y + 1) left).g > (scoreCell cube (x + 1) (y + 1) ul).g := by
      rw [hs]; simp only [gap]; omega
    have g2 : ¬ (fromUpper cube (y + 1) (x + 1) up).g > (scoreCell cube (x + 1) (y + 1) ul).g := by
      rw [fromUpper_g hneg, h6, hs]; simp only; omega
    unfold max3
    simp only [if_neg g1, if_neg g2]
  rw [hmax, hs]
  exact ⟨rfl, h0.hy, h0.hx⟩

/-- The way back begins with the matches of a common ending. -/
theorem Trace.ending (ht : TableEq cube width h cells) (hneg : ∀ x : Nat, cube.has (-1) (x : Int) = false) : ∀ (k : Nat) {y x : Nat} {ss : List Score},
    Trace cells y x ss → k ≤ y → k ≤ x → (∀ i, i < k → cube.rel (y - 1 - i) (x - 1 - i) = true) →
    (∀ i, i < k → ∀ y : Nat, ¬ (cube.rel y (x - 1 - i) = true ∧ cube.rel (y + 1) (x - 1 - i) = true)) →
    ∃ A B, ss = A ++ B ∧ A.length = k ∧ ∀ i (c : Score), A[i]? = some c → c.type = .match ∧ c.y = y - i ∧ c.x = x - i
  | 0, y, x, ss, _, _, _, _, _ => ⟨[], ss, rfl, rfl, by simp⟩
  | k + 1, y, x, ss, htr, hky, hkx, h1, h2 => by
    cases htr with
    | origin => omega
    | @step _ _ c ss h0 hc htr' =>
      obtain ⟨y, rfl⟩ : ∃ y', y = y' + 1 := ⟨y - 1, by omega⟩
      obtain ⟨x, rfl⟩ : ∃ x', x = x' + 1 := ⟨x - 1, by omega⟩
      have h3 := h1 0 (by omega)
      have h4 := h2 0 (by omega)
      simp only [Nat.add_sub_cancel, Nat.sub_zero] at h3 h4
      obtain ⟨t1, t2, t3⟩ := ht.take_match hneg h4 h3 hc
      have hok := ht.cell_ok _ _ c hc
      rw [t2, t3] at htr'
      obtain ⟨A, B, e1, e2, e3⟩ := Trace.ending ht hneg k htr' (by omega) (by omega)
        (by
          intro i hi
          have := h1 (i + 1) (by omega)
          rwa [show y + 1 - 1 - (i + 1) = y - 1 - i by omega, show x + 1 - 1 - (i + 1) = x - 1 - i by omega] at this)
        (by
          intro i hi
          have := h2 (i + 1) (by omega)
          rwa [show x + 1 - 1 - (i + 1) = x - 1 - i by omega] at this)
      refine ⟨c :: A, B, by rw [e1]; rfl, by simp [e2], ?_⟩
      intro i c' hc'
      cases i with
      | zero =>
        simp only [List.getElem?_cons_zero, Option.some.injEq] at hc'
        subst hc'
        exact ⟨t1, hok.hy, hok.hx⟩
      | succ i =>
        rw [List.getElem?_cons_succ] at hc'
        obtain ⟨q1, q2, q3⟩ := e3 i c' hc'
        exact ⟨q1, by omega, by omega⟩

end

/-! ### The loop of `align_matching_tokens` -/

/-- An entry stays if no later match has its token. -/
theorem alignLoop_keep (cube : Cube) : ∀ (ss : List Score) (al : Dict Token VId) (used : List VId) (al' : Dict Token VId),
    alignLoop cube ss al used = .ok al' → ∀ t v, dget al t = some v → (∀ s ∈ ss, ∀ v', ¬ AlSrc cube s t v') → dget al' t = some v := by
  intro ss
  induction ss with
  | nil =>
    intro al used al' h t v hd _
    simp only [alignLoop] at h
    obtain rfl := Except.ok.inj h
    exact hd
  | cons s ss ih =>
    intro al used al' h t v hd hno
    unfold alignLoop at h
    by_cases hty : s.type = .match
    · rw [if_pos hty] at h
      obtain ⟨⟨v1, t1⟩, h1, h⟩ := bind_eq_ok.mp h
      have hd1 : dget cube ((s.y : Int) - 1, (s.x : Int) - 1) = some (v1, t1) := by
        unfold dgetE at h1
        split at h1
        · rename_i e; rw [e, Except.ok.inj h1]
        · cases h1
      simp only at h
      split at h
      · exact ih _ _ _ h t v hd (fun s' hs' => hno s' (by simp [hs']))
      · refine ih _ _ _ h t v ?_ (fun s' hs' => hno s' (by simp [hs']))
        rw [dget_dset_ne]
        · exact hd
        · rintro rfl
          exact hno s (by simp) v1 ⟨hty, hd1⟩
    · rw [if_neg hty] at h
      exact ih _ _ _ h t v hd (fun s' hs' => hno s' (by simp [hs']))

/-- The matches with which the list begins are kept if they have different vertices and no token occurs again. -/
theorem alignLoop_begin (cube : Cube) (B : List Score) : ∀ (A : List Score) (al : Dict Token VId) (used : List VId) (al' : Dict Token VId),
    alignLoop cube (A ++ B) al used = .ok al' →
    A.Pairwise (fun s s' => ∀ t v t' v', AlSrc cube s t v → AlSrc cube s' t' v' → v ≠ v') →
    (A ++ B).Pairwise (fun s s' => ∀ t v t' v', AlSrc cube s t v → AlSrc cube s' t' v' → t ≠ t') →
    (∀ s ∈ A, ∀ t v, AlSrc cube s t v → v ∉ used) → ∀ s ∈ A, ∀ t v, AlSrc cube s t v → dget al' t = some v := by
  intro A
  induction A with
  | nil => simp
  | cons s A ih =>
    intro al used al' h hpv hpt hu
    rw [List.pairwise_cons] at hpv
    rw [List.cons_append, List.pairwise_cons] at hpt
    rw [List.cons_append] at h
    unfold alignLoop at h
    by_cases hty : s.type = .match
    · rw [if_pos hty] at h
      obtain ⟨⟨v, t⟩, h1, h⟩ := bind_eq_ok.mp h
      have hd : dget cube ((s.y : Int) - 1, (s.x : Int) - 1) = some (v, t) := by
        unfold dgetE at h1
        split at h1
        · rename_i e; rw [e, Except.ok.inj h1]
        · cases h1
      have hsrc : AlSrc cube s t v := ⟨hty, hd⟩
      have hsu : ∀ t' v', AlSrc cube s t' v' → t' = t ∧ v' = v := by
        rintro t' v' ⟨_, h2⟩
        rw [hd] at h2
        have := Option.some.inj h2
        injection this with a b
        exact ⟨b.symm, a.symm⟩
      simp only at h
      rw [if_neg (hu s (by simp) t v hsrc)] at h
      intro s' hs' t' v' h'
      rcases List.mem_cons.mp hs' with rfl | hs'
      · obtain ⟨rfl, rfl⟩ := hsu t' v' h'
        refine alignLoop_keep cube _ _ _ _ h t' v' (by rw [dget_dset_self]) ?_
        intro s2 hs2 v2 h2
        exact hpt.1 s2 hs2 t' v' t' v2 hsrc h2 rfl
      · refine ih _ _ _ h hpv.2 hpt.2 ?_ s' hs' t' v' h'
        intro s2 hs2 t2 v2 h2 hm
        rcases List.mem_append.mp hm with hm | hm
        · exact hu s2 (by simp [hs2]) t2 v2 h2 hm
        · simp only [List.mem_singleton] at hm
          exact hpv.1 s2 hs2 t v t2 v2 hsrc h2 hm.symm
    · rw [if_neg hty] at h
      intro s' hs' t' v' h'
      rcases List.mem_cons.mp hs' with rfl | hs'
      · exact absurd h'.1 hty
      · exact ih _ _ _ h hpv.2 hpt.2 (fun s2 hs2 => hu s2 (by simp [hs2])) s' hs' t' v' h'

/-! ### The step -/

theorem path_reverse_succ {p : WPath} {i : Nat} {v : VId} (h : p.inner.reverse[i]? = some v) : p.path.reverse[i + 1]? = some v := by
  unfold WPath.path
  have hl := (List.getElem?_eq_some_iff.mp h).1
  simp only [List.reverse_cons, List.reverse_append, List.reverse_nil, List.nil_append, List.cons_append, List.getElem?_cons_succ]
  rw [List.getElem?_append_left hl]
  exact h

theorem path_reverse_inner {p : WPath} {i : Nat} {v : VId} (h : p.path.reverse[i + 1]? = some v) (hl : i < p.segs.length) :
    p.inner.reverse[i]? = some v := by
  unfold WPath.path at h
  simp only [List.reverse_cons, List.reverse_append, List.reverse_nil, List.nil_append, List.cons_append, List.getElem?_cons_succ] at h
  rwa [List.getElem?_append_left (by simpa [WPath.inner] using hl)] at h

section
variable {ts : TopoFn} {ti : TokenIndex} {s : AlignSt} {ps : List WPath} {w w0 : Witness} {P : WPath} {rkf : VId → Nat}
  {o : List VId} {m : Nat} {r : Ranking} {cube : Cube} {cells : List (List Score)} {al : Dict Token VId} {k : Nat} {u : Nat → VId}

/-- A witness that ends like the first one ends on the same vertices. -/
theorem EndsIn.step (h : EndsIn k u ps) (L : Layout ti) (B : BlocksOK ti) (hs : AInv ti s ps) (hne : ps ≠ []) (hw : ti.ws[ps.length]? = some w)
    (hst : StepOf ts none ti s ps w P rkf o m r cube cells al) (hk0 : ti.ws[0]? = some w0)
    (hend : ∀ i, i < k → ∃ a, (w.tokens.map Token.str).reverse[i]? = some a ∧ (w0.tokens.map Token.str).reverse[i]? = some a)
    (hrep : ∀ i, i < k → ∀ a, (w.tokens.map Token.str).reverse[i]? = some a → ∀ y : Nat, (w.tokens.map Token.str)[y]? = some a →
      (w.tokens.map Token.str)[y + 1]? ≠ some a) : EndsIn k u (ps ++ [P]) := by
  have hneg := hst.neg hs
  have hnd := L.tokens_nodup hw
  obtain ⟨cube', hc1, hiff⟩ := hs.cube L B hst.rank hw
  rw [hst.cube_ok] at hc1
  obtain rfl := Except.ok.inj hc1
  have hedge : ∀ p ∈ s.g.pairs, rkf p.1 < rkf p.2 := fun p hp => hst.rank.isRank.lt hs.ginv.wf hp
  have hbd := hs.ginv.rank_bounds hne hedge
  have hrank := h.rank hne hs.ginv hst.rank
  obtain ⟨p, hp0⟩ : ∃ p, ps[0]? = some p := ⟨_, List.getElem?_eq_getElem (List.length_pos_iff.mpr hne)⟩
  have hp := List.mem_of_getElem? hp0
  have hrd := (hs.reads 0 w0 p hk0 hp0).2
  have hpl : p.segs.length = w0.tokens.length := by simpa using congrArg List.length hrd
  -- the shared vertices and their tokens
  have hseg : ∀ i, i < k → ∃ t', (u (i + 1), [t']) ∈ p.segs ∧ (w0.tokens.map Token.str).reverse[i]? = some t'.str := by
    intro i hi
    obtain ⟨a, _, h2⟩ := hend i hi
    have hil : i < w0.tokens.length := by
      have := (List.getElem?_eq_some_iff.mp h2).1
      simpa using this
    have h3 := path_reverse_inner (h.at_end (i + 1) (by omega) p hp) (by omega)
    unfold WPath.inner at h3
    rw [← List.map_reverse, List.getElem?_map] at h3
    obtain ⟨⟨v, us⟩, h4, h5⟩ := Option.map_eq_some_iff.mp h3
    simp only at h5
    subst h5
    have h6 : ((p.segs.map Prod.snd).reverse)[i]? = some us := by rw [← List.map_reverse, List.getElem?_map, h4]; rfl
    rw [hrd, ← List.map_reverse, List.getElem?_map] at h6
    obtain ⟨t', h7, rfl⟩ := Option.map_eq_some_iff.mp h6
    refine ⟨t', List.mem_reverse.mp (List.mem_of_getElem? h4), ?_⟩
    rw [← List.map_reverse, List.getElem?_map, h7]; rfl
  have hin : ∀ i, i < k → u (i + 1) ∈ s.g.vertices ∧ 1 ≤ rkf (u (i + 1)) := by
    intro i hi
    obtain ⟨t', h1, _⟩ := hseg i hi
    obtain ⟨h2, h3, _⟩ := hs.ginv.segs_in p hp _ h1
    have := (hbd _ h2).1 h3
    exact ⟨h2, by simp only at this; omega⟩
  have hm : rkf endV + 1 = m := by
    have h1 := hst.rank.lt_m hs.ginv.end_mem
    obtain ⟨v, hv, hve⟩ := hst.rank.st.ne (m - 1) (by omega)
    have hvm := hst.rank.topo.perm.mem_iff.mp hv
    by_cases hv' : v = endV
    · subst hv'; omega
    · have := (hbd v hvm).2 hv'
      omega
  have hN : rankCount s.g r = rkf endV := by rw [rankCount_eq hst.rank]; omega
  -- the rows and columns of the ending
  have htok : ∀ i, i < k → i < w.tokens.length ∧ ∃ t, w.tokens[w.tokens.length - 1 - i]? = some t ∧ (w.tokens.map Token.str).reverse[i]? = some t.str ∧
      (w0.tokens.map Token.str).reverse[i]? = some t.str := by
    intro i hi
    obtain ⟨a, h1, h2⟩ := hend i hi
    have hil : i < w.tokens.length := by
      have := (List.getElem?_eq_some_iff.mp h1).1
      simpa using this
    have h3 := h1
    rw [← List.map_reverse, List.getElem?_map, List.getElem?_reverse hil] at h3
    obtain ⟨t, h4, rfl⟩ := Option.map_eq_some_iff.mp h3
    exact ⟨hil, t, h4, h1, h2⟩
  have hwk : k ≤ w.tokens.length := by
    by_contra hlt
    have := (htok w.tokens.length (by omega)).1
    omega
  have hNk : k ≤ rkf endV - 1 := by
    by_cases hk : k = 0
    · omega
    · have h1 := (hin (k - 1) (by omega)).2
      have h2 := (hrank k (Nat.le_refl _)).1
      rw [show k - 1 + 1 = k by omega] at h1
      omega
  have hcol : ∀ i, i < k → rkf endV - 1 - 1 - i + 1 = rkf (u (i + 1)) := by
    intro i hi
    have h1 := (hrank (i + 1) (by omega)).1
    have h2 := (hin i hi).2
    omega
  -- what matches in a column of the ending
  have hstr : ∀ i, i < k → ∀ y : Nat, cube.rel y (rkf endV - 1 - 1 - i) = true → ∃ a, (w.tokens.map Token.str)[y]? = some a ∧
      (w.tokens.map Token.str).reverse[i]? = some a := by
    intro i hi y hy
    obtain ⟨y', t, h1, h2, q, hq, v, t', h3, h4, h5⟩ := (hiff (y : Int) ((rkf endV - 1 - 1 - i : Nat) : Int)).mp hy
    have : y' = y := by omega
    subst this
    have hc := hcol i hi
    have hvm := (hs.ginv.segs_in q hq _ h3).1
    have hvr : v = u (i + 1) := (hrank (i + 1) (by omega)).2 v hvm (by
      have := (hrank (i + 1) (by omega)).1
      omega)
    subst hvr
    obtain ⟨t0, h6, h7⟩ := hseg i hi
    obtain ⟨x, hx⟩ := exists_dget_of_mem_keys hvm
    have h8 := hs.label p hp _ t0 h6 x hx
    have h9 := hs.label q hq _ t' h3 x hx
    obtain ⟨_, t1, _, g2, g3⟩ := htok i hi
    rw [h7] at g3
    have g4 := Option.some.inj g3
    refine ⟨t.str, by rw [List.getElem?_map, h2]; rfl, ?_⟩
    rw [g2, ← h4, ← h9, h8, g4]
  obtain ⟨ss, htr, hal⟩ := hst.trace
  rw [hN] at htr
  obtain ⟨A, Bs, rfl, hAl, hA⟩ := htr.ending hst.table hneg k hwk hNk
    (by
      intro i hi
      obtain ⟨_, t, h1, h2, h3⟩ := htok i hi
      obtain ⟨t', h4, h5⟩ := hseg i hi
      rw [h3] at h5
      exact (hiff _ _).mpr ⟨w.tokens.length - 1 - i, t, rfl, h1, p, hp, u (i + 1), t', h4, (Option.some.inj h5).symm, by
        have := hcol i hi
        omega⟩)
    (by
      rintro i hi y ⟨h1, h2⟩
      obtain ⟨a, a1, a2⟩ := hstr i hi y h1
      obtain ⟨b, b1, b2⟩ := hstr i hi (y + 1) h2
      rw [a2] at b2
      obtain rfl := Option.some.inj b2
      exact hrep i hi a a2 y a1 b1)
  have hsrcs : ∀ c t v, AlSrc cube c t v → ∃ i : Nat, w.tokens[i]? = some t ∧ c.y = i + 1 ∧ rkf v = c.x ∧ v ∈ s.g.vertices := by
    rintro c t v ⟨_, hd⟩
    obtain ⟨i, h1, h2, h3, h4, _⟩ := hst.hit hs hd
    exact ⟨i, h1, by omega, by omega, h4⟩
  have hkeep := alignLoop_begin cube Bs A [] [] al hal
    (by
      rw [List.pairwise_iff_getElem]
      intro i j hi hj hij t v t' v' g1 g2
      obtain ⟨_, _, _, a3, _⟩ := hsrcs _ t v g1
      obtain ⟨_, _, _, b3, _⟩ := hsrcs _ t' v' g2
      have e1 := hA i _ (List.getElem?_eq_getElem hi)
      have e2 := hA j _ (List.getElem?_eq_getElem hj)
      rintro rfl
      omega)
    ((htr.pairwise hst.table).2.imp (by
      intro c c' h2 t v t' v' g1 g2
      obtain ⟨i, a1, a2, a3, _⟩ := hsrcs c t v g1
      obtain ⟨i', b1, b2, b3, _⟩ := hsrcs c' t' v' g2
      have e2 := h2.2.2 g1.1
      rintro rfl
      obtain ⟨q1, q2⟩ := List.getElem?_eq_some_iff.mp a1
      obtain ⟨q3, q4⟩ := List.getElem?_eq_some_iff.mp b1
      have := (hnd.getElem_inj_iff (hi := q1) (hj := q3)).mp (by rw [q2, q4])
      omega)) (by simp)
  refine ⟨?_⟩
  intro i hi q hq
  rcases List.mem_append.mp hq with hq | hq
  · exact h.at_end i hi q hq
  simp only [List.mem_singleton] at hq
  subst hq
  cases i with
  | zero => rw [path_reverse_zero, h.zero hne]
  | succ i =>
    obtain ⟨hil, t, h1, _⟩ := htok i (by omega)
    -- the score of the match
    obtain ⟨c, hc⟩ : ∃ c, A[i]? = some c := ⟨_, List.getElem?_eq_getElem (by omega)⟩
    obtain ⟨c1, c2, c3⟩ := hA i c hc
    have hcA := List.mem_of_getElem? hc
    have hcell := htr.mem hst.table c (by simp [hcA])
    have hmt := (hst.table.cell_ok _ _ _ hcell).isMatch c1
    obtain ⟨⟨v, t2⟩, hd⟩ := Option.isSome_iff_exists.mp (show (dget cube ((c.y : Int) - 1, (c.x : Int) - 1)).isSome = true from hmt.1)
    obtain ⟨j, a1, a2, a3, a4⟩ := hsrcs c t2 v ⟨c1, hd⟩
    have hj : j = w.tokens.length - 1 - i := by omega
    rw [hj, h1] at a1
    obtain rfl := Option.some.inj a1
    have hvu : v = u (i + 1) := (hrank (i + 1) hi).2 v a4 (by
      have := (hrank (i + 1) hi).1
      have := hcol i (by omega)
      omega)
    have hdal := hkeep c hcA t v ⟨c1, hd⟩
    rw [hst.path]
    apply path_reverse_succ
    obtain ⟨v', hv'⟩ := newSegs_getElem? (al := al) (n := s.g.next) _ t h1
    obtain ⟨t3, _, e, hcase⟩ := newSegs_mem (List.mem_of_getElem? hv')
    injection e with e _
    subst e
    rcases hcase with hcase | ⟨hcase, _⟩
    · rw [hdal] at hcase
      obtain rfl := Option.some.inj hcase
      rw [← hvu]
      unfold WPath.inner
      have hlen : (newSegs al s.g.next w.tokens).length = w.tokens.length := by
        have := congrArg List.length (newSegs_snd al s.g.next w.tokens)
        simpa using this
      rw [← List.map_reverse, List.getElem?_map, List.getElem?_reverse (by simp only; omega), hlen, hv']
      rfl
    · rw [hdal] at hcase; cases hcase

/-- The first path ends in its own vertices. -/
theorem endsIn_first {p : WPath} (k : Nat) (hk : k ≤ p.segs.length) : ∃ u, EndsIn k u [p] := by
  refine ⟨fun i => p.path.reverse[i]?.getD endV, ⟨?_⟩⟩
  intro i hi q hq
  obtain rfl := List.mem_singleton.mp hq
  have : i < q.path.reverse.length := by rw [List.length_reverse, WPath.path_length]; omega
  rw [List.getElem?_eq_getElem this]
  rfl

end

/-! ### Segmentation -/

section
variable {cc : CharClass} {ws : List Witness} {g g' : VGraph} {ps ps' : List WPath} {rk rk' : Ranking} {rkf rkf' : VId → Nat}
  {ord ord' : List VId} {m m' : Nat} {k : Nat} {u : Nat → VId}

/-- Two vertices in a row at the end of all paths can be joined. -/
theorem EndsIn.joinable (h : EndsIn 2 u ps) (hne : ps ≠ []) (hg : GInv g ps) (h1 : u 1 ≠ endV) : Joinable g (u 2) (u 1) := by
  obtain ⟨p, hp⟩ := List.exists_mem_of_ne_nil ps hne
  have key : ∀ {q : WPath}, q ∈ ps → ∀ {i j : Nat} {v : VId}, q.path.reverse[i]? = some v → q.path.reverse[j]? = some v → i = j := by
    intro q hq i j v h1 h2
    obtain ⟨l1, e1⟩ := List.getElem?_eq_some_iff.mp h1
    obtain ⟨l2, e2⟩ := List.getElem?_eq_some_iff.mp h2
    exact ((List.nodup_reverse.mpr (hg.path_nodup hq)).getElem_inj_iff (hi := l1) (hj := l2)).mp (by rw [e1, e2])
  refine (joinable_iff hg.edges_nd).mpr ⟨(hg.edges_iff _ _).mpr ⟨p, hp, reverse_consec (h.at_end 2 (by omega) p hp) (h.at_end 1 (by omega) p hp)⟩,
    ?_, h1, ?_⟩
  · intro b hb
    obtain ⟨q, hq, hcon⟩ := (hg.edges_iff _ _).mp hb
    obtain ⟨i, h2, h3⟩ := consec_reverse hcon
    have : i + 1 = 2 := key hq h2 (h.at_end 2 (by omega) q hq)
    have : i = 1 := by omega
    subst this
    rw [h.at_end 1 (by omega) q hq] at h3
    exact (Option.some.inj h3).symm
  · intro a ha
    obtain ⟨q, hq, hcon⟩ := (hg.edges_iff _ _).mp ha
    obtain ⟨i, h2, h3⟩ := consec_reverse hcon
    obtain rfl : i = 1 := key hq h3 (h.at_end 1 (by omega) q hq)
    rw [h.at_end 2 (by omega) q hq] at h2
    exact (Option.some.inj h2).symm

/-- The segment that ends a given number of tokens before the end. -/
theorem segs_last {l : List (VId × List Token)} (hne : ∀ q ∈ l, q.2 ≠ []) {n : Nat} {t : Token} (h : (l.flatMap Prod.snd).reverse[n]? = some t)
    {R : List (VId × List Token)} (hR : R <:+ l) (hn : (R.flatMap Prod.snd).length = n) :
    ∃ v a, ((v, a) :: R) <:+ l ∧ t ∈ a ∧ a.getLast? = some t := by
  obtain ⟨I, rfl⟩ := hR
  rw [List.flatMap_append, List.reverse_append, List.getElem?_append_right (by simp [hn])] at h
  simp only [List.length_reverse, hn, Nat.sub_self] at h
  rcases List.eq_nil_or_concat I with rfl | ⟨I', ⟨v, a⟩, rfl⟩
  · simp at h
  · refine ⟨v, a, ⟨I', by simp⟩, ?_⟩
    have ha : a ≠ [] := hne (v, a) (by simp)
    obtain ⟨b, x, rfl⟩ : ∃ b x, a = b ++ [x] := by
      rcases List.eq_nil_or_concat a with rfl | ⟨b, x, rfl⟩
      · exact absurd rfl ha
      · exact ⟨b, x, by simp⟩
    simp only [List.concat_eq_append, List.flatMap_append, List.flatMap_cons, List.flatMap_nil, List.append_nil, List.reverse_append,
      List.reverse_cons, List.reverse_nil, List.nil_append, List.cons_append, List.getElem?_cons_zero, Option.some.injEq] at h
    subst h
    simp

/-- The places of tokens at the same distance from the end. -/
theorem EndsIn.shared (h : EndsIn k u ps) (C : Collated cc ws false g ps rk rkf ord m) (C' : Collated cc ws true g' ps' rk' rkf' ord' m')
    (G : Grouped g ps g' ps') (hnd : ∀ w ∈ ws, w.tokens.Nodup) (hlen : ∀ w ∈ ws, k ≤ w.tokens.length) {n : Nat} (hn : n < k)
    (hR : ∀ p ∈ ps', ∃ R, R <:+ p.segs ∧ (R.flatMap Prod.snd).length = n) :
    ∃ v, ∀ p ∈ ps', ∀ R, R <:+ p.segs → (R.flatMap Prod.snd).length = n → ∃ a, ((v, a) :: R) <:+ p.segs := by
  -- the two paths of a witness
  have two : ∀ p' ∈ ps', ∃ p ∈ ps, p'.sigil = p.sigil ∧ p'.text.Nodup ∧ ∃ t, p'.text.reverse[n]? = some t ∧ (u (n + 1), [t]) ∈ p.segs := by
    intro p' hp'
    obtain ⟨j, hj⟩ := List.getElem?_of_mem hp'
    have hjl : j < ws.length := by
      have := (List.getElem?_eq_some_iff.mp hj).1
      rwa [C'.length] at this
    have hw := List.getElem?_eq_getElem hjl
    obtain ⟨p1, e1, e2, e3⟩ := C'.at hw
    rw [hj] at e1
    obtain rfl := Option.some.inj e1
    obtain ⟨p, f1, f2, f3⟩ := C.at hw
    have hp := List.mem_of_getElem? f1
    have hwm := List.mem_of_getElem? hw
    refine ⟨p, hp, by rw [e2, f2], by rw [e3]; exact hnd _ hwm, ?_⟩
    have hsing := C.single rfl p hp
    -- the segments of the path have one token each
    have key : ∀ l : List (VId × List Token), (∀ q ∈ l, ∃ t, q.2 = [t]) → l.map Prod.snd = (l.flatMap Prod.snd).map (fun t => [t]) := by
      intro l
      induction l with
      | nil => intro _; rfl
      | cons q l ih =>
        intro hq
        obtain ⟨t, ht⟩ := hq q (by simp)
        have := ih (fun q h => hq q (by simp [h]))
        simp [ht, this]
    have hk := key p.segs hsing
    have hk2 : p.segs.map Prod.snd = ws[j].tokens.map (fun t => [t]) := by rw [hk]; exact congrArg _ f3
    have hl : p.segs.length = ws[j].tokens.length := by simpa using congrArg List.length hk2
    have hnl : n < ws[j].tokens.length := by
      have := hlen _ hwm
      omega
    have h3 := path_reverse_inner (h.at_end (n + 1) (by omega) p hp) (by omega)
    unfold WPath.inner at h3
    rw [← List.map_reverse, List.getElem?_map] at h3
    obtain ⟨⟨v, us⟩, h4, h5⟩ := Option.map_eq_some_iff.mp h3
    simp only at h5
    subst h5
    have h6 : ((p.segs.map Prod.snd).reverse)[n]? = some us := by rw [← List.map_reverse, List.getElem?_map, h4]; rfl
    rw [hk2, ← List.map_reverse, List.getElem?_map] at h6
    obtain ⟨t', h7, rfl⟩ := Option.map_eq_some_iff.mp h6
    exact ⟨t', by rw [e3]; exact h7, List.mem_reverse.mp (List.mem_of_getElem? h4)⟩
  by_cases hne : ps' = []
  · subst hne
    exact ⟨startV, by simp⟩
  obtain ⟨p', hp'⟩ := List.exists_mem_of_ne_nil ps' hne
  obtain ⟨p, hp, hpp, hpnd, t, ht, hpt⟩ := two p' hp'
  obtain ⟨R1, hR1, hR1n⟩ := hR p' hp'
  obtain ⟨v, a, hva, hta, _⟩ := segs_last (fun q hq => (C'.ginv.segs_in p' hp' q hq).2.2.2) ht hR1 hR1n
  refine ⟨v, ?_⟩
  intro q' hq' R hRs hRn
  obtain ⟨q, hq, hqq, hqnd, t2, ht2, hqt⟩ := two q' hq'
  obtain ⟨v2, b, hvb, htb, _⟩ := segs_last (fun q hq => (C'.ginv.segs_in q' hq' q hq).2.2.2) ht2 hRs hRn
  obtain ⟨x, a', b', j, m1, m2, m3, m4⟩ := (G.places p' hp' q' hq' p hp q hq hpp hqq t t2).mpr
    ⟨u (n + 1), [t], [t2], 0, hpt, hqt, rfl, rfl⟩
  have s1 := seg_unique hpnd m1 (hva.subset (show (v, a) ∈ (v, a) :: R1 by simp)) (List.mem_of_getElem? m3) hta
  have s2 := seg_unique hqnd m2 (hvb.subset (show (v2, b) ∈ (v2, b) :: R by simp)) (List.mem_of_getElem? m4) htb
  injection s1 with s1 _
  injection s2 with s2 _
  have : v2 = v := s2.symm.trans s1
  subst this
  exact ⟨b, hvb⟩

/-- With segmentation all paths end in the same vertex, which has the whole common ending. -/
theorem EndsIn.segmented (h : EndsIn k u ps) (hk : 0 < k) (hws : ws ≠ []) (C : Collated cc ws false g ps rk rkf ord m)
    (C' : Collated cc ws true g' ps' rk' rkf' ord' m') (G : Grouped g ps g' ps') (hnd : ∀ w ∈ ws, w.tokens.Nodup)
    (hlen : ∀ w ∈ ws, k ≤ w.tokens.length) : ∃ v, EndsIn 1 (fun i => if i = 0 then endV else v) ps' ∧
      ∀ p ∈ ps', ∃ a, [(v, a)] <:+ p.segs ∧ k ≤ a.length := by
  have hne : ps' ≠ [] := by
    intro h0
    have := C'.length
    rw [h0] at this
    exact hws (List.length_eq_zero_iff.mp this.symm)
  obtain ⟨p0, hp0⟩ := List.exists_mem_of_ne_nil ps' hne
  obtain ⟨v, hv⟩ := h.shared C C' G hnd hlen (n := 0) hk (fun p _ => ⟨[], by simp, rfl⟩)
  have hv' : ∀ p ∈ ps', ∃ a, [(v, a)] <:+ p.segs := fun p hp => hv p hp [] (by simp) rfl
  have hone : ∀ {p : WPath} {a : List Token} {R : List (VId × List Token)}, [(v, a)] <:+ p.segs → p.path.reverse[1]? = some v := by
    intro p a R hs
    obtain ⟨I, hI⟩ := hs
    apply path_reverse_succ
    unfold WPath.inner
    rw [← hI]
    simp
  have hE : EndsIn 1 (fun i => if i = 0 then endV else v) ps' := by
    refine ⟨?_⟩
    intro i hi p hp
    rcases (show i = 0 ∨ i = 1 by omega) with rfl | rfl
    · exact path_reverse_zero p
    · obtain ⟨a, ha⟩ := hv' p hp
      exact hone (R := []) ha
  refine ⟨v, hE, ?_⟩
  intro p hp
  obtain ⟨a, ha⟩ := hv' p hp
  refine ⟨a, ha, ?_⟩
  by_contra hlt
  obtain ⟨v2, hv2⟩ := h.shared C C' G hnd hlen (n := a.length) (by omega) (by
    intro q hq
    obtain ⟨b, hb⟩ := hv' q hq
    have := congrArg List.length (C'.uniform q hq p hp v b a (hb.subset (by simp)) (ha.subset (by simp)))
    exact ⟨_, hb, by simpa using this⟩)
  have hE2 : EndsIn 2 (fun i => if i = 0 then endV else if i = 1 then v else v2) ps' := by
    refine ⟨?_⟩
    intro i hi q hq
    rcases (show i ≤ 1 ∨ i = 2 by omega) with hi | rfl
    · have := hE.at_end i hi q hq
      rw [this]
      split
      · rfl
      · rw [if_pos (by omega)]
    · obtain ⟨b, hb⟩ := hv' q hq
      have hbl := congrArg List.length (C'.uniform q hq p hp v b a (hb.subset (by simp)) (ha.subset (by simp)))
      obtain ⟨c, I, hI⟩ := hv2 q hq _ hb (by simpa using hbl)
      apply path_reverse_succ
      unfold WPath.inner
      rw [← hI]
      simp
  have hvin := C'.ginv.segs_in p hp _ (ha.subset (List.mem_singleton.mpr rfl))
  have hJ := hE2.joinable hne C'.ginv (by simpa using hvin.2.2.1)
  have hv2s : v2 ≠ startV := by
    obtain ⟨c, hI⟩ := hv2 p hp _ ha (by simp)
    exact (C'.ginv.segs_in p hp _ (hI.subset List.mem_cons_self)).2.1
  exact C'.maximal rfl v2 v hv2s (by simpa using hJ)

end

end CollateX
