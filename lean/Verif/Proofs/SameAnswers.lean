import Verif.Props.Limits
import Verif.Proofs.Sigla
/-
Two filters with the same answers: lemmas for C88.
-/

namespace CollateX

/-- What a filter answers; without a filter everything is accepted. -/
def Spec.answer : Option PFilter → TokenData → TokenData → Bool
  | none, _, _ => true
  | some f, d, e => f d e

open Spec

section
variable {pf pf' : Option PFilter}

theorem cubeOffsets_answers {arr : List Token} (va : List (Option VId)) (rk : Ranking) (wStart gs is n : Nat) : ∀ (i : Nat) (m : Cube),
    (∀ j, i ≤ j → j < i + n → ∀ t, arr[is + j]? = some t → filterMatch pf arr gs t = filterMatch pf' arr gs t) →
    cubeOffsets pf arr va rk wStart gs is n i m = cubeOffsets pf' arr va rk wStart gs is n i m := by
  induction n with
  | zero => intro _ _ _; rfl
  | succ n ih =>
    intro i m h
    unfold cubeOffsets
    refine congrArg (fun f => lgetE va (gs + i) >>= f) (funext fun ov => ?_)
    cases ov with
    | none => rfl
    | some v =>
      simp only
      refine congrArg (fun f => dgetE rk.byVertex v >>= f) (funext fun r => ?_)
      cases ht : arr[is + i]? with
      | none =>
        have : lgetE arr (is + i) = .error .indexError := by unfold lgetE; rw [ht]
        rw [this]
        rfl
      | some t =>
        rw [lgetE_eq_ok.mpr ht, bind_ok, bind_ok, h i (Nat.le_refl _) (by omega) t ht]
        refine congrArg (fun f => filterMatch pf' arr gs t >>= f) (funext fun b => ?_)
        exact ih (i + 1) _ (fun j h1 h2 => h j (by omega) (by omega))

theorem cubeGraphInsts_answers {arr : List Token} (va : List (Option VId)) (rk : Ranking) (wStart is len : Nat) : ∀ (l : List Nat) (m : Cube),
    (∀ gs ∈ l, ∀ j, j < len → ∀ t, arr[is + j]? = some t → filterMatch pf arr gs t = filterMatch pf' arr gs t) →
    cubeGraphInsts pf arr va rk wStart is len l m = cubeGraphInsts pf' arr va rk wStart is len l m
  | [], _, _ => rfl
  | gs :: l, m, h => by
    unfold cubeGraphInsts
    rw [cubeOffsets_answers va rk wStart gs is len 0 m (fun j _ h2 => h gs (by simp) j (by omega))]
    exact congrArg (fun f => _ >>= f) (funext fun m' => cubeGraphInsts_answers va rk wStart is len l m' (fun gs hg => h gs (by simp [hg])))

theorem cubeInsts_answers {ti : TokenIndex} (va : List (Option VId)) (rk : Ranking) (wStart : Nat) : ∀ (l : List Inst) (m : Cube),
    (∀ inst ∈ l, inst.block.instances ti.SA = .ok (inst.block.occs ti.SA) ∧ ∀ gs ∈ inst.block.occs ti.SA, gs < wStart →
      ∀ j, j < inst.block.length → ∀ t, ti.arr[inst.start + j]? = some t → filterMatch pf ti.arr gs t = filterMatch pf' ti.arr gs t) →
    cubeInsts pf ti va rk wStart l m = cubeInsts pf' ti va rk wStart l m
  | [], _, _ => rfl
  | inst :: l, m, h => by
    obtain ⟨h1, h2⟩ := h inst (by simp)
    unfold cubeInsts
    rw [h1, bind_ok, bind_ok, cubeGraphInsts_answers va rk wStart inst.start inst.block.length _ m (fun gs hg => by
      rw [List.mem_filter] at hg
      exact h2 gs hg.1 (by simpa using hg.2))]
    exact congrArg (fun f => _ >>= f) (funext fun m' => cubeInsts_answers va rk wStart l m' (fun i hi => h i (by simp [hi])))

/-- The filters give the same answers about a token and a token of an earlier witness. -/
def Agree (ws : List Witness) (pf pf' : Option PFilter) : Prop :=
  ∀ (k l i j : Nat) (t u : Token), k < l → tokenAt ws l i = some t → tokenAt ws k j = some u →
    answer pf (visible t) (visible u) = answer pf' (visible t) (visible u)

theorem filteredData_indexed {ws : List Witness} (hr : Records ws) {l i : Nat} {w : Witness} {t : Token}
    (hw : (indexed 0 ws)[l]? = some w) (ht : w.tokens[i]? = some t) : ∃ t0, tokenAt ws l i = some t0 ∧ filteredData t = .ok (visible t0) := by
  obtain ⟨t0, h1, h2, _, h3⟩ := indexed_visible ws hw ht
  refine ⟨t0, h1, ?_⟩
  have hnd : (t.data.map Prod.fst).Nodup := h3 (by
    obtain ⟨w, hw, ht⟩ := Option.bind_eq_some_iff.mp h1
    exact hr w (List.mem_of_getElem? hw) t0 (List.mem_of_getElem? ht))
  have : ∃ d, filteredData t = .ok d := by
    rw [indexed_getElem?] at hw
    obtain ⟨w0, hw0, rfl⟩ := Option.map_eq_some_iff.mp hw
    have key : ∀ (ts : List Token) (pos i : Nat) (t : Token), (indexTokens w0.sigil pos ts)[i]? = some t →
        ∃ t0 p, t = indexToken w0.sigil p t0 := by
      intro ts
      induction ts with
      | nil => intro pos i t h; simp [indexTokens] at h
      | cons a ts ih =>
        intro pos i t h
        cases i with
        | zero =>
          simp only [indexTokens, List.getElem?_cons_zero, Option.some.injEq] at h
          exact ⟨a, pos, h.symm⟩
        | succ i =>
          simp only [indexTokens, List.getElem?_cons_succ] at h
          exact ih _ _ _ h
    obtain ⟨t1, p, rfl⟩ := key _ _ _ _ ht
    exact ⟨_, filteredData_indexToken _ _ _⟩
  obtain ⟨d, hd⟩ := this
  rw [hd, filteredData_eq hnd hd, h2]

theorem mkCube_answers {ws : List Witness} {ti : TokenIndex} (L : Layout ti) (B : BlocksOK ti) (hws : ti.ws = indexed 0 ws) (hr : Records ws)
    (ha : Agree ws pf pf') {k : Nat} {w : Witness} (hw : ti.ws[k]? = some w) (va : List (Option VId)) (rk : Ranking) :
    mkCube pf ti w va rk = mkCube pf' ti w va rk := by
  unfold mkCube
  rw [L.range k w hw, bind_ok, bind_ok]
  apply cubeInsts_answers
  intro inst hi
  obtain ⟨b1, b2, t0, b3, b4⟩ := (B.instances w.sigil inst).mp hi
  refine ⟨B.insts _ b1, ?_⟩
  intro gs hgs hlt j hj t ht
  -- the instance lies in `w`
  obtain ⟨k1, w1, c1, c2, c3⟩ := B.inwit _ b1 _ b2
  have hpos := B.pos _ b1
  have hk1 : k1 = k := by
    have hin : inst.start - off ti.ws k1 < w1.tokens.length := by omega
    have := L.arr_tok k1 (inst.start - off ti.ws k1) w1 _ c1 (List.getElem?_eq_getElem hin)
    rw [show off ti.ws k1 + (inst.start - off ti.ws k1) = inst.start by omega, b3] at this
    have hs := L.tok_sigil k1 _ w1 _ c1 (List.getElem?_eq_getElem hin)
    rw [← Option.some.inj this, b4] at hs
    have hσ : w.sigil = w1.sigil := by simpa using hs
    obtain ⟨x1, y1⟩ := List.getElem?_eq_some_iff.mp c1
    obtain ⟨x2, y2⟩ := List.getElem?_eq_some_iff.mp hw
    have := (L.sig_nd.getElem_inj_iff (i := k1) (j := k) (hi := by simpa using x1) (hj := by simpa using x2)).mp
      (by rw [List.getElem_map, List.getElem_map, y1, y2, hσ])
    exact this
  subst hk1
  rw [hw] at c1
  obtain rfl := Option.some.inj c1
  -- the other occurrence lies in an earlier witness
  obtain ⟨k2, w2, e1, e2, e3⟩ := B.inwit _ b1 _ hgs
  have hk2 : k2 < k1 := by
    rcases Nat.lt_trichotomy k2 k1 with h | h | h
    · exact h
    · subst h; omega
    · have := off_lt ti.ws k1 k2 w hw h (by have := (List.getElem?_eq_some_iff.mp e1).1; omega)
      omega
  have hin1 : inst.start + j - off ti.ws k1 < w.tokens.length := by omega
  have hin2 : gs - off ti.ws k2 < w2.tokens.length := by omega
  have ht1 := L.arr_tok k1 (inst.start + j - off ti.ws k1) w _ hw (List.getElem?_eq_getElem hin1)
  rw [show off ti.ws k1 + (inst.start + j - off ti.ws k1) = inst.start + j by omega, ht] at ht1
  have ht2 := L.arr_tok k2 (gs - off ti.ws k2) w2 _ e1 (List.getElem?_eq_getElem hin2)
  rw [show off ti.ws k2 + (gs - off ti.ws k2) = gs by omega] at ht2
  obtain ⟨t1, f1, f2⟩ := filteredData_indexed hr (by rw [← hws]; exact hw) (List.getElem?_eq_getElem hin1)
  obtain ⟨u1, g1, g2⟩ := filteredData_indexed hr (by rw [← hws]; exact e1) (List.getElem?_eq_getElem hin2)
  rw [← Option.some.inj ht1] at f2
  have hans : ∀ p : Option PFilter, filterMatch p ti.arr gs t = .ok (answer p (visible t1) (visible u1)) := by
    intro p
    cases p with
    | none => rfl
    | some f =>
      unfold filterMatch
      simp only
      rw [lgetE_eq_ok.mpr ht2, bind_ok, f2, bind_ok, g2, bind_ok]
      rfl
  rw [hans, hans, ha k2 k1 _ _ t1 u1 hk2 f1 g1]

theorem alignWitnesses_answers {ws : List Witness} {ti : TokenIndex} (L : Layout ti) (B : BlocksOK ti) (hws : ti.ws = indexed 0 ws)
    (hr : Records ws) (ha : Agree ws pf pf') (ts : TopoFn) (detect : Bool) : ∀ (rest : List Witness) (k : Nat) (s : AlignSt),
    rest = ti.ws.drop k → alignWitnesses ts pf detect ti rest s = alignWitnesses ts pf' detect ti rest s
  | [], _, _, _ => rfl
  | w :: rest, k, s, h => by
    have hw : ti.ws[k]? = some w := by
      have := congrArg (fun l => l[0]?) h
      simpa using this.symm
    have hrest : rest = ti.ws.drop (k + 1) := by
      have := congrArg List.tail h
      simpa using this
    unfold alignWitnesses
    have hstep : alignStep ts pf detect ti s w = alignStep ts pf' detect ti s w := by
      unfold alignStep
      refine congrArg (fun f => rankingOf ts s.g >>= f) (funext fun rk => ?_)
      rw [mkCube_answers L B hws hr ha hw]
    rw [hstep]
    exact congrArg (fun f => _ >>= f) (funext fun s' => alignWitnesses_answers L B hws hr ha ts detect rest (k + 1) s' hrest)

end

end CollateX
