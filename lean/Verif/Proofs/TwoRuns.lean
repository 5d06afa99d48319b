import Verif.Proofs.Sim
/-
Two runs of the aligner that find the same matches build corresponding graphs.
-/

namespace CollateX
open Spec

/-! ### The table of scores depends only on where the matches are -/

section
variable {m m' : Cube} (h : ∀ y x : Int, m.has y x = m'.has y x)
include h

theorem scoreCell_congr (x y : Nat) (p : Score) : scoreCell m x y p = scoreCell m' x y p := by
  unfold scoreCell; rw [h]

theorem fromUpper_congr (y x : Nat) (p : Score) : fromUpper m y x p = fromUpper m' y x p := by
  unfold fromUpper; rw [h, scoreCell_congr h]

theorem rowFrom_congr (y : Nat) (ups : List Score) : ∀ (x : Nat) (ul left : Score),
    rowFrom m y x ul left ups = rowFrom m' y x ul left ups := by
  induction ups with
  | nil => intro x ul left; rfl
  | cons u us ih =>
    intro x ul left
    unfold rowFrom
    simp only
    rw [scoreCell_congr h, fromUpper_congr h, ih]

theorem nextRow_congr (y : Nat) (prev : List Score) : nextRow m y prev = nextRow m' y prev := by
  cases prev with
  | nil => rfl
  | cons p ps => unfold nextRow; simp only; rw [rowFrom_congr h]

theorem rowsFrom_congr (k : Nat) : ∀ (y : Nat) (prev : List Score), rowsFrom m k y prev = rowsFrom m' k y prev := by
  induction k with
  | zero => intro y prev; rfl
  | succ k ih => intro y prev; unfold rowsFrom; simp only; rw [nextRow_congr h, ih]

theorem fillTable_congr (width n : Nat) : fillTable m width n = fillTable m' width n := by
  cases width with
  | zero => rfl
  | succ k => unfold fillTable; simp only; rw [rowsFrom_congr h]

end

/-- Corresponding cubes: the same vertex and corresponding tokens at each place. -/
def CubeRel (T : Token → Token → Prop) (m m' : Cube) : Prop :=
  ∀ key, Option.Rel (fun p q => p.1 = q.1 ∧ T p.2 q.2) (dget m key) (dget m' key)

theorem CubeRel.has {T : Token → Token → Prop} {m m' : Cube} (h : CubeRel T m m') (y x : Int) : m.has y x = m'.has y x := by
  have := h (y, x)
  unfold Cube.has dmem
  generalize dget m (y, x) = a at this
  generalize dget m' (y, x) = b at this
  cases this <;> rfl

theorem alignLoop_rel {T : Token → Token → Prop} (hT : OneOne T) {m m' : Cube} (h : CubeRel T m m') (ss : List Score) :
    ∀ {al al' : Dict Token VId} (used : List VId), DRel T (fun a b : VId => a = b) al al' →
    PyRel (DRel T (fun a b : VId => a = b)) (alignLoop m ss al used) (alignLoop m' ss al' used) := by
  induction ss with
  | nil => intro al al' used ha; exact .ok ha
  | cons s ss ih =>
    intro al al' used ha
    unfold alignLoop
    split
    · have := h ((s.y : Int) - 1, (s.x : Int) - 1)
      unfold dgetE
      generalize dget m ((s.y : Int) - 1, (s.x : Int) - 1) = a at this
      generalize dget m' ((s.y : Int) - 1, (s.x : Int) - 1) = b at this
      cases this with
      | none => exact .error _
      | @some p q hpq =>
        simp only [bind_ok]
        rw [hpq.1]
        split
        · exact ih _ ha
        · exact ih _ (ha.set hT hpq.2 rfl)
    · exact ih _ ha

theorem alignMatching_rel {T : Token → Token → Prop} (hT : OneOne T) {m m' : Cube} (h : CubeRel T m m') (cells : List (List Score)) :
    PyRel (DRel T (fun a b : VId => a = b)) (alignMatching m cells) (alignMatching m' cells) := by
  have hrefl : ∀ {α : Type} (x : Py α), PyRel (fun a b => a = b) x x := by
    intro α x
    cases x with
    | ok a => exact .ok rfl
    | error e => exact .error e
  unfold alignMatching
  refine (hrefl _).bind fun row0 _ e => ?_
  subst e
  refine (hrefl _).bind fun path _ e => ?_
  subst e
  exact alignLoop_rel hT h path [] .nil

/-! ### Corresponding witnesses -/

/-- The sigla of corresponding witnesses. -/
def SigRel (us us' : List Witness) (σ σ' : Str) : Prop :=
  ∃ (k : Nat) (w w' : Witness), us[k]? = some w ∧ us'[k]? = some w' ∧ w.sigil = σ ∧ w'.sigil = σ'

/-- Corresponding tokens: at the same place of corresponding witnesses. -/
def TokRel (us us' : List Witness) (t t' : Token) : Prop :=
  ∃ (k i : Nat) (w w' : Witness), us[k]? = some w ∧ us'[k]? = some w' ∧ w.tokens[i]? = some t ∧ w'.tokens[i]? = some t'

theorem index_of_sigil {us : List Witness} (h : (us.map Witness.sigil).Nodup) {k l : Nat} {w x : Witness} (hw : us[k]? = some w)
    (hx : us[l]? = some x) (he : w.sigil = x.sigil) : k = l := by
  obtain ⟨h1, h2⟩ := List.getElem?_eq_some_iff.mp hw
  obtain ⟨h3, h4⟩ := List.getElem?_eq_some_iff.mp hx
  exact (h.getElem_inj_iff (i := k) (j := l) (hi := by simpa using h1) (hj := by simpa using h3)).mp
    (by simp only [List.getElem_map, h2, h4, he])

theorem sigRel_oneOne {us us' : List Witness} (h : (us.map Witness.sigil).Nodup) (h' : (us'.map Witness.sigil).Nodup) :
    OneOne (SigRel us us') := by
  rintro _ _ _ _ ⟨k, w, w', h1, h2, rfl, rfl⟩ ⟨l, x, x', h3, h4, rfl, rfl⟩
  constructor
  · intro e
    obtain rfl := index_of_sigil h h1 h3 e
    rw [h2] at h4; rw [Option.some.inj h4]
  · intro e
    obtain rfl := index_of_sigil h' h2 h4 e
    rw [h1] at h3; rw [Option.some.inj h3]

theorem Layout.place {ti : TokenIndex} (L : Layout ti) {k i l j : Nat} {w x : Witness} {t : Token} (hw : ti.ws[k]? = some w)
    (hx : ti.ws[l]? = some x) (h1 : w.tokens[i]? = some t) (h2 : x.tokens[j]? = some t) : k = l ∧ i = j := by
  have e1 := L.tok_pos k i w t hw h1
  have e2 := L.tok_pos l j x t hx h2
  rw [e1] at e2
  have e3 : off ti.ws k + i = off ti.ws l + j := by
    injection e2 with e2
    injection e2
  have b1 := (List.getElem?_eq_some_iff.mp h1).1
  have b2 := (List.getElem?_eq_some_iff.mp h2).1
  obtain rfl := decode_unique ti.ws (off ti.ws k + i) k l w x hw hx (by omega) (by omega) (by omega) (by omega)
  exact ⟨rfl, by omega⟩

theorem tokRel_oneOne {ti ti' : TokenIndex} (L : Layout ti) (L' : Layout ti') : OneOne (TokRel ti.ws ti'.ws) := by
  rintro a a' b b' ⟨k, i, w, w', h1, h2, h3, h4⟩ ⟨l, j, x, x', g1, g2, g3, g4⟩
  constructor
  · rintro rfl
    obtain ⟨rfl, rfl⟩ := L.place h1 g1 h3 g3
    rw [h2] at g2
    obtain rfl := Option.some.inj g2
    rw [h4] at g4
    exact Option.some.inj g4
  · rintro rfl
    obtain ⟨rfl, rfl⟩ := L'.place h2 g2 h4 g4
    rw [h1] at g1
    obtain rfl := Option.some.inj g1
    rw [h3] at g3
    exact Option.some.inj g3

/-- The first `n` witnesses correspond: they have the same numbers of tokens. -/
def Shape (n : Nat) (us us' : List Witness) : Prop :=
  ∀ k < n, ∃ w w', us[k]? = some w ∧ us'[k]? = some w' ∧ w.tokens.length = w'.tokens.length

theorem Shape.off {n : Nat} {us us' : List Witness} (h : Shape n us us') : ∀ k ≤ n, off us k = off us' k := by
  induction n generalizing us us' with
  | zero =>
    intro k hk
    obtain rfl : k = 0 := by omega
    unfold CollateX.off
    rfl
  | succ n ih =>
    intro k hk
    obtain ⟨w, w', h1, h2, h3⟩ := h 0 (by omega)
    cases us with
    | nil => simp at h1
    | cons u us =>
      cases us' with
      | nil => simp at h2
      | cons u' us' =>
        simp only [List.getElem?_cons_zero, Option.some.injEq] at h1 h2
        subst h1; subst h2
        cases k with
        | zero => rfl
        | succ k =>
          simp only [CollateX.off]
          rw [h3, ih (fun j hj => by
            obtain ⟨a, b, c1, c2, c3⟩ := h (j + 1) (by omega)
            exact ⟨a, b, by simpa using c1, by simpa using c2, c3⟩) k (by omega)]

/-! ### Corresponding states of the aligner -/

/-- Corresponding states after the same number of witnesses. -/
structure Sim (ti ti' : TokenIndex) (s s' : AlignSt) (ps ps' : List WPath) : Prop where
  graph : GRel (SigRel ti.ws ti'.ws) (TokRel ti.ws ti'.ws) s.g s'.g
  inner : ps.map WPath.inner = ps'.map WPath.inner

theorem Sim.len {ti ti' : TokenIndex} {s s' : AlignSt} {ps ps' : List WPath} (h : Sim ti ti' s s' ps ps') :
    ps.length = ps'.length := by
  have := congrArg List.length h.inner
  simpa using this

theorem newSegs_inner_congr {al al' : Dict Token VId} {ts ts' : List Token}
    (h : List.Forall₂ (fun t t' => dget al t = dget al' t') ts ts') : ∀ n,
    (newSegs al n ts).map Prod.fst = (newSegs al' n ts').map Prod.fst := by
  induction h with
  | nil => intro n; rfl
  | cons hp _ ih =>
    intro n
    unfold newSegs
    rw [hp]
    split <;> simp [ih]

theorem tokens_forall₂ {us us' : List Witness} {k : Nat} {w w' : Witness} (hw : us[k]? = some w) (hw' : us'[k]? = some w')
    (hl : w.tokens.length = w'.tokens.length) : List.Forall₂ (TokRel us us') w.tokens w'.tokens := by
  rw [List.forall₂_iff_get]
  refine ⟨hl, ?_⟩
  intro i h1 h2
  exact ⟨k, i, w, w', hw, hw', by simp [h1], by simp [h2]⟩

section
variable {ts : TopoFn} {pf pf' : Option PFilter} {ti ti' : TokenIndex} {n : Nat}

/-- One step, if both runs find the same matches. -/
theorem Sim.step (L : Layout ti) (L' : Layout ti') (hsh : Shape n ti.ws ti'.ws)
    (hne : ∀ a b, SigRel ti.ws ti'.ws a b → a ≠ [] ∧ b ≠ []) {s s' : AlignSt} {ps ps' : List WPath} (h : Sim ti ti' s s' ps ps')
    (hn : ps.length < n) {w w' : Witness} (hw : ti.ws[ps.length]? = some w) (hw' : ti'.ws[ps'.length]? = some w')
    {P P' : WPath} {rkf rkf' : VId → Nat} {o o' : List VId} {m m' : Nat} {r r' : Ranking} {cube cube' : Cube}
    {cells cells' : List (List Score)} {al al' : Dict Token VId}
    (S : StepOf ts pf ti s ps w P rkf o m r cube cells al) (S' : StepOf ts pf' ti' s' ps' w' P' rkf' o' m' r' cube' cells' al')
    (hc : CubeRel (TokRel ti.ws ti'.ws) cube cube') {s1 s1' : AlignSt} (h1 : alignStep ts pf false ti s w = .ok s1)
    (h1' : alignStep ts pf' false ti' s' w' = .ok s1') : Sim ti ti' s1 s1' (ps ++ [P]) (ps' ++ [P']) := by
  have hT := tokRel_oneOne L L'
  have hR := sigRel_oneOne L.sig_nd L'.sig_nd
  rw [← h.len] at hw'
  obtain ⟨x, x', g1, g2, g3⟩ := hsh _ hn
  rw [hw] at g1
  obtain rfl := Option.some.inj g1
  rw [hw'] at g2
  obtain rfl := Option.some.inj g2
  have hr : r = r' := by
    have e := S.ranking
    rw [h.graph.ranking, S'.ranking] at e
    exact (Except.ok.inj e).symm
  subst hr
  have hcount : rankCount s.g r = rankCount s'.g r := by unfold rankCount; rw [h.graph.vertices]
  have hcells : cells = cells' := by
    have e := S.fill
    rw [fillTable_congr hc.has, hcount, g3, S'.fill] at e
    exact (Except.ok.inj e).symm
  subst hcells
  have hal := (alignMatching_rel hT hc cells).of_ok S.align S'.align
  have hft : List.Forall₂ (fun t t' => TokRel ti.ws ti'.ws t t' ∧ dget al t = dget al' t') w.tokens w'.tokens := by
    refine (tokens_forall₂ hw hw' g3).imp fun t t' ht => ⟨ht, ?_⟩
    have := DRel.get hT hal ht
    generalize dget al t = a at this
    generalize dget al' t' = b at this
    cases this with
    | none => rfl
    | some e => rw [e]
  have hmg := h.graph.merge hR hne (σ := w.sigil) (σ' := w'.sigil) ⟨_, w, w', hw, hw', rfl, rfl⟩ hft
  constructor
  · unfold alignStep at h1 h1'
    simp only [S.ranking, S'.ranking, S.cube_ok, S'.cube_ok, S.fill, S'.fill, S.align, S'.align, bind_ok] at h1 h1'
    obtain ⟨_, _, h1⟩ := bind_eq_ok.mp h1
    obtain ⟨_, _, h1⟩ := bind_eq_ok.mp h1
    obtain ⟨_, _, h1⟩ := bind_eq_ok.mp h1
    obtain ⟨_, _, h1⟩ := bind_eq_ok.mp h1
    obtain ⟨_, _, h1'⟩ := bind_eq_ok.mp h1'
    obtain ⟨_, _, h1'⟩ := bind_eq_ok.mp h1'
    obtain ⟨_, _, h1'⟩ := bind_eq_ok.mp h1'
    obtain ⟨_, _, h1'⟩ := bind_eq_ok.mp h1'
    simp only [Bool.false_eq_true, if_false] at h1 h1'
    rw [← Except.ok.inj h1, ← Except.ok.inj h1']
    exact hmg
  · rw [List.map_append, List.map_append, h.inner, S.path, S'.path, h.graph.next]
    simp only [List.map_cons, List.map_nil, WPath.inner]
    rw [newSegs_inner_congr (hft.imp fun _ _ h => h.2)]

/-- `H` holds of every state of this run before a witness is added. -/
def Along (ts : TopoFn) (pf : Option PFilter) (ti : TokenIndex) (H : AlignSt → Prop) : List Witness → AlignSt → Prop
  | [], _ => True
  | w :: rest, s => H s ∧ ∀ s', alignStep ts pf false ti s w = .ok s' → Along ts pf ti H rest s'

/-- The loop over the witnesses, if both runs find the same matches in corresponding states. -/
theorem Sim.loop (hts : TopoSpec ts) (L : Layout ti) (L' : Layout ti') (B : BlocksOK ti) (B' : BlocksOK ti')
    (hsh : Shape n ti.ws ti'.ws) (hne : ∀ a b, SigRel ti.ws ti'.ws a b → a ≠ [] ∧ b ≠ []) {H : AlignSt → Prop}
    (hC : ∀ (s s' : AlignSt) (ps ps' : List WPath) (w w' : Witness) (P P' : WPath) (rkf rkf' : VId → Nat) (o o' : List VId)
      (m m' : Nat) (r r' : Ranking) (cube cube' : Cube) (cells cells' : List (List Score)) (al al' : Dict Token VId),
      AInv ti s ps → AInv ti' s' ps' → Sim ti ti' s s' ps ps' → ps.length < n → ti.ws[ps.length]? = some w →
      ti'.ws[ps'.length]? = some w' → StepOf ts pf ti s ps w P rkf o m r cube cells al →
      StepOf ts pf' ti' s' ps' w' P' rkf' o' m' r' cube' cells' al' → H s → CubeRel (TokRel ti.ws ti'.ws) cube cube')
    (rest : List Witness) : ∀ (rest' : List Witness) (s s' : AlignSt) (ps ps' : List WPath), AInv ti s ps → AInv ti' s' ps' → ps ≠ [] →
    Sim ti ti' s s' ps ps' → rest <+: ti.ws.drop ps.length → rest' <+: ti'.ws.drop ps'.length → rest.length = rest'.length →
    ps.length + rest.length ≤ n → Along ts pf ti H rest s →
    ∃ t t' qs qs', alignWitnesses ts pf false ti rest s = .ok t ∧ alignWitnesses ts pf' false ti' rest' s' = .ok t' ∧
      AInv ti t qs ∧ AInv ti' t' qs' ∧ qs.length = ps.length + rest.length ∧ Sim ti ti' t t' qs qs' := by
  induction rest with
  | nil =>
    intro rest' s s' ps ps' hs hs' hps h _ _ hl _ _
    have : rest' = [] := List.length_eq_zero_iff.mp (by simpa using hl.symm)
    subst this
    exact ⟨s, s', ps, ps', rfl, rfl, hs, hs', by simp, h⟩
  | cons w rest ih =>
    intro rest' s s' ps ps' hs hs' hps h hd hd' hl hn ha
    cases rest' with
    | nil => simp at hl
    | cons w' rest' =>
      obtain ⟨y, hy⟩ := hd
      obtain ⟨y', hy'⟩ := hd'
      have hw : ti.ws[ps.length]? = some w := by
        have : (ti.ws.drop ps.length)[0]? = some w := by rw [← hy]; rfl
        simpa [List.getElem?_drop] using this
      have hw' : ti'.ws[ps'.length]? = some w' := by
        have : (ti'.ws.drop ps'.length)[0]? = some w' := by rw [← hy']; rfl
        simpa [List.getElem?_drop] using this
      have hps' : ps' ≠ [] := by
        intro e
        have := h.len
        rw [e] at this
        exact hps (List.length_eq_zero_iff.mp this)
      simp only [List.length_cons] at hn hl
      obtain ⟨s1, P, rkf, o, m, r, cube, cells, al, a1, a2, a3⟩ := alignStep_full hts pf L B hs hps hw
      obtain ⟨s1', P', rkf', o', m', r', cube', cells', al', b1, b2, b3⟩ := alignStep_full hts pf' L' B' hs' hps' hw'
      have hc := hC _ _ _ _ _ _ _ _ _ _ _ _ _ _ _ _ _ _ _ _ _ _ hs hs' h (by omega) hw hw' a3 b3 ha.1
      have h2 := h.step L L' hsh hne (by omega) hw hw' a3 b3 hc a1 b1
      obtain ⟨t, t', qs, qs', c1, c2, c3, c4, c5, c6⟩ := ih rest' s1 s1' (ps ++ [P]) (ps' ++ [P']) a2 b2 (by simp) h2
        ⟨y, by
          have e : ti.ws.drop (ps.length + 1) = rest ++ y := by rw [← List.drop_drop, ← hy]; rfl
          simpa using e.symm⟩
        ⟨y', by
          have e : ti'.ws.drop (ps'.length + 1) = rest' ++ y' := by rw [← List.drop_drop, ← hy']; rfl
          simpa using e.symm⟩ (by omega) (by simp; omega) (ha.2 _ a1)
      refine ⟨t, t', qs, qs', ?_, ?_, c3, c4, by rw [c5]; simp; omega, c6⟩
      · simp only [alignWitnesses, a1, bind_ok, c1]
      · simp only [alignWitnesses, b1, bind_ok, c2]

/-- The first witness. -/
theorem Sim.first (hsh : Shape n ti.ws ti'.ws) (hn : 0 < n)
    (hR : OneOne (SigRel ti.ws ti'.ws)) (hne : ∀ a b, SigRel ti.ws ti'.ws a b → a ≠ [] ∧ b ≠ []) {w w' : Witness} (hw : ti.ws[0]? = some w)
    (hw' : ti'.ws[0]? = some w') {s s' : AlignSt} (h : firstWitness ti w = .ok s) (h' : firstWitness ti' w' = .ok s') :
    Sim ti ti' s s' [⟨w.sigil, newSegs [] 2 w.tokens⟩] [⟨w'.sigil, newSegs [] 2 w'.tokens⟩] := by
  obtain ⟨x, x', g1, g2, g3⟩ := hsh 0 hn
  rw [hw] at g1
  obtain rfl := Option.some.inj g1
  rw [hw'] at g2
  obtain rfl := Option.some.inj g2
  have hft : List.Forall₂ (fun t t' => TokRel ti.ws ti'.ws t t' ∧ dget ([] : Dict Token VId) t = dget ([] : Dict Token VId) t')
      w.tokens w'.tokens := (tokens_forall₂ hw hw' g3).imp fun t t' ht => ⟨ht, rfl⟩
  have h0 : GRel (SigRel ti.ws ti'.ws) (TokRel ti.ws ti'.ws) VGraph.init VGraph.init :=
    ⟨.cons ⟨rfl, .nil⟩ (.cons ⟨rfl, .nil⟩ .nil), .nil, rfl, rfl⟩
  have hmg := h0.merge hR hne (σ := w.sigil) (σ' := w'.sigil) ⟨_, w, w', hw, hw', rfl, rfl⟩ hft
  constructor
  · unfold firstWitness at h h'
    obtain ⟨_, _, h⟩ := bind_eq_ok.mp h
    obtain ⟨_, _, h⟩ := bind_eq_ok.mp h
    obtain ⟨_, _, h⟩ := bind_eq_ok.mp h
    obtain ⟨_, _, h'⟩ := bind_eq_ok.mp h'
    obtain ⟨_, _, h'⟩ := bind_eq_ok.mp h'
    obtain ⟨_, _, h'⟩ := bind_eq_ok.mp h'
    rw [← Except.ok.inj h, ← Except.ok.inj h']
    exact hmg
  · simp only [List.map_cons, List.map_nil, WPath.inner]
    rw [newSegs_inner_congr (hft.imp fun _ _ h => h.2)]

end

end CollateX
