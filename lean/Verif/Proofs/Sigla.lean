import Verif.Proofs.Renaming
/-
Runs on inputs that differ only in the sigla.
-/

namespace CollateX
open Spec

section
variable {K V : Type} [DecidableEq K]

theorem ddel_dset_eq (d : Dict K V) (k : K) (x : V) : ddel (dset d k x) k = ddel d k := by
  induction d with
  | nil => simp [dset, ddel]
  | cons p d ih =>
    obtain ⟨a, b⟩ := p
    by_cases h : a = k
    · simp [dset, ddel, h]
    · simp [dset, ddel, h, ih]

theorem ddel_dset_comm (d : Dict K V) {k j : K} (hj : j ≠ k) (v : V) : ddel (dset d j v) k = dset (ddel d k) j v := by
  induction d with
  | nil => simp [dset, ddel, hj]
  | cons p d ih =>
    obtain ⟨a, b⟩ := p
    by_cases h : a = k
    · subst h; simp [dset, ddel, hj.symm]
    · by_cases h2 : a = j
      · subst h2; simp [dset, ddel, h]
      · simp [dset, ddel, h, h2, ih]

end

/-- A token record without the two bookkeeping keys. -/
def ownFields (d : TokenData) : TokenData := ddel (ddel d .sigil) .pos

/-- What a filter is shown of an indexed token. -/
theorem filteredData_indexToken (σ : Str) (p : Nat) (t : Token) : filteredData (indexToken σ p t) = .ok (ownFields t.data) := by
  have h : (dmem (indexToken σ p t).data .sigil && dmem (indexToken σ p t).data .pos) = true := by
    unfold dmem indexToken
    simp only [dget_dset_self]
    rw [dget_dset_ne _ _ (by decide), dget_dset_self]
    rfl
  unfold filteredData
  rw [if_pos h]
  unfold indexToken ownFields
  simp only
  rw [ddel_dset_comm _ (by decide), ddel_dset_eq, ddel_dset_eq]

/-- Corresponding entries of the token arrays: same string, corresponding sigla, and records that correspond under `Q`. -/
def EntryRel (Q : TokenData → TokenData → Prop) (R : Str → Str → Prop) (t t' : Token) : Prop :=
  t.str = t'.str ∧ (∃ σ σ', R σ σ' ∧ dget t.data .sigil = some (.str σ) ∧ dget t'.data .sigil = some (.str σ')) ∧
    PyRel Q (filteredData t) (filteredData t')

/-- Corresponding tokens: same string, and records that correspond under `Q`. -/
def LikeToken (Q : TokenData → TokenData → Prop) (t t' : Token) : Prop := t.str = t'.str ∧ Q (ownFields t.data) (ownFields t'.data)

/-- Witnesses with corresponding tokens. -/
def LikeTokens (Q : TokenData → TokenData → Prop) (w w' : Witness) : Prop := List.Forall₂ (LikeToken Q) w.tokens w'.tokens

/-- The filter does not see the difference between corresponding records. -/
def Blind (pf : Option PFilter) (Q : TokenData → TokenData → Prop) : Prop :=
  ∀ f, pf = some f → ∀ d d' e e', Q d d' → Q e e' → f d e = f d' e'

theorem indexTokens_rel {Q : TokenData → TokenData → Prop} {R : Str → Str → Prop} {σ σ' : Str} (h : R σ σ') {ts ts' : List Token}
    (ht : List.Forall₂ (LikeToken Q) ts ts') : ∀ p, List.Forall₂ (EntryRel Q R) (indexTokens σ p ts) (indexTokens σ' p ts') := by
  induction ht with
  | nil => intro p; exact .nil
  | @cons t t' ts ts' hl _ ih =>
    intro p
    refine .cons ⟨hl.1, ⟨σ, σ', h, ?_, ?_⟩, ?_⟩ (ih (p + 1))
    · unfold indexToken
      simp only
      rw [dget_dset_ne _ _ (by decide), dget_dset_self]
    · unfold indexToken
      simp only
      rw [dget_dset_ne _ _ (by decide), dget_dset_self]
    · rw [filteredData_indexToken, filteredData_indexToken]
      exact .ok hl.2

theorem markerToken_rel {Q : TokenData → TokenData → Prop} {R : Str → Str → Prop} {σ σ' : Str} (h : R σ σ') (i : Nat) :
    EntryRel Q R (markerToken i σ) (markerToken i σ') :=
  ⟨rfl, ⟨σ, σ', h, rfl, rfl⟩, .error _⟩

theorem arrOf_rel {Q : TokenData → TokenData → Prop} {R : Str → Str → Prop} {ws ws' : List Witness}
    (h : List.Forall₂ (fun w w' : Witness => R w.sigil w'.sigil ∧ LikeTokens Q w w') ws ws') : ∀ i p,
    List.Forall₂ (EntryRel Q R) (arrOf i p ws) (arrOf i p ws') := by
  induction h with
  | nil => intro i p; exact .nil
  | @cons w w' ws ws' hw _ ih =>
    intro i p
    unfold arrOf
    rw [← hw.2.length_eq]
    exact forall₂_append (indexTokens_rel hw.1 hw.2 _) (.cons (markerToken_rel hw.1 i) (ih _ _))

theorem forall₂_dropLast {α β : Type} {P : α → β → Prop} {l : List α} {l' : List β} (h : List.Forall₂ P l l') :
    List.Forall₂ P l.dropLast l'.dropLast := by
  induction h with
  | nil => exact .nil
  | cons hp ht ih =>
    cases ht with
    | nil => exact .nil
    | cons hq ht => exact .cons hp ih

theorem lgetE_rel {α β : Type} {P : α → β → Prop} {l : List α} {l' : List β} (h : List.Forall₂ P l l') (i : Nat) :
    PyRel P (lgetE l i) (lgetE l' i) := by
  induction h generalizing i with
  | nil => exact .error _
  | cons hp _ ih =>
    cases i with
    | zero => exact .ok hp
    | succ i => exact ih i

section
variable {Q : TokenData → TokenData → Prop} {R : Str → Str → Prop} (hR : OneOne R) {arr arr' : List Token} (ha : List.Forall₂ (EntryRel Q R) arr arr')
include ha

theorem instSigil_rel (p : Nat) : PyRel R (instSigil arr p) (instSigil arr' p) := by
  refine (lgetE_rel ha p).bind fun t t' ht => ?_
  obtain ⟨_, ⟨σ, σ', h1, h2, h3⟩, _⟩ := ht
  rw [h2, h3]
  exact .ok h1

include hR

theorem mapInstances_rel (b : Block) (ps : List Nat) : ∀ {d d' : Dict Str (List Inst)}, DRel R (fun a b => a = b) d d' →
    PyRel (DRel R (fun a b => a = b)) (mapInstances arr b ps d) (mapInstances arr' b ps d') := by
  induction ps with
  | nil => intro d d' h; exact .ok h
  | cons p ps ih =>
    intro d d' h
    refine (instSigil_rel ha p).bind fun σ σ' hσ => ih ?_
    unfold setdefaultAppend
    have := DRel.get hR h hσ
    generalize dget d σ = x at this
    generalize dget d' σ' = y at this
    cases this with
    | none => exact h.set hR hσ rfl
    | some e => rw [e]; exact h.set hR hσ rfl

theorem mapBlocks_rel (SA : List Nat) (bs : List Block) : ∀ {d d' : Dict Str (List Inst)}, DRel R (fun a b => a = b) d d' →
    PyRel (DRel R (fun a b => a = b)) (mapBlocks arr SA bs d) (mapBlocks arr' SA bs d') := by
  induction bs with
  | nil => intro d d' h; exact .ok h
  | cons b bs ih =>
    intro d d' h
    unfold mapBlocks
    cases b.instances SA with
    | error e => exact .error e
    | ok ps =>
      simp only [bind_ok]
      exact (mapInstances_rel hR ha b ps h).bind fun _ _ h2 => ih h2

end

theorem forall₂_sig {Q : TokenData → TokenData → Prop} {ws ws' : List Witness} (h : List.Forall₂ (LikeTokens Q) ws ws') :
    List.Forall₂ (fun w w' : Witness => SigRel ws ws' w.sigil w'.sigil ∧ LikeTokens Q w w') ws ws' := by
  rw [List.forall₂_iff_get] at h ⊢
  refine ⟨h.1, fun i h1 h2 => ⟨⟨i, _, _, ?_, ?_, rfl, rfl⟩, h.2 i h1 h2⟩⟩ <;> simp [h1, h2]

/-- The token indices of two inputs that differ in the sigla and in what no filter sees. -/
theorem mkTokenIndex_rel {Q : TokenData → TokenData → Prop} {ws ws' : List Witness} (h : List.Forall₂ (LikeTokens Q) ws ws')
    (nd : (ws.map Witness.sigil).Nodup) (nd' : (ws'.map Witness.sigil).Nodup) {ti ti' : TokenIndex}
    (hti : mkTokenIndex ws = .ok ti) (hti' : mkTokenIndex ws' = .ok ti') :
    List.Forall₂ (EntryRel Q (SigRel ws ws')) ti.arr ti'.arr ∧ ti.SA = ti'.SA ∧
      DRel (SigRel ws ws') (fun a b => a = b) ti.instances ti'.instances := by
  obtain ⟨_, _, _, _, ha⟩ := mkTokenIndex_prepare hti
  obtain ⟨_, _, _, _, ha'⟩ := mkTokenIndex_prepare hti'
  have harr : List.Forall₂ (EntryRel Q (SigRel ws ws')) ti.arr ti'.arr := by
    rw [ha, ha']
    exact forall₂_dropLast (arrOf_rel (forall₂_sig h) 0 0)
  have hstr : ti.arr.map Token.str = ti'.arr.map Token.str := forall₂_map_eq harr (fun _ _ h => h.1)
  unfold mkTokenIndex at hti hti'
  obtain ⟨p, _, hti⟩ := bind_eq_ok.mp hti
  obtain ⟨p', _, hti'⟩ := bind_eq_ok.mp hti'
  obtain ⟨b, hb, hti⟩ := bind_eq_ok.mp hti
  obtain ⟨b', hb', hti'⟩ := bind_eq_ok.mp hti'
  obtain ⟨d, hd, hti⟩ := bind_eq_ok.mp hti
  obtain ⟨d', hd', hti'⟩ := bind_eq_ok.mp hti'
  injection hti with hti
  injection hti' with hti'
  subst hti
  subst hti'
  simp only at harr hstr ⊢
  rw [hstr] at hb
  rw [hb'] at hb
  obtain rfl := Except.ok.inj hb
  rw [hstr] at hd
  refine ⟨harr, by rw [hstr], (mapBlocks_rel (sigRel_oneOne nd nd') harr _ _ .nil).of_ok hd hd'⟩

/-! ### The cube -/

/-- Two cubes with the same vertices at the same places. -/
abbrev SameVertices (m m' : Cube) : Prop := DRel (fun a b : Int × Int => a = b) (fun p q : VId × Token => p.1 = q.1) m m'

section
variable {Q : TokenData → TokenData → Prop} {R : Str → Str → Prop} {arr arr' : List Token} (ha : List.Forall₂ (EntryRel Q R) arr arr')
include ha

theorem filterMatch_rel {pf : Option PFilter} (hpf : Blind pf Q) (gs : Nat) {t t' : Token} (ht : EntryRel Q R t t') :
    filterMatch pf arr gs t = filterMatch pf arr' gs t' := by
  unfold filterMatch
  cases pf with
  | none => rfl
  | some f =>
    simp only
    have := lgetE_rel ha gs
    generalize lgetE arr gs = x at this
    generalize lgetE arr' gs = y at this
    cases this with
    | error e => rfl
    | @ok u u' h =>
      simp only [bind_ok]
      have h1 := ht.2.2
      have h2 := h.2.2
      generalize filteredData t = a at h1
      generalize filteredData t' = a' at h1
      generalize filteredData u = b at h2
      generalize filteredData u' = b' at h2
      cases h1 with
      | error e => rfl
      | ok q1 =>
        cases h2 with
        | error e => rfl
        | ok q2 => simp only [bind_ok, hpf f rfl _ _ _ _ q1 q2]

theorem cubeOffsets_rel {pf : Option PFilter} (hpf : Blind pf Q) (va : List (Option VId)) (r : Ranking) (wStart gs is : Nat) (k : Nat) :
    ∀ (i : Nat) {m m' : Cube}, SameVertices m m' →
    PyRel SameVertices (cubeOffsets pf arr va r wStart gs is k i m) (cubeOffsets pf arr' va r wStart gs is k i m') := by
  induction k with
  | zero => intro i m m' h; exact .ok h
  | succ k ih =>
    intro i m m' h
    unfold cubeOffsets
    cases lgetE va (gs + i) with
    | error e => exact .error e
    | ok ov =>
      simp only [bind_ok]
      cases ov with
      | none => exact .error _
      | some v =>
        simp only
        cases dgetE r.byVertex v with
        | error e => exact .error e
        | ok x =>
          simp only [bind_ok]
          refine (lgetE_rel ha (is + i)).bind fun t t' ht => ?_
          rw [filterMatch_rel ha hpf gs ht]
          cases filterMatch pf arr' gs t' with
          | error e => exact .error e
          | ok b =>
            simp only [bind_ok]
            cases b with
            | false => exact ih _ h
            | true => exact ih _ (DRel.set oneOne_eq h rfl rfl)

theorem cubeGraphInsts_rel {pf : Option PFilter} (hpf : Blind pf Q) (va : List (Option VId)) (r : Ranking) (wStart is len : Nat) (l : List Nat) :
    ∀ {m m' : Cube}, SameVertices m m' →
    PyRel SameVertices (cubeGraphInsts pf arr va r wStart is len l m) (cubeGraphInsts pf arr' va r wStart is len l m') := by
  induction l with
  | nil => intro m m' h; exact .ok h
  | cons gs l ih =>
    intro m m' h
    exact (cubeOffsets_rel ha hpf va r wStart gs is len 0 h).bind fun _ _ h2 => ih h2

end

theorem cubeInsts_rel {Q : TokenData → TokenData → Prop} {R : Str → Str → Prop} {ti ti' : TokenIndex} (ha : List.Forall₂ (EntryRel Q R) ti.arr ti'.arr)
    (hsa : ti.SA = ti'.SA) {pf : Option PFilter} (hpf : Blind pf Q) (va : List (Option VId)) (r : Ranking) (wStart : Nat) (l : List Inst) :
    ∀ {m m' : Cube}, SameVertices m m' →
    PyRel SameVertices (cubeInsts pf ti va r wStart l m) (cubeInsts pf ti' va r wStart l m') := by
  induction l with
  | nil => intro m m' h; exact .ok h
  | cons i l ih =>
    intro m m' h
    unfold cubeInsts
    rw [hsa]
    cases i.block.instances ti'.SA with
    | error e => exact .error e
    | ok all =>
      simp only [bind_ok]
      exact (cubeGraphInsts_rel ha hpf va r wStart i.start i.block.length _ h).bind fun _ _ h2 => ih h2

section
variable {ts : TopoFn} {pf : Option PFilter} {ti ti' : TokenIndex} {n : Nat}

/-- The vertex arrays are equal. -/
theorem va_eq (hal : ti.arr.length = ti'.arr.length) (hsh : Shape n ti.ws ti'.ws) {s s' : AlignSt} {ps ps' : List WPath}
    (hs : AInv ti s ps) (hs' : AInv ti' s' ps') (hin : ps.map WPath.inner = ps'.map WPath.inner) (hn : ps.length ≤ n) : s.va = s'.va := by
  have hl : ps.length = ps'.length := by simpa using congrArg List.length hin
  apply List.ext_getElem?
  intro p
  have h1 : ∀ v, s.va[p]? = some (some v) → s'.va[p]? = some (some v) := by
    intro v hv
    obtain ⟨t, ht⟩ := (hs.va p v).mp hv
    obtain ⟨t', ht', _⟩ := ht.transfer hsh hin hs' hn
    exact (hs'.va p v).mpr ⟨t', ht'⟩
  have h2 : ∀ v, s'.va[p]? = some (some v) → s.va[p]? = some (some v) := by
    intro v hv
    obtain ⟨t, ht⟩ := (hs'.va p v).mp hv
    obtain ⟨t', ht', _⟩ := ht.transfer hsh.symm hin.symm hs (by omega)
    exact (hs.va p v).mpr ⟨t', ht'⟩
  by_cases hp : p < s.va.length
  · have hp' : p < s'.va.length := by rw [hs'.va_len, ← hal, ← hs.va_len]; exact hp
    rw [List.getElem?_eq_getElem hp, List.getElem?_eq_getElem hp'] at h1 h2 ⊢
    simp only [Option.some.injEq] at h1 h2 ⊢
    cases e : s.va[p] with
    | some v => exact (h1 v e).symm
    | none =>
      cases e' : s'.va[p] with
      | none => rfl
      | some v =>
        have := h2 v e'
        rw [e] at this
        cases this
  · rw [List.getElem?_eq_none (by omega), List.getElem?_eq_none (by rw [hs'.va_len, ← hal, ← hs.va_len]; omega)]

/-- The cubes correspond if only the sigla differ, and what the filter does not see. -/
theorem cubeRel_of_sigla {Q : TokenData → TokenData → Prop} (hpf : Blind pf Q) (L : Layout ti) (L' : Layout ti') (hsh : Shape n ti.ws ti'.ws)
    (harr : List.Forall₂ (EntryRel Q (SigRel ti.ws ti'.ws)) ti.arr ti'.arr) (hsa : ti.SA = ti'.SA)
    (hd : DRel (SigRel ti.ws ti'.ws) (fun a b => a = b) ti.instances ti'.instances)
    {s s' : AlignSt} {ps ps' : List WPath} (hs : AInv ti s ps) (hs' : AInv ti' s' ps')
    (h : Sim ti ti' s s' ps ps') (hn : ps.length < n) {w w' : Witness} (hw : ti.ws[ps.length]? = some w)
    (hw' : ti'.ws[ps'.length]? = some w') {P P' : WPath} {rkf rkf' : VId → Nat} {o o' : List VId} {m m' : Nat} {r r' : Ranking}
    {cube cube' : Cube} {cells cells' : List (List Score)} {al al' : Dict Token VId}
    (S : StepOf ts pf ti s ps w P rkf o m r cube cells al) (S' : StepOf ts pf ti' s' ps' w' P' rkf' o' m' r' cube' cells' al') :
    CubeRel (TokRel ti.ws ti'.ws) cube cube' := by
  have hr : r = r' := by
    have e := S.ranking
    rw [h.graph.ranking, S'.ranking] at e
    exact (Except.ok.inj e).symm
  subst hr
  have hw2 := hw'
  rw [← h.len] at hw2
  have hva := va_eq harr.length_eq hsh hs hs' h.inner (by omega)
  have hc : SameVertices cube cube' := by
    have e := S.cube_ok
    have e' := S'.cube_ok
    unfold mkCube at e e'
    rw [L.range _ _ hw] at e
    rw [L'.range _ _ hw2, ← hsh.off _ (by omega), ← hva] at e'
    simp only [bind_ok] at e e'
    have hi : ti.instancesOf w.sigil = ti'.instancesOf w'.sigil := by
      unfold TokenIndex.instancesOf
      have := DRel.get (sigRel_oneOne L.sig_nd L'.sig_nd) hd (k := w.sigil) (k' := w'.sigil) ⟨_, w, w', hw, hw2, rfl, rfl⟩
      generalize dget ti.instances w.sigil = x at this
      generalize dget ti'.instances w'.sigil = y at this
      cases this with
      | none => rfl
      | some e => rw [e]
    rw [hi] at e
    exact (cubeInsts_rel harr hsa hpf s.va r _ _ .nil).of_ok e e'
  intro key
  have hg := DRel.get oneOne_eq hc (k := key) (k' := key) rfl
  cases e : dget cube key with
  | none =>
    rw [e] at hg
    generalize dget cube' key = y at hg
    cases hg
    exact .none
  | some p =>
    cases e' : dget cube' key with
    | none => rw [e, e'] at hg; cases hg
    | some p' =>
      rw [e, e'] at hg
      cases hg with
      | some hv =>
        obtain ⟨i, _, _, h1, h2, _⟩ := S.hits key p.1 p.2 e
        obtain ⟨j, _, _, k1, k2, _⟩ := S'.hits key p'.1 p'.2 e'
        have hij : i = j := by
          have := congrArg Prod.fst (h2.symm.trans k2)
          simpa using this
        subst hij
        exact .some ⟨hv, _, i, w, w', hw, hw2, h1, k1⟩

end

theorem along_true {ts : TopoFn} {pf : Option PFilter} {ti : TokenIndex} (l : List Witness) : ∀ s,
    Along ts pf ti (fun _ => True) l s := by
  induction l with
  | nil => intro s; trivial
  | cons w l ih => intro s; exact ⟨trivial, fun s' _ => ih s'⟩

theorem sigRel_indexed (ws ws' : List Witness) : SigRel (indexed 0 ws) (indexed 0 ws') = SigRel ws ws' := by
  funext σ σ'
  apply propext
  constructor
  · rintro ⟨k, w, w', h1, h2, rfl, rfl⟩
    obtain ⟨x, g1, g2, _⟩ := indexed_strs ws h1
    obtain ⟨x', g1', g2', _⟩ := indexed_strs ws' h2
    exact ⟨k, x, x', g1, g1', g2.symm, g2'.symm⟩
  · rintro ⟨k, w, w', h1, h2, rfl, rfl⟩
    have g1 := indexed_getElem? 0 ws k
    have g2 := indexed_getElem? 0 ws' k
    rw [h1] at g1
    rw [h2] at g2
    exact ⟨k, _, _, g1, g2, rfl, rfl⟩

theorem shape_of_tokens {Q : TokenData → TokenData → Prop} {ws ws' : List Witness} (h : List.Forall₂ (LikeTokens Q) ws ws') :
    Shape ws.length ws ws' := by
  intro k hk
  rw [List.forall₂_iff_get] at h
  have hk' : k < ws'.length := by omega
  refine ⟨ws[k], ws'[k], List.getElem?_eq_getElem hk, List.getElem?_eq_getElem hk', ?_⟩
  exact (h.2 k hk hk').length_eq

/-- The ranked graphs of two inputs that differ only in the sigla and in what the filter does not see. -/
theorem collateRanked_like_tokens {Q : TokenData → TokenData → Prop} {env : Env} {ws ws' : List Witness} (hts : TopoSpec env.topo) (hv : Valid ws) (hv' : Valid ws')
    (hs : ∀ w ∈ ws, w.sigil ≠ []) (hs' : ∀ w ∈ ws', w.sigil ≠ [])
    (h : List.Forall₂ (LikeTokens Q) ws ws') {o : Opts} (hpf : Blind o.pfilter Q) (ho : ExactMatching o) :
    ∃ g g' rk, collateRanked env ws o = .ok (indexed 0 ws, g, rk) ∧ collateRanked env ws' o = .ok (indexed 0 ws', g', rk) ∧
      GRel (SigRel (indexed 0 ws) (indexed 0 ws')) (TokRel (indexed 0 ws) (indexed 0 ws')) g g' := by
  obtain ⟨ti, hti, hws, L, B⟩ := hv.tokenIndex
  obtain ⟨ti', hti', hws', L', B'⟩ := hv'.tokenIndex
  obtain ⟨harr, hsa, hd⟩ := mkTokenIndex_rel h hv.sigla hv'.sigla hti hti'
  rw [← sigRel_indexed, ← hws, ← hws'] at harr hd
  obtain ⟨w, rest, hw⟩ := List.exists_cons_of_ne_nil L.ne
  obtain ⟨w', rest', hw'⟩ := List.exists_cons_of_ne_nil L'.ne
  have hw0 : ti.ws[0]? = some w := by rw [hw]; rfl
  have hw0' : ti'.ws[0]? = some w' := by rw [hw']; rfl
  obtain ⟨s, h1, h2⟩ := firstWitness_ok L hw0
  obtain ⟨s', h1', h2'⟩ := firstWitness_ok L' hw0'
  have e1 : rest.length + 1 = ws.length := by
    have := congrArg List.length hw
    rw [hws, indexed_length] at this
    simpa using this.symm
  have e2 : rest'.length + 1 = ws'.length := by
    have := congrArg List.length hw'
    rw [hws', indexed_length] at this
    simpa using this.symm
  have hl := h.length_eq
  have hsh : Shape ws.length ti.ws ti'.ws := by rw [hws, hws']; exact (shape_of_tokens h).indexed
  have hne : ∀ a b, SigRel ti.ws ti'.ws a b → a ≠ [] ∧ b ≠ [] := by
    intro a b hab
    rw [hws, hws'] at hab
    exact sigRel_ne hs hs' hab
  have hsim := Sim.first hsh (by omega) (sigRel_oneOne L.sig_nd L'.sig_nd) hne hw0 hw0' h1 h1'
  obtain ⟨t, t', qs, qs', c1, c2, c3, c4, c5, c6⟩ := Sim.loop (ts := env.topo) (pf := o.pfilter) (pf' := o.pfilter) (n := ws.length)
    (H := fun _ => True) hts L L' B B' hsh hne
    (fun s s' ps ps' w w' P P' rkf rkf' o o' m m' r r' cube cube' cells cells' al al' a1 a2 a3 a4 a5 a6 a7 a8 _ =>
      cubeRel_of_sigla hpf L L' hsh harr hsa hd a1 a2 a3 a4 a5 a6 a7 a8) rest rest' s s' _ _ h2 h2' (by simp) hsim
    (by rw [hw]; exact List.prefix_refl _) (by rw [hw']; exact List.prefix_refl _) (by omega) (by simp; omega) (along_true rest s)
  exact collateRanked_rel hts hv hv' ho hws hws' L L' (collateGraph_run hti hw h1 c1) (collateGraph_run hti' hw' h1' c2) c6.graph

theorem likeTokens_rfl (w : Witness) : ∀ w' : Witness, w.tokens = w'.tokens → LikeTokens (fun a b => a = b) w w' := by
  intro w' h
  unfold LikeTokens
  rw [h, List.forall₂_same]
  exact fun t _ => ⟨rfl, rfl⟩

/-- The ranked graphs of two inputs that differ only in the sigla. -/
theorem collateRanked_same_tokens {env : Env} {ws ws' : List Witness} (hts : TopoSpec env.topo) (hv : Valid ws) (hv' : Valid ws')
    (hs : ∀ w ∈ ws, w.sigil ≠ []) (hs' : ∀ w ∈ ws', w.sigil ≠ [])
    (h : List.Forall₂ (fun w w' : Witness => w.tokens = w'.tokens) ws ws') {o : Opts} (ho : ExactMatching o) :
    ∃ g g' rk, collateRanked env ws o = .ok (indexed 0 ws, g, rk) ∧ collateRanked env ws' o = .ok (indexed 0 ws', g', rk) ∧
      GRel (SigRel (indexed 0 ws) (indexed 0 ws')) (TokRel (indexed 0 ws) (indexed 0 ws')) g g' :=
  collateRanked_like_tokens (Q := fun a b => a = b) hts hv hv' hs hs' (h.imp likeTokens_rfl)
    (fun f _ d d' e e' h1 h2 => by rw [h1, h2]) ho

end CollateX
