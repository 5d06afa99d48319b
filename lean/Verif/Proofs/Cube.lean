import Verif.Proofs.Layout
/-
The match cube: construction succeeds; which entries it has.
-/

namespace CollateX

/-- Every entry of the cube satisfies `H`. -/
def CubeAll (H : Int × Int → VId → Token → Prop) (m : Cube) : Prop := ∀ key v t, dget m key = some (v, t) → H key v t

/-- Keys are kept. -/
def KeysLe (m m' : Cube) : Prop := ∀ key, dmem m key = true → dmem m' key = true

theorem KeysLe.refl (m : Cube) : KeysLe m m := fun _ h => h
theorem KeysLe.trans {a b c : Cube} (h1 : KeysLe a b) (h2 : KeysLe b c) : KeysLe a c := fun k h => h2 k (h1 k h)

theorem keysLe_dset (m : Cube) (k : Int × Int) (p : VId × Token) : KeysLe m (dset m k p) := by
  intro key h
  rw [dmem_iff] at h ⊢
  rw [mem_keys_dset]
  exact Or.inr h

/-- The loop over the offsets. -/
theorem cubeOffsets_ok (pf : Option PFilter) (arr : List Token) (va : List (Option VId)) (rk : Ranking) (rkf : VId → Nat)
    (wStart gs is : Nat) (H : Int × Int → VId → Token → Prop) (n : Nat) : ∀ (i : Nat) (m : Cube),
    CubeAll H m →
    (∀ j, i ≤ j → j < i + n → ∃ v t, va[gs + j]? = some (some v) ∧ dget rk.byVertex v = some (rkf v) ∧
      arr[is + j]? = some t ∧ (∃ b, filterMatch pf arr gs t = .ok b) ∧
      (filterMatch pf arr gs t = .ok true → H (((is + j : Nat) : Int) - (wStart : Int), (rkf v : Int) - 1) v t)) →
    ∃ m', cubeOffsets pf arr va rk wStart gs is n i m = .ok m' ∧ CubeAll H m' ∧ KeysLe m m' ∧
      (pf = none → ∀ j v, i ≤ j → j < i + n → va[gs + j]? = some (some v) →
        dmem m' (((is + j : Nat) : Int) - (wStart : Int), (rkf v : Int) - 1) = true) := by
  induction n with
  | zero =>
    intro i m hm _
    exact ⟨m, rfl, hm, KeysLe.refl m, by intro _ j v h1 h2; omega⟩
  | succ n ih =>
    intro i m hm hall
    obtain ⟨v, t, h1, h2, h3, ⟨b, h4⟩, h5⟩ := hall i (Nat.le_refl _) (by omega)
    set key : Int × Int := (((is + i : Nat) : Int) - (wStart : Int), (rkf v : Int) - 1) with hkey
    have hm1 : CubeAll H (if b then dset m key (v, t) else m) := by
      cases b with
      | false => exact hm
      | true =>
        intro key' v' t' hd
        simp only [if_true] at hd
        rw [dget_dset] at hd
        split at hd
        · rename_i he
          injection hd with hd
          injection hd with hd1 hd2
          subst hd1; subst hd2; subst he
          exact h5 h4
        · exact hm key' v' t' hd
    obtain ⟨m', g1, g2, g3, g4⟩ := ih (i + 1) _ hm1 (fun j hj1 hj2 => hall j (by omega) (by omega))
    refine ⟨m', ?_, g2, ?_, ?_⟩
    · simp only [cubeOffsets, lgetE_eq_ok.mpr h1, bind_ok, dgetE_of_dget h2, lgetE_eq_ok.mpr h3, h4]
      exact g1
    · refine KeysLe.trans ?_ g3
      cases b with
      | false => exact KeysLe.refl m
      | true => exact keysLe_dset m key _
    · intro hpf j v' hj1 hj2 hv'
      by_cases hji : j = i
      · subst hji
        rw [h1] at hv'
        obtain rfl := Option.some.inj (Option.some.inj hv')
        apply g3
        subst hpf
        have : b = true := by
          simp only [filterMatch] at h4
          exact (Except.ok.inj h4).symm
        subst this
        simp only [if_true, dmem, ← hkey, dget_dset_self, Option.isSome_some]
      · exact g4 hpf j v' (by omega) (by omega) hv'

/-- The loop over the occurrences in the graph. -/
theorem cubeGraphInsts_ok (pf : Option PFilter) (arr : List Token) (va : List (Option VId)) (rk : Ranking)
    (rkf : VId → Nat) (wStart is len : Nat) (H : Int × Int → VId → Token → Prop) (gss : List Nat) : ∀ (m : Cube),
    CubeAll H m →
    (∀ gs ∈ gss, ∀ j, j < len → ∃ v t, va[gs + j]? = some (some v) ∧ dget rk.byVertex v = some (rkf v) ∧
      arr[is + j]? = some t ∧ (∃ b, filterMatch pf arr gs t = .ok b) ∧
      (filterMatch pf arr gs t = .ok true → H (((is + j : Nat) : Int) - (wStart : Int), (rkf v : Int) - 1) v t)) →
    ∃ m', cubeGraphInsts pf arr va rk wStart is len gss m = .ok m' ∧ CubeAll H m' ∧ KeysLe m m' ∧
      (pf = none → ∀ gs ∈ gss, ∀ j v, j < len → va[gs + j]? = some (some v) →
        dmem m' (((is + j : Nat) : Int) - (wStart : Int), (rkf v : Int) - 1) = true) := by
  induction gss with
  | nil =>
    intro m hm _
    exact ⟨m, rfl, hm, KeysLe.refl m, by simp⟩
  | cons gs gss ih =>
    intro m hm hall
    obtain ⟨m1, a1, a2, a3, a4⟩ := cubeOffsets_ok pf arr va rk rkf wStart gs is H len 0 m hm
      (fun j _ hj => hall gs (by simp) j (by omega))
    obtain ⟨m2, b1, b2, b3, b4⟩ := ih m1 a2 (fun gs' hgs' => hall gs' (by simp [hgs']))
    refine ⟨m2, ?_, b2, KeysLe.trans a3 b3, ?_⟩
    · simp only [cubeGraphInsts, a1, bind_ok, b1]
    · intro hpf gs' hgs' j v hj hv
      rcases List.mem_cons.mp hgs' with rfl | hgs'
      · exact b3 _ (a4 hpf j v (by omega) (by omega) hv)
      · exact b4 hpf gs' hgs' j v hj hv

/-- The loop over the block instances. -/
theorem cubeInsts_ok (pf : Option PFilter) (ti : TokenIndex) (va : List (Option VId)) (rk : Ranking) (rkf : VId → Nat)
    (wStart : Nat) (H : Int × Int → VId → Token → Prop) (insts : List Inst) : ∀ (m : Cube),
    CubeAll H m →
    (∀ inst ∈ insts, inst.block.instances ti.SA = .ok (inst.block.occs ti.SA) ∧
      ∀ gs ∈ inst.block.occs ti.SA, gs < wStart → ∀ j, j < inst.block.length →
        ∃ v t, va[gs + j]? = some (some v) ∧ dget rk.byVertex v = some (rkf v) ∧
        ti.arr[inst.start + j]? = some t ∧ (∃ b, filterMatch pf ti.arr gs t = .ok b) ∧
        (filterMatch pf ti.arr gs t = .ok true →
          H (((inst.start + j : Nat) : Int) - (wStart : Int), (rkf v : Int) - 1) v t)) →
    ∃ m', cubeInsts pf ti va rk wStart insts m = .ok m' ∧ CubeAll H m' ∧ KeysLe m m' ∧
      (pf = none → ∀ inst ∈ insts, ∀ gs ∈ inst.block.occs ti.SA, gs < wStart → ∀ j v, j < inst.block.length →
        va[gs + j]? = some (some v) →
        dmem m' (((inst.start + j : Nat) : Int) - (wStart : Int), (rkf v : Int) - 1) = true) := by
  induction insts with
  | nil =>
    intro m hm _
    exact ⟨m, rfl, hm, KeysLe.refl m, by simp⟩
  | cons inst insts ih =>
    intro m hm hall
    have h0 := hall inst (by simp)
    obtain ⟨m1, a1, a2, a3, a4⟩ := cubeGraphInsts_ok pf ti.arr va rk rkf wStart inst.start inst.block.length H
      ((inst.block.occs ti.SA).filter (fun p => p < wStart)) m hm
      (by
        intro gs hgs j hj
        rw [List.mem_filter] at hgs
        exact h0.2 gs hgs.1 (by simpa using hgs.2) j hj)
    obtain ⟨m2, b1, b2, b3, b4⟩ := ih m1 a2 (fun i hi => hall i (by simp [hi]))
    refine ⟨m2, ?_, b2, KeysLe.trans a3 b3, ?_⟩
    · simp only [cubeInsts, h0.1, bind_ok, a1, b1]
    · intro hpf i hi gs hgs hlt j v hj hv
      rcases List.mem_cons.mp hi with rfl | hi
      · exact b3 _ (a4 hpf gs (List.mem_filter.mpr ⟨hgs, by simpa using hlt⟩) j v hj hv)
      · exact b4 hpf i hi gs hgs hlt j v hj hv

/-- The pair of token `i` of witness `w` and the token at position `q` was found with a block that starts `d` tokens before
both, and the filter accepted the former together with the first token of the block in the graph. -/
def FilterHit (pf : Option PFilter) (ti : TokenIndex) (w : Witness) (i q : Nat) (t : Token) : Prop :=
  ∃ (d l : Nat) (x : Witness), d ≤ i ∧ d ≤ q ∧ filterMatch pf ti.arr (q - d) t = .ok true ∧ ti.ws[l]? = some x ∧
    off ti.ws l ≤ q - d ∧ q < off ti.ws l + x.tokens.length ∧
    ∀ e, e ≤ d → ∃ a c, ti.arr[q - e]? = some a ∧ w.tokens[i - e]? = some c ∧ a.str = c.str

/-- An entry of the cube: token `i` of the witness, matched with the vertex of an earlier token with the same string. -/
def CubeHit (pf : Option PFilter) (ti : TokenIndex) (va : List (Option VId)) (rkf : VId → Nat) (wStart : Nat) (w : Witness)
    (key : Int × Int) (v : VId) (t : Token) : Prop :=
  ∃ (i q : Nat) (t' : Token), w.tokens[i]? = some t ∧ key = ((i : Int), (rkf v : Int) - 1) ∧
    va[q]? = some (some v) ∧ q < wStart ∧ ti.arr[q]? = some t' ∧ t'.str = t.str ∧ FilterHit pf ti w i q t

/-- A block occurrence that starts in a witness's range lies in it. -/
theorem BlocksOK.inwit_of {ti : TokenIndex} (L : Layout ti) (B : BlocksOK ti) {b : Block} (hb : b ∈ ti.blocks) {p : Nat}
    (hp : p ∈ b.occs ti.SA) {k : Nat} {w : Witness} (hw : ti.ws[k]? = some w) (t : Token) (ht : ti.arr[p]? = some t)
    (hs : dget t.data .sigil = some (.str w.sigil)) :
    off ti.ws k ≤ p ∧ p + b.length ≤ off ti.ws k + w.tokens.length := by
  obtain ⟨l, x, hx, h1, h2⟩ := B.inwit b hb p hp
  have hpos := B.pos b hb
  have hlt : p - off ti.ws l < x.tokens.length := by omega
  obtain ⟨t0, ht0⟩ : ∃ t0, x.tokens[p - off ti.ws l]? = some t0 := ⟨_, List.getElem?_eq_getElem hlt⟩
  have ha := L.arr_tok l _ x t0 hx ht0
  have e : off ti.ws l + (p - off ti.ws l) = p := by omega
  rw [e, ht] at ha
  obtain rfl := Option.some.inj ha
  have h3 := L.tok_sigil l _ x t hx ht0
  rw [hs] at h3
  have h4 : w.sigil = x.sigil := by
    have := Option.some.inj h3
    injection this
  have hkl : k = l := by
    have hk := (List.getElem?_eq_some_iff.mp hw)
    have hl := (List.getElem?_eq_some_iff.mp hx)
    have := (L.sig_nd.getElem_inj_iff (i := k) (j := l) (hi := by simpa using hk.1) (hj := by simpa using hl.1)).mp
      (by simp only [List.getElem_map, hk.2, hl.2, h4])
    exact this
  subst hkl
  rw [hw] at hx
  obtain rfl := Option.some.inj hx
  exact ⟨h1, h2⟩

/-- The cube for the `k`-th witness. -/
theorem mkCube_ok {ti : TokenIndex} (L : Layout ti) (B : BlocksOK ti) (pf : Option PFilter) {k : Nat} {w : Witness}
    (hw : ti.ws[k]? = some w) (va : List (Option VId)) (rk : Ranking) (rkf : VId → Nat)
    (hva : ∀ (j i : Nat) (x : Witness), j < k → ti.ws[j]? = some x → i < x.tokens.length →
      ∃ v, va[off ti.ws j + i]? = some (some v) ∧ dget rk.byVertex v = some (rkf v)) :
    ∃ m, mkCube pf ti w va rk = .ok m ∧ CubeAll (CubeHit pf ti va rkf (off ti.ws k) w) m ∧
      (pf = none → ∀ (i q : Nat) (t t' : Token) (v : VId), w.tokens[i]? = some t → q < off ti.ws k →
        ti.arr[q]? = some t' → va[q]? = some (some v) → t'.str = t.str → m.has (i : Int) ((rkf v : Int) - 1) = true) := by
  have hbefore : ∀ b ∈ ti.blocks, ∀ gs ∈ b.occs ti.SA, gs < off ti.ws k → ∀ j, j < b.length →
      ∃ v, va[gs + j]? = some (some v) ∧ dget rk.byVertex v = some (rkf v) ∧ gs + j < off ti.ws k := by
    intro b hb gs hgs hlt j hj
    obtain ⟨l, x, hx, h1, h2⟩ := B.inwit b hb gs hgs
    have hlk : l < k := by
      by_contra hge
      have hkl : k ≤ l := by omega
      have : off ti.ws k ≤ off ti.ws l := by
        rcases Nat.eq_or_lt_of_le hkl with h | h
        · rw [h]
        · have := off_lt ti.ws k l w hw h (by have := (List.getElem?_eq_some_iff.mp hx).1; omega)
          omega
      omega
    obtain ⟨v, hv1, hv2⟩ := hva l (gs + j - off ti.ws l) x hlk hx (by omega)
    have e : off ti.ws l + (gs + j - off ti.ws l) = gs + j := by omega
    rw [e] at hv1
    have := off_lt ti.ws l k x hx hlk (by have := (List.getElem?_eq_some_iff.mp hw).1; omega)
    exact ⟨v, hv1, hv2, by omega⟩
  have hfilter : ∀ b ∈ ti.blocks, ∀ gs ∈ b.occs ti.SA, ∀ (i : Nat) (t : Token), w.tokens[i]? = some t →
      ∃ r, filterMatch pf ti.arr gs t = .ok r := by
    intro b hb gs hgs i t ht
    cases pf with
    | none => exact ⟨true, rfl⟩
    | some f =>
      obtain ⟨l, x, hx, h1, h2⟩ := B.inwit b hb gs hgs
      have hpos := B.pos b hb
      obtain ⟨t0, ht0⟩ : ∃ t0, x.tokens[gs - off ti.ws l]? = some t0 :=
        ⟨_, List.getElem?_eq_getElem (by omega : gs - off ti.ws l < x.tokens.length)⟩
      have ha := L.arr_tok l _ x t0 hx ht0
      have e : off ti.ws l + (gs - off ti.ws l) = gs := by omega
      rw [e] at ha
      obtain ⟨d1, hd1⟩ := L.filtered hw ht
      obtain ⟨d2, hd2⟩ := L.filtered hx ht0
      refine ⟨f d1 d2, ?_⟩
      simp only [filterMatch, lgetE_eq_ok.mpr ha, bind_ok, hd1, hd2]
  obtain ⟨m, h1, h2, _, h4⟩ := cubeInsts_ok pf ti va rk rkf (off ti.ws k) (CubeHit pf ti va rkf (off ti.ws k) w)
    (ti.instancesOf w.sigil) [] (by intro key v t h; cases h)
    (by
      intro inst hinst
      obtain ⟨hb, hst, t0, ht0, hs0⟩ := (B.instances w.sigil inst).mp hinst
      have hin := B.inwit_of L hb hst hw t0 ht0 hs0
      refine ⟨B.insts _ hb, ?_⟩
      intro gs hgs hlt j hj
      obtain ⟨v, hv1, hv2, hv3⟩ := hbefore _ hb gs hgs hlt j hj
      have hidx : inst.start + j - off ti.ws k < w.tokens.length := by omega
      obtain ⟨t, ht⟩ : ∃ t, w.tokens[inst.start + j - off ti.ws k]? = some t := ⟨_, List.getElem?_eq_getElem hidx⟩
      have ha := L.arr_tok k _ w t hw ht
      have e : off ti.ws k + (inst.start + j - off ti.ws k) = inst.start + j := by omega
      rw [e] at ha
      refine ⟨v, t, hv1, hv2, ha, hfilter _ hb gs hgs _ t ht, ?_⟩
      intro hfm
      obtain ⟨a, c, hac1, hac2, hac3⟩ := B.same _ hb gs hgs _ hst j hj
      rw [ha] at hac2
      obtain rfl := Option.some.inj hac2
      refine ⟨inst.start + j - off ti.ws k, gs + j, a, ht, ?_, hv1, hv3, hac1, hac3, ?_⟩
      · congr 1
        omega
      · obtain ⟨l, x, hx, h1, h2⟩ := B.inwit _ hb gs hgs
        refine ⟨j, l, x, by omega, by omega, by rw [Nat.add_sub_cancel]; exact hfm, hx, by omega, by omega, ?_⟩
        intro e he
        obtain ⟨a', c', e1, e2, e3⟩ := B.same _ hb gs hgs _ hst (j - e) (by omega)
        refine ⟨a', c', by rw [Nat.add_sub_assoc he]; exact e1, ?_, e3⟩
        obtain ⟨c2, hc2⟩ : ∃ c2, w.tokens[inst.start + j - off ti.ws k - e]? = some c2 :=
          ⟨_, List.getElem?_eq_getElem (by omega)⟩
        have ha2 := L.arr_tok k _ w c2 hw hc2
        have e4 : off ti.ws k + (inst.start + j - off ti.ws k - e) = inst.start + (j - e) := by omega
        rw [e4, e2] at ha2
        rw [hc2, Option.some.inj ha2])
  refine ⟨m, ?_, h2, ?_⟩
  · unfold mkCube
    rw [L.range k w hw]
    simp only [bind_ok]
    exact h1
  · intro hpf i q t t' v ht hq hq2 hq3 hstr
    have hil := (List.getElem?_eq_some_iff.mp ht).1
    have ha := L.arr_tok k i w t hw ht
    obtain ⟨b, hb, hb1, hb2⟩ := B.complete (off ti.ws k + i) q t t' (by omega) ha hq2 hstr.symm
    have hinst : (⟨off ti.ws k + i, b⟩ : Inst) ∈ ti.instancesOf w.sigil :=
      (B.instances w.sigil _).mpr ⟨hb, hb1, t, ha, L.tok_sigil k i w t hw ht⟩
    have := h4 hpf _ hinst q hb2 hq 0 v (B.pos b hb) hq3
    unfold Cube.has
    convert this using 2
    congr 1
    simp only
    omega

end CollateX
