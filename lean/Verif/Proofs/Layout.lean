import Verif.Proofs.Index
import Verif.Model.EditGraph
/-
The token index in terms of the indexed witnesses, and what the aligner needs of the blocks.
-/

namespace CollateX

/-- Layout of the token array, in terms of the indexed witnesses. -/
structure Layout (ti : TokenIndex) : Prop where
  ne : ti.ws ≠ []
  toks_ne : ∀ w ∈ ti.ws, w.tokens ≠ []
  sig_nd : (ti.ws.map Witness.sigil).Nodup
  len : ti.arr.length + 1 = total ti.ws
  arr_tok : ∀ (k i : Nat) (w : Witness) (t : Token), ti.ws[k]? = some w → w.tokens[i]? = some t →
    ti.arr[off ti.ws k + i]? = some t
  tok_pos : ∀ (k i : Nat) (w : Witness) (t : Token), ti.ws[k]? = some w → w.tokens[i]? = some t →
    dget t.data .pos = some (.nat (off ti.ws k + i))
  tok_sigil : ∀ (k i : Nat) (w : Witness) (t : Token), ti.ws[k]? = some w → w.tokens[i]? = some t →
    dget t.data .sigil = some (.str w.sigil)
  range : ∀ (k : Nat) (w : Witness), ti.ws[k]? = some w →
    ti.rangeOf w.sigil = .ok (off ti.ws k, off ti.ws k + w.tokens.length)
  marker : ∀ (k : Nat) (w : Witness), ti.ws[k]? = some w → k + 1 < ti.ws.length →
    ti.arr[off ti.ws k + w.tokens.length]? = some (markerToken k w.sigil)

theorem off_indexed (pos : Nat) (ws : List Witness) (k : Nat) : off (indexed pos ws) k = off ws k := by
  induction ws generalizing pos k with
  | nil => rfl
  | cons w ws ih =>
    cases k with
    | zero => rfl
    | succ k => simp [indexed, off, ih]

theorem total_indexed (pos : Nat) (ws : List Witness) : total (indexed pos ws) = total ws := by
  induction ws generalizing pos with
  | nil => rfl
  | cons w ws ih => simp [indexed, total, ih]

theorem layout_of {ws : List Witness} (hi : Indexable ws) (hne : ws ≠ []) (nd : (ws.map Witness.sigil).Nodup)
    {ti : TokenIndex} (hws : ti.ws = indexed 0 ws) (hr : ti.ranges = rangesOf 0 ws [])
    (ha : ti.arr = (arrOf 0 0 ws).dropLast) : Layout ti := by
  have hget : ∀ (k : Nat) (w : Witness), ti.ws[k]? = some w →
      ∃ w0, ws[k]? = some w0 ∧ w = { w0 with tokens := indexTokens w0.sigil (off ws k) w0.tokens } := by
    intro k w hw
    rw [hws, indexed_getElem?] at hw
    obtain ⟨w0, h1, h2⟩ := Option.map_eq_some_iff.mp hw
    exact ⟨w0, h1, by rw [← h2]; simp⟩
  have hoff : ∀ k, off ti.ws k = off ws k := by intro k; rw [hws, off_indexed]
  have htok : ∀ (k i : Nat) (w : Witness) (t : Token), ti.ws[k]? = some w → w.tokens[i]? = some t →
      ∃ w0 t0, ws[k]? = some w0 ∧ w0.tokens[i]? = some t0 ∧ t = indexToken w0.sigil (off ws k + i) t0 ∧ w.sigil = w0.sigil := by
    intro k i w t hw ht
    obtain ⟨w0, h1, rfl⟩ := hget k w hw
    simp only [indexTokens_getElem?] at ht
    obtain ⟨t0, h2, h3⟩ := Option.map_eq_some_iff.mp ht
    exact ⟨w0, t0, h1, h2, h3.symm, rfl⟩
  constructor
  · rw [hws]
    intro h0
    have := congrArg List.length h0
    rw [indexed_length] at this
    exact hne (List.length_eq_zero_iff.mp (by simpa using this))
  · intro w hw h0
    obtain ⟨k, hk⟩ := List.getElem?_of_mem hw
    obtain ⟨w0, h1, rfl⟩ := hget k w hk
    have := congrArg List.length h0
    simp only [indexTokens_length] at this
    exact (hi w0 (List.mem_of_getElem? h1)).1 (List.length_eq_zero_iff.mp (by simpa using this))
  · rw [hws, indexed_sigils]; exact nd
  · rw [ha, hws, total_indexed, List.length_dropLast, arrOf_length]
    have : 0 < total ws := by
      cases ws with
      | nil => exact absurd rfl hne
      | cons w ws => simp [total]
    omega
  · intro k i w t hw ht
    obtain ⟨w0, t0, h1, h2, h3, _⟩ := htok k i w t hw ht
    have hil : i < w0.tokens.length := (List.getElem?_eq_some_iff.mp h2).1
    have := off_add_lt_total ws k w0 h1
    rw [hoff, ha, dropLast_getElem? _ _ (by rw [arrOf_length]; omega), arrOf_token 0 0 ws k w0 h1 i hil,
      indexTokens_getElem?, h2, h3]
    simp
  · intro k i w t hw ht
    obtain ⟨w0, t0, h1, h2, h3, _⟩ := htok k i w t hw ht
    rw [h3, hoff]
    simp only [indexToken, dget_dset_self]
  · intro k i w t hw ht
    obtain ⟨w0, t0, h1, h2, h3, h4⟩ := htok k i w t hw ht
    rw [h3, h4]
    simp only [indexToken]; rw [dget_dset_ne _ _ (by decide), dget_dset_self]
  · intro k w hw
    obtain ⟨w0, h1, rfl⟩ := hget k w hw
    have := (dget_rangesOf 0 ws [] nd w0.sigil).1 k w0 h1 rfl
    unfold TokenIndex.rangeOf
    rw [hr, this, hoff]
    simp
  · intro k w hw hk
    obtain ⟨w0, h1, rfl⟩ := hget k w hw
    have hk' : k + 1 < ws.length := by rw [hws, indexed_length] at hk; exact hk
    obtain ⟨x, hx⟩ : ∃ x, ws[k + 1]? = some x := ⟨ws[k + 1], List.getElem?_eq_getElem hk'⟩
    have h2 := off_add_lt_total ws (k + 1) x hx
    have h3 := off_lt ws k (k + 1) w0 h1 (by omega) (by omega)
    rw [hoff, ha]
    simp only [indexTokens_length]
    rw [dropLast_getElem? _ _ (by rw [arrOf_length]; omega), arrOf_marker 0 0 ws k w0 h1]
    simp

theorem layout_mkTokenIndex {ws : List Witness} (nd : (ws.map Witness.sigil).Nodup) {ti : TokenIndex}
    (h : mkTokenIndex ws = .ok ti) : Layout ti := by
  obtain ⟨h1, h2, h3, h4, h5⟩ := mkTokenIndex_prepare h
  exact layout_of h1 h2 nd h3 h4 h5

namespace Layout
variable {ti : TokenIndex}

theorem tokenPos (L : Layout ti) {k i : Nat} {w : Witness} {t : Token} (hw : ti.ws[k]? = some w)
    (ht : w.tokens[i]? = some t) : tokenPos t = .ok (off ti.ws k + i) := by
  unfold CollateX.tokenPos
  rw [L.tok_pos k i w t hw ht]

/-- The same token in two places: the same place. -/
theorem tok_inj (L : Layout ti) {k i l j : Nat} {w x : Witness} {t : Token} (hw : ti.ws[k]? = some w)
    (ht : w.tokens[i]? = some t) (hx : ti.ws[l]? = some x) (ht' : x.tokens[j]? = some t) : k = l ∧ i = j := by
  have h1 := L.tok_pos k i w t hw ht
  have h2 := L.tok_pos l j x t hx ht'
  rw [h1] at h2
  have h3 : off ti.ws k + i = off ti.ws l + j := by
    have := Option.some.inj h2
    injection this
  have hi := (List.getElem?_eq_some_iff.mp ht).1
  have hj := (List.getElem?_eq_some_iff.mp ht').1
  have hkl := decode_unique ti.ws (off ti.ws k + i) k l w x hw hx (by omega) (by omega) (by omega) (by omega)
  subst hkl
  exact ⟨rfl, by omega⟩

theorem tokens_nodup (L : Layout ti) {k : Nat} {w : Witness} (hw : ti.ws[k]? = some w) : w.tokens.Nodup := by
  rw [List.nodup_iff_getElem?_ne_getElem?]
  intro i j hij hj heq
  have h1 : w.tokens[i]? = some (w.tokens[i]'(by omega)) := List.getElem?_eq_getElem _
  have h2 : w.tokens[j]? = some (w.tokens[i]'(by omega)) := by rw [← heq, h1]
  have := (L.tok_inj hw h1 hw h2).2
  omega

theorem filtered (L : Layout ti) {k i : Nat} {w : Witness} {t : Token} (hw : ti.ws[k]? = some w)
    (ht : w.tokens[i]? = some t) : ∃ d, filteredData t = .ok d := by
  refine ⟨ddel (ddel t.data .sigil) .pos, ?_⟩
  unfold filteredData
  rw [if_pos]
  simp [dmem, L.tok_pos k i w t hw ht, L.tok_sigil k i w t hw ht]

end Layout

/-- The start positions of the occurrences of a block. -/
def Block.occs (SA : List Nat) (b : Block) : List Nat := (SA.drop b.start).take (b.stop + 1 - b.start)

/-- What the aligner needs to know about the blocks of a token index (proved from the suffix array in `Blocks.lean`). -/
structure BlocksOK (ti : TokenIndex) : Prop where
  insts : ∀ b ∈ ti.blocks, b.instances ti.SA = .ok (b.occs ti.SA)
  same : ∀ b ∈ ti.blocks, ∀ p ∈ b.occs ti.SA, ∀ q ∈ b.occs ti.SA, ∀ i < b.length, ∃ t t',
    ti.arr[p + i]? = some t ∧ ti.arr[q + i]? = some t' ∧ t.str = t'.str
  inwit : ∀ b ∈ ti.blocks, ∀ p ∈ b.occs ti.SA, ∃ (k : Nat) (w : Witness), ti.ws[k]? = some w ∧
    off ti.ws k ≤ p ∧ p + b.length ≤ off ti.ws k + w.tokens.length
  pos : ∀ b ∈ ti.blocks, 0 < b.length
  complete : ∀ (p q : Nat) (t t' : Token), p ≠ q → ti.arr[p]? = some t → ti.arr[q]? = some t' → t.str = t'.str →
    ∃ b ∈ ti.blocks, p ∈ b.occs ti.SA ∧ q ∈ b.occs ti.SA
  instances : ∀ (σ : Str) (i : Inst), i ∈ ti.instancesOf σ ↔
    i.block ∈ ti.blocks ∧ i.start ∈ i.block.occs ti.SA ∧
      ∃ t, ti.arr[i.start]? = some t ∧ dget t.data .sigil = some (.str σ)

end CollateX
