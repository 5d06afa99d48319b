import Verif.Proofs.Frequency
import Verif.Props.SuffixArray
import Verif.Props.Nested
/-
Property C67: the frequency and the depth of a block.
-/

namespace CollateX
open Spec

/-- There are exactly `n` things with the property `P`. -/
def Spec.Count {α : Type} (P : α → Prop) (n : Nat) : Prop := ∃ l : List α, l.Nodup ∧ (∀ a, a ∈ l ↔ P a) ∧ l.length = n

/-- The witness with siglum `σ` contains the strings `s`. -/
def Spec.ContainedIn (ws : List Witness) (s : List Str) (σ : Str) : Prop := ∃ w ∈ ws, w.sigil = σ ∧ s <:+: strings w

section
variable {ws : List Witness} {ti : TokenIndex}

/-- The occurrences of a text, and the witnesses they stand in. -/
theorem containedIn_iff (L : Layout ti) (hw : ti.ws = indexed 0 ws) {s : List Str} (hs : s ≠ []) (σ : Str) :
    ContainedIn ws s σ ↔ ∃ p, OccursAt ws p s ∧ ∃ t, ti.arr[p]? = some t ∧ dget t.data .sigil = some (.str σ) := by
  have hpos : 0 < s.length := List.length_pos_iff.mpr hs
  have htok : ∀ (k i : Nat) (w0 : Witness), ws[k]? = some w0 → i < w0.tokens.length →
      ∃ t, ti.arr[startOf ws k + i]? = some t ∧ dget t.data .sigil = some (.str w0.sigil) := by
    intro k i w0 h1 h2
    obtain ⟨w, g1, g2, g3⟩ := at_indexed hw h1
    have hl := congrArg List.length g2
    simp only [List.length_map] at hl
    have hsig : w.sigil = w0.sigil := by
      rw [hw] at g1
      obtain ⟨w1, e1, e2, _⟩ := indexed_strs ws g1
      rw [h1] at e1
      obtain rfl := Option.some.inj e1
      exact e2
    have ht : w.tokens[i]? = some (w.tokens[i]'(by omega)) := List.getElem?_eq_getElem _
    refine ⟨w.tokens[i]'(by omega), ?_, ?_⟩
    · rw [← g3]; exact L.arr_tok k i w _ g1 ht
    · rw [← hsig]; exact L.tok_sigil k i w _ g1 ht
  constructor
  · rintro ⟨w0, hw0, rfl, a, b, hab⟩
    obtain ⟨k, hk⟩ := List.getElem?_of_mem hw0
    have hl := congrArg List.length hab
    simp only [strings, List.length_append, List.length_map] at hl
    refine ⟨startOf ws k + a.length, ⟨k, a.length, w0, hk, rfl, by omega, ?_⟩, htok k a.length w0 hk (by omega)⟩
    rw [show w0.tokens.map Token.str = a ++ s ++ b from hab.symm, List.append_assoc, List.drop_left]
    exact ⟨b, rfl⟩
  · rintro ⟨p, ⟨k, i, w0, h1, rfl, h3, h4⟩, t, h5, h6⟩
    obtain ⟨t', g1, g2⟩ := htok k i w0 h1 h3
    rw [h5] at g1
    obtain rfl := Option.some.inj g1
    rw [h6] at g2
    simp only [Option.some.injEq, JVal.str.injEq] at g2
    exact ⟨w0, List.mem_of_getElem? h1, g2.symm, h4.isInfix.trans (List.drop_suffix _ _).isInfix⟩

/-- The blocks of an index are those of its LCP array. -/
theorem mkTokenIndex_blocks (h : mkTokenIndex ws = .ok ti) : splitLcp ti.LCP = .ok ti.blocks := by
  unfold mkTokenIndex at h
  obtain ⟨p, _, h⟩ := bind_eq_ok.mp h
  obtain ⟨bs, h2, h⟩ := bind_eq_ok.mp h
  obtain ⟨d, _, h⟩ := bind_eq_ok.mp h
  obtain rfl := Except.ok.inj h
  exact h2

/-- The methods of a closed block. -/
theorem block_methods (L : Layout ti) (F : BlockFacts (ti.arr.map Token.str) ti.SA ti.blocks)
    (h5 : ∀ b ∈ ti.blocks, b.instances ti.SA = .ok (b.occs ti.SA)) {b : Block} (hb : b ∈ ti.blocks) :
    (b.occs ti.SA).Nodup ∧ b.frequency = .ok (b.occs ti.SA).length ∧ ∃ ss : List Str, ss.Nodup ∧
      b.depth ti.arr ti.SA = .ok ss.length ∧
      ∀ σ, σ ∈ ss ↔ ∃ p ∈ b.occs ti.SA, ∃ t, ti.arr[p]? = some t ∧ dget t.data .sigil = some (.str σ) := by
  obtain ⟨b1, b2, b3⟩ := F.bounds b hb
  obtain ⟨ss, s1, s2, s3⟩ := sigilSet_ok ti.arr (b.occs ti.SA) [] (by simp) (by
    intro p hp
    have := F.inside b hb p hp
    rw [List.length_map] at this
    exact L.sigil_at (by omega))
  refine ⟨?_, ?_, ss, s2, ?_, by simpa using s3⟩
  · unfold Block.occs
    have hnd : ti.SA.Nodup := by
      rw [List.nodup_iff_pairwise_ne, List.pairwise_iff_getElem]
      intro i j hi hj hij he
      have := F.inj i j ti.SA[i] (List.getElem?_eq_getElem hi) (by rw [he]; exact List.getElem?_eq_getElem hj)
      omega
    exact (hnd.sublist (List.drop_sublist _ _)).sublist (List.take_sublist _ _)
  · unfold Block.frequency Block.occs
    rw [if_neg (by omega), List.length_take, List.length_drop]
    congr 1
    omega
  · unfold Block.depth
    rw [if_neg (by omega), h5 b hb, bind_ok, s1, bind_ok]

end

/-- C67, partial. The frequency of a block is the number of its instances and its depth the number of witnesses these stand in;
each instance is an occurrence of the text of the block, and its tokens are this text, so neither is larger than the number of occurrences of this text, and of the witnesses
that contain it; and there is a block with the same text for which they are equal. Missing: that they are equal for every block, which is
false (`C67_not_all_occurrences`). -/
theorem C67_counts_partial (ws : List Witness) (hv : Valid ws) :
    ∃ ti, mkTokenIndex ws = .ok ti ∧ ∀ b ∈ ti.blocks, ∃ (s : List Str) (ps : List Nat) (n d N D : Nat),
      s.length = b.length ∧ b.instances ti.SA = .ok ps ∧ (∀ p ∈ ps, OccursAt ws p s ∧ (Inst.tokens ti.arr ⟨p, b⟩).map Token.str = s) ∧
      b.frequency = .ok n ∧ Count (· ∈ ps) n ∧ n ≤ N ∧ Count (OccursAt ws · s) N ∧
      b.depth ti.arr ti.SA = .ok d ∧ d ≤ D ∧ Count (ContainedIn ws s) D ∧
      ∃ b' ∈ ti.blocks, b'.length = b.length ∧ (∃ ps', b'.instances ti.SA = .ok ps' ∧ ∀ p, p ∈ ps' ↔ OccursAt ws p s) ∧
        b'.frequency = .ok N ∧ b'.depth ti.arr ti.SA = .ok D := by
  obtain ⟨ti, h1, h2, L, hSA, hbl, F, h5, h6⟩ := mkTokenIndex_ok hv.tokens hv.ne hv.sigla
  have B := blocksOK_of L F h5 h6 (by rw [h2]; exact noCollision_indexed hv.noCollision)
  refine ⟨ti, h1, fun b hb => ?_⟩
  obtain ⟨b', hb', e1, e2, e3⟩ := allOccs (ti.arr.map Token.str) (by rw [← hbl]; exact mkTokenIndex_blocks h1) b hb
  rw [← hSA] at e2 e3
  obtain ⟨b1, b2, b3⟩ := F.bounds b hb
  have hfirst : rd ti.SA b.start ∈ b.occs ti.SA := mem_occs.mpr ⟨b.start, by omega, by omega, SAFacts.rd_eq' (by omega)⟩
  set p0 := rd ti.SA b.start with hp0
  have hin := F.inside b hb p0 hfirst
  set s := ((ti.arr.map Token.str).drop p0).take b.length with hs
  have hslen : s.length = b.length := by
    rw [hs, List.length_take, List.length_drop]; omega
  have hsne : s ≠ [] := by intro h0; rw [h0] at hslen; simp at hslen; omega
  have hsi : ∀ i < b.length, (ti.arr.map Token.str)[p0 + i]? = s[i]? := by
    intro i hi
    rw [hs, List.getElem?_take_of_lt hi, List.getElem?_drop]
  have hocc : ∀ p, p ∈ b'.occs ti.SA ↔ OccursAt ws p s := by
    intro p
    rw [occursAt_iff L h2 hsne]
    constructor
    · intro hp
      obtain ⟨k, w, g1, g2, g3⟩ := B.inwit b' hb' p hp
      refine ⟨k, w, g1, g2, by rw [hslen, ← e1]; exact g3, ?_⟩
      intro i hi
      rw [hslen] at hi
      rw [← hsi i hi]
      exact F.same b' hb' p hp p0 (e2 p0 hfirst) i (by omega)
    · rintro ⟨k, w, g1, g2, g3, g4⟩
      have h3 := off_add_lt_total ti.ws k w g1
      have h4 := L.len
      refine e3 p0 hfirst p (by rw [List.length_map]; omega) (fun i hi => ?_)
      rw [hsi i hi, g4 i (by omega)]
  have htoks : ∀ p ∈ b.occs ti.SA, (Inst.tokens ti.arr ⟨p, b⟩).map Token.str = s := by
    intro p hp
    have hpin := F.inside b hb p hp
    refine List.ext_getElem? (fun i => ?_)
    rw [Inst.tokens, List.map_take, List.map_drop]
    show (((ti.arr.map Token.str).drop p).take b.length)[i]? = s[i]?
    by_cases hi : i < b.length
    · rw [List.getElem?_take_of_lt hi, List.getElem?_drop, ← hsi i hi]
      exact F.same b hb p hp p0 hfirst i hi
    · rw [List.getElem?_eq_none (by rw [List.length_take]; omega), List.getElem?_eq_none (by omega)]
  obtain ⟨m1, m2, ss, m3, m4, m5⟩ := block_methods L F h5 hb
  obtain ⟨m1', m2', ss', m3', m4', m5'⟩ := block_methods L F h5 hb'
  refine ⟨s, b.occs ti.SA, _, _, _, _, hslen, h5 b hb, fun p hp => ⟨(hocc p).mp (e2 p hp), htoks p hp⟩, m2,
    ⟨_, m1, fun _ => Iff.rfl, rfl⟩, nodup_length_le m1 (fun p hp => e2 p hp), ⟨_, m1', hocc, rfl⟩, m4,
    nodup_length_le m3 (m := ss') ?_, ⟨ss', m3', ?_, rfl⟩, b', hb', e1, ⟨_, h5 b' hb', hocc⟩, m2', m4'⟩
  · intro σ hσ
    obtain ⟨p, hp, ht⟩ := (m5 σ).mp hσ
    exact (m5' σ).mpr ⟨p, e2 p hp, ht⟩
  · intro σ
    rw [m5', containedIn_iff L h2 hsne]
    simp only [hocc]

/-- The method that lists the ranges of the occurrences leaves out the last one, whatever the block. -/
theorem C67_ranges_miss_last (ws : List Witness) (hv : Valid ws) :
    ∃ ti, mkTokenIndex ws = .ok ti ∧ ∀ b ∈ ti.blocks, ∃ ps, b.instances ti.SA = .ok ps ∧ ps ≠ [] ∧
      b.occurrenceRanges ti.SA = .ok (ps.dropLast.map (fun p => (p, p + b.length))) := by
  obtain ⟨ti, h1, h2, L, hSA, hbl, F, h5, h6⟩ := mkTokenIndex_ok hv.tokens hv.ne hv.sigla
  refine ⟨ti, h1, fun b hb => ?_⟩
  obtain ⟨b1, b2, b3⟩ := F.bounds b hb
  refine ⟨b.occs ti.SA, h5 b hb, ?_, ?_⟩
  · intro h0
    have := congrArg List.length h0
    unfold Block.occs at this
    rw [List.length_take, List.length_drop, List.length_nil] at this
    omega
  · unfold Block.occurrenceRanges
    rw [instancesFrom_ok _ _ _ (by omega), bind_ok]
    congr 2
    unfold Block.occs
    rw [List.dropLast_eq_take, List.length_take, List.length_drop, List.take_take]
    congr 1
    omega

/-- Four witnesses with the same first token. -/
def prefixWitnesses : List Witness :=
  [wordsWitness "A" ["a"], wordsWitness "B" ["a", "b"], wordsWitness "C" ["a", "b", "c"], wordsWitness "D" ["a", "d"]]

/-- C67, negation: of the two blocks with the text "a", one counts three of its four occurrences, in three of the four
witnesses that contain it. -/
theorem C67_not_all_occurrences : Valid prefixWitnesses ∧
    (∃ ps : List Nat, ps.Nodup ∧ ps.length = 4 ∧ ∀ p ∈ ps, OccursAt prefixWitnesses p [S "a"]) ∧
    prefixWitnesses.length = 4 ∧ (∀ w ∈ prefixWitnesses, ContainedIn prefixWitnesses [S "a"] w.sigil) ∧
    ∃ ti, mkTokenIndex prefixWitnesses = .ok ti ∧ ∃ b ∈ ti.blocks,
      (b.instances ti.SA).map (fun ps => ps.map (fun p => (Inst.tokens ti.arr ⟨p, b⟩).map Token.str)) =
        .ok [[S "a"], [S "a"], [S "a"]] ∧
      b.frequency = .ok 3 ∧ b.depth ti.arr ti.SA = .ok 3 := by
  refine ⟨valid_of_check (by decide) (by decide) (by decide) (by decide), ⟨[0, 2, 5, 9], by decide, rfl, ?_⟩, rfl, ?_, ?_⟩
  · intro p hp
    simp only [List.mem_cons, List.not_mem_nil, or_false] at hp
    rcases hp with rfl | rfl | rfl | rfl
    · exact ⟨0, 0, _, rfl, by decide, by decide, ⟨_, rfl⟩⟩
    · exact ⟨1, 0, _, rfl, by decide, by decide, ⟨_, rfl⟩⟩
    · exact ⟨2, 0, _, rfl, by decide, by decide, ⟨_, rfl⟩⟩
    · exact ⟨3, 0, _, rfl, by decide, by decide, ⟨_, rfl⟩⟩
  · intro w hw
    refine ⟨w, hw, rfl, [], ?_⟩
    simp only [prefixWitnesses, List.mem_cons, List.not_mem_nil, or_false] at hw
    rcases hw with rfl | rfl | rfl | rfl
    · exact ⟨_, rfl⟩
    · exact ⟨_, rfl⟩
    · exact ⟨_, rfl⟩
    · exact ⟨_, rfl⟩
  · have h : (mkTokenIndex prefixWitnesses).map (fun ti => ti.blocks.any (fun b => decide (
        (b.instances ti.SA).map (fun ps => ps.map (fun p => (Inst.tokens ti.arr ⟨p, b⟩).map Token.str)) =
        .ok [[S "a"], [S "a"], [S "a"]] ∧ b.frequency = .ok 3 ∧ b.depth ti.arr ti.SA = .ok 3))) = .ok true := by decide +kernel
    cases hti : mkTokenIndex prefixWitnesses with
    | error e => rw [hti] at h; cases h
    | ok ti =>
      rw [hti] at h
      obtain ⟨b, hb, h2⟩ := List.any_eq_true.mp (Except.ok.inj h)
      exact ⟨ti, rfl, b, hb, of_decide_eq_true h2⟩

/-! ### Examples -/

/-- The hypothesis of C67 is met; the index has a block of two tokens and one with all occurrences of "a". -/
example : Valid prefixWitnesses ∧
    (mkTokenIndex prefixWitnesses).map (fun ti => ti.blocks.map (fun b => (b.length, b.frequency.toOption))) =
      .ok [(2, some 2), (1, some 3), (1, some 4), (1, some 2)] ∧
    (mkTokenIndex prefixWitnesses).map (fun ti => ti.blocks.map (fun b => (b.depth ti.arr ti.SA).toOption)) =
      .ok [some 2, some 3, some 4, some 2] ∧
    (mkTokenIndex prefixWitnesses).map (fun ti => ti.blocks.map (fun b => (b.occurrenceRanges ti.SA).toOption)) =
      .ok [some [(2, 4)], some [(2, 3), (5, 6)], some [(0, 1), (2, 3), (5, 6)], some [(3, 4)]] :=
  ⟨valid_of_check (by decide) (by decide) (by decide) (by decide), by decide +kernel, by decide +kernel, by decide +kernel⟩

end CollateX
