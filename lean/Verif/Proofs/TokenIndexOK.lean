import Verif.Proofs.Blocks
/-
Building the token index succeeds, and its blocks are what the aligner needs.
-/

namespace CollateX

/-- No token string looks like a separator. -/
def NoCollision (ws : List Witness) : Prop :=
  ∀ w ∈ ws, ∀ t ∈ w.tokens, ∀ i, i + 1 < ws.length → t.str ≠ markerStr i

/-- Every position of the token array is a token of a witness or a separator. -/
theorem Layout.position {ti : TokenIndex} (L : Layout ti) {p : Nat} (hp : p < ti.arr.length) :
    ∃ (k : Nat) (w : Witness), ti.ws[k]? = some w ∧ off ti.ws k ≤ p ∧
      ((∃ t, p < off ti.ws k + w.tokens.length ∧ w.tokens[p - off ti.ws k]? = some t ∧ ti.arr[p]? = some t) ∨
       (p = off ti.ws k + w.tokens.length ∧ k + 1 < ti.ws.length ∧ ti.arr[p]? = some (markerToken k w.sigil))) := by
  have hl := L.len
  obtain ⟨k, w, h1, h2, h3⟩ := decode ti.ws p (by omega)
  refine ⟨k, w, h1, h2, ?_⟩
  by_cases h : p < off ti.ws k + w.tokens.length
  · left
    have ht : w.tokens[p - off ti.ws k]? = some (w.tokens[p - off ti.ws k]'(by omega)) := List.getElem?_eq_getElem _
    have := L.arr_tok k (p - off ti.ws k) w _ h1 ht
    rw [show off ti.ws k + (p - off ti.ws k) = p by omega] at this
    exact ⟨_, h, ht, this⟩
  · right
    have hpe : p = off ti.ws k + w.tokens.length := by omega
    have hk : k < ti.ws.length := (List.getElem?_eq_some_iff.mp h1).1
    have hk1 : k + 1 < ti.ws.length := by
      by_contra hc
      have hke : k + 1 = ti.ws.length := by omega
      have h4 := off_lt ti.ws k (k + 1) w h1 (by omega) (by omega)
      rw [hke, off_length] at h4
      have h5 := off_add_lt_total ti.ws k w h1
      -- the last witness ends the array
      have h6 : off ti.ws (k + 1) = off ti.ws k + w.tokens.length + 1 := by
        clear hc hke h4 h5 hl L h2 h3 h hpe hp hk
        revert h1
        generalize ti.ws = ws
        intro h1
        induction ws generalizing k with
        | nil => simp at h1
        | cons x ws ih =>
          cases k with
          | zero => simp at h1; subst h1; simp [off]
          | succ k =>
            have := ih k (by simpa using h1)
            simp only [off] at this ⊢
            omega
      rw [hke, off_length] at h6
      omega
    have hm := L.marker k w h1 hk1
    rw [← hpe] at hm
    exact ⟨hpe, hk1, hm⟩

theorem Layout.sigil_at {ti : TokenIndex} (L : Layout ti) {p : Nat} (hp : p < ti.arr.length) :
    ∃ t σ, ti.arr[p]? = some t ∧ dget t.data .sigil = some (.str σ) := by
  obtain ⟨k, w, h1, _, ⟨t, _, h3, h4⟩ | ⟨_, _, h4⟩⟩ := L.position hp
  · exact ⟨t, _, h4, L.tok_sigil k _ w t h1 h3⟩
  · exact ⟨_, w.sigil, h4, rfl⟩

/-! ### The map from witnesses to instances -/

theorem mapInstances_ok (arr : List Token) (b : Block) (ps : List Nat) : ∀ d : Dict Str (List Inst),
    (∀ p ∈ ps, ∃ t σ, arr[p]? = some t ∧ dget t.data .sigil = some (.str σ)) →
    ∃ d', mapInstances arr b ps d = .ok d' ∧ ∀ σ i, i ∈ (dget d' σ).getD [] ↔ i ∈ (dget d σ).getD [] ∨
      (i.block = b ∧ i.start ∈ ps ∧ ∃ t, arr[i.start]? = some t ∧ dget t.data .sigil = some (.str σ)) := by
  induction ps with
  | nil => intro d _; exact ⟨d, rfl, by simp⟩
  | cons p ps ih =>
    intro d h
    obtain ⟨t, σ, h1, h2⟩ := h p (by simp)
    obtain ⟨d', h3, h4⟩ := ih (setdefaultAppend d σ ⟨p, b⟩) (fun q hq => h q (by simp [hq]))
    have hs : instSigil arr p = .ok σ := by
      unfold instSigil
      rw [lgetE_eq_ok.mpr h1, bind_ok, h2]
    refine ⟨d', by rw [mapInstances, hs, bind_ok, h3], ?_⟩
    intro τ i
    rw [h4 τ i, dget_setdefaultAppend]
    by_cases he : σ = τ
    · subst he
      rw [if_pos rfl]
      simp only [Option.getD_some, List.mem_append, List.mem_cons, List.not_mem_nil, or_false]
      constructor
      · rintro ((h5 | rfl) | ⟨h5, h6, h7⟩)
        · exact Or.inl h5
        · exact Or.inr ⟨rfl, Or.inl rfl, t, h1, h2⟩
        · exact Or.inr ⟨h5, Or.inr h6, h7⟩
      · rintro (h5 | ⟨h5, h6 | h6, h7⟩)
        · exact Or.inl (Or.inl h5)
        · left; right
          obtain ⟨st, bl⟩ := i
          simp only at h5 h6
          rw [h5, h6]
        · exact Or.inr ⟨h5, h6, h7⟩
    · rw [if_neg he]
      simp only [List.mem_cons]
      constructor
      · rintro (h5 | ⟨h5, h6, h7⟩)
        · exact Or.inl h5
        · exact Or.inr ⟨h5, Or.inr h6, h7⟩
      · rintro (h5 | ⟨h5, h6 | h6, t', h7, h8⟩)
        · exact Or.inl h5
        · rw [h6, h1] at h7
          obtain rfl := Option.some.inj h7
          rw [h2] at h8
          injection h8 with h8
          injection h8 with h8
          exact absurd h8 he
        · exact Or.inr ⟨h5, h6, t', h7, h8⟩

theorem mapBlocks_ok (arr : List Token) (SA : List Nat) (bs : List Block) : ∀ d : Dict Str (List Inst),
    (∀ b ∈ bs, b.instances SA = .ok (b.occs SA)) →
    (∀ b ∈ bs, ∀ p ∈ b.occs SA, ∃ t σ, arr[p]? = some t ∧ dget t.data .sigil = some (.str σ)) →
    ∃ d', mapBlocks arr SA bs d = .ok d' ∧ ∀ σ i, i ∈ (dget d' σ).getD [] ↔ i ∈ (dget d σ).getD [] ∨
      (i.block ∈ bs ∧ i.start ∈ i.block.occs SA ∧ ∃ t, arr[i.start]? = some t ∧ dget t.data .sigil = some (.str σ)) := by
  induction bs with
  | nil => intro d _ _; exact ⟨d, rfl, by simp⟩
  | cons b bs ih =>
    intro d h1 h2
    obtain ⟨d1, h3, h4⟩ := mapInstances_ok arr b (b.occs SA) d (h2 b (by simp))
    obtain ⟨d2, h5, h6⟩ := ih d1 (fun c hc => h1 c (by simp [hc])) (fun c hc => h2 c (by simp [hc]))
    refine ⟨d2, by rw [mapBlocks, h1 b (by simp), bind_ok, h3, bind_ok, h5], ?_⟩
    intro σ i
    rw [h6 σ i, h4 σ i]
    simp only [List.mem_cons]
    constructor
    · rintro ((h | ⟨h7, h8, h9⟩) | ⟨h7, h8, h9⟩)
      · exact Or.inl h
      · exact Or.inr ⟨Or.inl h7, by rw [h7]; exact h8, h9⟩
      · exact Or.inr ⟨Or.inr h7, h8, h9⟩
    · rintro (h | ⟨h7 | h7, h8, h9⟩)
      · exact Or.inl (Or.inl h)
      · exact Or.inl (Or.inr ⟨h7, by rw [h7] at h8; exact h8, h9⟩)
      · exact Or.inr ⟨h7, h8, h9⟩

/-! ### The token index -/

theorem indexed_strs (ws : List Witness) {k : Nat} {w : Witness} (hw : (indexed 0 ws)[k]? = some w) :
    ∃ w0, ws[k]? = some w0 ∧ w.sigil = w0.sigil ∧ w.tokens.map Token.str = w0.tokens.map Token.str := by
  rw [indexed_getElem?] at hw
  obtain ⟨w0, h1, h2⟩ := Option.map_eq_some_iff.mp hw
  refine ⟨w0, h1, by rw [← h2], ?_⟩
  rw [← h2]
  apply List.ext_getElem?
  intro i
  simp only [List.getElem?_map, indexTokens_getElem?]
  cases w0.tokens[i]? <;> rfl

theorem noCollision_indexed {ws : List Witness} (h : NoCollision ws) : NoCollision (indexed 0 ws) := by
  intro w hw t ht i hi
  obtain ⟨k, hk⟩ := List.getElem?_of_mem hw
  obtain ⟨w0, h1, _, h2⟩ := indexed_strs ws hk
  rw [indexed_length] at hi
  have : t.str ∈ w0.tokens.map Token.str := by rw [← h2]; exact List.mem_map.mpr ⟨t, ht, rfl⟩
  obtain ⟨t0, ht0, h3⟩ := List.mem_map.mp this
  rw [← h3]
  exact h w0 (List.mem_of_getElem? h1) t0 ht0 i hi

/-- Facts about the index that need no assumption on the token strings. -/
theorem mkTokenIndex_ok {ws : List Witness} (hi : Indexable ws) (hne : ws ≠ []) (nd : (ws.map Witness.sigil).Nodup) :
    ∃ ti, mkTokenIndex ws = .ok ti ∧ ti.ws = indexed 0 ws ∧ Layout ti ∧ ti.SA = (mkSuffixArray (ti.arr.map Token.str)).SA ∧
      ti.LCP = (mkSuffixArray (ti.arr.map Token.str)).LCP ∧
      BlockFacts (ti.arr.map Token.str) ti.SA ti.blocks ∧
      (∀ b ∈ ti.blocks, b.instances ti.SA = .ok (b.occs ti.SA)) ∧
      (∀ (σ : Str) (i : Inst), i ∈ ti.instancesOf σ ↔ i.block ∈ ti.blocks ∧ i.start ∈ i.block.occs ti.SA ∧
        ∃ t, ti.arr[i.start]? = some t ∧ dget t.data .sigil = some (.str σ)) := by
  have hp := prepare_ok ws hi hne
  set arr := (arrOf 0 0 ws).dropLast with harr
  let ti0 : TokenIndex := ⟨indexed 0 ws, rangesOf 0 ws [], arr, [], [], [], []⟩
  have L0 : Layout ti0 := layout_of hi hne nd rfl rfl rfl
  have hane : arr.map Token.str ≠ [] := by
    intro h0
    have h1 := congrArg List.length h0
    simp only [List.length_map, List.length_nil] at h1
    obtain ⟨w, rest, hw⟩ := List.exists_cons_of_ne_nil L0.ne
    have h2 := L0.toks_ne w (by rw [hw]; simp)
    obtain ⟨t, ts, ht⟩ := List.exists_cons_of_ne_nil h2
    have := L0.arr_tok 0 0 w t (by rw [hw]; rfl) (by rw [ht]; rfl)
    have := (List.getElem?_eq_some_iff.mp this).1
    have e : ti0.arr.length = arr.length := rfl
    omega
  obtain ⟨bs, hb1, hb2⟩ := blockFacts (arr.map Token.str) hane
  have hinst : ∀ b ∈ bs, b.instances (mkSuffixArray (arr.map Token.str)).SA = .ok (b.occs (mkSuffixArray (arr.map Token.str)).SA) := by
    intro b hb
    have := hb2.bounds b hb
    exact instancesFrom_ok _ _ _ (by omega)
  obtain ⟨d, hd1, hd2⟩ := mapBlocks_ok arr (mkSuffixArray (arr.map Token.str)).SA bs [] hinst (by
    intro b hb p hp
    have h1 := hb2.inside b hb p hp
    have h2 := hb2.bounds b hb
    simp only [List.length_map] at h1
    exact L0.sigil_at (p := p) (by have e : ti0.arr.length = arr.length := rfl; omega))
  refine ⟨⟨indexed 0 ws, rangesOf 0 ws [], arr, (mkSuffixArray (arr.map Token.str)).SA, (mkSuffixArray (arr.map Token.str)).LCP, bs, d⟩,
    ?_, rfl, ?_, rfl, rfl, hb2, hinst, ?_⟩
  · unfold mkTokenIndex
    rw [hp]
    simp only [bind_ok, hb1, hd1]
  · exact layout_of hi hne nd rfl rfl rfl
  · intro σ i
    unfold TokenIndex.instancesOf
    rw [hd2 σ i]
    simp

theorem blocksOK_of {ti : TokenIndex} (L : Layout ti) (F : BlockFacts (ti.arr.map Token.str) ti.SA ti.blocks)
    (h1 : ∀ b ∈ ti.blocks, b.instances ti.SA = .ok (b.occs ti.SA))
    (h2 : ∀ (σ : Str) (i : Inst), i ∈ ti.instancesOf σ ↔ i.block ∈ ti.blocks ∧ i.start ∈ i.block.occs ti.SA ∧
        ∃ t, ti.arr[i.start]? = some t ∧ dget t.data .sigil = some (.str σ))
    (hc : NoCollision ti.ws) : BlocksOK ti := by
  have hsame : ∀ b ∈ ti.blocks, ∀ p ∈ b.occs ti.SA, ∀ q ∈ b.occs ti.SA, ∀ i < b.length, ∃ t t',
      ti.arr[p + i]? = some t ∧ ti.arr[q + i]? = some t' ∧ t.str = t'.str := by
    intro b hb p hp q hq i hi
    have hp' := F.inside b hb p hp
    have hq' := F.inside b hb q hq
    simp only [List.length_map] at hp' hq'
    have := F.same b hb p hp q hq i hi
    rw [List.getElem?_map, List.getElem?_map, List.getElem?_eq_getElem (show p + i < ti.arr.length by omega),
      List.getElem?_eq_getElem (show q + i < ti.arr.length by omega)] at this
    exact ⟨_, _, List.getElem?_eq_getElem _, List.getElem?_eq_getElem _, Option.some.inj this⟩
  -- no separator inside a block
  have hmark : ∀ b ∈ ti.blocks, ∀ p ∈ b.occs ti.SA, ∀ i < b.length, ∀ (k : Nat) (w : Witness), ti.ws[k]? = some w →
      k + 1 < ti.ws.length → p + i = off ti.ws k + w.tokens.length → False := by
    intro b hb p hp i hi k w hw hk hpi
    have hbb := F.bounds b hb
    -- another occurrence
    obtain ⟨a, a1, a2, a3⟩ := mem_occs.mp hp
    obtain ⟨j, j1, j2, j3⟩ : ∃ j, b.start ≤ j ∧ j ≤ b.stop ∧ j ≠ a := by
      by_cases h : a = b.start
      · exact ⟨b.stop, by omega, by omega, by omega⟩
      · exact ⟨b.start, by omega, by omega, by omega⟩
    obtain ⟨q, hj⟩ : ∃ q, ti.SA[j]? = some q := ⟨_, List.getElem?_eq_getElem (by omega)⟩
    have hq : q ∈ b.occs ti.SA := mem_occs.mpr ⟨j, j1, j2, hj⟩
    have hpq : p ≠ q := by
      rintro rfl
      exact j3 (F.inj j a _ hj a3)
    obtain ⟨t, t', ht, ht', hstr⟩ := hsame b hb p hp q hq i hi
    rw [hpi, L.marker k w hw hk] at ht
    obtain rfl := Option.some.inj ht
    have hql := (List.getElem?_eq_some_iff.mp ht').1
    obtain ⟨l, x, h3, h4, ⟨u, h5, h6, h7⟩ | ⟨h5, h6, h7⟩⟩ := L.position hql
    · rw [ht'] at h7
      obtain rfl := Option.some.inj h7
      exact hc x (List.mem_of_getElem? h3) t' (List.mem_of_getElem? h6) k hk hstr.symm
    · rw [ht'] at h7
      obtain rfl := Option.some.inj h7
      have := markerStr_inj hstr
      subst this
      rw [hw] at h3
      obtain rfl := Option.some.inj h3
      omega
  constructor
  · exact h1
  · exact hsame
  · intro b hb p hp
    have hbb := F.bounds b hb
    have hin := F.inside b hb p hp
    simp only [List.length_map] at hin
    obtain ⟨k, w, h3, h4, ⟨u, h5, h6, h7⟩ | ⟨h5, h6, h7⟩⟩ := L.position (p := p) (by omega)
    · refine ⟨k, w, h3, h4, ?_⟩
      by_contra hcon
      have hend : off ti.ws k + w.tokens.length < ti.arr.length := by omega
      obtain ⟨l, x, g3, g4, ⟨v, g5, g6, g7⟩ | ⟨g5, g6, g7⟩⟩ := L.position hend
      · have := decode_unique ti.ws (off ti.ws k + w.tokens.length) k l w x h3 g3 (by omega) (by omega) (by omega) (by omega)
        subst this
        rw [h3] at g3
        obtain rfl := Option.some.inj g3
        omega
      · exact hmark b hb p hp (off ti.ws k + w.tokens.length - p) (by omega) l x g3 g6 (by omega)
    · exact absurd (hmark b hb p hp 0 (by omega) k w h3 h6 (by omega)) id
  · intro b hb; exact (F.bounds b hb).1
  · intro p q t t' hpq hp hq hstr
    have hpl := (List.getElem?_eq_some_iff.mp hp).1
    have hql := (List.getElem?_eq_some_iff.mp hq).1
    -- the longest common prefix
    have hex : ∃ L, 0 < L ∧ p + L ≤ ti.arr.length ∧ q + L ≤ ti.arr.length ∧
        (∀ i < L, (ti.arr.map Token.str)[p + i]? = (ti.arr.map Token.str)[q + i]?) ∧
        (p + L < ti.arr.length → q + L < ti.arr.length → (ti.arr.map Token.str)[p + L]? ≠ (ti.arr.map Token.str)[q + L]?) := by
      have h1' : ∀ i < 1, (ti.arr.map Token.str)[p + i]? = (ti.arr.map Token.str)[q + i]? := by
        intro i hi
        have : i = 0 := by omega
        subst this
        simp [List.getElem?_map, hp, hq, hstr]
      have : ∀ d L, d + p + L = ti.arr.length → 0 < L → q + L ≤ ti.arr.length →
          (∀ i < L, (ti.arr.map Token.str)[p + i]? = (ti.arr.map Token.str)[q + i]?) →
          ∃ L, 0 < L ∧ p + L ≤ ti.arr.length ∧ q + L ≤ ti.arr.length ∧
            (∀ i < L, (ti.arr.map Token.str)[p + i]? = (ti.arr.map Token.str)[q + i]?) ∧
            (p + L < ti.arr.length → q + L < ti.arr.length → (ti.arr.map Token.str)[p + L]? ≠ (ti.arr.map Token.str)[q + L]?) := by
        intro d
        induction d with
        | zero => intro L hL h0 hqL hall; exact ⟨L, h0, by omega, hqL, hall, by intro h; omega⟩
        | succ d ih =>
          intro L hL h0 hqL hall
          by_cases hstop : q + L < ti.arr.length ∧ (ti.arr.map Token.str)[p + L]? = (ti.arr.map Token.str)[q + L]?
          · refine ih (L + 1) (by omega) (by omega) (by omega) ?_
            intro i hi
            by_cases hiL : i = L
            · subst hiL; exact hstop.2
            · exact hall i (by omega)
          · exact ⟨L, h0, by omega, hqL, hall, fun _ h2 h3 => hstop ⟨h2, h3⟩⟩
      exact this (ti.arr.length - p - 1) 1 (by omega) (by omega) (by omega) h1'
    obtain ⟨L', l1, l2, l3, l4, l5⟩ := hex
    obtain ⟨b, hb, _, h4, h5⟩ := F.complete p q L' hpq l1 (by simpa using l2) (by simpa using l3) l4 (by simpa using l5)
    exact ⟨b, hb, h4, h5⟩
  · exact h2

/-- For valid input the token index exists and serves the aligner. -/
theorem tokenIndex_valid {ws : List Witness} (hi : Indexable ws) (hne : ws ≠ []) (nd : (ws.map Witness.sigil).Nodup)
    (hc : NoCollision ws) : ∃ ti, mkTokenIndex ws = .ok ti ∧ ti.ws = indexed 0 ws ∧ Layout ti ∧ BlocksOK ti := by
  obtain ⟨ti, h1, h2, L, _, _, F, h5, h6⟩ := mkTokenIndex_ok hi hne nd
  exact ⟨ti, h1, h2, L, blocksOK_of L F h5 h6 (by rw [h2]; exact noCollision_indexed hc)⟩

end CollateX
