import Verif.Model.Scorer
import Verif.Props.SuffixArray
import Verif.Proofs.Collated
import Verif.Props.Near
/-
C81: the match function of the block scorer.
-/

namespace CollateX

namespace Spec

/-- No two tokens of the witnesses, of the same or of different witnesses, have equal strings. -/
def AllDifferent (ws : List Witness) : Prop := (ws.flatMap (fun w => w.tokens.map Token.str)).Nodup

/-- What a match function has to answer for two tokens if there is no filter: a match if the strings are equal, otherwise none. -/
def RightAnswer (m : MatchKind) (a b : Token) : Prop := m = if a.str = b.str then .full else .no

end Spec

open Spec

variable {ws : List Witness}

theorem occursAt_one {p : Nat} {s : Str} : OccursAt ws p [s] ↔
    ∃ (k i : Nat) (w : Witness), ws[k]? = some w ∧ p = startOf ws k + i ∧ (w.tokens.map Token.str)[i]? = some s := by
  constructor
  · rintro ⟨k, i, w, h1, h2, h3, t, h4⟩
    refine ⟨k, i, w, h1, h2, ?_⟩
    have := congrArg (fun l : List Str => l[0]?) h4
    simpa using this.symm
  · rintro ⟨k, i, w, h1, h2, h3⟩
    obtain ⟨hi, he⟩ := List.getElem?_eq_some_iff.mp h3
    refine ⟨k, i, w, h1, h2, by simpa using hi, ?_⟩
    rw [List.drop_eq_getElem_cons hi, he]
    exact ⟨_, rfl⟩

theorem startOf_lt : ∀ {ws : List Witness} {k l : Nat} {w : Witness}, ws[k]? = some w → k < l →
    startOf ws k + w.tokens.length < startOf ws l
  | [], k, l, w, h, _ => by simp at h
  | x :: ws, 0, l + 1, w, h, _ => by
    simp only [List.getElem?_cons_zero, Option.some.injEq] at h
    subst h
    simp [startOf]
    omega
  | x :: ws, k + 1, l + 1, w, h, hl => by
    have := startOf_lt (ws := ws) (k := k) (l := l) (w := w) (by simpa using h) (by omega)
    simp [startOf] at this ⊢
    omega
  | _, _, 0, _, _, hl => by omega

/-- No two equal tokens: no word is at two positions. -/
theorem allDifferent_iff : AllDifferent ws ↔ ∀ (s : Str) (p q : Nat), OccursAt ws p [s] → OccursAt ws q [s] → p = q := by
  unfold AllDifferent
  rw [List.nodup_flatMap]
  constructor
  · rintro ⟨h1, h2⟩ s p q hp hq
    obtain ⟨k, i, w, a1, a2, a3⟩ := occursAt_one.mp hp
    obtain ⟨l, j, x, b1, b2, b3⟩ := occursAt_one.mp hq
    have key : ∀ (k l : Nat) (w x : Witness), ws[k]? = some w → ws[l]? = some x → k < l →
        s ∈ w.tokens.map Token.str → s ∈ x.tokens.map Token.str → False := by
      intro k l w x hk hl hkl hw hx
      obtain ⟨c1, c2⟩ := List.getElem?_eq_some_iff.mp hk
      obtain ⟨d1, d2⟩ := List.getElem?_eq_some_iff.mp hl
      have := (List.pairwise_iff_getElem.mp h2) k l c1 d1 hkl
      rw [c2, d2] at this
      exact this hw hx
    rcases Nat.lt_trichotomy k l with h | h | h
    · exact (key k l w x a1 b1 h (List.mem_of_getElem? a3) (List.mem_of_getElem? b3)).elim
    · subst h
      rw [a1] at b1
      cases b1
      have hnd := h1 w (List.mem_of_getElem? a1)
      obtain ⟨c1, c2⟩ := List.getElem?_eq_some_iff.mp a3
      obtain ⟨d1, d2⟩ := List.getElem?_eq_some_iff.mp b3
      have := (hnd.getElem_inj_iff (hi := c1) (hj := d1)).mp (c2.trans d2.symm)
      omega
    · exact (key l k x w b1 a1 h (List.mem_of_getElem? b3) (List.mem_of_getElem? a3)).elim
  · intro h
    constructor
    · intro w hw
      obtain ⟨k, hk⟩ := List.mem_iff_getElem?.mp hw
      rw [List.nodup_iff_pairwise_ne, List.pairwise_iff_getElem]
      intro i j hi hj hij he
      have := h (w.tokens.map Token.str)[i] (startOf ws k + i) (startOf ws k + j)
        (occursAt_one.mpr ⟨k, i, w, hk, rfl, List.getElem?_eq_getElem hi⟩)
        (occursAt_one.mpr ⟨k, j, w, hk, rfl, by rw [he]; exact List.getElem?_eq_getElem hj⟩)
      omega
    · rw [List.pairwise_iff_getElem]
      intro k l hk hl hkl s hs hs'
      obtain ⟨i, hi⟩ := List.mem_iff_getElem?.mp hs
      obtain ⟨j, hj⟩ := List.mem_iff_getElem?.mp hs'
      have := h s _ _ (occursAt_one.mpr ⟨k, i, ws[k], List.getElem?_eq_getElem hk, rfl, hi⟩)
        (occursAt_one.mpr ⟨l, j, ws[l], List.getElem?_eq_getElem hl, rfl, hj⟩)
      have h1 := startOf_lt (List.getElem?_eq_getElem hk) hkl
      have h2 : i < ws[k].tokens.length := by simpa using (List.getElem?_eq_some_iff.mp hi).1
      omega

theorem OccursAt_length {p : Nat} {s : List Str} (h : OccursAt ws p s) : s.length ≤ startOf ws ws.length := by
  obtain ⟨k, i, w, h1, h2, h3, h4⟩ := h
  have h5 := h4.length_le
  have h6 := startOf_lt h1 (List.getElem?_eq_some_iff.mp h1).1
  simp at h5
  omega

/-- There are no blocks exactly if no two tokens are equal. -/
theorem blocks_nil_iff (hv : Valid ws) {ti : TokenIndex} (hti : mkTokenIndex ws = .ok ti) :
    ti.blocks = [] ↔ AllDifferent ws := by
  obtain ⟨t1, e1, S⟩ := C11_blocks_sound hv
  obtain ⟨t2, e2, K⟩ := C12_blocks_complete hv
  rw [hti] at e1 e2
  cases e1
  cases e2
  rw [allDifferent_iff]
  constructor
  · intro h0 s p q hp hq
    by_contra hpq
    have ext : ∀ (n : Nat) (s : List Str), s ≠ [] → OccursAt ws p s → OccursAt ws q s →
        startOf ws ws.length - s.length ≤ n → False := by
      intro n
      induction n with
      | zero =>
        intro s hs h1 h2 hn
        by_cases hm : ∃ c, OccursAt ws p (s ++ [c]) ∧ OccursAt ws q (s ++ [c])
        · obtain ⟨c, h3, _⟩ := hm
          have := OccursAt_length h3
          simp at this
          omega
        · obtain ⟨b, hb, _⟩ := K s p q hs hpq h1 h2 hm
          rw [h0] at hb
          cases hb
      | succ n ih =>
        intro s hs h1 h2 hn
        by_cases hm : ∃ c, OccursAt ws p (s ++ [c]) ∧ OccursAt ws q (s ++ [c])
        · obtain ⟨c, h3, h4⟩ := hm
          exact ih (s ++ [c]) (by simp) h3 h4 (by simp; omega)
        · obtain ⟨b, hb, _⟩ := K s p q hs hpq h1 h2 hm
          rw [h0] at hb
          cases hb
    exact ext _ [s] (by simp) hp hq (Nat.le_refl _)
  · intro h
    cases hb : ti.blocks with
    | nil => rfl
    | cons b bs =>
      exfalso
      obtain ⟨h1, ps, s, _, h3, h4, h5, h6⟩ := S b (by rw [hb]; simp)
      match ps, s, h3, h4, h5, h6 with
      | x :: y :: ps, c :: s, _, h4, _, h6 =>
        have one : ∀ p ∈ x :: y :: ps, OccursAt ws p [c] := by
          intro p hp
          obtain ⟨k, i, w, a1, a2, a3, a4⟩ := h6 p hp
          exact ⟨k, i, w, a1, a2, a3, List.IsPrefix.trans ⟨s, rfl⟩ a4⟩
        have := h c x y (one x (by simp)) (one y (by simp))
        simp [this] at h4
      | _, [], _, _, h5, _ => simp at h5; omega
      | [], _ :: _, h3, _, _, _ => simp at h3
      | [_], _ :: _, h3, _, _, _ => simp at h3

theorem splitLcp_of_index {ti : TokenIndex} (hti : mkTokenIndex ws = .ok ti) : splitLcp ti.LCP = .ok ti.blocks := by
  unfold mkTokenIndex at hti
  obtain ⟨p, _, h⟩ := bind_eq_ok.mp hti
  obtain ⟨bs, h1, h⟩ := bind_eq_ok.mp h
  obtain ⟨is, _, h⟩ := bind_eq_ok.mp h
  cases h
  exact h1

theorem scorerBlocks_eq {ti : TokenIndex} (hti : mkTokenIndex ws = .ok ti) :
    scorerBlocks ti = if ti.blocks = [] then .ok [] else .error .attributeError := by
  unfold scorerBlocks
  rw [splitLcp_of_index hti, bind_ok]
  cases ti.blocks <;> simp

theorem rangeOf_ok (hv : Valid ws) {ti : TokenIndex} (hti : mkTokenIndex ws = .ok ti) {σ : Str} (hσ : σ ∈ ws.map Witness.sigil) :
    ∃ r, ti.rangeOf σ = .ok r := by
  obtain ⟨t, e, h2, L, _⟩ := mkTokenIndex_ok hv.tokens hv.ne hv.sigla
  rw [hti] at e
  cases e
  rw [← indexed_sigla 0 ws, ← h2] at hσ
  obtain ⟨w, hw, rfl⟩ := List.mem_map.mp hσ
  obtain ⟨k, hk⟩ := List.mem_iff_getElem?.mp hw
  exact ⟨_, L.range k w hk⟩

/-- A scorer that knows no blocks knows none afterwards either. -/
theorem tokensToOccurrences_nil (ts : List Token) (i : Nat) (d : Dict Token Occ) : tokensToOccurrences [] i ts d = d := by
  induction ts generalizing i d with
  | nil => rfl
  | cons t ts ih => exact ih _ _

theorem prepare_eq (hv : Valid ws) {ti : TokenIndex} (hti : mkTokenIndex ws = .ok ti) {w : Witness}
    (hσ : w.sigil ∈ ws.map Witness.sigil) :
    newScorer.prepare ti w = if ti.blocks = [] then .ok newScorer else .error .attributeError := by
  obtain ⟨r, hr⟩ := rangeOf_ok hv hti hσ
  unfold ScorerSt.prepare blockWitness
  rw [hr, bind_ok, if_pos (show newScorer.blocks = [] from rfl), scorerBlocks_eq hti]
  split
  · simp only [bind_ok, occurrencesIn, List.flatMap_nil]
    show Except.ok _ = Except.ok _
    rw [show sortByKey (fun o : Occ => (o.range.1 : Int)) [] = [] from rfl, tokensToOccurrences_nil]
    rfl
  · rfl

theorem prepareAll_inv {ti : TokenIndex} (hti : mkTokenIndex ws = .ok ti) : ∀ {xs : List Witness} {s : ScorerSt},
    newScorer.prepareAll ti xs = .ok s → s = newScorer := by
  intro xs
  induction xs with
  | nil => intro s h; cases h; rfl
  | cons x xs ih =>
    intro s h
    obtain ⟨s1, h1, h2⟩ := bind_eq_ok.mp h
    have : s1 = newScorer := by
      obtain ⟨⟨s2, os⟩, h3, h4⟩ := bind_eq_ok.mp h1
      obtain ⟨r, _, h5⟩ := bind_eq_ok.mp h3
      obtain ⟨bs, h6, h7⟩ := bind_eq_ok.mp h5
      rw [if_pos (show newScorer.blocks = [] from rfl), scorerBlocks_eq hti] at h6
      split at h6
      · cases h6
        cases h7
        obtain ⟨r', _, h8⟩ := bind_eq_ok.mp h4
        simp only [occurrencesIn, List.flatMap_nil, show sortByKey (fun o : Occ => (o.range.1 : Int)) [] = [] from rfl,
          tokensToOccurrences_nil] at h8
        cases h8
        rfl
      · cases h6
    rw [this] at h2
    exact ih h2

/-- C81, first part: with a token index of valid witnesses, the scorer cannot prepare any of the witnesses as soon as two tokens
anywhere have equal strings; it raises AttributeError. It can prepare them if all tokens are different. -/
theorem C81_raises_iff (hv : Valid ws) : ∃ ti, mkTokenIndex ws = .ok ti ∧ ∀ w ∈ ti.ws,
    (newScorer.prepare ti w = .error .attributeError ↔ ¬ AllDifferent ws) ∧
    ((∃ s, newScorer.prepare ti w = .ok s) ↔ AllDifferent ws) := by
  obtain ⟨ti, hti, h2, _⟩ := mkTokenIndex_ok hv.tokens hv.ne hv.sigla
  refine ⟨ti, hti, fun w hw => ?_⟩
  have hσ : w.sigil ∈ ws.map Witness.sigil := by
    rw [← indexed_sigla 0 ws, ← h2]
    exact List.mem_map_of_mem hw
  rw [prepare_eq hv hti hσ, ← blocks_nil_iff hv hti]
  split <;> simp_all

/-- C81, second part: whatever the witnesses prepared, and whatever the filter, the scorer does not report a match of any two tokens. -/
theorem C81_never_matches {ti : TokenIndex} (hti : mkTokenIndex ws = .ok ti) {xs : List Witness} {s : ScorerSt}
    (h : newScorer.prepareAll ti xs = .ok s) (pf : Option PFilter) (a b : Token) : s.matchTokens pf a b = .no := by
  rw [prepareAll_inv hti h]
  rfl

/-- C81, near matching: whatever the witnesses prepared, the answer depends on the ratio alone, also for equal strings. -/
theorem C81_near {ti : TokenIndex} (hti : mkTokenIndex ws = .ok ti) {xs : List Witness} {s : ScorerSt}
    (h : newScorer.prepareAll ti xs = .ok s) (pf : Option PFilter) (ratio : Str → Str → Nat) (a b : Token) :
    s.nearMatch pf ratio a b = if ratio a.str b.str > 600000 then .near else .no := by
  unfold ScorerSt.nearMatch
  rw [C81_never_matches hti h]
  simp

/-- C81, as far as it holds: if no two tokens are equal, every witness can be prepared, and the scorer's answers for tokens of different
witnesses are right. Missing: witnesses with equal tokens; there the scorer fails (`C81_raises_iff`). -/
theorem C81_right_answers_partial (hv : Valid ws) (hd : AllDifferent ws) : ∃ ti, mkTokenIndex ws = .ok ti ∧
    ∃ s, newScorer.prepareAll ti ti.ws = .ok s ∧ ∀ (k l : Nat) (w x : Witness), k ≠ l → ti.ws[k]? = some w → ti.ws[l]? = some x →
      ∀ a ∈ w.tokens, ∀ b ∈ x.tokens, RightAnswer (s.matchTokens none a b) a b := by
  obtain ⟨ti, hti, h2, _⟩ := mkTokenIndex_ok hv.tokens hv.ne hv.sigla
  refine ⟨ti, hti, newScorer, ?_, ?_⟩
  · have : ∀ xs : List Witness, (∀ w ∈ xs, w.sigil ∈ ws.map Witness.sigil) → newScorer.prepareAll ti xs = .ok newScorer := by
      intro xs
      induction xs with
      | nil => intro _; rfl
      | cons x xs ih =>
        intro hx
        have := prepare_eq hv hti (hx x (by simp))
        rw [if_pos ((blocks_nil_iff hv hti).mpr hd)] at this
        show (newScorer.prepare ti x >>= fun s' => s'.prepareAll ti xs) = _
        rw [this, bind_ok]
        exact ih (fun w hw => hx w (by simp [hw]))
    refine this _ (fun w hw => ?_)
    rw [← indexed_sigla 0 ws, ← h2]
    exact List.mem_map_of_mem hw
  · intro k l w x hkl hk hl a ha b hb
    have hd' : (ti.ws.flatMap (fun w => w.tokens.map Token.str)).Nodup := by
      have : ti.ws.map (fun w => w.tokens.map Token.str) = ws.map (fun w => w.tokens.map Token.str) := by
        rw [h2]
        refine List.ext_getElem? (fun n => ?_)
        simp only [List.getElem?_map]
        cases hn : (indexed 0 ws)[n]? with
        | none =>
          have h6 : ws.length ≤ n := by rw [← indexed_length 0 ws]; exact List.getElem?_eq_none_iff.mp hn
          rw [List.getElem?_eq_none_iff.mpr h6]
        | some y =>
          obtain ⟨z, hz, _, he⟩ := indexed_strs ws hn
          rw [hz]
          exact congrArg some he
      unfold AllDifferent at hd
      rw [List.flatMap_def] at hd ⊢
      rw [this]; exact hd
    have hne : a.str ≠ b.str := by
      intro he
      have hp := (List.nodup_flatMap.mp hd').2
      obtain ⟨c1, c2⟩ := List.getElem?_eq_some_iff.mp hk
      obtain ⟨d1, d2⟩ := List.getElem?_eq_some_iff.mp hl
      rcases Nat.lt_or_gt_of_ne hkl with h | h
      · have := (List.pairwise_iff_getElem.mp hp) k l c1 d1 h
        rw [c2, d2] at this
        exact this (List.mem_map_of_mem ha) (he ▸ List.mem_map_of_mem hb)
      · have := (List.pairwise_iff_getElem.mp hp) l k d1 c1 h
        rw [c2, d2] at this
        exact this (List.mem_map_of_mem hb) (he ▸ List.mem_map_of_mem ha)
    unfold RightAnswer
    rw [if_neg hne]
    rfl

/-- Two witnesses without a common word. -/
def noCommonWord : List Witness := [wordsWitness "A" ["a", "b"], wordsWitness "B" ["x", "y"]]

example : Valid noCommonWord ∧ AllDifferent noCommonWord :=
  ⟨valid_of_check (by decide) (by decide) (by decide) (by decide), by unfold AllDifferent; decide⟩

/-- Two witnesses with one common word. -/
def oneCommonWord : List Witness := [wordsWitness "A" ["a", "b"], wordsWitness "B" ["b", "y"]]

example : Valid oneCommonWord ∧ ¬ AllDifferent oneCommonWord :=
  ⟨valid_of_check (by decide) (by decide) (by decide) (by decide), by unfold AllDifferent; decide⟩

/-- C81 is not true of the code: there are valid witnesses none of which can be prepared. -/
theorem C81_fails : Valid oneCommonWord ∧ ∃ ti, mkTokenIndex oneCommonWord = .ok ti ∧ ti.ws ≠ [] ∧
    ∀ w ∈ ti.ws, newScorer.prepare ti w = .error .attributeError := by
  have hv : Valid oneCommonWord := valid_of_check (by decide) (by decide) (by decide) (by decide)
  obtain ⟨ti, h1, h2⟩ := C81_raises_iff hv
  obtain ⟨t, e, h3, _⟩ := mkTokenIndex_ok hv.tokens hv.ne hv.sigla
  rw [h1] at e
  cases e
  refine ⟨hv, ti, h1, ?_, fun w hw => (h2 w hw).1.mpr (by unfold AllDifferent; decide)⟩
  rw [h3]
  decide

end CollateX
