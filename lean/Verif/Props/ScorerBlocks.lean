import Verif.Props.Scorer
import Verif.Proofs.RangeSet
import Verif.Proofs.AStar
/-
C94: what the block scorer answers when it is given its blocks.
-/

namespace CollateX

namespace Spec

/-- No position of the token array belongs to two blocks. -/
def Apart (bs : List RSet) : Prop := bs.Pairwise (fun b c => ∀ x, x ∈ b.elems → x ∉ c.elems)

/-- Two positions of the token array belong to the same block. -/
def SameBlock (bs : List RSet) (p q : Nat) : Prop := ∃ b ∈ bs, p ∈ b.elems ∧ q ∈ b.elems

end Spec

open Spec

variable {ws : List Witness}

/-- The occurrences in a witness: the positions they cover are those of the blocks that lie in the witness. -/
theorem mem_occurrencesIn {bs : List RSet} {r : Nat × Nat} {o : Occ} (h : o ∈ occurrencesIn bs r) :
    o.block ∈ bs ∧ o.range.1 < o.range.2 ∧
      ∀ i, o.range.1 ≤ i → i < o.range.2 → i ∈ o.block.elems ∧ r.1 ≤ i ∧ i < r.2 := by
  obtain ⟨b, hb, h1⟩ := List.mem_flatMap.mp h
  obtain ⟨s, hs, rfl⟩ := List.mem_map.mp h1
  obtain ⟨c1, _, c3⟩ := contiguousSlices_ok ⟨b.elems.filter (fun x => r.1 ≤ x ∧ x < r.2), b.padding⟩
  refine ⟨hb, c1 s hs, fun i h2 h3 => ?_⟩
  have := (c3 i).mpr ⟨s, hs, h2, h3⟩
  simpa using this

theorem exists_occurrencesIn {bs : List RSet} {r : Nat × Nat} {b : RSet} {i : Nat} (hb : b ∈ bs) (hi : i ∈ b.elems)
    (h1 : r.1 ≤ i) (h2 : i < r.2) : ∃ o ∈ occurrencesIn bs r, o.block = b ∧ o.range.1 ≤ i ∧ i < o.range.2 := by
  obtain ⟨_, _, c3⟩ := contiguousSlices_ok ⟨b.elems.filter (fun x => r.1 ≤ x ∧ x < r.2), b.padding⟩
  obtain ⟨s, hs, h3, h4⟩ := (c3 i).mp (by simpa using ⟨hi, h1, h2⟩)
  exact ⟨⟨s, b⟩, List.mem_flatMap.mpr ⟨b, hb, List.mem_map.mpr ⟨s, hs, rfl⟩⟩, rfl, h3, h4⟩

theorem dget_foldl_dset {t : Token} (os : List Occ) (d : Dict Token Occ) (u : Token) :
    dget (os.foldl (fun d o => dset d t o) d) u = if u = t then (os.getLast?).or (dget d t) else dget d u := by
  induction os generalizing d with
  | nil => by_cases h : u = t <;> simp [h]
  | cons o os ih =>
    rw [List.foldl_cons, ih]
    by_cases h : u = t
    · rw [if_pos h, if_pos h, dget_dset_self]
      cases os with
      | nil => simp
      | cons a l => simp [List.getLast?_cons_cons, List.getLast?_eq_some_getLast]
    · rw [if_neg h, if_neg h, dget_dset_ne _ _ (Ne.symm h)]

theorem tokensToOccurrences_of_not_mem {occs : List Occ} {t : Token} : ∀ (ts : List Token) (i : Nat) (d : Dict Token Occ),
    t ∉ ts → dget (tokensToOccurrences occs i ts d) t = dget d t
  | [], _, _, _ => rfl
  | u :: ts, i, d, h => by
    simp only [List.mem_cons, not_or] at h
    rw [tokensToOccurrences, tokensToOccurrences_of_not_mem ts _ _ h.2, dget_foldl_dset, if_neg h.1]

theorem dget_tokensToOccurrences {occs : List Occ} {t : Token} : ∀ (ts : List Token) (i j : Nat) (d : Dict Token Occ),
    ts.Nodup → ts[j]? = some t → dget (tokensToOccurrences occs i ts d) t =
      (occs.filter (fun o => o.range.1 ≤ i + j ∧ i + j < o.range.2)).getLast?.or (dget d t)
  | [], _, _, _, _, h => by simp at h
  | u :: ts, i, 0, d, nd, h => by
    simp only [List.getElem?_cons_zero, Option.some.injEq] at h
    subst h
    rw [tokensToOccurrences, tokensToOccurrences_of_not_mem ts _ _ (List.nodup_cons.mp nd).1, dget_foldl_dset, if_pos rfl]
    rfl
  | u :: ts, i, j + 1, d, nd, h => by
    simp only [List.getElem?_cons_succ] at h
    have hne : t ≠ u := by
      rintro rfl
      exact (List.nodup_cons.mp nd).1 (List.mem_of_getElem? h)
    rw [tokensToOccurrences, dget_tokensToOccurrences ts (i + 1) j _ (List.nodup_cons.mp nd).2 h, dget_foldl_dset, if_neg hne]
    congr 3
    funext o
    rw [show i + 1 + j = i + (j + 1) by omega]

theorem nodup_tokensToOccurrences {occs : List Occ} : ∀ (ts : List Token) (i : Nat) (d : Dict Token Occ),
    (d.map Prod.fst).Nodup → ((tokensToOccurrences occs i ts d).map Prod.fst).Nodup
  | [], _, _, h => h
  | u :: ts, i, d, h => by
    rw [tokensToOccurrences]
    refine nodup_tokensToOccurrences ts _ _ ?_
    generalize occs.filter _ = os
    induction os generalizing d with
    | nil => exact h
    | cons o os ih => exact ih _ (nodup_keys_dset h _ _)

/-- What the scorer knows about a token at position `p`. -/
def Knows (bs : List RSet) (p : Nat) (o : Option Occ) : Prop :=
  (∀ x, o = some x → x.block ∈ bs ∧ p ∈ x.block.elems) ∧ (o = none → ∀ b ∈ bs, p ∉ b.elems)

theorem prepare_given {ti : TokenIndex} (L : Layout ti) {k : Nat} {w : Witness} (hw : ti.ws[k]? = some w) {s : ScorerSt}
    (hb : s.blocks ≠ []) : ∃ s', s.prepare ti w = .ok s' ∧ s'.blocks = s.blocks ∧
      (∀ t, t ∉ w.tokens → dget s'.occurrences t = dget s.occurrences t) ∧
      (∀ i t, w.tokens[i]? = some t → dget s.occurrences t = none ∨ Knows s.blocks (off ti.ws k + i) (dget s.occurrences t) →
        Knows s.blocks (off ti.ws k + i) (dget s'.occurrences t)) := by
  unfold ScorerSt.prepare blockWitness
  simp only [L.range k w hw, bind_ok, if_neg hb]
  refine ⟨_, rfl, rfl, fun t ht => ?_, fun i t hi hold => ?_⟩
  · rw [dget_dupdate _ _ (nodup_tokensToOccurrences _ _ _ (by simp)), tokensToOccurrences_of_not_mem _ _ _ ht]
    simp
  · rw [dget_dupdate _ _ (nodup_tokensToOccurrences _ _ _ (by simp)),
      dget_tokensToOccurrences _ _ i _ (L.tokens_nodup hw) hi]
    have hlen := (List.getElem?_eq_some_iff.mp hi).1
    simp only [dget, Option.or_none]
    set os := (sortByKey (fun o : Occ => (o.range.1 : Int)) (occurrencesIn s.blocks (off ti.ws k, off ti.ws k + w.tokens.length))).filter
      (fun o => o.range.1 ≤ off ti.ws k + i ∧ off ti.ws k + i < o.range.2) with hos
    have hmem : ∀ x ∈ os, x.block ∈ s.blocks ∧ off ti.ws k + i ∈ x.block.elems := by
      intro x hx
      rw [hos, List.mem_filter, mem_sortByKey] at hx
      obtain ⟨h1, h2⟩ := hx
      obtain ⟨m1, _, m3⟩ := mem_occurrencesIn h1
      simp only [decide_eq_true_eq] at h2
      exact ⟨m1, (m3 _ h2.1 h2.2).1⟩
    have hex : ∀ b ∈ s.blocks, off ti.ws k + i ∈ b.elems → os ≠ [] := by
      intro b h1 h2 h0
      obtain ⟨o, h3, _, h4, h5⟩ := exists_occurrencesIn (r := (off ti.ws k, off ti.ws k + w.tokens.length)) h1 h2 (by simp) (by simp; omega)
      have : o ∈ os := by
        rw [hos, List.mem_filter, mem_sortByKey]
        exact ⟨h3, by simpa using ⟨h4, h5⟩⟩
      rw [h0] at this
      simp at this
    cases hl : os.getLast? with
    | some x =>
      rw [Option.some_or]
      refine ⟨fun y hy => ?_, fun h0 => by simp at h0⟩
      cases hy
      exact hmem x (List.mem_of_getLast? hl)
    | none =>
      rw [Option.none_or]
      have h0 : os = [] := by simpa using hl
      rcases hold with h | h
      · rw [h]
        exact ⟨fun x hx => by simp at hx, fun _ b h1 h2 => hex b h1 h2 h0⟩
      · exact h

theorem prepareAll_given {ti : TokenIndex} (L : Layout ti) {bs : List RSet} (hb : bs ≠ []) : ∀ (xs : List Witness),
    (∀ w ∈ xs, w ∈ ti.ws) → ∀ s : ScorerSt, s.blocks = bs →
    (∀ k i w t, ti.ws[k]? = some w → w.tokens[i]? = some t →
      dget s.occurrences t = none ∨ Knows bs (off ti.ws k + i) (dget s.occurrences t)) →
    ∃ s', s.prepareAll ti xs = .ok s' ∧
      (∀ k i w t, ti.ws[k]? = some w → w.tokens[i]? = some t →
        dget s'.occurrences t = none ∨ Knows bs (off ti.ws k + i) (dget s'.occurrences t)) ∧
      (∀ k i w t, ti.ws[k]? = some w → w.tokens[i]? = some t →
        w ∈ xs ∨ Knows bs (off ti.ws k + i) (dget s.occurrences t) → Knows bs (off ti.ws k + i) (dget s'.occurrences t)) ∧
      (∀ t, (∀ w ∈ xs, t ∉ w.tokens) → dget s'.occurrences t = dget s.occurrences t)
  | [], _, s, _, hinv => ⟨s, rfl, hinv, fun k i w t _ _ h => by simpa using h, fun _ _ => rfl⟩
  | x :: xs, hx, s, hs, hinv => by
    obtain ⟨l, hl⟩ := List.mem_iff_getElem?.mp (hx x (by simp))
    obtain ⟨s1, e1, b1, o1, o2⟩ := prepare_given L hl (s := s) (by rw [hs]; exact hb)
    rw [hs] at b1 o2
    have key : ∀ k i w t, ti.ws[k]? = some w → w.tokens[i]? = some t →
        (w = x ∨ Knows bs (off ti.ws k + i) (dget s.occurrences t)) → Knows bs (off ti.ws k + i) (dget s1.occurrences t) := by
      intro k i w t hk hi h
      by_cases htx : t ∈ x.tokens
      · obtain ⟨j, hj⟩ := List.mem_iff_getElem?.mp htx
        have e := (L.tok_pos k i w t hk hi).symm.trans (L.tok_pos l j x t hl hj)
        simp only [Option.some.injEq, JVal.nat.injEq] at e
        rw [e]
        exact o2 j t hj (hinv l j x t hl hj)
      · rcases h with rfl | h
        · exact absurd (List.mem_of_getElem? hi) htx
        · rw [o1 t htx]; exact h
    have inv1 : ∀ k i w t, ti.ws[k]? = some w → w.tokens[i]? = some t →
        dget s1.occurrences t = none ∨ Knows bs (off ti.ws k + i) (dget s1.occurrences t) := by
      intro k i w t hk hi
      by_cases htx : t ∈ x.tokens
      · obtain ⟨j, hj⟩ := List.mem_iff_getElem?.mp htx
        have e := (L.tok_pos k i w t hk hi).symm.trans (L.tok_pos l j x t hl hj)
        simp only [Option.some.injEq, JVal.nat.injEq] at e
        rw [e]
        exact Or.inr (o2 j t hj (hinv l j x t hl hj))
      · rw [o1 t htx]; exact hinv k i w t hk hi
    obtain ⟨s2, e2, p1, p2, p3⟩ := prepareAll_given L hb xs (fun w hw => hx w (by simp [hw])) s1 b1 inv1
    refine ⟨s2, ?_, p1, fun k i w t hk hi h => p2 k i w t hk hi ?_, fun t ht => ?_⟩
    · rw [ScorerSt.prepareAll, e1, bind_ok, e2]
    · rcases h with h | h
      · rcases List.mem_cons.mp h with rfl | h
        · exact Or.inr (key k i w t hk hi (Or.inl rfl))
        · exact Or.inl h
      · exact Or.inr (key k i w t hk hi (Or.inr h))
    · rw [p3 t (fun w hw => ht w (by simp [hw])), o1 t (ht x (by simp))]

/-- C94: a scorer that is given blocks no two of which overlap prepares any of the witnesses, in any order and also repeatedly. For
tokens of prepared witnesses `match` answers "full match" exactly if the positions of the two tokens belong to the same block and the
filter, if there is one, lets the pair pass; there is no third answer. For a token of a witness that was not prepared it
always answers "no match". -/
theorem C94_same_block (hv : Valid ws) {bs : List RSet} (hb : bs ≠ []) (ha : Apart bs) : ∃ ti, mkTokenIndex ws = .ok ti ∧
    ∀ xs : List Witness, (∀ w ∈ xs, w ∈ ti.ws) → ∃ s, (ScorerSt.mk bs []).prepareAll ti xs = .ok s ∧
      (∀ w ∈ xs, ∀ x ∈ xs, ∀ a ∈ w.tokens, ∀ b ∈ x.tokens, ∀ p q : Nat,
        dget a.data .pos = some (.nat p) → dget b.data .pos = some (.nat q) → ∀ pf : Option PFilter,
          (s.matchTokens pf a b = .full ↔ SameBlock bs p q ∧ ∀ f, pf = some f → f a.data b.data = true) ∧
          (s.matchTokens pf a b = .full ∨ s.matchTokens pf a b = .no)) ∧
      (∀ a, (∀ w ∈ xs, a ∉ w.tokens) → ∀ (b : Token) (pf : Option PFilter),
        s.matchTokens pf a b = .no ∧ s.matchTokens pf b a = .no) := by
  obtain ⟨ti, hti, h2, L, _⟩ := mkTokenIndex_ok hv.tokens hv.ne hv.sigla
  refine ⟨ti, hti, fun xs hxs => ?_⟩
  obtain ⟨s, e, _, k2, k3⟩ := prepareAll_given L hb xs hxs ⟨bs, []⟩ rfl (fun _ _ _ _ _ _ => Or.inl rfl)
  refine ⟨s, e, fun w hw x hx a haw b hbx p q hp hq pf => ?_, fun a ha b pf => ?_⟩
  · obtain ⟨k, hk⟩ := List.mem_iff_getElem?.mp (hxs w hw)
    obtain ⟨l, hl⟩ := List.mem_iff_getElem?.mp (hxs x hx)
    obtain ⟨i, hi⟩ := List.mem_iff_getElem?.mp haw
    obtain ⟨j, hj⟩ := List.mem_iff_getElem?.mp hbx
    have e1 := hp.symm.trans (L.tok_pos k i w a hk hi)
    have e2 := hq.symm.trans (L.tok_pos l j x b hl hj)
    simp only [Option.some.injEq, JVal.nat.injEq] at e1 e2
    have K1 := k2 k i w a hk hi (Or.inl hw)
    have K2 := k2 l j x b hl hj (Or.inl hx)
    rw [← e1] at K1
    rw [← e2] at K2
    have uniq : ∀ b ∈ bs, ∀ c ∈ bs, ∀ x, x ∈ b.elems → x ∈ c.elems → b = c := by
      intro b hb c hc x h1 h2
      by_contra hne
      obtain ⟨m, hm⟩ := List.mem_iff_getElem?.mp hb
      obtain ⟨n, hn⟩ := List.mem_iff_getElem?.mp hc
      obtain ⟨c1, c2⟩ := List.getElem?_eq_some_iff.mp hm
      obtain ⟨d1, d2⟩ := List.getElem?_eq_some_iff.mp hn
      have hmn : m ≠ n := by rintro rfl; exact hne (c2.symm.trans d2)
      rcases Nat.lt_or_gt_of_ne hmn with h | h
      · have := (List.pairwise_iff_getElem.mp ha) m n c1 d1 h
        rw [c2, d2] at this
        exact this x h1 h2
      · have := (List.pairwise_iff_getElem.mp ha) n m d1 c1 h
        rw [c2, d2] at this
        exact this x h2 h1
    have same : (∃ y z, dget s.occurrences a = some y ∧ dget s.occurrences b = some z ∧ y.block.elems = z.block.elems) ↔
        SameBlock bs p q := by
      constructor
      · rintro ⟨y, z, h1, h2, h3⟩
        obtain ⟨m1, m2⟩ := K1.1 y h1
        obtain ⟨n1, n2⟩ := K2.1 z h2
        exact ⟨y.block, m1, m2, by rw [h3]; exact n2⟩
      · rintro ⟨c, hc, h1, h2⟩
        cases hy : dget s.occurrences a with
        | none => exact absurd h1 (K1.2 hy c hc)
        | some y =>
          cases hz : dget s.occurrences b with
          | none => exact absurd h2 (K2.2 hz c hc)
          | some z =>
            obtain ⟨m1, m2⟩ := K1.1 y hy
            obtain ⟨n1, n2⟩ := K2.1 z hz
            have := uniq _ m1 c hc p m2 h1
            have := uniq _ n1 c hc q n2 h2
            exact ⟨y, z, rfl, rfl, by simp_all⟩
    rw [← same]
    unfold ScorerSt.matchTokens
    cases hy : dget s.occurrences a with
    | none => simp
    | some y =>
      cases hz : dget s.occurrences b with
      | none => simp
      | some z =>
        by_cases he : y.block.elems = z.block.elems
        · cases pf with
          | none => simp [he]
          | some f => by_cases hf : f a.data b.data <;> simp [he, hf]
        · simp [he]
  · have h0 : dget s.occurrences a = none := k3 a ha
    unfold ScorerSt.matchTokens
    rw [h0]
    refine ⟨rfl, ?_⟩
    cases dget s.occurrences b <;> rfl

/-- C94, the occurrences: the occurrences of the blocks in a witness are in the order of their positions, they lie within the witness, and
together they cover exactly the positions of the witness that belong to a block. -/
theorem C94_occurrences (hv : Valid ws) : ∃ ti, mkTokenIndex ws = .ok ti ∧ ∀ (k : Nat) (w : Witness), ws[k]? = some w →
    ∀ s : ScorerSt, s.blocks ≠ [] → ∃ os, blockWitness ti s w.sigil = .ok (s, os) ∧
      os.Pairwise (fun o u => o.range.1 ≤ u.range.1) ∧
      (∀ o ∈ os, o.block ∈ s.blocks ∧ startOf ws k ≤ o.range.1 ∧ o.range.1 < o.range.2 ∧
        o.range.2 ≤ startOf ws k + w.tokens.length) ∧
      (∀ b ∈ s.blocks, ∀ i, (i ∈ b.elems ∧ startOf ws k ≤ i ∧ i < startOf ws k + w.tokens.length) ↔
        ∃ o ∈ os, o.block = b ∧ o.range.1 ≤ i ∧ i < o.range.2) := by
  obtain ⟨ti, hti, h2, L, _⟩ := mkTokenIndex_ok hv.tokens hv.ne hv.sigla
  refine ⟨ti, hti, fun k w hw s hs => ?_⟩
  obtain ⟨y, hy⟩ : ∃ y, (indexed 0 ws)[k]? = some y := by
    cases hn : (indexed 0 ws)[k]? with
    | some y => exact ⟨y, rfl⟩
    | none =>
      have h6 : ws.length ≤ k := by rw [← indexed_length 0 ws]; exact List.getElem?_eq_none_iff.mp hn
      rw [List.getElem?_eq_none_iff.mpr h6] at hw
      simp at hw
  obtain ⟨z, hz, hσ, he⟩ := indexed_strs ws hy
  rw [hw] at hz
  cases hz
  have hr := L.range k y (by rw [h2]; exact hy)
  have hlen : y.tokens.length = w.tokens.length := by simpa using congrArg List.length he
  rw [h2, off_indexed, hσ, hlen, off_eq_startOf] at hr
  refine ⟨sortByKey (fun o => (o.range.1 : Int)) (occurrencesIn s.blocks (startOf ws k, startOf ws k + w.tokens.length)),
    ?_, ?_, ?_, ?_⟩
  · unfold blockWitness
    rw [hr, bind_ok, if_neg hs]
    rfl
  · exact (sortByKey_sorted _).imp (fun h => by simpa using h)
  · intro o ho
    rw [mem_sortByKey] at ho
    obtain ⟨m1, m2, m3⟩ := mem_occurrencesIn ho
    have a1 := m3 o.range.1 (Nat.le_refl _) m2
    have a2 := m3 (o.range.2 - 1) (by omega) (by omega)
    simp only at a1 a2
    exact ⟨m1, a1.2.1, m2, by omega⟩
  · intro b hb i
    constructor
    · rintro ⟨h1, h3, h4⟩
      obtain ⟨o, ho, h5⟩ := exists_occurrencesIn (r := (startOf ws k, startOf ws k + w.tokens.length)) hb h1 h3 h4
      exact ⟨o, mem_sortByKey.mpr ho, h5⟩
    · rintro ⟨o, ho, rfl, h3, h4⟩
      obtain ⟨_, _, m3⟩ := mem_occurrencesIn (mem_sortByKey.mp ho)
      exact m3 i h3 h4

/-- Two witnesses with the same two words. The repeated text "a b" is at the positions 0, 1 and 3, 4 of the token array. -/
def sameTwoWords : List Witness := [wordsWitness "A" ["a", "b"], wordsWitness "B" ["a", "b"]]

/-- The block of the repeated text. -/
def repeatedText : RSet := ⟨[0, 1, 3, 4], none⟩

example : Valid sameTwoWords ∧ [repeatedText] ≠ [] ∧ Apart [repeatedText] :=
  ⟨valid_of_check (by decide) (by decide) (by decide) (by decide), by simp, List.pairwise_singleton _ _⟩

/-- C94, the block is right: all tokens are in it, and it consists of the two occurrences of the longest repeated text. -/
theorem C94_repeatedText : OccursAt sameTwoWords 0 ["a".toList, "b".toList] ∧ OccursAt sameTwoWords 3 ["a".toList, "b".toList] ∧
    repeatedText.elems = [0, 0 + 1] ++ [3, 3 + 1] := by
  refine ⟨⟨0, 0, _, rfl, by decide, by decide, by decide⟩, ⟨1, 0, _, rfl, by decide, by decide, by decide⟩, rfl⟩

/-- C94, what the answer does not mean: also with the right blocks `match` reports a full match of tokens with different strings, for a
block does not tell which of its positions correspond to each other. -/
theorem C94_different_words : ∃ ti s, mkTokenIndex sameTwoWords = .ok ti ∧ (ScorerSt.mk [repeatedText] []).prepareAll ti ti.ws = .ok s ∧
    ∃ w ∈ ti.ws, ∃ x ∈ ti.ws, ∃ a ∈ w.tokens, ∃ b ∈ x.tokens, w.sigil ≠ x.sigil ∧ a.str ≠ b.str ∧ s.matchTokens none a b = .full := by
  have hv : Valid sameTwoWords := valid_of_check (by decide) (by decide) (by decide) (by decide)
  obtain ⟨ti, e1, h⟩ := C94_same_block hv (bs := [repeatedText]) (by simp) (List.pairwise_singleton _ _)
  obtain ⟨t, e2, h2, L, _⟩ := mkTokenIndex_ok hv.tokens hv.ne hv.sigla
  rw [e1] at e2
  cases e2
  obtain ⟨s, e3, h3, _⟩ := h ti.ws (fun w hw => hw)
  have h0 : ti.ws[0]? = some (indexed 0 sameTwoWords)[0] := by rw [h2]; rfl
  have h1 : ti.ws[1]? = some (indexed 0 sameTwoWords)[1] := by rw [h2]; rfl
  refine ⟨ti, s, e1, e3, _, List.mem_of_getElem? h0, _, List.mem_of_getElem? h1, (indexed 0 sameTwoWords)[0].tokens[0], by simp,
    (indexed 0 sameTwoWords)[1].tokens[1], by simp, by decide, by decide, ?_⟩
  exact ((h3 _ (List.mem_of_getElem? h0) _ (List.mem_of_getElem? h1) _ (by simp) _ (by simp) 0 4 (by decide) (by decide) none).1).mpr
    ⟨⟨repeatedText, by simp, by decide, by decide⟩, by simp⟩

end CollateX
