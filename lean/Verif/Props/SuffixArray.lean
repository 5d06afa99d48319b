import Verif.Proofs.Valid
/-
Properties of the suffix array, the LCP array and the blocks: C08 – C12.
-/

namespace CollateX

theorem strLt_iff : ∀ (a b : Str), strLt a b = true ↔ Spec.StrLt a b
  | [], [] => by simp [strLt, Spec.StrLt]
  | [], b :: bs => by simp [strLt, Spec.StrLt]
  | a :: as, [] => by simp [strLt, Spec.StrLt]
  | a :: as, b :: bs => by
    have ih := strLt_iff as bs
    simp only [strLt, Bool.or_eq_true, decide_eq_true_eq, Bool.and_eq_true, beq_iff_eq, ih]
    unfold Spec.StrLt
    constructor
    · rintro (h | ⟨h1, h2⟩)
      · exact .rel h
      · rw [char_toNat_inj h1]; exact .cons h2
    · intro h
      cases h with
      | rel h => exact Or.inl h
      | cons h => exact Or.inr ⟨rfl, h⟩

theorem numbered_none {strings : List Str} {i : Nat} (h : strings.length ≤ i) :
    rd ((strings.map (tokId (sortedSet strings))) ++ [0, 0, 0]) i = 0 := by
  rw [rd_string, List.getElem?_eq_none h]

theorem slt_seqLt (strings : List Str) {i j : Nat}
    (h : SLt (rd ((strings.map (tokId (sortedSet strings))) ++ [0, 0, 0])) i j) :
    Spec.SeqLt (strings.drop i) (strings.drop j) := by
  obtain ⟨k, h1, h2⟩ := h
  induction k generalizing i j with
  | zero =>
    rw [Nat.add_zero, Nat.add_zero, rd_string, rd_string] at h2
    cases hj : strings[j]? with
    | none => rw [hj] at h2; simp at h2
    | some y =>
      obtain ⟨hjl, hje⟩ := List.getElem?_eq_some_iff.mp hj
      rw [List.drop_eq_getElem_cons hjl, hje]
      cases hi : strings[i]? with
      | none => rw [List.drop_eq_nil_of_le (List.getElem?_eq_none_iff.mp hi)]; exact .nil
      | some x =>
        obtain ⟨hil, hie⟩ := List.getElem?_eq_some_iff.mp hi
        rw [List.drop_eq_getElem_cons hil, hie]
        rw [hi, hj] at h2
        refine .rel ((strLt_iff _ _).mp ?_)
        exact (tokId_lt (List.mem_of_getElem? hi) (List.mem_of_getElem? hj)).mp h2
  | succ k ih =>
    have h0 := h1 0 (by omega)
    rw [Nat.add_zero, Nat.add_zero] at h0
    have hrec := ih (i := i + 1) (j := j + 1) (fun m hm => by
      have := h1 (m + 1) (by omega)
      rwa [show i + (m + 1) = i + 1 + m by omega, show j + (m + 1) = j + 1 + m by omega] at this)
      (by rwa [show i + 1 + k = i + (k + 1) by omega, show j + 1 + k = j + (k + 1) by omega])
    rw [rd_string, rd_string] at h0
    cases hj : strings[j]? with
    | none =>
      have := List.getElem?_eq_none_iff.mp hj
      rw [numbered_none (show strings.length ≤ j + (k + 1) by omega)] at h2
      omega
    | some y =>
      obtain ⟨hjl, hje⟩ := List.getElem?_eq_some_iff.mp hj
      cases hi : strings[i]? with
      | none =>
        rw [hi, hj] at h0
        simp [tokId] at h0
      | some x =>
        obtain ⟨hil, hie⟩ := List.getElem?_eq_some_iff.mp hi
        rw [hi, hj] at h0
        have := tokId_inj (List.mem_of_getElem? hi) (List.mem_of_getElem? hj) h0
        rw [List.drop_eq_getElem_cons hil, List.drop_eq_getElem_cons hjl, hie, hje, this]
        exact .cons hrec

/-- C08. For any sequence of at least two strings the suffix array lists every position exactly once, and the suffixes at
these positions are in strictly increasing lexicographic order. -/
theorem C08_suffix_array_sorted (strings : List Str) (h : 2 ≤ strings.length) :
    (mkSuffixArray strings).SA.Perm (List.range strings.length) ∧
    (mkSuffixArray strings).SA.Pairwise (fun i j => Spec.SeqLt (strings.drop i) (strings.drop j)) := by
  obtain ⟨h1, h2⟩ := mkSuffixArray_sorted strings h
  exact ⟨h1, h2.imp (fun hs => slt_seqLt strings hs)⟩

example : 2 ≤ [S "b", S "a", S "n", S "a", S "n", S "a"].length ∧
    (mkSuffixArray [S "b", S "a", S "n", S "a", S "n", S "a"]).SA = [5, 3, 1, 0, 4, 2] := by decide +kernel

/-- C09. If the first `n` entries of `a` are indices into `r` and their keys do not exceed `K`, the radix pass writes
to the first `n` entries of `b` a rearrangement of those entries, sorted by key, entries with equal keys in their old order; the
rest of `b` is unaltered. -/
theorem C09_radix_pass_stable_sort (a b r : List Nat) (n K : Nat) (hn : n ≤ a.length) (hb : n ≤ b.length)
    (hr : ∀ x ∈ a.take n, ∃ k, r[x]? = some k ∧ k ≤ K) :
    ∃ out, radixPass a b r n K = out ++ b.drop n ∧ out.Perm (a.take n) ∧
      out.Pairwise (fun x y => r.getD x 0 ≤ r.getD y 0) ∧
      ∀ k, out.filter (fun x => r.getD x 0 = k) = (a.take n).filter (fun x => r.getD x 0 = k) := by
  have hK : ∀ x ∈ a.take n, rd r x ≤ K := by
    intro x hx
    obtain ⟨k, h1, h2⟩ := hr x hx
    rw [rd_eq h1]; exact h2
  refine ⟨_, radixPass_eq a b r n K hn hb hK, bucketSort_perm _ _ _ hK, ?_, ?_⟩
  · have := bucketSort_pairwise (rd r) K (a.take n) (R := fun _ _ => True) (List.pairwise_of_forall (fun _ _ => trivial))
    exact this.imp (fun h => by rcases h with h | h <;> (simp only [rd] at h; omega))
  · intro k
    by_cases hk : k ≤ K
    · exact bucketSort_filter (rd r) K (a.take n) k hk
    · have h0 : ∀ l : List Nat, (∀ x ∈ l, rd r x ≤ K) → l.filter (fun x => r.getD x 0 = k) = [] := by
        intro l hl
        refine List.filter_eq_nil_iff.mpr (fun x hx => ?_)
        have := hl x hx
        simp only [rd] at this
        simp only [decide_eq_true_eq]
        omega
      rw [h0 _ hK, h0]
      intro x hx
      exact hK x ((bucketSort_perm _ _ _ hK).mem_iff.mp hx)

example : radixPass [0, 1, 2, 3] [9, 9, 9, 9, 9] [2, 1, 2, 0] 4 2 = [3, 1, 0, 2, 9] := by decide +kernel

/-- C10. The LCP array has one entry per entry of the suffix array; the first is 0, the others are the length of the longest
common prefix of the suffix and its predecessor in the suffix array. -/
theorem C10_lcp_array (strings : List Str) (h : 2 ≤ strings.length) :
    (mkSuffixArray strings).LCP.length = strings.length ∧ (mkSuffixArray strings).LCP[0]? = some 0 ∧
    ∀ i p q : Nat, (mkSuffixArray strings).SA[i]? = some p → (mkSuffixArray strings).SA[i + 1]? = some q →
      ∃ L, (mkSuffixArray strings).LCP[i + 1]? = some L ∧ Spec.IsLCP (strings.drop p) (strings.drop q) L := by
  have F := saFacts strings h
  have hl : (mkSuffixArray strings).LCP.length = (mkSuffixArray strings).SA.length := lcpArray_length _ _
  have hn := F.length
  refine ⟨by omega, ?_, ?_⟩
  · have h0 := lcpArray_zero (mkSuffixArray strings).string (mkSuffixArray strings).SA
    have : (mkSuffixArray strings).LCP[0]? = some (rd (mkSuffixArray strings).LCP 0) := SAFacts.rd_eq' (by omega)
    rw [this]
    exact congrArg some h0
  · intro i p q hp hq
    have hi := (List.getElem?_eq_some_iff.mp hq).1
    have hps := F.lt (i := i) (by omega)
    have hqs := F.lt (i := i + 1) hi
    rw [rd_eq hp] at hps
    rw [rd_eq hq] at hqs
    refine ⟨rd (mkSuffixArray strings).LCP (i + 1), SAFacts.rd_eq' (by omega), ?_⟩
    have hsucc := lcpArray_succ (mkSuffixArray strings).string (mkSuffixArray strings).SA i hi
    rw [show rd (mkSuffixArray strings).LCP (i + 1) = _ from hsucc, rd_eq hp, rd_eq hq]
    obtain ⟨s1, s2, s3, s4⟩ := longestCommonPrefix_spec (mkSuffixArray strings).string p q
    have hsl : (mkSuffixArray strings).string.length = strings.length := by simp [mkSuffixArray]
    rw [hsl] at s2 s3 s4
    have hext : ∀ L, p + L ≤ strings.length → q + L ≤ strings.length →
        (Share (rd (mkSuffixArray strings).string) p q L ↔ (strings.drop p).take L = (strings.drop q).take L) := by
      intro L h1 h2
      refine (share_iff h1 h2).trans ?_
      constructor
      · intro hall
        apply List.ext_getElem?
        intro m
        simp only [List.getElem?_take, List.getElem?_drop]
        split
        · exact hall m (by assumption)
        · rfl
      · intro he m hm
        have := congrArg (fun l => l[m]?) he
        simpa [List.getElem?_take, List.getElem?_drop, hm] using this
    constructor
    · rw [List.length_drop]; omega
    · rw [List.length_drop]; omega
    · exact (hext _ (by omega) (by omega)).mp s1
    · intro M h1 h2 h3
      rw [List.length_drop] at h1 h2
      exact s4 M ((hext M (by omega) (by omega)).mpr h3) h1 h2

example : (mkSuffixArray [S "b", S "a", S "n", S "a", S "n", S "a"]).LCP = [0, 1, 3, 0, 0, 2] := by decide +kernel

/-! ### Blocks -/

section
variable {ws : List Witness} {ti : TokenIndex}

theorem indexed_at (hw : ti.ws = indexed 0 ws) {k : Nat} {w : Witness} (h : ti.ws[k]? = some w) :
    ∃ w0, ws[k]? = some w0 ∧ w.tokens.map Token.str = w0.tokens.map Token.str ∧ off ti.ws k = Spec.startOf ws k := by
  rw [hw] at h ⊢
  obtain ⟨w0, h1, _, h3⟩ := indexed_strs ws h
  refine ⟨w0, h1, h3, ?_⟩
  rw [off_indexed, off_eq_startOf]

theorem at_indexed (hw : ti.ws = indexed 0 ws) {k : Nat} {w0 : Witness} (h : ws[k]? = some w0) :
    ∃ w, ti.ws[k]? = some w ∧ w.tokens.map Token.str = w0.tokens.map Token.str ∧ off ti.ws k = Spec.startOf ws k := by
  have hk : k < ti.ws.length := by rw [hw, indexed_length]; exact (List.getElem?_eq_some_iff.mp h).1
  obtain ⟨w1, h1, h2, h3⟩ := indexed_at hw (List.getElem?_eq_getElem hk)
  rw [h] at h1
  obtain rfl := Option.some.inj h1
  exact ⟨_, List.getElem?_eq_getElem hk, h2, h3⟩

/-- An occurrence, in terms of the token array. -/
theorem occursAt_iff (L : Layout ti) (hw : ti.ws = indexed 0 ws) {p : Nat} {s : List Str} (hs : s ≠ []) :
    Spec.OccursAt ws p s ↔ ∃ (k : Nat) (w : Witness), ti.ws[k]? = some w ∧ off ti.ws k ≤ p ∧
      p + s.length ≤ off ti.ws k + w.tokens.length ∧ ∀ i : Nat, i < s.length → (ti.arr.map Token.str)[p + i]? = s[i]? := by
  have hpos : 0 < s.length := List.length_pos_iff.mpr hs
  have harr : ∀ (k : Nat) (w : Witness), ti.ws[k]? = some w → ∀ j : Nat, j < w.tokens.length →
      (ti.arr.map Token.str)[off ti.ws k + j]? = (w.tokens.map Token.str)[j]? := by
    intro k w h j hj
    have := L.arr_tok k j w _ h (List.getElem?_eq_getElem hj)
    rw [List.getElem?_map, this, List.getElem?_map, List.getElem?_eq_getElem hj]
  constructor
  · rintro ⟨k, i, w0, h1, h2, h3, h4⟩
    obtain ⟨w, g1, g2, g3⟩ := at_indexed hw h1
    have hlen := h4.length_le
    have hl := congrArg List.length g2
    simp only [List.length_drop, List.length_map] at hlen hl
    refine ⟨k, w, g1, by omega, by omega, fun j hj => ?_⟩
    rw [h2, ← g3, Nat.add_assoc, harr k w g1 (i + j) (by omega), g2]
    obtain ⟨rest, hr⟩ := h4
    have : ((w0.tokens.map Token.str).drop i)[j]? = s[j]? := by
      rw [← hr, List.getElem?_append_left hj]
    rw [List.getElem?_drop] at this
    exact this
  · rintro ⟨k, w, h1, h2, h3, h4⟩
    obtain ⟨w0, g1, g2, g3⟩ := indexed_at hw h1
    have hl := congrArg List.length g2
    simp only [List.length_map] at hl
    refine ⟨k, p - off ti.ws k, w0, g1, by omega, by omega, ?_⟩
    rw [List.prefix_iff_eq_take]
    apply List.ext_getElem?
    intro j
    rw [List.getElem?_take]
    split
    · rename_i hj
      rw [← h4 j hj, List.getElem?_drop, ← g2]
      have := harr k w h1 (p - off ti.ws k + j) (by omega)
      rw [← this]
      congr 1
      omega
    · rw [List.getElem?_eq_none (by omega)]

/-- C11. For valid input, every block has positive length and at least two different occurrences, which are all
occurrences of one and the same sequence of token strings, each inside one witness. -/
theorem C11_blocks_sound (hv : Spec.Valid ws) :
    ∃ ti, mkTokenIndex ws = .ok ti ∧ ∀ b ∈ ti.blocks, 0 < b.length ∧
      ∃ ps s, b.instances ti.SA = .ok ps ∧ 2 ≤ ps.length ∧ ps.Nodup ∧ s.length = b.length ∧
        ∀ p ∈ ps, Spec.OccursAt ws p s := by
  obtain ⟨ti, h1, h2, L, _, _, F, h5, h6⟩ := mkTokenIndex_ok hv.tokens hv.ne hv.sigla
  have B := blocksOK_of L F h5 h6 (by rw [h2]; exact noCollision_indexed hv.noCollision)
  refine ⟨ti, h1, fun b hb => ?_⟩
  obtain ⟨b1, b2, b3⟩ := F.bounds b hb
  have hfirst : rd ti.SA b.start ∈ b.occs ti.SA := mem_occs.mpr ⟨b.start, by omega, by omega, SAFacts.rd_eq' (by omega)⟩
  set p0 := rd ti.SA b.start with hp0
  have hin := F.inside b hb p0 hfirst
  refine ⟨b1, b.occs ti.SA, ((ti.arr.map Token.str).drop p0).take b.length, h5 b hb, ?_, ?_, ?_, ?_⟩
  · unfold Block.occs
    rw [List.length_take, List.length_drop]
    omega
  · unfold Block.occs
    have hnd : ti.SA.Nodup := by
      rw [List.nodup_iff_pairwise_ne, List.pairwise_iff_getElem]
      intro i j hi hj hij he
      have := F.inj i j ti.SA[i] (List.getElem?_eq_getElem hi) (by rw [he]; exact List.getElem?_eq_getElem hj)
      omega
    exact (hnd.sublist (List.drop_sublist _ _)).sublist (List.take_sublist _ _)
  · rw [List.length_take, List.length_drop]; omega
  · intro p hp
    have hslen : (((ti.arr.map Token.str).drop p0).take b.length).length = b.length := by
      rw [List.length_take, List.length_drop]; omega
    rw [occursAt_iff L h2 (by intro h0; rw [h0] at hslen; simp at hslen; omega)]
    obtain ⟨k, w, g1, g2, g3⟩ := B.inwit b hb p hp
    refine ⟨k, w, g1, g2, by rw [hslen]; exact g3, ?_⟩
    intro i hi
    rw [hslen] at hi
    rw [F.same b hb p hp p0 hfirst i hi, List.getElem?_take_of_lt hi, List.getElem?_drop]

/-- C12. For valid input: if a sequence of token strings occurs at two different positions and cannot be extended to the right at
both, then there is a block of its length that has both positions among its occurrences. -/
theorem C12_blocks_complete (hv : Spec.Valid ws) :
    ∃ ti, mkTokenIndex ws = .ok ti ∧ ∀ (s : List Str) (p q : Nat), s ≠ [] → p ≠ q →
      Spec.OccursAt ws p s → Spec.OccursAt ws q s →
      (¬ ∃ c, Spec.OccursAt ws p (s ++ [c]) ∧ Spec.OccursAt ws q (s ++ [c])) →
      ∃ b ∈ ti.blocks, b.length = s.length ∧ ∃ ps, b.instances ti.SA = .ok ps ∧ p ∈ ps ∧ q ∈ ps := by
  obtain ⟨ti, h1, h2, L, _, _, F, h5, h6⟩ := mkTokenIndex_ok hv.tokens hv.ne hv.sigla
  have hc : NoCollision ti.ws := by rw [h2]; exact noCollision_indexed hv.noCollision
  refine ⟨ti, h1, fun s p q hs hpq hp hq hmax => ?_⟩
  obtain ⟨k, w, p1, p2, p3, p4⟩ := (occursAt_iff L h2 hs).mp hp
  obtain ⟨l, x, q1, q2, q3, q4⟩ := (occursAt_iff L h2 hs).mp hq
  have hend : ∀ (k : Nat) (w : Witness), ti.ws[k]? = some w → off ti.ws k + w.tokens.length ≤ ti.arr.length := by
    intro k w hw
    have h3 := off_add_lt_total ti.ws k w hw
    have h4 := L.len
    omega
  have hpe := hend k w p1
  have hqe := hend l x q1
  -- a position at the end of a witness is a separator, different from any other string
  have hsep : ∀ (a b : Nat) (k l : Nat) (w x : Witness), a ≠ b → ti.ws[k]? = some w → off ti.ws k ≤ a →
      a = off ti.ws k + w.tokens.length → a < ti.arr.length → b < ti.arr.length →
      (ti.arr.map Token.str)[a]? ≠ (ti.arr.map Token.str)[b]? := by
    intro a b k l w x hab hw ha1 ha2 ha hb he
    obtain ⟨k', w', g1, g2, ⟨t, g3, g4, g5⟩ | ⟨g3, g4, g5⟩⟩ := L.position ha
    · have := decode_unique ti.ws a k k' w w' hw g1 (by omega) (by omega) (by omega) (by omega)
      subst this
      rw [hw] at g1
      obtain rfl := Option.some.inj g1
      omega
    · obtain ⟨l', x', f1, f2, ⟨t, f3, f4, f5⟩ | ⟨f3, f4, f5⟩⟩ := L.position hb
      · rw [List.getElem?_map, g5, List.getElem?_map, f5] at he
        simp only [Option.map_some, Option.some.injEq] at he
        exact hc x' (List.mem_of_getElem? f1) t (List.mem_of_getElem? f4) k' g4 he.symm
      · rw [List.getElem?_map, g5, List.getElem?_map, f5] at he
        simp only [Option.map_some, Option.some.injEq] at he
        have := markerStr_inj he
        subst this
        rw [g1] at f1
        obtain rfl := Option.some.inj f1
        omega
  have hspos : 0 < s.length := List.length_pos_iff.mpr hs
  obtain ⟨b, hb, c1, c2, c3⟩ := F.complete p q s.length hpq hspos
    (by rw [List.length_map]; omega) (by rw [List.length_map]; omega)
    (fun i hi => by rw [p4 i hi, q4 i hi]) (by
      intro hpl hql
      rw [List.length_map] at hpl hql
      by_cases hpw : p + s.length = off ti.ws k + w.tokens.length
      · exact hsep (p + s.length) (q + s.length) k l w x (by omega) p1 (by omega) hpw hpl hql
      · by_cases hqw : q + s.length = off ti.ws l + x.tokens.length
        · exact (hsep (q + s.length) (p + s.length) l k x w (by omega) q1 (by omega) hqw hql hpl).symm
        · intro he
          obtain ⟨c, hcp⟩ : ∃ c, (ti.arr.map Token.str)[p + s.length]? = some c :=
            ⟨_, List.getElem?_eq_getElem (by rw [List.length_map]; exact hpl)⟩
          have ext : ∀ (a k : Nat) (w : Witness), ti.ws[k]? = some w → off ti.ws k ≤ a →
              a + s.length < off ti.ws k + w.tokens.length → (∀ i, i < s.length → (ti.arr.map Token.str)[a + i]? = s[i]?) →
              (ti.arr.map Token.str)[a + s.length]? = some c → Spec.OccursAt ws a (s ++ [c]) := by
            intro a k w a1 a2 a3 a4 a5
            rw [occursAt_iff L h2 (by simp)]
            refine ⟨k, w, a1, a2, by rw [List.length_append]; simp only [List.length_cons, List.length_nil]; omega, fun i hi => ?_⟩
            simp only [List.length_append, List.length_cons, List.length_nil] at hi
            by_cases hil : i < s.length
            · rw [a4 i hil, List.getElem?_append_left hil]
            · have : i = s.length := by omega
              subst this
              rw [a5]
              simp
          exact hmax ⟨c, ext p k w p1 p2 (by omega) p4 hcp, ext q l x q1 q2 (by omega) q4 (by rw [← he]; exact hcp)⟩)
  exact ⟨b, hb, c1, _, h5 b hb, c2, c3⟩

end

/-- Two witnesses that meet the hypotheses of C11 and C12: their blocks `quick fox` and `the`. -/
def exampleWitnesses : List Witness :=
  [⟨S "A", [⟨S "the", []⟩, ⟨S "quick", []⟩, ⟨S "fox", []⟩]⟩, ⟨S "B", [⟨S "quick", []⟩, ⟨S "fox", []⟩, ⟨S "the", []⟩]⟩]

theorem exampleWitnesses_valid : Spec.Valid exampleWitnesses := by
  refine ⟨by decide, by decide, by decide, ?_⟩
  intro w hw t ht hsep
  obtain ⟨i, _, h⟩ := hsep
  have hd : ∀ w ∈ exampleWitnesses, ∀ t ∈ w.tokens, t.str.head? ≠ some '$' := by decide
  exact hd w hw t ht (by rw [h]; rfl)

example : (mkTokenIndex exampleWitnesses).map (fun ti => ti.blocks.map (fun b => (b.length, b.instances ti.SA))) =
    .ok [(1, .ok [2, 5]), (2, .ok [1, 4]), (1, .ok [6, 0])] := by decide +kernel

end CollateX
