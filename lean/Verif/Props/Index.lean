import Verif.Proofs.Valid
import Verif.Model.Collate
import Verif.Model.Kahn
/-
Properties of the token index: C05, C06, and the rejection of degenerate collations (C07).
-/

namespace CollateX

/-- C05. Indexing any non-empty list of non-empty witnesses with distinct sigla succeeds, and:
the token array consists of the witnesses' tokens, in order, with one separator between two witnesses; the range of a
witness is exactly the interval of its tokens; every token knows its position and the siglum of its witness. -/
theorem C05_token_index_layout (ws : List Witness) (hi : ∀ w ∈ ws, w.tokens ≠ [] ∧ w.tokens.length < 1000000000)
    (hne : ws ≠ []) (nd : (ws.map Witness.sigil).Nodup) :
    ∃ st, prepare ws = .ok st ∧
      st.arr.length + 1 = (ws.map (fun w => w.tokens.length + 1)).sum ∧
      st.ws.length = ws.length ∧
      ∀ k w, ws[k]? = some w →
        (∃ w', st.ws[k]? = some w' ∧ w'.sigil = w.sigil ∧ w'.tokens.length = w.tokens.length ∧
          ∀ i t, w.tokens[i]? = some t →
            ∃ t', w'.tokens[i]? = some t' ∧ st.arr[Spec.startOf ws k + i]? = some t' ∧ t'.str = t.str ∧
              dget t'.data .sigil = some (.str w.sigil) ∧
              dget t'.data .pos = some (.nat (Spec.startOf ws k + i))) ∧
        dget st.ranges w.sigil = some (Spec.startOf ws k, Spec.startOf ws k + w.tokens.length) ∧
        (k + 1 < ws.length →
          (st.arr[Spec.startOf ws k + w.tokens.length]?).map Token.str = some ('$' :: natStr k)) := by
  refine ⟨_, prepare_ok ws hi hne, ?_, indexed_length 0 ws, ?_⟩
  · have h1 : total ws = (ws.map (fun w => w.tokens.length + 1)).sum := by
      clear hi hne nd
      induction ws with
      | nil => rfl
      | cons w ws ih => simp [total, ih]
    have h2 : 0 < total ws := by
      cases ws with
      | nil => exact absurd rfl hne
      | cons w ws => simp [total]
    simp only [List.length_dropLast, arrOf_length]
    omega
  · intro k w hw
    have hk : k < ws.length := (List.getElem?_eq_some_iff.mp hw).1
    have htot := off_add_lt_total ws k w hw
    simp only [← off_eq_startOf]
    refine ⟨⟨{ w with tokens := indexTokens w.sigil (off ws k) w.tokens }, ?_, rfl, by simp, ?_⟩, ?_, ?_⟩
    · simp [indexed_getElem?, hw]
    · intro i t ht
      have hil : i < w.tokens.length := (List.getElem?_eq_some_iff.mp ht).1
      refine ⟨indexToken w.sigil (off ws k + i) t, ?_, ?_, rfl, ?_, ?_⟩
      · simp [indexTokens_getElem?, ht]
      · rw [dropLast_getElem? _ _ (by rw [arrOf_length]; omega), arrOf_token 0 0 ws k w hw i hil,
          indexTokens_getElem?, ht]
        simp
      · simp only [indexToken]; rw [dget_dset_ne _ _ (by decide), dget_dset_self]
      · simp only [indexToken, dget_dset_self]
    · simpa using (dget_rangesOf 0 ws [] nd w.sigil).1 k w hw rfl
    · intro hk1
      have := off_lt ws k (k + 1) w hw (by omega) (by omega)
      obtain ⟨x, hx⟩ : ∃ x, ws[k + 1]? = some x := ⟨ws[k + 1], List.getElem?_eq_getElem hk1⟩
      have h2 := off_add_lt_total ws (k + 1) x hx
      rw [dropLast_getElem? _ _ (by rw [arrOf_length]; omega), arrOf_marker 0 0 ws k w hw]
      simp [markerToken, markerStr]

/-- C05: the ranges of two different witnesses are disjoint, and in the order of the witnesses. -/
theorem C05_ranges_disjoint (ws : List Witness) (k l : Nat) (w : Witness) (hw : ws[k]? = some w) (hkl : k < l)
    (hl : l < ws.length) : Spec.startOf ws k + w.tokens.length < Spec.startOf ws l := by
  simp only [← off_eq_startOf]
  exact off_lt ws k l w hw hkl (by omega)

/-- C05 on a concrete input. -/
example : ((prepare [⟨S "A", [⟨S "x", []⟩, ⟨S "y", []⟩]⟩, ⟨S "B", [⟨S "x", []⟩]⟩]).map
    (fun st => (st.arr.map Token.str, st.ranges))) =
    .ok ([S "x", S "y", S "$0", S "x"], [(S "A", (0, 2)), (S "B", (3, 4))]) := by decide +kernel

/-- The two bookkeeping keys. -/
def Spec.Bookkeeping (k : Key) : Prop := k = .sigil ∨ k = .pos

/-- Token `t'` is token `t` up to the two bookkeeping keys. -/
def Spec.SameToken (t t' : Token) : Prop :=
  t'.str = t.str ∧ (∀ k, ¬ Spec.Bookkeeping k → dget t'.data k = dget t.data k) ∧
  (t'.data.map Prod.fst).filter (fun k => k ≠ .sigil ∧ k ≠ .pos)
    = (t.data.map Prod.fst).filter (fun k => k ≠ .sigil ∧ k ≠ .pos)

theorem sameToken_indexToken (s : Str) (p : Nat) (t : Token) : Spec.SameToken t (indexToken s p t) := by
  refine ⟨rfl, ?_, ?_⟩
  · intro k hk
    simp only [Spec.Bookkeeping, not_or] at hk
    simp only [indexToken]
    rw [dget_dset_ne _ _ (Ne.symm hk.2), dget_dset_ne _ _ (Ne.symm hk.1)]
  · have hf : ∀ (d : TokenData) (k : Key) (v : JVal), (k = .sigil ∨ k = .pos) →
        ((dset d k v).map Prod.fst).filter (fun k => k ≠ .sigil ∧ k ≠ .pos)
          = (d.map Prod.fst).filter (fun k => k ≠ .sigil ∧ k ≠ .pos) := by
      intro d k v hk
      rw [keys_dset]
      split
      · rfl
      · rw [List.filter_append]
        rcases hk with rfl | rfl <;> simp
    simp only [indexToken]
    rw [hf _ _ _ (Or.inr rfl), hf _ _ _ (Or.inl rfl)]

/-- The collation `collate` leaves behind is that of the token index. -/
theorem collateRanked_index {env : Env} {ws ws' : Collation} {o : Opts} {g : VGraph} {rk : Ranking}
    (h : collateRanked env ws o = .ok (ws', g, rk)) : ∃ ti, mkTokenIndex ws = .ok ti ∧ ws' = ti.ws := by
  unfold collateRanked at h
  split at h
  · cases h
  · obtain ⟨r, hr, h⟩ := bind_eq_ok.mp h
    obtain ⟨rk1, _, h⟩ := bind_eq_ok.mp h
    obtain ⟨p, _, h⟩ := bind_eq_ok.mp h
    have hw : ws' = r.1.ws := by
      split at h
      · obtain ⟨_, _, h⟩ := bind_eq_ok.mp h
        obtain ⟨_, _, h⟩ := bind_eq_ok.mp h
        injection h with h
        exact (congrArg Prod.fst h).symm
      · injection h with h
        exact (congrArg Prod.fst h).symm
    unfold collateGraph at hr
    obtain ⟨ti, hti, hr⟩ := bind_eq_ok.mp hr
    refine ⟨ti, hti, ?_⟩
    split at hr
    · cases hr
    · obtain ⟨_, _, hr⟩ := bind_eq_ok.mp hr
      obtain ⟨_, _, hr⟩ := bind_eq_ok.mp hr
      injection hr with hr
      rw [hw, ← hr]

/-- C06. After any successful `collate` the user's witnesses are the same witnesses, with the same tokens in the same order,
and each token record differs at most in the keys `_sigil` and `_token_array_position`. -/
theorem C06_only_bookkeeping_keys (env : Env) (ws ws' : Collation) (o : Opts) (g : VGraph) (rk : Ranking)
    (h : collateRanked env ws o = .ok (ws', g, rk)) :
    List.Forall₂ (fun w w' => w'.sigil = w.sigil ∧ List.Forall₂ Spec.SameToken w.tokens w'.tokens) ws ws' := by
  obtain ⟨ti, hti, rfl⟩ := collateRanked_index h
  rw [(mkTokenIndex_prepare hti).2.2.1]
  generalize (0 : Nat) = pos
  clear h hti
  induction ws generalizing pos with
  | nil => exact .nil
  | cons w ws ih =>
    refine .cons ⟨rfl, ?_⟩ (ih _)
    simp only
    generalize w.tokens = ts
    clear ih
    induction ts generalizing pos with
    | nil => exact .nil
    | cons t ts ih => exact .cons (sameToken_indexToken _ _ _) (ih _)

/-- The hypothesis of C06 is satisfiable. -/
example : ∃ r, collateRanked ⟨asciiClass, kahn, fun _ _ => 0⟩ [⟨S "A", [⟨S "x", [(.t, .str (S "x"))]⟩]⟩, ⟨S "B", [⟨S "y", []⟩]⟩] {} = .ok r := by
  exact ⟨_, (by decide +kernel : _ = Except.ok ([⟨S "A", [⟨S "x", [(.t, .str (S "x")), (.sigil, .str (S "A")), (.pos, .nat 0)]⟩]⟩,
    ⟨S "B", [⟨S "y", [(.sigil, .str (S "B")), (.pos, .nat 2)]⟩]⟩],
    { nodes := [(0, ⟨S "start", []⟩), (1, ⟨S "end", []⟩),
        (2, ⟨S "x", [(S "A", [⟨S "x", [(.t, .str (S "x")), (.sigil, .str (S "A")), (.pos, .nat 0)]⟩])]⟩),
        (3, ⟨S "y", [(S "B", [⟨S "y", [(.sigil, .str (S "B")), (.pos, .nat 2)]⟩])]⟩)]
      edges := [⟨0, 2, S "A"⟩, ⟨2, 1, S "A"⟩, ⟨0, 3, S "B"⟩, ⟨3, 1, S "B"⟩], near := [], next := 4 },
    { byVertex := [(0, 0), (2, 1), (3, 1), (1, 2)], byRank := [(0, [0]), (1, [2, 3]), (2, [1])] }))⟩

/-- C07 (a). A collation without witnesses: `collate` raises IndexError, whatever the options (other than `astar`, see C43). -/
theorem C07_no_witnesses (env : Env) (o : Opts) (ha : o.astar = false) : collate env [] o = .error .indexError := by
  simp [collate, collateRanked, ha, collateGraph, mkTokenIndex, prepare_nil, bind, Except.bind]

/-- C07 (b). A collation with an empty witness, at whatever place: `collate` raises AssertionError. -/
theorem C07_empty_witness (env : Env) (ws : Collation) (o : Opts) (ha : o.astar = false)
    (h : ∃ w ∈ ws, w.tokens = []) : collate env ws o = .error .assertionError := by
  have : ¬ Indexable ws := by
    obtain ⟨w, hw, hw2⟩ := h
    intro hi
    exact (hi w hw).1 hw2
  simp [collate, collateRanked, ha, collateGraph, mkTokenIndex, prepare_not_indexable ws this, bind, Except.bind]

example : ∃ w ∈ ([⟨S "A", [⟨S "x", []⟩]⟩, ⟨S "B", []⟩] : Collation), w.tokens = [] := ⟨⟨S "B", []⟩, by simp, rfl⟩

/-- C07, partial. What is rejected: no witnesses at all, or an empty witness anywhere. Missing: the claim also asks that two
witnesses with the same siglum are rejected, which is false (`C07_duplicate_sigla_not_rejected`). -/
theorem C07_degenerate_rejected_partial (env : Env) (ws : Collation) (o : Opts)
    (h : ws = [] ∨ ∃ w ∈ ws, w.tokens = []) : ∃ e, collate env ws o = .error e := by
  cases ha : o.astar with
  | true => exact ⟨.typeError, by simp [collate, collateRanked, ha, bind, Except.bind]⟩
  | false =>
    rcases h with rfl | h
    · exact ⟨_, C07_no_witnesses env o ha⟩
    · exact ⟨_, C07_empty_witness env ws o ha h⟩

/-- A plain-text collation, for examples. -/
def plain (l : List (String × String)) : Collation :=
  l.map (fun p => ⟨S p.1, (tokenize asciiClass (S p.2)).map (plainToken asciiClass)⟩)

/-- The ASCII environment with Kahn's algorithm and a constant similarity, for examples. -/
def demoEnv : Env := ⟨asciiClass, kahn, fun _ _ => 0⟩

/-- The token strings in the rows of a table, for examples. -/
def rowStrings (t : Table) : List (List (Option (List Str))) :=
  t.rows.map (fun r => r.cells.map (Option.map (List.map Token.str)))

/-- C07 (c), negation. Two witnesses with the same siglum are *not* always rejected: with A = "a", B = "b" and again B = "a",
`collate` returns a table in which both rows for B read "b"; the third witness's text is gone. -/
theorem C07_duplicate_sigla_not_rejected :
    ∃ t, collateTable demoEnv (plain [("A", "a"), ("B", "b"), ("B", "a")]) {} = .ok t ∧
      rowStrings t = [[some [S "a"]], [some [S "b"]], [some [S "b"]]] := by
  have h : ((collateTable demoEnv (plain [("A", "a"), ("B", "b"), ("B", "a")]) {}).map rowStrings)
      = .ok [[some [S "a"]], [some [S "b"]], [some [S "b"]]] := by decide +kernel
  cases hc : collateTable demoEnv (plain [("A", "a"), ("B", "b"), ("B", "a")]) {} with
  | error e => rw [hc] at h; cases h
  | ok t => rw [hc] at h; exact ⟨t, rfl, Except.ok.inj h⟩

end CollateX
