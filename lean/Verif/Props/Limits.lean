import Verif.Proofs.Filter
import Verif.Props.Input
import Verif.Props.Table
/-
Properties C44, C45 and C46: claims that do not hold in full. Each has its negation with a concrete collation and the part that
does hold.
-/

namespace CollateX
open Spec

/-! ### C44: the properties filter -/

theorem indexed_visible (ws : List Witness) {l i : Nat} {w : Witness} {t : Token} (hw : (indexed 0 ws)[l]? = some w)
    (ht : w.tokens[i]? = some t) : ∃ t0, tokenAt ws l i = some t0 ∧ visible t = visible t0 ∧ t.str = t0.str ∧
      ((t0.data.map Prod.fst).Nodup → (t.data.map Prod.fst).Nodup) := by
  rw [indexed_getElem?] at hw
  obtain ⟨w0, hw0, rfl⟩ := Option.map_eq_some_iff.mp hw
  simp only at ht
  have key : ∀ (ts : List Token) (pos i : Nat) (t : Token), (indexTokens w0.sigil pos ts)[i]? = some t →
      ∃ t0 p, ts[i]? = some t0 ∧ t = indexToken w0.sigil p t0 := by
    intro ts
    induction ts with
    | nil => intro pos i t h; simp [indexTokens] at h
    | cons a ts ih =>
      intro pos i t h
      cases i with
      | zero =>
        simp only [indexTokens, List.getElem?_cons_zero, Option.some.injEq] at h
        exact ⟨a, pos, rfl, h.symm⟩
      | succ i =>
        simp only [indexTokens, List.getElem?_cons_succ] at h
        simpa using ih _ _ _ h
  obtain ⟨t0, p, h0, rfl⟩ := key _ _ _ _ ht
  exact ⟨t0, by simp [tokenAt, hw0, h0], visible_indexToken _ _ _, rfl,
    fun h => dset_keys_nodup _ _ (dset_keys_nodup _ _ h)⟩

/-- C44, the full claim: if two tokens of different witnesses share a vertex, the filter accepts the pair (of the later
witness's token with the earlier witness's). -/
def Spec.FilterRespected (f : PFilter) (ws ws' : List Witness) (g : VGraph) : Prop :=
  ∀ k l i j v t u, k < l → On ws' g l i v → On ws' g k j v → tokenAt ws l i = some t → tokenAt ws k j = some u →
    f (visible t) (visible u) = true

/-- C44, partial (without segmentation). If token `i` of witness `l` shares a vertex with an earlier witness, then with one of
the earlier witnesses on that vertex (witness `k'`, token `j`), the `d + 1` tokens up to `i` and up to `j` have the same strings
and the filter accepted the token `i` together with the token `j - d`. Missing: `d` need not be 0, that is, the filter is asked
about the first token of a repeated passage and not about the tokens that are matched, and not all witnesses on the vertex are
asked. -/
theorem C44_filter_partial (env : Env) (hts : TopoSpec env.topo) (ws : List Witness) (hv : Valid ws) (hr : Records ws)
    (hs : ∀ w ∈ ws, w.sigil ≠ []) (o : Opts) (ho : ExactMatching o) (hseg : o.segmentation = false) (f : PFilter)
    (hf : o.pfilter = some f) (ws' : List Witness) (g : VGraph) (rk : Ranking)
    (h : collateRanked env ws o = .ok (ws', g, rk)) (k l i j0 : Nat) (v : VId) (hkl : k < l)
    (hl : On ws' g l i v) (hk : On ws' g k j0 v) :
    ∃ (k' j d : Nat) (t u : Token), k' < l ∧ On ws' g k' j v ∧ d ≤ i ∧ d ≤ j ∧
      tokenAt ws l i = some t ∧ tokenAt ws k' (j - d) = some u ∧ f (visible t) (visible u) = true ∧
      ∀ e, e ≤ d → ∃ a c, tokenAt ws k' (j - e) = some a ∧ tokenAt ws l (i - e) = some c ∧ a.str = c.str := by
  obtain ⟨g', ps, rk', rkf, ord, m, h1, C, hask⟩ := collateRanked_inv env hts hv o ho.astar ho.detect ho.near
    (Q := fun ti _ ps => AllAsked f ti.ws ps) (R := fun _ ps => AllAsked f (indexed 0 ws) ps)
    (fun ti hti L B => by
      refine ⟨by rw [hf]; exact allAsked_step L, ?_, fun s ps _ _ h => by rw [← hti]; exact h⟩
      intro w s _ _ l i v us P hP _ hsh
      obtain ⟨k, p, hk, _⟩ := hsh
      have := (List.getElem?_eq_some_iff.mp hP).1
      simp at this; omega)
    (fun h => by rw [hseg] at h; cases h)
  rw [h] at h1
  obtain ⟨rfl, rfl, rfl⟩ : ws' = indexed 0 ws ∧ g = g' ∧ rk = rk' := by
    have := Except.ok.inj h1
    simpa using this
  have hs' := indexed_sigil_ne hs
  -- where a token of the result is
  have hon : ∀ l i v, On (indexed 0 ws) g l i v → ∃ P t, ps[l]? = some P ∧ P.segs[i]? = some (v, [t]) := by
    rintro l i v ⟨w, t, hw, ht, hc⟩
    obtain ⟨P, hP, hPs, hPt⟩ := C.at hw
    have hPm := List.mem_of_getElem? hP
    obtain ⟨Q, hQ, hQs, hQm⟩ := (C.carries hs').mp hc
    obtain rfl := sigil_unique C.ginv hQ hPm (by rw [hQs, hPs])
    obtain ⟨n, hn⟩ := List.getElem?_of_mem hQm
    have hsing := C.single hseg Q hPm
    have hseq : Q.segs.map Prod.snd = w.tokens.map (fun t => [t]) := by
      rw [← hPt]
      unfold WPath.text
      clear hn hQm hPt hQs hPs hP hQ
      generalize Q.segs = l at *
      induction l with
      | nil => rfl
      | cons q l ih =>
        obtain ⟨t, ht⟩ := hsing q (by simp)
        simp only [List.map_cons, List.flatMap_cons, ht, List.cons_append, List.nil_append]
        rw [ih (fun q hq => hsing q (by simp [hq]))]
    have hni : n = i := by
      have e1 : (Q.segs.map Prod.snd)[n]? = some [t] := by rw [List.getElem?_map, hn]; rfl
      rw [hseq, List.getElem?_map] at e1
      obtain ⟨t2, e2, e3⟩ := Option.map_eq_some_iff.mp e1
      simp only [List.cons.injEq, and_true] at e3
      subst e3
      have hnd := hv.tokens_nodup hw
      obtain ⟨a, ha⟩ := List.getElem?_eq_some_iff.mp e2
      obtain ⟨b, hb⟩ := List.getElem?_eq_some_iff.mp ht
      exact (hnd.getElem_inj_iff (hi := a) (hj := b)).mp (by rw [ha, hb])
    subst hni
    exact ⟨Q, t, hP, hn⟩
  obtain ⟨P, t, hP, hPi⟩ := hon l i v hl
  obtain ⟨p, t1, hp, hpj⟩ := hon k j0 v hk
  obtain ⟨k', j, d, w, x, q, t', t2, u, a1, a2, a3, a4, a5, a6, a7, a8, a9, ⟨d1, d2, b1, b2, b3⟩, b4⟩ :=
    hask l i v [t] P hP hPi ⟨k, p, hkl, hp, List.mem_map.mpr ⟨_, List.mem_of_getElem? hpj, rfl⟩⟩
  obtain ⟨t0, c1, c2, _, c3⟩ := indexed_visible ws a7 a8
  obtain ⟨u0, e1, e2, _, e3⟩ := indexed_visible ws a4 a9
  have hrec : ∀ l i t, tokenAt ws l i = some t → (t.data.map Prod.fst).Nodup := by
    intro l i t h
    obtain ⟨w, hw, ht⟩ := Option.bind_eq_some_iff.mp h
    exact hr w (List.mem_of_getElem? hw) t (List.mem_of_getElem? ht)
  rw [filteredData_eq (c3 (hrec _ _ _ c1)) b1, filteredData_eq (e3 (hrec _ _ _ e1)) b2, c2, e2] at b3
  refine ⟨k', j, d, t0, u0, a1, ?_, a2, a3, c1, e1, b3, ?_⟩
  · obtain ⟨q', hq', hq1, hq2⟩ := C.at a4
    rw [a5] at hq'
    obtain rfl := Option.some.inj hq'
    obtain ⟨a, c, f1, _, _⟩ := b4 0 (by omega)
    refine ⟨w, a, a4, f1, (C.carries hs').mpr ⟨q, List.mem_of_getElem? a5, hq1, ?_⟩⟩
    have hsing := C.single hseg q (List.mem_of_getElem? a5)
    have hseq : q.segs.map Prod.snd = w.tokens.map (fun t => [t]) := by
      rw [← hq2]
      unfold WPath.text
      clear a6
      generalize q.segs = l at *
      induction l with
      | nil => rfl
      | cons q l ih =>
        obtain ⟨t, ht⟩ := hsing q (by simp)
        simp only [List.map_cons, List.flatMap_cons, ht, List.cons_append, List.nil_append]
        rw [ih (fun q hq => hsing q (by simp [hq]))]
    have f2 : (q.segs.map Prod.snd)[j]? = some [t2] := by rw [List.getElem?_map, a6]; rfl
    rw [hseq, List.getElem?_map] at f2
    simp only [Nat.sub_zero] at f1
    rw [f1] at f2
    simp only [Option.map_some, Option.some.injEq, List.cons.injEq, and_true] at f2
    rw [f2]
    exact List.mem_of_getElem? a6
  · intro e he
    obtain ⟨a, c, f1, f2, f3⟩ := b4 e he
    obtain ⟨a0, g1, _, g2, _⟩ := indexed_visible ws a4 f1
    obtain ⟨c0, g3, _, g4, _⟩ := indexed_visible ws a7 f2
    exact ⟨a0, c0, g1, g3, by rw [← g2, ← g4, f3]⟩

/-- C44: a filter that accepts nothing keeps the witnesses apart: no vertex has tokens of two witnesses. -/
theorem C44_reject_all_partial (env : Env) (hts : TopoSpec env.topo) (ws : List Witness) (hv : Valid ws) (hr : Records ws)
    (hs : ∀ w ∈ ws, w.sigil ≠ []) (o : Opts) (ho : ExactMatching o) (hseg : o.segmentation = false)
    (hf : o.pfilter = some (fun _ _ => false)) (ws' : List Witness) (g : VGraph) (rk : Ranking)
    (h : collateRanked env ws o = .ok (ws', g, rk)) (k l i j : Nat) (v : VId) (hkl : k ≠ l) :
    ¬ (On ws' g l i v ∧ On ws' g k j v) := by
  rintro ⟨hl, hk⟩
  rcases Nat.lt_or_gt_of_ne hkl with hlt | hlt
  · obtain ⟨_, _, _, _, _, _, _, _, _, _, _, hfalse, _⟩ :=
      C44_filter_partial env hts ws hv hr hs o ho hseg _ hf ws' g rk h k l i j v hlt hl hk
    cases hfalse
  · obtain ⟨_, _, _, _, _, _, _, _, _, _, _, hfalse, _⟩ :=
      C44_filter_partial env hts ws hv hr hs o ho hseg _ hf ws' g rk h l k j i v hlt hk hl
    cases hfalse

/-- A token with one property. -/
def Spec.propToken (s p : String) : Token := ⟨S s, [(.t, .str (S s)), (.other (S "p"), .str (S p))]⟩

/-- Two witnesses `a b`; the tokens `b` have different properties. -/
def filterWitnesses : List Witness :=
  [⟨S "A", [propToken "a" "y", propToken "b" "x"]⟩, ⟨S "B", [propToken "a" "y", propToken "b" "y"]⟩]

/-- The filter that asks for equal properties. -/
def sameProps : PFilter := fun a b => a.filter (fun q => q.1 ≠ .t) == b.filter (fun q => q.1 ≠ .t)

theorem filterWitnesses_valid : Valid filterWitnesses := by
  refine ⟨by decide, by decide, by decide, ?_⟩
  intro w hw t ht hsep
  obtain ⟨i, _, h⟩ := hsep
  have hd : ∀ w ∈ filterWitnesses, ∀ t ∈ w.tokens, t.str.head? ≠ some '$' := by decide
  exact hd w hw t ht (by rw [h]; rfl)

theorem filterWitnesses_records : Records filterWitnesses := by
  unfold Records
  decide

/-- The vertices that carry exactly one token each of two witnesses of the result, and where these tokens are. -/
def sharedTokens (r : List Witness × VGraph × Ranking) (l i k j : Nat) (v : VId) : Bool :=
  match tokenAt r.1 l i, tokenAt r.1 k j, dget r.2.1.nodes v with
  | some t, some u, some x =>
    (r.1[l]?).any (fun w => dget x.tokens w.sigil == some [t]) && (r.1[k]?).any (fun w => dget x.tokens w.sigil == some [u])
  | _, _, _ => false

theorem on_of_sharedTokens {r : List Witness × VGraph × Ranking} {l i k j : Nat} {v : VId}
    (h : sharedTokens r l i k j v = true) : On r.1 r.2.1 l i v ∧ On r.1 r.2.1 k j v := by
  unfold sharedTokens at h
  split at h
  · rename_i t u x h1 h2 h3
    rw [Bool.and_eq_true, Option.any_eq_true, Option.any_eq_true] at h
    obtain ⟨⟨w, hw, hwx⟩, ⟨w2, hw2, hwx2⟩⟩ := h
    simp only [beq_iff_eq] at hwx hwx2
    obtain ⟨_, e1, e2⟩ := Option.bind_eq_some_iff.mp h1
    obtain ⟨_, e3, e4⟩ := Option.bind_eq_some_iff.mp h2
    rw [hw] at e1; rw [hw2] at e3
    obtain rfl := Option.some.inj e1
    obtain rfl := Option.some.inj e3
    exact ⟨⟨w, t, hw, e2, x, h3, hwx⟩, ⟨w2, u, hw2, e4, x, h3, hwx2⟩⟩
  · cases h

/-- C44, negation of the full claim: the filter is not respected. The tokens `b` share a vertex although the filter rejects
them, because the filter was asked about the first tokens of the passage `a b`. -/
theorem C44_filter_not_respected : ∃ (env : Env) (ws : List Witness) (o : Opts) (f : PFilter) (ws' : List Witness) (g : VGraph)
    (rk : Ranking), TopoSpec env.topo ∧ Valid ws ∧ Records ws ∧ (∀ w ∈ ws, w.sigil ≠ []) ∧ ExactMatching o ∧
      o.segmentation = false ∧ o.pfilter = some f ∧ collateRanked env ws o = .ok (ws', g, rk) ∧ ¬ FilterRespected f ws ws' g := by
  have hk : (collateRanked exampleEnv filterWitnesses { segmentation := false, pfilter := some sameProps }).map
      (fun r => sharedTokens r 1 1 0 1 3) = .ok true := by decide +kernel
  cases hr : collateRanked exampleEnv filterWitnesses { segmentation := false, pfilter := some sameProps } with
  | error e => rw [hr] at hk; cases hk
  | ok r =>
    rw [hr] at hk
    replace hk := Except.ok.inj hk
    obtain ⟨ws', g, rk⟩ := r
    refine ⟨exampleEnv, filterWitnesses, { segmentation := false, pfilter := some sameProps }, sameProps, ws', g, rk, kahn_spec,
      filterWitnesses_valid, filterWitnesses_records, by decide, ⟨rfl, rfl, rfl⟩, rfl, rfl, hr, ?_⟩
    intro hresp
    obtain ⟨h1, h2⟩ := on_of_sharedTokens hk
    have := hresp 0 1 1 1 3 (propToken "b" "y") (propToken "b" "x") (by omega) h1 h2 rfl rfl
    revert this
    decide

/-- The hypotheses of `C44_filter_partial` are met: the tokens `a`, which the filter accepts, share a vertex. -/
example : TopoSpec exampleEnv.topo ∧ Valid filterWitnesses ∧ Records filterWitnesses ∧ (∀ w ∈ filterWitnesses, w.sigil ≠ []) ∧
    (collateRanked exampleEnv filterWitnesses { segmentation := false, pfilter := some sameProps }).map
      (fun r => sharedTokens r 1 0 0 0 2) = .ok true :=
  ⟨kahn_spec, filterWitnesses_valid, filterWitnesses_records, by decide, by decide +kernel⟩

/-! ### C45: separators -/

/-- C45, the full claim: every input with a witness, no empty witness and distinct sigla can be collated. -/
def Spec.NoTokenCollides (env : Env) (o : Opts) : Prop :=
  ∀ ws : List Witness, ws ≠ [] → (∀ w ∈ ws, w.tokens ≠ [] ∧ w.tokens.length < 1000000000) → (ws.map Witness.sigil).Nodup →
    ∃ r, collateRanked env ws o = .ok r

/-- The token `$0` of the second witness is the separator after the first. -/
def dollarWitnesses : List Witness := [⟨S "A", [⟨S "a", []⟩]⟩, ⟨S "B", [⟨S "$0", []⟩]⟩]

/-- C45, negation of the full claim: a pre-tokenised witness with the token `$0` makes `collate` fail. -/
theorem C45_separator_collides : ∃ (env : Env) (o : Opts), TopoSpec env.topo ∧ ExactMatching o ∧ ¬ NoTokenCollides env o := by
  refine ⟨exampleEnv, {}, kahn_spec, ⟨rfl, rfl, rfl⟩, ?_⟩
  intro h
  obtain ⟨r, hr⟩ := h dollarWitnesses (by decide) (by decide) (by decide)
  have he : (collateRanked exampleEnv dollarWitnesses {}).map (fun _ => ()) = .error .exception := by decide +kernel
  rw [hr] at he
  cases he

theorem digits_word {cc : CharClass} (hd : ∀ c, c.isDigit = true → cc.word c = true) (i : Nat) :
    ∃ c ∈ (toString i).toList, cc.word c = true := by
  have h1 : (toString i).toList = Nat.toDigits 10 i := by
    show (String.ofList (Nat.toDigits 10 i)).toList = _
    rw [String.toList_ofList]
  rw [h1]
  cases h : Nat.toDigits 10 i with
  | nil => exact absurd h Nat.toDigits_ne_nil
  | cons c l =>
    exact ⟨c, by simp, hd c (Nat.isDigit_of_mem_toDigits (b := 10) (n := i) (by omega) (by omega) (by rw [h]; simp))⟩

theorem plain_not_separator {cc : CharClass} (hdol : cc.word '$' = false) (hd : ∀ c, c.isDigit = true → cc.word c = true)
    {s : Str} (hs : WordTok cc s ∨ PunctTok cc s) (n : Nat) : ¬ IsSeparator n (rstrip cc s) := by
  rintro ⟨i, _, h⟩
  obtain ⟨⟨b, hb, _⟩, _⟩ := rstrip_spec cc s
  rw [h] at hb
  rcases hs with ⟨a, c, he, hne, ha, _⟩ | ⟨_, hp⟩
  · cases a with
    | nil => exact hne rfl
    | cons x a =>
      rw [hb] at he
      simp only [List.cons_append, List.cons.injEq] at he
      have := ha x (by simp)
      rw [← he.1, hdol] at this
      cases this
  · obtain ⟨c, hc, hw⟩ := digits_word hd i
    have := hp c (by rw [hb]; simp only [List.cons_append, List.mem_cons, List.mem_append]; exact Or.inr (Or.inl hc))
    rw [hw] at this
    cases this

/-- C45, partial. Plain-text witnesses never collide with a separator, whatever the texts: if dollar signs are not word characters and digits
are, then any plain-text witnesses with distinct sigla and non-empty texts (of less than 10^9 characters) are valid input, and
collating them succeeds. Missing: pre-tokenised witnesses, for which the claim is false. -/
theorem C45_plain_text_partial (env : Env) (hts : TopoSpec env.topo) (hdol : env.cc.word '$' = false)
    (hd : ∀ c, c.isDigit = true → env.cc.word c = true) (texts : List (Str × Str)) (hne : texts ≠ [])
    (htx : ∀ p ∈ texts, p.2 ≠ [] ∧ p.2.length < 1000000000) (hsig : (texts.map Prod.fst).Nodup) (o : Opts)
    (ho : ExactMatching o) :
    ∃ ws, createFromDict env.cc (texts.map (fun p => { id := some p.1, content := some p.2 })) none = .ok ws ∧
      ws.map Witness.sigil = texts.map Prod.fst ∧ Valid ws ∧ ∃ r, collateRanked env ws o = .ok r := by
  let mk : Str × Str → Witness := fun p => ⟨p.1, (tokenize env.cc p.2).map (plainToken env.cc)⟩
  have hadd : ∀ (l : List (Str × Str)) (c : Collation),
      addWitnesses env.cc c (l.map (fun p => { id := some p.1, content := some p.2 })) = .ok (c ++ l.map mk) := by
    intro l
    induction l with
    | nil => intro c; simp [addWitnesses]
    | cons p l ih =>
      intro c
      have h1 : addWitness env.cc c { id := some p.1, content := some p.2 } = .ok (c ++ [mk p]) := rfl
      simp only [List.map_cons, addWitnesses, h1, bind_ok, ih, List.append_assoc, List.cons_append, List.nil_append]
  have hv : Valid (texts.map mk) := by
    refine ⟨by simpa using hne, ?_, by rw [List.map_map]; exact hsig, ?_⟩
    · intro w hw
      obtain ⟨p, hp, rfl⟩ := List.mem_map.mp hw
      have ht := tokenizeF_isTokenisation env.cc p.2.length p.2 (Nat.le_refl _)
      refine ⟨?_, ?_⟩
      · intro h0
        have h1 : tokenize env.cc p.2 = [] := by simpa [mk] using h0
        have h2 : (tokenize env.cc p.2).flatten = p.2 := ht.lossless
        rw [h1] at h2
        exact (htx p hp).1 h2.symm
      · have hlen : ∀ l : List Str, (∀ s ∈ l, s ≠ []) → l.length ≤ l.flatten.length := by
          intro l
          induction l with
          | nil => simp
          | cons s l ih =>
            intro h
            have h1 := ih (fun s hs => h s (by simp [hs]))
            have h2 : 0 < s.length := List.length_pos_of_ne_nil (h s (by simp))
            simp only [List.length_cons, List.flatten_cons, List.length_append]
            omega
        have h2 : (tokenize env.cc p.2).flatten = p.2 := ht.lossless
        have h3 := hlen (tokenize env.cc p.2) (fun s hs => tok_ne_nil (ht.shape s hs))
        rw [h2] at h3
        have := (htx p hp).2
        simp only [mk, List.length_map]
        omega
    · intro w hw t htok
      obtain ⟨p, hp, rfl⟩ := List.mem_map.mp hw
      obtain ⟨s, hs, rfl⟩ := List.mem_map.mp htok
      exact plain_not_separator hdol hd ((tokenizeF_isTokenisation env.cc p.2.length p.2 (Nat.le_refl _)).shape s hs) _
  refine ⟨texts.map mk, ?_, by rw [List.map_map]; rfl, hv, ?_⟩
  · have := hadd texts []
    simpa [createFromDict] using this
  · obtain ⟨g, ps, rk, rkf, ord, m, h1, _⟩ := collateRanked_ok env hts hv o ho.astar ho.detect ho.near
    exact ⟨_, h1⟩

/-- The hypotheses are met, also by a text that has `$0` in it. -/
example : exampleEnv.cc.word '$' = false ∧
    ([(S "A", S "a"), (S "B", S "$0 a")].map Prod.fst).Nodup ∧
    createFromDict exampleEnv.cc ([(S "A", S "a"), (S "B", S "$0 a")].map (fun p => { id := some p.1, content := some p.2 })) none =
      .ok [⟨S "A", [⟨S "a", [(.t, .str (S "a")), (.n, .str (S "a"))]⟩]⟩,
           ⟨S "B", [⟨S "$", [(.t, .str (S "$")), (.n, .str (S "$"))]⟩, ⟨S "0", [(.t, .str (S "0 ")), (.n, .str (S "0"))]⟩,
                    ⟨S "a", [(.t, .str (S "a")), (.n, .str (S "a"))]⟩]⟩] := by
  decide +kernel

example : ∀ c : Char, c.isDigit = true → asciiClass.word c = true := by
  intro c h
  simp only [Char.isDigit, Bool.and_eq_true, decide_eq_true_eq, UInt32.le_iff_toNat_le] at h
  simp only [asciiClass, Bool.or_eq_true, Bool.and_eq_true, decide_eq_true_eq]
  exact Or.inl (Or.inr h)

/-! ### C46: the empty siglum -/

/-- C46, the full claim: the rows of the table have all tokens of their witnesses, whatever the (distinct) sigla. -/
def Spec.AnySiglum (env : Env) (o : Opts) : Prop :=
  ∀ ws : List Witness, Valid ws → ∀ t, collateTable env ws o = .ok t → ∀ (k : Nat) (w : Witness) (row : Row), ws[k]? = some w →
    t.rows[k]? = some row → List.Forall₂ SameToken w.tokens (row.cells.filterMap id).flatten

/-- The first witness has the empty string as siglum. -/
def emptySiglum : List Witness := [⟨[], [⟨S "a", []⟩]⟩, ⟨S "B", [⟨S "a", []⟩, ⟨S "b", []⟩]⟩]

theorem emptySiglum_valid : Valid emptySiglum := by
  refine ⟨by decide, by decide, by decide, ?_⟩
  intro w hw t ht hsep
  obtain ⟨i, _, h⟩ := hsep
  have hd : ∀ w ∈ emptySiglum, ∀ t ∈ w.tokens, t.str.head? ≠ some '$' := by decide
  exact hd w hw t ht (by rw [h]; rfl)

/-- C46, negation of the full claim: the row of a witness whose siglum is the empty string is empty. -/
theorem C46_empty_siglum_lost : ∃ (env : Env) (o : Opts), TopoSpec env.topo ∧ ExactMatching o ∧ ¬ AnySiglum env o := by
  refine ⟨exampleEnv, {}, kahn_spec, ⟨rfl, rfl, rfl⟩, ?_⟩
  intro h
  have he : (collateTable exampleEnv emptySiglum {}).map tableSummary =
      .ok ⟨[true, true], [[], S "B"], [[none, none], [some [S "a"], some [S "b"]]]⟩ := by decide +kernel
  cases ht : collateTable exampleEnv emptySiglum {} with
  | error e => rw [ht] at he; cases he
  | ok t =>
    rw [ht] at he
    have he2 := (TableSummary.mk.injEq .. ▸ Except.ok.inj he).2.2
    cases hr : t.rows with
    | nil => rw [hr] at he2; cases he2
    | cons row rows =>
      rw [hr] at he2
      have hrow : row.cells.map (Option.map (List.map Token.str)) = [none, none] := (List.cons.inj he2).1
      have hF := h emptySiglum emptySiglum_valid t ht 0 _ row rfl (by rw [hr]; rfl)
      have hnil : row.cells.filterMap id = [] := by
        rw [List.filterMap_eq_nil_iff]
        intro c hc
        have : Option.map (List.map Token.str) c ∈ row.cells.map (Option.map (List.map Token.str)) := List.mem_map.mpr ⟨c, hc, rfl⟩
        rw [hrow] at this
        cases c with
        | none => rfl
        | some c => simp at this
      rw [hnil] at hF
      cases hF

/-- C46, partial. The row of a witness has all its tokens whenever its own siglum is not the empty string, whatever the others are.
Missing: the empty siglum, for which the claim is false. -/
theorem C46_table_lossless_partial (env : Env) (hts : TopoSpec env.topo) (ws : List Witness) (hv : Valid ws) (o : Opts)
    (ho : ExactMatching o) (t : Table) (h : collateTable env ws o = .ok t) (k : Nat) (w : Witness) (row : Row)
    (hw : ws[k]? = some w) (hs : w.sigil ≠ []) (hr : t.rows[k]? = some row) :
    List.Forall₂ SameToken w.tokens (row.cells.filterMap id).flatten :=
  C25_table_lossless env hts ws hv o ho t h k w row hw hs hr

/-- The hypotheses are met for the second of these witnesses. -/
example : TopoSpec exampleEnv.topo ∧ Valid emptySiglum ∧ (∃ w, emptySiglum[1]? = some w ∧ w.sigil ≠ []) :=
  ⟨kahn_spec, emptySiglum_valid, _, rfl, by decide⟩

end CollateX
