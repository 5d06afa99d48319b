import Verif.Props.Wider
/-
C116: a witness copied from an earlier one with few changes.
-/

namespace CollateX
open Spec

/-! ### Spec -/

/-- `Copied k r l a A B`: the second text is the first with `k` words kept, `r` words replaced, `l` words left out and `a` words added. -/
inductive Spec.Copied : Nat → Nat → Nat → Nat → List Str → List Str → Prop
  | nil : Copied 0 0 0 0 [] []
  | keep {k r l a A B} (s : Str) : Copied k r l a A B → Copied (k + 1) r l a (s :: A) (s :: B)
  | replace {k r l a A B} (s u : Str) : Copied k r l a A B → Copied k (r + 1) l a (s :: A) (u :: B)
  | leave {k r l a A B} (s : Str) : Copied k r l a A B → Copied k r (l + 1) a (s :: A) B
  | add {k r l a A B} (u : Str) : Copied k r l a A B → Copied k r l (a + 1) A (u :: B)

/-- The number of columns in which the last row has a word that another row has, too. -/
def Spec.lastAgreed (t : Table) : Nat := (List.range t.columns.length).countP (lastAgrees t)

/-! ### Placings -/

theorem gain_cons (c : Place) (pl : List Place) : gain (c :: pl) = (if fits c then 1 else -1) + gain pl := by
  unfold gain
  rw [List.map_cons, List.sum_cons]

theorem Spec.Placing.cons {C : List (List Str)} {B : List Str} {pl : List Place} (h : Placing C B pl) (c : Place) (hc : c ≠ (none, none)) :
    Placing (c.1.toList ++ C) (c.2.toList ++ B) (c :: pl) := by
  refine ⟨?_, ?_, ?_⟩
  · rw [List.filterMap_cons]
    cases h1 : c.1 <;> simp [h.first]
  · rw [List.filterMap_cons]
    cases h1 : c.2 <;> simp [h.second]
  · intro x hx
    rcases List.mem_cons.mp hx with rfl | hx
    · exact hc
    · exact h.full x hx

/-- Columns without a word of the original stay empty. -/
theorem placing_skip {C : List (List Str)} {B : List Str} {g : Int} : ∀ N : List (Option Str × List Str),
    (∃ pl, Placing C B pl ∧ g ≤ gain pl + C.length) →
    ∃ pl, Placing (N.map Prod.snd ++ C) B pl ∧ g ≤ gain pl + (N.map Prod.snd ++ C).length
  | [], h => h
  | z :: N, h => by
    obtain ⟨pl, h1, h2⟩ := placing_skip N h
    refine ⟨(some z.2, none) :: pl, h1.cons (some z.2, none) (by simp), ?_⟩
    rw [gain_cons]
    simp only [fits, List.map_cons, List.cons_append, List.length_cons] at h2 ⊢
    push_cast
    omega

theorem first_word {Z : List (Option Str × List Str)} {s : Str} {A : List Str} (h : Z.filterMap Prod.fst = s :: A) :
    ∃ N c Z', Z = N ++ (some s, c) :: Z' ∧ Z'.filterMap Prod.fst = A := by
  obtain ⟨N, z, Z', h1, _, h2, h3⟩ := List.filterMap_eq_cons_iff.mp h
  obtain ⟨z1, z2⟩ := z
  simp only at h2
  subst h2
  exact ⟨N, z2, Z', h1, h3⟩

/-- Where the words of the original stand in a table, those of the copy can be placed. -/
theorem Spec.Copied.placing {k r l a : Nat} {A B : List Str} (h : Copied k r l a A B) : ∀ Z : List (Option Str × List Str),
    Z.filterMap Prod.fst = A → (∀ z ∈ Z, ∀ s, z.1 = some s → s ∈ z.2) →
    ∃ pl, Placing (Z.map Prod.snd) B pl ∧ 2 * (k : Int) - a ≤ gain pl + (Z.map Prod.snd).length := by
  induction h with
  | nil =>
    intro Z _ _
    have := placing_skip (C := []) (B := []) (g := 0) Z ⟨[], ⟨rfl, rfl, by simp⟩, by simp [gain]⟩
    simpa using this
  | keep s _ ih =>
    intro Z hZ hin
    obtain ⟨N, c, Z', rfl, h2⟩ := first_word hZ
    obtain ⟨pl, h3, h4⟩ := ih Z' h2 (fun z hz => hin z (by simp [hz]))
    have hs : s ∈ c := hin (some s, c) (by simp) s rfl
    rw [List.map_append]
    refine placing_skip N ⟨(some c, some s) :: pl, h3.cons (some c, some s) (by simp), ?_⟩
    rw [gain_cons]
    simp only [fits, hs, decide_true, if_true, List.map_cons, List.length_cons] at h4 ⊢
    push_cast
    omega
  | replace s u _ ih =>
    intro Z hZ hin
    obtain ⟨N, c, Z', rfl, h2⟩ := first_word hZ
    obtain ⟨pl, h3, h4⟩ := ih Z' h2 (fun z hz => hin z (by simp [hz]))
    rw [List.map_append]
    refine placing_skip N ⟨(some c, some u) :: pl, h3.cons (some c, some u) (by simp), ?_⟩
    rw [gain_cons]
    simp only [List.map_cons, List.length_cons] at h4 ⊢
    push_cast
    split <;> omega
  | leave s _ ih =>
    intro Z hZ hin
    obtain ⟨N, c, Z', rfl, h2⟩ := first_word hZ
    obtain ⟨pl, h3, h4⟩ := ih Z' h2 (fun z hz => hin z (by simp [hz]))
    rw [List.map_append]
    refine placing_skip N ⟨(some c, none) :: pl, h3.cons (some c, none) (by simp), ?_⟩
    rw [gain_cons]
    simp only [fits, Bool.false_eq_true, if_false, List.map_cons, List.length_cons] at h4 ⊢
    push_cast
    omega
  | add u _ ih =>
    intro Z hZ hin
    obtain ⟨pl, h3, h4⟩ := ih Z hZ hin
    refine ⟨(none, some u) :: pl, h3.cons (none, some u) (by simp), ?_⟩
    rw [gain_cons]
    simp only [fits, Bool.false_eq_true, if_false] at h4 ⊢
    push_cast
    omega

theorem Spec.Copied.lengths {k r l a : Nat} {A B : List Str} (h : Copied k r l a A B) : A.length = k + r + l ∧ B.length = k + r + a := by
  induction h with
  | nil => simp
  | keep s _ ih => simp only [List.length_cons]; omega
  | replace s u _ ih => simp only [List.length_cons]; omega
  | leave s _ ih => simp only [List.length_cons]; omega
  | add u _ ih => simp only [List.length_cons]; omega

/-- Where the words of a witness stand in an unsegmented table. -/
theorem original_words (env : Env) (hts : TopoSpec env.topo) {us : List Witness} (hv : Valid us) (hsg : ∀ u ∈ us, u.sigil ≠ []) {o : Opts}
    (ho : ExactMatching o) (hseg : o.segmentation = false) {t0 : Table} (h0 : collateTable env us o = .ok t0) {i : Nat} {u : Witness}
    (hu : us[i]? = some u) : ∃ Z : List (Option Str × List Str), Z.filterMap Prod.fst = strings u ∧ Z.map Prod.snd = columnWords t0 ∧
      ∀ z ∈ Z, ∀ s, z.1 = some s → s ∈ z.2 := by
  obtain ⟨g, ps, rk, rkf, ord, m, h1, C, rfl⟩ := table_of env hts hv ho h0
  rw [hseg] at C
  have hil : i < (mkTable (indexed 0 us) g rk).rows.length := by
    rw [C.rows_length, C.length, indexed_length]
    exact (List.getElem?_eq_some_iff.mp hu).1
  obtain ⟨row, hr⟩ : ∃ row, (mkTable (indexed 0 us) g rk).rows[i]? = some row := ⟨_, List.getElem?_eq_getElem hil⟩
  obtain ⟨w', hw', _, hcells⟩ := row_at hr
  obtain ⟨w0, hw0, hsig, hstr⟩ := indexed_strs us hw'
  rw [hu] at hw0
  obtain rfl := Option.some.inj hw0
  obtain ⟨p, hp, _, htext, hrow⟩ := C.row hw' (by rw [hsig]; exact hsg _ (List.mem_of_getElem? hu))
  have hpm := List.mem_of_getElem? hp
  rw [← hcells] at hrow
  have hlen : row.cells.length = (mkTable (indexed 0 us) g rk).columns.length := by rw [hcells, List.length_map]
  have hsing : ∀ ts, some ts ∈ row.cells → ∃ t, ts = [t] := by
    intro ts hts
    have : ts ∈ row.cells.filterMap id := List.mem_filterMap.mpr ⟨_, hts, rfl⟩
    rw [hrow] at this
    obtain ⟨x, h2, rfl⟩ := List.mem_map.mp this
    exact C.single rfl p hpm x h2
  have hwords : strings u = (row.cells.filterMap id).flatten.map Token.str := by
    have hflat : (p.segs.map Prod.snd).flatten = w'.tokens := by
      rw [← htext]; unfold WPath.text; rw [List.flatMap_def]
    rw [hrow, hflat]
    exact hstr.symm
  let f : Option (List Token) → Option Str := fun c => c.bind (fun ts => (ts.map Token.str).head?)
  have hl2 : (columnWords (mkTable (indexed 0 us) g rk)).length = row.cells.length := by
    unfold columnWords
    rw [List.length_map, List.length_range, hlen]
  refine ⟨(row.cells.map f).zip (columnWords (mkTable (indexed 0 us) g rk)), ?_, List.map_snd_zip (by rw [List.length_map, hl2]), ?_⟩
  · have e : ((row.cells.map f).zip (columnWords (mkTable (indexed 0 us) g rk))).filterMap Prod.fst = (row.cells.map f).filterMap id := by
      conv_rhs => rw [← List.map_fst_zip (l₁ := row.cells.map f) (l₂ := columnWords (mkTable (indexed 0 us) g rk)) (by rw [List.length_map, hl2])]
      rw [List.filterMap_map]
      rfl
    rw [e, hwords]
    have : ∀ cs : List (Option (List Token)), (∀ ts, some ts ∈ cs → ∃ t, ts = [t]) →
        (cs.map f).filterMap id = (cs.filterMap id).flatten.map Token.str := by
      intro cs
      induction cs with
      | nil => intro _; rfl
      | cons c cs ih =>
        intro h
        have ih := ih (fun ts hts => h ts (by simp [hts]))
        cases c with
        | none => exact ih
        | some ts =>
          obtain ⟨t, rfl⟩ := h ts (by simp)
          exact congrArg (t.str :: ·) ih
    exact this _ hsing
  · rintro ⟨z1, z2⟩ hz s rfl
    obtain ⟨j, hj⟩ := List.getElem?_of_mem hz
    obtain ⟨q1, q2⟩ := List.getElem?_zip_eq_some.mp hj
    rw [List.getElem?_map] at q1
    obtain ⟨c, q3, q4⟩ := Option.map_eq_some_iff.mp q1
    obtain ⟨ts, rfl, q5⟩ := Option.bind_eq_some_iff.mp q4
    obtain ⟨t, rfl⟩ := hsing ts (List.mem_of_getElem? q3)
    simp only [List.map_cons, List.map_nil, List.head?_cons, Option.some.injEq] at q5
    subst q5
    unfold columnWords at q2
    rw [List.getElem?_map] at q2
    obtain ⟨j', q6, rfl⟩ := Option.map_eq_some_iff.mp q2
    obtain ⟨q7, q8⟩ := List.getElem?_eq_some_iff.mp q6
    rw [List.getElem_range] at q8
    subst q8
    refine List.mem_flatMap.mpr ⟨row, List.mem_of_getElem? hr, ?_⟩
    unfold cellAt
    rw [q3]
    simp

/-! ### C116 -/

/-- C116, as far as it holds: a further witness is one of the earlier ones with some words kept, some replaced, some left out and some added.
Then its row agrees with others in at least as many columns as words were kept, except one for every two words that were added; and the
table gets at most one column more for every word added and two for every column that agrees beyond the words kept. The conditions are
those of C101 and C115. What is missing: without them the statement is false (`C116_repeats`), and kept words can be missed if words were
added (`C116_missed`). -/
theorem C116_copied_partial (env : Env) (hts : TopoSpec env.topo) (us : List Witness) (w : Witness) (hv : Valid (us ++ [w]))
    (hsg : ∀ u ∈ us ++ [w], u.sigil ≠ []) (o : Opts) (ho : ExactMatching o) (hf : o.pfilter = none) (hseg : o.segmentation = false)
    (htw : ∀ m, 2 ≤ m → m < us.length → ∀ us' g rk, collateRanked env (us.take m) o = .ok (us', g, rk) → Spec.TwinFree g rk)
    {i : Nat} {u : Witness} (hu : us[i]? = some u) {k r l a : Nat} (hc : Copied k r l a (strings u) (strings w)) :
    ∃ t0 t, collateTable env us o = .ok t0 ∧ collateTable env (us ++ [w]) o = .ok t ∧
      (NoReturn (columnWords t0) (strings w) → 2 * k ≤ 2 * lastAgreed t + a ∧
        t.columns.length + 2 * k ≤ t0.columns.length + a + 2 * lastAgreed t) := by
  have hne : us ≠ [] := by rintro rfl; cases hu
  obtain ⟨t0, t, h1, h2, h3⟩ := C101_placed_partial env hts us w hv hne hsg o ho hf hseg htw
  obtain ⟨t0', t', h1', h2', h4, _, _⟩ := C115_wider_partial env hts us w hv hne hsg o ho hf hseg htw
  rw [h1] at h1'
  rw [h2] at h2'
  obtain rfl := Except.ok.inj h1'
  obtain rfl := Except.ok.inj h2'
  refine ⟨t0, t, h1, h2, ?_⟩
  intro hret
  have hvu : Valid us := by
    have := hv.take (n := us.length) (List.length_pos_iff.mpr hne)
    rwa [List.take_left] at this
  obtain ⟨Z, z1, z2, z3⟩ := original_words env hts hvu (fun u hu => hsg u (by simp [hu])) ho hseg h1 hu
  obtain ⟨pl, p1, p2⟩ := hc.placing Z z1 z3
  rw [z2] at p1 p2
  have p3 := h3 hret pl p1
  have p4 : gainOfLast t = _ := signs_sum (lastAgrees t) (List.range t.columns.length)
  have p5 : (columnWords t0).length = t0.columns.length := by unfold columnWords; simp
  rw [List.length_range] at p4
  unfold lastAgreed
  omega

/-- C116 for a second or third witness without repeated words (what is missing: other witnesses). -/
theorem C116_third_partial (env : Env) (hts : TopoSpec env.topo) (us : List Witness) (w : Witness) (hv : Valid (us ++ [w])) (h2 : us.length ≤ 2)
    (hsg : ∀ u ∈ us ++ [w], u.sigil ≠ []) (o : Opts) (ho : ExactMatching o) (hf : o.pfilter = none) (hseg : o.segmentation = false)
    (hd : (strings w).Nodup) {i : Nat} {u : Witness} (hu : us[i]? = some u) {k r l a : Nat} (hc : Copied k r l a (strings u) (strings w)) :
    ∃ t0 t, collateTable env us o = .ok t0 ∧ collateTable env (us ++ [w]) o = .ok t ∧ 2 * k ≤ 2 * lastAgreed t + a ∧
      t.columns.length + 2 * k ≤ t0.columns.length + a + 2 * lastAgreed t := by
  obtain ⟨t0, t, h3, h4, h5⟩ := C116_copied_partial env hts us w hv hsg o ho hf hseg (by intro m h3 h4; omega) hu hc
  exact ⟨t0, t, h3, h4, h5 (C101_distinct _ _ hd)⟩

/-- C116 for a copy in which words were replaced or left out but none added: at least as many words agree as were kept, and if none of the
others agrees by chance, the table gets no further column (what is missing: as in `C116_copied_partial`). -/
theorem C116_nothing_added_partial (env : Env) (hts : TopoSpec env.topo) (us : List Witness) (w : Witness) (hv : Valid (us ++ [w]))
    (hsg : ∀ u ∈ us ++ [w], u.sigil ≠ []) (o : Opts) (ho : ExactMatching o) (hf : o.pfilter = none) (hseg : o.segmentation = false)
    (htw : ∀ m, 2 ≤ m → m < us.length → ∀ us' g rk, collateRanked env (us.take m) o = .ok (us', g, rk) → Spec.TwinFree g rk)
    {i : Nat} {u : Witness} (hu : us[i]? = some u) {k r l : Nat} (hc : Copied k r l 0 (strings u) (strings w)) :
    ∃ t0 t, collateTable env us o = .ok t0 ∧ collateTable env (us ++ [w]) o = .ok t ∧
      (NoReturn (columnWords t0) (strings w) → k ≤ lastAgreed t ∧ (lastAgreed t = k → t.columns.length = t0.columns.length)) := by
  have hne : us ≠ [] := by rintro rfl; cases hu
  obtain ⟨t0, t, h1, h2, h3⟩ := C116_copied_partial env hts us w hv hsg o ho hf hseg htw hu hc
  obtain ⟨t0', t', h1', h2', h4, _, _⟩ := C115_wider_partial env hts us w hv hne hsg o ho hf hseg htw
  rw [h1] at h1'
  rw [h2] at h2'
  obtain rfl := Except.ok.inj h1'
  obtain rfl := Except.ok.inj h2'
  refine ⟨t0, t, h1, h2, ?_⟩
  intro hret
  have := h3 hret
  exact ⟨by omega, by omega⟩

/-- Words that were kept can be missed if others were added: the third witness is the first with two words left out and two added; `x` was
kept but stands alone. The bound of C116 is reached. -/
theorem C116_missed : Valid [wordsWitness "A" ["a", "b", "x"], wordsWitness "B" ["a", "b"], wordsWitness "C" ["x", "d", "e"]] ∧
    Copied 1 0 2 2 (strings (wordsWitness "A" ["a", "b", "x"])) (strings (wordsWitness "C" ["x", "d", "e"])) ∧
    (collateTable exampleEnv [wordsWitness "A" ["a", "b", "x"], wordsWitness "B" ["a", "b"], wordsWitness "C" ["x", "d", "e"]]
      { segmentation := false }).map (fun t => (t.columns.length, lastAgreed t)) = .ok (3, 0) :=
  ⟨valid_of_check (by decide) (by decide) (by decide) (by decide), .leave _ (.leave _ (.keep _ (.add _ (.add _ .nil)))), by decide +kernel⟩

/-- C116 is false with equal neighbours: one word was added to `b b`, but only one of the two words that were kept agrees. -/
theorem C116_repeats : Valid [wordsWitness "A" ["b", "b"], wordsWitness "B" ["b", "b", "a"]] ∧
    Copied 2 0 0 1 (strings (wordsWitness "A" ["b", "b"])) (strings (wordsWitness "B" ["b", "b", "a"])) ∧
    (collateTable exampleEnv [wordsWitness "A" ["b", "b"], wordsWitness "B" ["b", "b", "a"]]
      { segmentation := false }).map (fun t => (t.columns.length, lastAgreed t)) = .ok (3, 1) :=
  ⟨valid_of_check (by decide) (by decide) (by decide) (by decide), .keep _ (.keep _ (.add _ .nil)), by decide +kernel⟩

/-- A case of C116: the third witness is the second with one word replaced and one left out. Three words were kept and three agree; no
column is added to the five. -/
example : ∃ t0 t, collateTable exampleEnv [wordsWitness "A" ["the", "cat", "sat"], wordsWitness "B" ["the", "black", "cat", "sat", "there"]]
      { segmentation := false } = .ok t0 ∧
    collateTable exampleEnv [wordsWitness "A" ["the", "cat", "sat"], wordsWitness "B" ["the", "black", "cat", "sat", "there"],
      wordsWitness "C" ["the", "white", "cat", "there"]] { segmentation := false } = .ok t ∧
    t0.columns.length = 5 ∧ t.columns.length = 5 ∧ lastAgreed t = 3 ∧ t.columns.length + 2 * 3 ≤ t0.columns.length + 0 + 2 * lastAgreed t := by
  obtain ⟨t0, t, h1, h2, _, h3⟩ := C116_third_partial exampleEnv kahn_spec
    [wordsWitness "A" ["the", "cat", "sat"], wordsWitness "B" ["the", "black", "cat", "sat", "there"]]
    (wordsWitness "C" ["the", "white", "cat", "there"]) (valid_of_check (by decide) (by decide) (by decide) (by decide)) (by decide) (by decide)
    { segmentation := false } ⟨rfl, rfl, rfl⟩ rfl rfl (by decide) (i := 1) rfl (.keep _ (.replace _ _ (.keep _ (.leave _ (.keep _ .nil)))))
  have e1 : (collateTable exampleEnv [wordsWitness "A" ["the", "cat", "sat"], wordsWitness "B" ["the", "black", "cat", "sat", "there"]]
      { segmentation := false }).map (fun t => t.columns.length) = .ok 5 := by decide +kernel
  have e2 : (collateTable exampleEnv [wordsWitness "A" ["the", "cat", "sat"], wordsWitness "B" ["the", "black", "cat", "sat", "there"],
      wordsWitness "C" ["the", "white", "cat", "there"]] { segmentation := false }).map (fun t => (t.columns.length, lastAgreed t)) = .ok (5, 3) := by
    decide +kernel
  have h2' := h2
  simp only [List.cons_append, List.nil_append] at h2'
  rw [h1] at e1
  rw [h2'] at e2
  have e2 := Prod.mk.inj (Except.ok.inj e2)
  exact ⟨t0, t, h1, h2', Except.ok.inj e1, e2.1, e2.2, h3⟩

end CollateX
