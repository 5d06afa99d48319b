import Verif.Proofs.Again
/-
Property C75: the JSON output can be collated again, and gives the same result.
-/

namespace CollateX
open Spec

/-- C75. The JSON output, taken as input, is collated as the input it was made from: every option and every output format gives
the same result. -/
theorem C75_collate_again (env : Env) (hts : TopoSpec env.topo) (data : List WitnessData) (ws : List Witness)
    (hd : addWitnesses env.cc [] data = .ok ws) (hv : Valid ws) (hs : ∀ w ∈ ws, w.sigil ≠ []) (o : Opts) (ho : ExactMatching o)
    (hout : o.output = S "json") (hlay : o.layout ≠ S "vertical") :
    ∃ j, collateDict env data o = .ok (.json j) ∧ ∀ o', collateDict env (inputOfTable j) o' = collateDict env data o' := by
  obtain ⟨ws', g, rk, h1, h2, _⟩ := C28_collate_succeeds env hts ws hv o ho
  obtain ⟨ti, hti, hw⟩ := collateRanked_index h1
  have hws' : ws' = indexed 0 ws := by rw [hw, (mkTokenIndex_prepare hti).2.2.1]
  refine ⟨exportJson (mkTable ws' g rk) false, ?_, ?_⟩
  · unfold collateDict collate render
    rw [hd]
    simp only [bind_ok]
    rw [h1]
    simp only [bind_ok, hout]
    rw [if_neg (by decide), if_neg (by decide), if_pos trivial, if_neg hlay]
  · intro o'
    have hj := jsonRows hts hv hs ho h2 false
    have hadd : addWitnesses env.cc [] (inputOfTable (exportJson (mkTable ws' g rk) false)) = .ok (indexed 0 ws) := by
      rw [hj]
      have := addWitnesses_eq env.cc (data := (indexed 0 ws).map
        (fun w => { id := some w.sigil, tokens := some (w.tokens.map Token.data) })) (ws := indexed 0 ws) []
        (by
          rw [List.forall₂_map_left_iff]
          refine List.forall₂_same.mpr fun w hw => ?_
          exact mkWitness_tokens env.cc w.sigil (indexed_strings (addWitnesses_strings hd (by simp)) w hw))
      simpa using this
    have := C42_repeatable env ws ws' o g rk h1 [] o'
    rw [hws', List.append_nil, List.append_nil] at this
    unfold collateDict
    rw [hadd, hd]
    simp only [bind_ok]
    exact this

/-- C75 for texts. The text of the JSON output, read and taken as input, gives the same text again (with any indentation). The filter,
if there is one, must not depend on the order of the entries of a dict. -/
theorem C75_text_again (env : Env) (hts : TopoSpec env.topo) (data : List WitnessData) (ws : List Witness)
    (hd : addWitnesses env.cc [] data = .ok ws) (hv : Valid ws) (hs : ∀ w ∈ ws, w.sigil ≠ []) (raw : Str → Json) (code : Json → Str)
    (hr : ∀ w ∈ ws, ∀ t ∈ w.tokens, IsRecord raw code t.data) (o : Opts) (ho : ExactMatching o)
    (hf : ∀ f, o.pfilter = some f → ∀ d d' e e' : TokenData, d.Perm d' → e.Perm e' → f d e = f d' e')
    (hout : o.output = S "json") (hlay : o.layout ≠ S "vertical") (indent : Option Nat) :
    ∃ j data' j', collateDict env data o = .ok (.json j) ∧
      (readJson (j.text raw indent)).bind (inputOfJson code) = some data' ∧ collateDict env data' o = .ok (.json j') ∧
      ∀ indent', j'.text raw indent' = j.text raw indent' := by
  have hstr := indexed_strings (addWitnesses_strings hd (by simp))
  have hrec := isRecord_indexed hr
  have hsi := indexed_sigil_ne hs
  obtain ⟨ws', g, rk, h1, h2, _⟩ := C28_collate_succeeds env hts ws hv o ho
  obtain ⟨ti, hti, hw⟩ := collateRanked_index h1
  have hws' : ws' = indexed 0 ws := by rw [hw, (mkTokenIndex_prepare hti).2.2.1]
  -- the output of a table
  have out : ∀ (us : List Witness) (t : Table), collateTable env us o = .ok t → collate env us o = .ok (.json (exportJson t false)) := by
    intro us t h
    unfold collateTable at h
    obtain ⟨⟨a, b, c⟩, h3, h4⟩ := bind_eq_ok.mp h
    obtain rfl := Except.ok.inj h4
    unfold collate render
    rw [h3]
    simp only [bind_ok, hout]
    rw [if_neg (by decide), if_neg (by decide), if_pos trivial, if_neg hlay]
  have hin := jsonRows hts hv hs ho h2 false
  have hlen : (exportJson (mkTable ws' g rk) false).witnesses.length = (exportJson (mkTable ws' g rk) false).table.length := by
    unfold exportJson; simp
  obtain ⟨data', r1, r2⟩ := inputOfJson_reads (raw := raw) (code := code) (j := exportJson (mkTable ws' g rk) false) indent hlen (by
    intro row hrow ds hds d hdm
    obtain ⟨k, hk⟩ := List.getElem?_of_mem hrow
    obtain ⟨k1, k2⟩ := List.getElem?_eq_some_iff.mp hk
    have hz : (inputOfTable (exportJson (mkTable ws' g rk) false))[k]? =
        some { id := some ((exportJson (mkTable ws' g rk) false).witnesses[k]'(by omega)), tokens := some (row.filterMap id).flatten } := by
      unfold inputOfTable
      rw [List.getElem?_zipWith, hk, List.getElem?_eq_getElem (by omega)]
    rw [hin, List.getElem?_map] at hz
    obtain ⟨w, hw1, hw2⟩ := Option.map_eq_some_iff.mp hz
    have he : w.tokens.map Token.data = (row.filterMap id).flatten := by
      have := congrArg WitnessData.tokens hw2
      exact Option.some.inj this
    have hm : d ∈ w.tokens.map Token.data := by
      rw [he]
      exact List.mem_flatten.mpr ⟨ds, List.mem_filterMap.mpr ⟨some ds, hds, rfl⟩, hdm⟩
    obtain ⟨t, ht, rfl⟩ := List.mem_map.mp hm
    exact hrec w (List.mem_of_getElem? hw1) t ht)
  rw [hin, List.forall₂_map_left_iff] at r2
  -- the witnesses made from what was read
  have hmk : ∃ us, List.Forall₂ (fun d u => mkWitness env.cc d = .ok u) data' us ∧ List.Forall₂ PermWitness (indexed 0 ws) us := by
    clear r1 hin
    generalize indexed 0 ws = vs at hstr hrec r2
    induction r2 with
    | nil => exact ⟨[], .nil, .nil⟩
    | @cons w d vs data' h _ ih =>
      obtain ⟨us, u1, u2⟩ := ih (fun w hw => hstr w (by simp [hw])) (fun w hw => hrec w (by simp [hw]))
      obtain ⟨q1, q2, ds, ds', q3, q4, q5⟩ := h
      obtain rfl := Option.some.inj q3
      have hts' : ∃ ts', ds' = ts'.map Token.data ∧ List.Forall₂ PermToken w.tokens ts' ∧ ∀ t ∈ ts', tokenString t.data = .ok (.str t.str) := by
        have hst := hstr w (by simp)
        have hre := hrec w (by simp)
        clear q3 q4
        generalize w.tokens = ts at hst hre q5
        induction ts generalizing ds' with
        | nil =>
          cases q5
          exact ⟨[], rfl, .nil, by simp⟩
        | cons t ts iht =>
          rw [List.map_cons] at q5
          cases q5 with
          | @cons _ d' _ ds'' p1 p2 =>
            obtain ⟨ts', e1, e2, e3⟩ := iht _ (fun t ht => hst t (by simp [ht])) (fun t ht => hre t (by simp [ht])) p2
            refine ⟨⟨t.str, d'⟩ :: ts', by rw [e1]; rfl, .cons ⟨rfl, p1⟩ e2, ?_⟩
            intro x hx
            rcases List.mem_cons.mp hx with rfl | hx
            · have nd := (hre t (by simp)).keys
              have := hst t (by simp)
              unfold tokenString at this ⊢
              simp only [← perm_dget p1.symm nd]
              exact this
            · exact e3 x hx
      obtain ⟨ts', e1, e2, e3⟩ := hts'
      refine ⟨⟨w.sigil, ts'⟩ :: us, .cons ?_ u1, .cons ⟨rfl, e2⟩ u2⟩
      have hd' : d = { id := some w.sigil, tokens := some (ts'.map Token.data) } := by
        cases d
        simp only at q1 q2 q4
        rw [q1, q2, q4, e1]
      rw [hd']
      exact mkWitness_tokens env.cc w.sigil e3
  obtain ⟨us, u1, u2⟩ := hmk
  obtain ⟨t, t', t1, t2, t3⟩ := perm_run hts (valid_indexed hv) hsi u2 hrec ho hf false
  have hrep : collate env (indexed 0 ws) o = collate env ws o := by
    have := C42_repeatable env ws ws' o g rk h1 [] o
    rw [hws', List.append_nil, List.append_nil] at this
    exact this
  have hj : exportJson t false = exportJson (mkTable ws' g rk) false := by
    have e1 := out _ _ t1
    rw [hrep, out _ _ h2] at e1
    exact (Output.json.inj (Except.ok.inj e1)).symm
  refine ⟨exportJson (mkTable ws' g rk) false, data', exportJson t' false, ?_, r1, ?_, ?_⟩
  · unfold collateDict
    rw [hd]
    exact out _ _ h2
  · unfold collateDict
    rw [addWitnesses_eq env.cc [] u1, List.nil_append]
    exact out _ _ t2
  · intro indent'
    rw [t3, hj]

/-! ### Concrete cases -/

/-- Two witnesses, one of them tokenised by the user, with a field that is not a string. -/
def mixedInput : List WitnessData :=
  [{ id := some (S "A"), content := some (S "the black cat") },
   { id := some (S "B"), tokens := some [[(.t, .str (S "The ")), (.n, .str (S "the"))], [(.other (S "bold"), .raw (S "true")), (.t, .str (S "cat"))]] }]

def mixedWitnesses : List Witness :=
  [⟨S "A", [written "the" "the ", written "black" "black ", written "cat" "cat"]⟩,
   ⟨S "B", [written "the" "The ", ⟨S "cat", [(.other (S "bold"), .raw (S "true")), (.t, .str (S "cat"))]⟩]⟩]

def boolRaw (_ : Str) : Json := .bool true
def boolCode (_ : Json) : Str := S "true"

/-- The hypotheses of C75 are met. -/
example : TopoSpec exampleEnv.topo ∧ addWitnesses exampleEnv.cc [] mixedInput = .ok mixedWitnesses ∧ Valid mixedWitnesses ∧
    (∀ w ∈ mixedWitnesses, w.sigil ≠ []) ∧ (∀ w ∈ mixedWitnesses, ∀ t ∈ w.tokens, IsRecord boolRaw boolCode t.data) ∧
    ExactMatching { output := S "json", segmentation := false } := by
  refine ⟨kahn_spec, by decide +kernel, valid_of_check (by decide) (by decide) (by decide) (by decide), by decide, ?_, ⟨rfl, rfl, rfl⟩⟩
  have hw : ∀ n t, IsRecord boolRaw boolCode (written n t).data := by
    intro n t
    exact ⟨by simp [written], fun s v h => by simp [written] at h, fun k r h => by simp [written] at h⟩
  have hb : IsRecord boolRaw boolCode [(.other (S "bold"), .raw (S "true")), (.t, .str (S "cat"))] := by
    refine ⟨by decide, fun s v h => ?_, fun k r h v hv => ?_⟩
    · simp only [List.mem_cons, Prod.mk.injEq, Key.other.injEq, reduceCtorEq, false_and, List.not_mem_nil, or_false] at h
      obtain ⟨rfl, _⟩ := h
      decide
    · simp only [List.mem_cons, Prod.mk.injEq, JVal.raw.injEq, reduceCtorEq, and_false, List.not_mem_nil, or_false] at h
      obtain ⟨_, rfl⟩ := h
      cases hv
      rfl
  intro w h t ht
  simp only [mixedWitnesses, List.mem_cons, List.not_mem_nil, or_false] at h
  rcases h with rfl | rfl <;> simp only [List.mem_cons, List.not_mem_nil, or_false] at ht
  · rcases ht with rfl | rfl | rfl <;> exact hw _ _
  · rcases ht with rfl | rfl
    · exact hw _ _
    · exact hb

/-- The output of the first run, and of the second run on the text of the first: the entries of the records stand in another order, the
text is the same. -/
example :
    (match collateDict exampleEnv mixedInput { output := S "json", segmentation := false } with
      | .ok (.json j) => (j.text boolRaw none, match (readJson (j.text boolRaw none)).bind (inputOfJson boolCode) with
        | some d => match collateDict exampleEnv d { output := S "json", segmentation := false } with
          | .ok (.json j') => (j'.text boolRaw none, decide (j = j'))
          | _ => ([], true)
        | none => ([], true))
      | _ => ([], [], true)) =
    (S "{\"table\": [[[{\"_sigil\": \"A\", \"_token_array_position\": 0, \"n\": \"the\", \"t\": \"the \"}], [{\"_sigil\": \"A\", \"_token_array_position\": 1, \"n\": \"black\", \"t\": \"black \"}], [{\"_sigil\": \"A\", \"_token_array_position\": 2, \"n\": \"cat\", \"t\": \"cat\"}]], [[{\"_sigil\": \"B\", \"_token_array_position\": 4, \"n\": \"the\", \"t\": \"The \"}], null, [{\"_sigil\": \"B\", \"_token_array_position\": 5, \"bold\": true, \"t\": \"cat\"}]]], \"witnesses\": [\"A\", \"B\"]}",
     S "{\"table\": [[[{\"_sigil\": \"A\", \"_token_array_position\": 0, \"n\": \"the\", \"t\": \"the \"}], [{\"_sigil\": \"A\", \"_token_array_position\": 1, \"n\": \"black\", \"t\": \"black \"}], [{\"_sigil\": \"A\", \"_token_array_position\": 2, \"n\": \"cat\", \"t\": \"cat\"}]], [[{\"_sigil\": \"B\", \"_token_array_position\": 4, \"n\": \"the\", \"t\": \"The \"}], null, [{\"_sigil\": \"B\", \"_token_array_position\": 5, \"bold\": true, \"t\": \"cat\"}]]], \"witnesses\": [\"A\", \"B\"]}",
     false) := by decide +kernel

/-- Three texts of which near matching loses a token. -/
def losingTexts : List WitnessData :=
  [{ id := some (S "A"), content := some (S "x1 x2 w yyyy v") }, { id := some (S "B"), content := some (S "yyyz w yyyy v") },
   { id := some (S "C"), content := some (S "yyyz v") }]

def jsonOf : Py Output → Option JsonTable
  | .ok (.json j) => some j
  | _ => none

/-- C75, the limits: with near matching a token may be missing from the output (C34); the output is then not an equivalent input. -/
theorem C75_near_output_differs : ∃ j j₁ j₂,
    collateDict nearEnv losingTexts { output := S "json", segmentation := false, nearMatch := true } = .ok (.json j) ∧
    collateDict nearEnv (inputOfTable j) { output := S "json", segmentation := false, nearMatch := true } = .ok (.json j₁) ∧
    collateDict nearEnv (inputOfTable j) { output := S "json", segmentation := false } = .ok (.json j₂) ∧ j₁ ≠ j ∧
    collateDict nearEnv losingTexts { output := S "json", segmentation := false } ≠ .ok (.json j₂) := by
  have h : ((jsonOf (collateDict nearEnv losingTexts { output := S "json", segmentation := false, nearMatch := true })).bind fun j =>
      (jsonOf (collateDict nearEnv (inputOfTable j) { output := S "json", segmentation := false, nearMatch := true })).bind fun j₁ =>
      (jsonOf (collateDict nearEnv (inputOfTable j) { output := S "json", segmentation := false })).map fun j₂ =>
        decide (j₁ ≠ j ∧ jsonOf (collateDict nearEnv losingTexts { output := S "json", segmentation := false }) ≠ some j₂)) = some true := by
    decide +kernel
  have get : ∀ {x : Py Output} {j : JsonTable}, jsonOf x = some j → x = .ok (.json j) := by
    intro x j h
    unfold jsonOf at h
    split at h
    · rw [Option.some.inj h]
    · cases h
  obtain ⟨j, h1, h⟩ := Option.bind_eq_some_iff.mp h
  obtain ⟨j₁, h2, h⟩ := Option.bind_eq_some_iff.mp h
  obtain ⟨j₂, h3, h⟩ := Option.map_eq_some_iff.mp h
  obtain ⟨h4, h5⟩ := of_decide_eq_true h
  refine ⟨j, j₁, j₂, get h1, get h2, get h3, h4, fun he => h5 ?_⟩
  rw [he]
  rfl

end CollateX
