import Verif.Proofs.FromJson
import Verif.Props.Again
/-
C120: a collation read from a JSON document.
-/

namespace CollateX
open Spec

/-- C120. A file with a JSON text that describes witnesses, in any layout, with the entries in any order and with further entries, gives the
collation that the dict of these witnesses gives (but for the order of the entries in token records), or fails as the dict does. -/
theorem C120_file (raw : Str → Json) (code : Json → Str) (cc : CharClass) (data : List WitnessData)
    (hd : ∀ w ∈ data, ∀ ds, w.tokens = some ds → ∀ d ∈ ds, IsRecord raw code d) (s : Str) (v : Json) (hs : readJson s = some v)
    (hv : DocumentOf raw data v) :
    (∀ c, createFromDict cc data none = .ok c → ∃ c', createFromJson readJson code cc (.file s) = .ok c' ∧ List.Forall₂ SameWitness c c') ∧
    ∀ e, createFromDict cc data none = .error e → createFromJson readJson code cc (.file s) = .error e := by
  obtain ⟨l, vs, rfl, nd, hm, hf⟩ := hv
  have key := addJson_reads (code := code) cc hf hd [] [] .nil
  have hg : dget (dictOf l) (S "witnesses") = some (.arr vs) := by
    rw [dictOf_nodup nd]
    exact dget_of_mem nd hm
  have e : createFromJson readJson code cc (.file s) = addJsonWitnesses code cc [] vs := by
    unfold createFromJson
    simp only [hs]
    unfold createFromValue
    simp only [hg]
  rw [e]
  unfold createFromDict
  constructor
  · intro c hc
    simp only at hc
    rw [hc] at key
    exact key
  · intro err hc
    simp only at hc
    rw [hc] at key
    exact key

theorem mem_sortKeysEntries {l : List (Str × Json)} {k : Str} {x : Json} :
    (k, x) ∈ sortKeysEntries l ↔ ∃ y, (k, y) ∈ l ∧ x = y.sortKeys := by
  rw [(sortKeysEntries_perm l).mem_iff, rawEntries_eq, List.mem_map]
  constructor
  · rintro ⟨⟨k', y⟩, h, he⟩
    obtain ⟨rfl, rfl⟩ := Prod.mk.inj he
    exact ⟨y, h, rfl⟩
  · rintro ⟨y, h, rfl⟩
    exact ⟨(k, y), h, rfl⟩

theorem sortKeysEntries_keys {l : List (Str × Json)} (h : (l.map Prod.fst).Nodup) : ((sortKeysEntries l).map Prod.fst).Nodup := by
  rw [((sortKeysEntries_perm l).map Prod.fst).nodup_iff, rawEntries_eq, List.map_map]
  exact h

theorem recordOf_json (raw : Str → Json) (d : TokenData) : RecordOf raw d (recordJson raw d).sortKeys := by
  obtain ⟨l, l', h1, _, h2, h3⟩ := recordJson_reads raw d
  exact ⟨l, l', h1, h2, h3⟩

theorem witnessOf_json (raw : Str → Json) (w : WitnessData) : WitnessOf raw w (witnessJson raw w).sortKeys := by
  refine ⟨?_⟩
  unfold witnessJson
  rw [Json.sortKeys]
  have k1 : S "id" ≠ S "content" := by decide
  have k2 : S "id" ≠ S "tokens" := by decide
  have k3 : S "content" ≠ S "tokens" := by decide
  obtain ⟨id, content, tokens⟩ := w
  refine ⟨_, rfl, sortKeysEntries_keys ?_, ?_, ?_, ?_, ?_⟩
  · cases id <;> cases content <;> cases tokens <;> simp [k1, k2, k3]
  · intro x
    rw [mem_sortKeysEntries]
    simp only [List.mem_append, List.mem_map, Option.mem_toList, Prod.mk.injEq, k1.symm, k2.symm, false_and, and_false, exists_false, or_false,
      true_and]
    constructor
    · rintro ⟨y, ⟨s, hs, rfl⟩, rfl⟩
      exact ⟨s, hs, by simp [Json.sortKeys]⟩
    · rintro ⟨s, hs, rfl⟩
      exact ⟨.str s, ⟨s, hs, rfl⟩, by simp [Json.sortKeys]⟩
  · intro x
    rw [mem_sortKeysEntries]
    simp only [List.mem_append, List.mem_map, Option.mem_toList, Prod.mk.injEq, k1, k3.symm, false_and, and_false, exists_false, or_false,
      false_or, true_and]
    constructor
    · rintro ⟨y, ⟨s, hs, rfl⟩, rfl⟩
      exact ⟨s, hs, by simp [Json.sortKeys]⟩
    · rintro ⟨s, hs, rfl⟩
      exact ⟨.str s, ⟨s, hs, rfl⟩, by simp [Json.sortKeys]⟩
  · intro x
    rw [mem_sortKeysEntries]
    simp only [List.mem_append, List.mem_map, Option.mem_toList, Prod.mk.injEq, k2, k3, false_and, and_false, exists_false,
      false_or, true_and]
    rintro ⟨y, ⟨ds, hs, rfl⟩, rfl⟩
    refine ⟨ds, _, hs, by rw [Json.sortKeys], ?_⟩
    rw [sortKeysList_eq, List.map_map, List.forall₂_map_right_iff]
    exact List.forall₂_same.mpr fun d _ => recordOf_json raw d
  · intro hne
    obtain ⟨ds, rfl⟩ := Option.ne_none_iff_exists'.mp hne
    exact ⟨_, mem_sortKeysEntries.mpr ⟨.arr (ds.map (recordJson raw)), by simp, rfl⟩⟩

/-- C120: every list of witnesses is described by a text, namely by the one that `json.dumps` writes. -/
theorem C120_dumps (raw : Str → Json) (data : List WitnessData) (indent : Option Nat) :
    ∃ v, readJson (jsonDumps indent (inputJson raw data)) = some v ∧ DocumentOf raw data v := by
  refine ⟨(inputJson raw data).sortKeys, readJson_text indent _ 0, ?_⟩
  unfold inputJson
  rw [Json.sortKeys]
  refine ⟨_, (data.map (witnessJson raw)).map Json.sortKeys, rfl, sortKeysEntries_keys (by simp), ?_, ?_⟩
  · exact mem_sortKeysEntries.mpr ⟨.arr (data.map (witnessJson raw)), by simp, by rw [Json.sortKeys, sortKeysList_eq]⟩
  · rw [List.map_map, List.forall₂_map_right_iff]
    exact List.forall₂_same.mpr fun w _ => witnessOf_json raw w

/-- C120: collating what was read from the file gives the same JSON text as collating the dict. -/
theorem C120_collate (env : Env) (hts : TopoSpec env.topo) (raw : Str → Json) (code : Json → Str) (data : List WitnessData)
    (hd : ∀ w ∈ data, ∀ ds, w.tokens = some ds → ∀ d ∈ ds, IsRecord raw code d) (s : Str) (v : Json) (hs : readJson s = some v)
    (hdoc : DocumentOf raw data v) (ws : List Witness) (hw : createFromDict env.cc data none = .ok ws) (hv : Valid ws)
    (hsig : ∀ w ∈ ws, w.sigil ≠ []) (hr : ∀ w ∈ ws, ∀ t ∈ w.tokens, IsRecord raw code t.data) (o : Opts) (ho : ExactMatching o)
    (hf : ∀ f, o.pfilter = some f → ∀ d d' e e' : TokenData, d.Perm d' → e.Perm e' → f d e = f d' e') :
    ∃ ws' t t', createFromJson readJson code env.cc (.file s) = .ok ws' ∧ collateTable env ws o = .ok t ∧ collateTable env ws' o = .ok t' ∧
      ∀ indent, (exportJson t' true).text raw indent = (exportJson t true).text raw indent := by
  obtain ⟨ws', h1, h2⟩ := (C120_file raw code env.cc data hd s v hs hdoc).1 ws hw
  obtain ⟨t, t', h3, h4, h5⟩ := perm_run (env := env) hts hv hsig (ws' := ws') h2 hr ho hf true
  exact ⟨ws', t, t', h1, h3, h4, h5⟩

/-- C120: a string is not accepted, although the comment in the code says that it is; nor is a text that is not JSON. -/
theorem C120_rejected (code : Json → Str) (cc : CharClass) (s : Str) :
    createFromJson readJson code cc (.string s) = .error .attributeError ∧
    (readJson s = none → createFromJson readJson code cc (.file s) = .error .valueError) := by
  refine ⟨rfl, fun h => ?_⟩
  unfold createFromJson
  simp only [h]

/-- C120: an item of the tokens that is no dict is rejected. A string with the letter `n` or `t` and a list with one of these strings are
TypeErrors, other strings and lists are TokenErrors, and numbers and truth values are TypeErrors. -/
theorem C120_no_record (code : Json → Str) (cc : CharClass) (s σ : Str) (v : Json) (ts vs : List Json)
    (hs : readJson s = some (.obj [(S "witnesses", .arr (.obj [(S "id", .str σ), (S "tokens", .arr (v :: ts))] :: vs))])) :
    (∀ x, v = .str x → ('n' ∈ x ∨ 't' ∈ x → createFromJson readJson code cc (.file s) = .error .typeError) ∧
      ('n' ∉ x → 't' ∉ x → createFromJson readJson code cc (.file s) = .error .tokenError)) ∧
    (∀ xs, v = .arr xs → (.str ['n'] ∈ xs ∨ .str ['t'] ∈ xs → createFromJson readJson code cc (.file s) = .error .typeError) ∧
      (.str ['n'] ∉ xs → .str ['t'] ∉ xs → createFromJson readJson code cc (.file s) = .error .tokenError)) ∧
    ((∃ n, v = .int n) ∨ (∃ b, v = .bool b) → createFromJson readJson code cc (.file s) = .error .typeError) := by
  have key : ∀ e, jsonRecord code v = .error e → createFromJson readJson code cc (.file s) = .error e := by
    intro e he
    have hr : jsonRecords code (v :: ts) = .error e := by rw [jsonRecords, he]; rfl
    have hw : jsonWitness code (.obj [(S "id", .str σ), (S "tokens", .arr (v :: ts))]) = .error e := by
      have h1 : dget (dictOf [(S "id", .str σ), (S "tokens", .arr (v :: ts))]) (S "id") = some (.str σ) := rfl
      have h2 : dget (dictOf [(S "id", .str σ), (S "tokens", .arr (v :: ts))]) (S "content") = none := rfl
      have h3 : dget (dictOf [(S "id", .str σ), (S "tokens", .arr (v :: ts))]) (S "tokens") = some (.arr (v :: ts)) := rfl
      unfold jsonWitness
      simp only [h1, h2, h3, hr]
      rfl
    have h4 : ∀ x : Json, dget (dictOf [(S "witnesses", x)]) (S "witnesses") = some x := fun _ => rfl
    unfold createFromJson
    simp only [hs]
    unfold createFromValue
    simp only [h4, addJsonWitnesses, hw]
    rfl
  have any : ∀ xs : List Json, xs.any isTextKey = true ↔ .str ['n'] ∈ xs ∨ .str ['t'] ∈ xs := by
    intro xs
    rw [List.any_eq_true]
    constructor
    · rintro ⟨x, hx, h⟩
      cases x <;> simp only [isTextKey, Bool.false_eq_true, Bool.or_eq_true, beq_iff_eq] at h
      rcases h with rfl | rfl
      · exact .inl hx
      · exact .inr hx
    · rintro (h | h)
      · exact ⟨_, h, rfl⟩
      · exact ⟨_, h, rfl⟩
  refine ⟨?_, ?_, ?_⟩
  · rintro x rfl
    constructor
    · intro h
      apply key
      rw [jsonRecord, if_pos (by simpa using h)]
    · intro h h'
      apply key
      rw [jsonRecord, if_neg (by simp [h, h'])]
  · rintro xs rfl
    constructor
    · intro h
      apply key
      rw [jsonRecord, if_pos ((any xs).mpr h)]
    · intro h h'
      apply key
      rw [jsonRecord, if_neg (by rw [any]; simp [h, h'])]
  · rintro (⟨n, rfl⟩ | ⟨b, rfl⟩) <;> exact key _ rfl

/-- Cases: the token `cat` given as a string, `dog` given as a string, and a number. -/
example : createFromJson readJson boolCode asciiClass (.file (S "{\"witnesses\": [{\"id\": \"A\", \"tokens\": [\"cat\"]}]}")) = .error .typeError ∧
    createFromJson readJson boolCode asciiClass (.file (S "{\"witnesses\": [{\"id\": \"A\", \"tokens\": [\"dog\"]}]}")) = .error .tokenError ∧
    createFromJson readJson boolCode asciiClass (.file (S "{\"witnesses\": [{\"id\": \"A\", \"tokens\": [5]}]}")) = .error .typeError := by
  decide +kernel

/-- In a dict made from entries the last one with a key counts. -/
theorem dget_dictOf (l : List (Str × Json)) (k : Str) : dget (dictOf l) k = dget l.reverse k := by
  have key : ∀ (l acc : List (Str × Json)), dget (l.foldl (fun d e => dset d e.1 e.2) acc) k = (dget l.reverse k).or (dget acc k) := by
    intro l
    induction l with
    | nil => intro acc; rfl
    | cons e l ih =>
      intro acc
      rw [List.foldl_cons, ih, List.reverse_cons, dget_append, dget_dset]
      cases dget l.reverse k <;> by_cases h : e.1 = k <;> simp [dget, h]
  rw [dictOf, key l []]
  cases dget l.reverse k <;> rfl

theorem dget_reverse_repeated {l₁ l₂ : List (Str × Json)} {k : Str} (x : Json) (hk : k ∈ l₂.map Prod.fst) (j : Str) :
    dget (l₁ ++ (k, x) :: l₂).reverse j = dget (l₁ ++ l₂).reverse j := by
  simp only [List.reverse_append, List.reverse_cons, List.append_assoc, dget_append]
  by_cases h : k = j
  · subst h
    have : ∃ v, dget l₂.reverse k = some v := by
      cases hg : dget l₂.reverse k with
      | some v => exact ⟨v, rfl⟩
      | none =>
        rw [dget_eq_none_iff] at hg
        exact absurd (by simpa using hk) hg
    obtain ⟨v, hv⟩ := this
    rw [hv]
    rfl
  · simp [dget, h]

/-- C120: if a dict of the document has two entries with the same key, the first of them could as well be left out, in the document itself
and in a witness. -/
theorem C120_last_counts (code : Json → Str) (cc : CharClass) (l₁ l₂ : List (Str × Json)) (k : Str) (x : Json)
    (hk : k ∈ l₂.map Prod.fst) :
    (∀ s s', readJson s = some (.obj (l₁ ++ (k, x) :: l₂)) → readJson s' = some (.obj (l₁ ++ l₂)) →
      createFromJson readJson code cc (.file s) = createFromJson readJson code cc (.file s')) ∧
    (∀ s s' m₁ m₂ vs₁ vs₂,
      readJson s = some (.obj (m₁ ++ (S "witnesses", .arr (vs₁ ++ .obj (l₁ ++ (k, x) :: l₂) :: vs₂)) :: m₂)) →
      readJson s' = some (.obj (m₁ ++ (S "witnesses", .arr (vs₁ ++ .obj (l₁ ++ l₂) :: vs₂)) :: m₂)) →
      createFromJson readJson code cc (.file s) = createFromJson readJson code cc (.file s')) := by
  have hget : ∀ j, dget (dictOf (l₁ ++ (k, x) :: l₂)) j = dget (dictOf (l₁ ++ l₂)) j := by
    intro j
    rw [dget_dictOf, dget_dictOf, dget_reverse_repeated x hk]
  constructor
  · intro s s' h h'
    unfold createFromJson
    simp only [h, h']
    unfold createFromValue
    simp only [hget]
  · intro s s' m₁ m₂ vs₁ vs₂ h h'
    have hw : jsonWitness code (.obj (l₁ ++ (k, x) :: l₂)) = jsonWitness code (.obj (l₁ ++ l₂)) := by
      unfold jsonWitness
      simp only [hget]
    have hadd : ∀ vs₁ c, addJsonWitnesses code cc c (vs₁ ++ .obj (l₁ ++ (k, x) :: l₂) :: vs₂) =
        addJsonWitnesses code cc c (vs₁ ++ .obj (l₁ ++ l₂) :: vs₂) := by
      intro vs₁
      induction vs₁ with
      | nil => intro c; simp only [List.nil_append, addJsonWitnesses, hw]
      | cons v vs ih => intro c; simp only [List.cons_append, addJsonWitnesses, ih]
    unfold createFromJson
    simp only [h, h']
    unfold createFromValue
    simp only [dget_dictOf, List.reverse_append, List.reverse_cons, List.append_assoc, dget_append, List.singleton_append, dget, if_pos]
    cases dget m₂.reverse (S "witnesses") with
    | some v => rfl
    | none => simp only [Option.none_or, Option.some_or, hadd]

/-! ### A document -/

/-- A document with a comment and with its entries in another order than usual. -/
def jsonDocument : Str :=
  S "{\"comment\": [1, null], \"witnesses\": [{\"content\": \"the cat\", \"id\": \"A\"},\n {\"tokens\": [{\"bold\": true, \"t\": \"cat\"}], \"id\": \"B\"}]}"

def jsonDocumentData : List WitnessData :=
  [{ id := some (S "A"), content := some (S "the cat") },
   { id := some (S "B"), tokens := some [[(.t, .str (S "cat")), (.other (S "bold"), .raw (S "true"))]] }]

def jsonDocumentValue : Json :=
  .obj [(S "comment", .arr [.int 1, .null]), (S "witnesses", .arr
    [.obj [(S "content", .str (S "the cat")), (S "id", .str (S "A"))],
     .obj [(S "tokens", .arr [.obj [(S "bold", .bool true), (S "t", .str (S "cat"))]]), (S "id", .str (S "B"))]])]

set_option maxRecDepth 20000 in
theorem jsonDocument_reads : readJson jsonDocument = some jsonDocumentValue := by rfl

/-- The hypotheses of C120 are met by the document; the entries of the record come in the order of the document. -/
example : readJson jsonDocument = some jsonDocumentValue ∧ DocumentOf boolRaw jsonDocumentData jsonDocumentValue ∧
    (∀ w ∈ jsonDocumentData, ∀ ds, w.tokens = some ds → ∀ d ∈ ds, IsRecord boolRaw boolCode d) ∧
    createFromJson readJson boolCode asciiClass (.file jsonDocument) =
      .ok [⟨S "A", [written "the" "the ", written "cat" "cat"]⟩,
        ⟨S "B", [⟨S "cat", [(.other (S "bold"), .raw (S "true")), (.t, .str (S "cat"))]⟩]⟩] := by
  refine ⟨jsonDocument_reads, ?_, ?_, by decide +kernel⟩
  · refine ⟨_, _, rfl, by decide, List.mem_cons_of_mem _ (List.mem_cons_self ..), .cons ⟨?_⟩ (.cons ⟨?_⟩ .nil)⟩
    · refine ⟨_, rfl, by decide, ?_, ?_, ?_, ?_⟩
      · intro x; simp [S]
      · intro x; simp [S]
      · intro x; simp [S]
      · intro h; exact absurd rfl h
    · refine ⟨_, rfl, by decide, ?_, ?_, ?_, ?_⟩
      · intro x; simp [S]
      · intro x; simp [S]
      · intro x hx
        refine ⟨_, [.obj [(S "bold", .bool true), (S "t", .str (S "cat"))]], rfl, ?_, .cons ?_ .nil⟩
        · simpa [S] using hx
        · exact ⟨_, [(S "t", .str (S "cat")), (S "bold", .bool true)], rfl, List.Perm.swap .., .cons ⟨.t, rfl⟩ (.cons ⟨.other _, .bool _⟩ .nil)⟩
      · intro _; exact ⟨_, List.mem_cons_self ..⟩
  · intro w hw ds hds d hd
    simp only [jsonDocumentData, List.mem_cons, List.not_mem_nil, or_false] at hw
    rcases hw with rfl | rfl
    · cases hds
    · obtain rfl := Option.some.inj hds
      simp only [List.mem_cons, List.not_mem_nil, or_false] at hd
      subst hd
      refine ⟨by decide, fun s v h => ?_, fun k r h v hv => ?_⟩
      · simp only [List.mem_cons, Prod.mk.injEq, Key.other.injEq, reduceCtorEq, false_and, List.not_mem_nil, or_false, false_or] at h
        obtain ⟨rfl, _⟩ := h
        decide
      · simp only [List.mem_cons, Prod.mk.injEq, JVal.raw.injEq, reduceCtorEq, and_false, List.not_mem_nil, or_false, false_or] at h
        obtain ⟨_, rfl⟩ := h
        cases hv
        rfl

/-- The last of two contents counts. -/
example : createFromJson readJson boolCode asciiClass (.file (S "{\"witnesses\": [{\"id\": \"A\", \"content\": \"a\", \"content\": \"b\"}]}")) =
    .ok [⟨S "A", [written "b" "b"]⟩] := by
  decide +kernel

/-- Failures are those of the dict: a token without text, a witness without siglum, no witnesses at all. -/
example : createFromJson readJson boolCode asciiClass (.file (S "{\"witnesses\": [{\"id\": \"A\", \"tokens\": [{\"x\": \"y\"}]}]}")) = .error .tokenError ∧
    createFromJson readJson boolCode asciiClass (.file (S "{\"witnesses\": [{\"content\": \"a\"}]}")) = .error .keyError ∧
    createFromJson readJson boolCode asciiClass (.file (S "{}")) = .error .keyError ∧
    createFromJson readJson boolCode asciiClass (.file (S "{\"witnesses\": ")) = .error .valueError := by
  decide +kernel

end CollateX
