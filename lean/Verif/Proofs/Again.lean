import Verif.Props.Fields
import Verif.Props.Options
import Verif.Props.Input
import Verif.Props.JsonText
import Verif.Spec.Again
/-
Lemmas for C75: token records as input, and JSON texts of records with the same entries.
-/

namespace CollateX
open Spec

/-! ### Token records as input -/

theorem tokenString_ok {d : TokenData} {v : JVal} : tokenString d = .ok v ↔ (dget d .n <|> dget d .t) = some v := by
  unfold tokenString
  cases dget d .n with
  | some a => simp
  | none =>
    cases dget d .t with
    | some a => simp
    | none => simp

/-- The tokens of a witness made from a dict carry a record from which the token can be made again. -/
theorem mkWitness_strings {cc : CharClass} {d : WitnessData} {w : Witness} (h : mkWitness cc d = .ok w) :
    ∀ t ∈ w.tokens, tokenString t.data = .ok (.str t.str) := by
  unfold mkWitness at h
  cases hid : d.id with
  | none => rw [hid] at h; cases h
  | some σ =>
    rw [hid] at h
    cases hc : d.content with
    | some c =>
      rw [hc] at h
      obtain rfl := Except.ok.inj h
      intro t ht
      obtain ⟨s, _, rfl⟩ := List.mem_map.mp ht
      rfl
    | none =>
      rw [hc] at h
      cases hts : d.tokens with
      | none =>
        rw [hts] at h
        obtain rfl := Except.ok.inj h
        intro t ht
        cases ht
      | some ds =>
        rw [hts] at h
        obtain ⟨vs, hvs, h⟩ := bind_eq_ok.mp h
        obtain ⟨ts, hj, h⟩ := bind_eq_ok.mp h
        obtain rfl := Except.ok.inj h
        have hvals : ∀ (ds : List TokenData) (vs : List (JVal × TokenData)), tokenValues ds = .ok vs → ∀ p ∈ vs, tokenString p.2 = .ok p.1 := by
          intro ds
          induction ds with
          | nil =>
            intro vs h p hp
            obtain rfl := Except.ok.inj h
            cases hp
          | cons d ds ih =>
            intro vs h p hp
            obtain ⟨v, hv, h⟩ := bind_eq_ok.mp h
            obtain ⟨us, hus, h⟩ := bind_eq_ok.mp h
            obtain rfl := Except.ok.inj h
            rcases List.mem_cons.mp hp with rfl | hp
            · exact hv
            · exact ih us hus p hp
        rw [joinable_ok hj] at hvs
        intro t ht
        exact hvals ds _ hvs (.str t.str, t.data) (List.mem_map.mpr ⟨t, ht, rfl⟩)

theorem addWitnesses_strings {cc : CharClass} {data : List WitnessData} : ∀ {c ws : List Witness},
    addWitnesses cc c data = .ok ws → (∀ w ∈ c, ∀ t ∈ w.tokens, tokenString t.data = .ok (.str t.str)) →
    ∀ w ∈ ws, ∀ t ∈ w.tokens, tokenString t.data = .ok (.str t.str) := by
  induction data with
  | nil =>
    intro c ws h hc
    obtain rfl := Except.ok.inj h
    exact hc
  | cons d data ih =>
    intro c ws h hc
    obtain ⟨c', h1, h⟩ := bind_eq_ok.mp h
    obtain ⟨w', h2, h1⟩ := bind_eq_ok.mp h1
    obtain rfl := Except.ok.inj h1
    refine ih h ?_
    intro w hw
    rcases List.mem_append.mp hw with hw | hw
    · exact hc w hw
    · rw [List.mem_singleton] at hw
      subst hw
      exact mkWitness_strings h2

/-- A witness made from the records of tokens. -/
theorem mkWitness_tokens (cc : CharClass) (σ : Str) {ts : List Token} (h : ∀ t ∈ ts, tokenString t.data = .ok (.str t.str)) :
    mkWitness cc { id := some σ, tokens := some (ts.map Token.data) } = .ok ⟨σ, ts⟩ := by
  have h1 : tokenValues (ts.map Token.data) = .ok (ts.map fun t => (.str t.str, t.data)) := by
    induction ts with
    | nil => rfl
    | cons t ts ih =>
      rw [List.map_cons, tokenValues, h t (by simp), ih fun t ht => h t (by simp [ht])]
      rfl
  have h2 : joinable (ts.map fun t => (JVal.str t.str, t.data)) = .ok ts := by
    clear h h1
    induction ts with
    | nil => rfl
    | cons t ts ih =>
      rw [List.map_cons, joinable, ih]
      rfl
  unfold mkWitness
  simp only [h1, bind_ok, h2]

theorem addWitnesses_eq (cc : CharClass) : ∀ {data : List WitnessData} {ws : List Witness} (c : List Witness),
    List.Forall₂ (fun d w => mkWitness cc d = .ok w) data ws → addWitnesses cc c data = .ok (c ++ ws)
  | _, _, c, .nil => by rw [addWitnesses, List.append_nil]
  | _, _, c, .cons (a := d) (b := w) h hl => by
    rw [addWitnesses, addWitness, h]
    simp only [bind_ok]
    rw [addWitnesses_eq cc _ hl, List.append_assoc]
    rfl

theorem tokenString_indexToken {σ : Str} {p : Nat} {t : Token} : tokenString (indexToken σ p t).data = tokenString t.data := by
  unfold tokenString indexToken
  simp only
  rw [dget_dset_ne _ _ (by decide), dget_dset_ne _ _ (by decide), dget_dset_ne _ _ (by decide), dget_dset_ne _ _ (by decide)]

theorem indexed_strings {ws : List Witness} (h : ∀ w ∈ ws, ∀ t ∈ w.tokens, tokenString t.data = .ok (.str t.str)) :
    ∀ w ∈ indexed 0 ws, ∀ t ∈ w.tokens, tokenString t.data = .ok (.str t.str) := by
  intro w hw t ht
  obtain ⟨k, hk⟩ := List.getElem?_of_mem hw
  obtain ⟨i, hi⟩ := List.getElem?_of_mem ht
  rw [indexed_getElem?] at hk
  obtain ⟨u, hu, rfl⟩ := Option.map_eq_some_iff.mp hk
  simp only [indexTokens_getElem?] at hi
  obtain ⟨x, hx, rfl⟩ := Option.map_eq_some_iff.mp hi
  rw [tokenString_indexToken]
  exact h u (List.mem_of_getElem? hu) x (List.mem_of_getElem? hx)

/-- The rows of the JSON output hold the records of the (indexed) tokens. -/
theorem jsonRows {env : Env} (hts : TopoSpec env.topo) {ws : List Witness} (hv : Valid ws) (hs : ∀ w ∈ ws, w.sigil ≠ []) {o : Opts}
    (ho : ExactMatching o) {t : Table} (ht : collateTable env ws o = .ok t) (b : Bool) :
    inputOfTable (exportJson t b) =
      (indexed 0 ws).map (fun w => { id := some w.sigil, tokens := some (w.tokens.map Token.data) }) := by
  obtain ⟨g, ps, rk, rkf, ord, m, h1, C, rfl⟩ := table_of env hts hv ho ht
  unfold inputOfTable exportJson
  simp only [mkTable_rows, List.map_map]
  rw [List.zipWith_map, List.zipWith_self]
  refine List.map_congr_left fun w hw => ?_
  obtain ⟨k, hk⟩ := List.getElem?_of_mem hw
  obtain ⟨p, hp, _, htext, hrow⟩ := C.row hk (indexed_sigil_ne hs w hw)
  simp only [Function.comp_def]
  congr 2
  have hcell : ∀ l : List (Option (List Token)), ((l.map jsonCell).filterMap id).flatten = ((l.filterMap id).flatten).map Token.data := by
    intro l
    induction l with
    | nil => rfl
    | cons c l ih =>
      rw [List.map_cons]
      cases c with
      | none =>
        show ((none :: l.map jsonCell).filterMap id).flatten = ((none :: l).filterMap id).flatten.map Token.data
        simpa only [List.filterMap_cons, id] using ih
      | some ts =>
        cases ts with
        | nil =>
          show ((none :: l.map jsonCell).filterMap id).flatten = ((some [] :: l).filterMap id).flatten.map Token.data
          simpa only [List.filterMap_cons, id, List.flatten_cons, List.nil_append] using ih
        | cons a ts =>
          show ((some ((a :: ts).map Token.data) :: l.map jsonCell).filterMap id).flatten = ((some (a :: ts) :: l).filterMap id).flatten.map Token.data
          simp only [List.filterMap_cons, id, List.flatten_cons, List.map_append]
          exact congrArg _ ih
  have := hcell ((mkTable (indexed 0 ws) g rk).columns.map fun c => dget c.tokens w.sigil)
  rw [this, hrow, ← htext]
  unfold WPath.text
  rw [List.flatMap_def]

/-! ### Records with the same entries -/

theorem perm_dset {K V : Type} [DecidableEq K] {d d' : Dict K V} (h : d.Perm d') (nd : (d.map Prod.fst).Nodup) (k : K) (v : V) :
    (dset d k v).Perm (dset d' k v) := by
  have nd' : (d'.map Prod.fst).Nodup := (h.map _).nodup_iff.mp nd
  have n1 := nodup_keys_dset nd k v
  have n2 := nodup_keys_dset nd' k v
  rw [List.perm_ext_iff_of_nodup n1.of_map n2.of_map]
  rintro ⟨a, b⟩
  rw [← dget_iff_mem n1, ← dget_iff_mem n2]
  by_cases hk : k = a
  · subst hk
    rw [dget_dset_self, dget_dset_self]
  · rw [dget_dset_ne _ _ hk, dget_dset_ne _ _ hk, dget_iff_mem nd, dget_iff_mem nd']
    exact h.mem_iff

theorem perm_dget {K V : Type} [DecidableEq K] {d d' : Dict K V} (h : d.Perm d') (nd : (d.map Prod.fst).Nodup) (k : K) :
    dget d k = dget d' k := by
  have nd' : (d'.map Prod.fst).Nodup := (h.map _).nodup_iff.mp nd
  apply Option.ext
  intro v
  rw [dget_iff_mem nd, dget_iff_mem nd']
  exact h.mem_iff

theorem perm_ownFields {d d' : TokenData} (h : d.Perm d') (nd : (d.map Prod.fst).Nodup) : (ownFields d).Perm (ownFields d') := by
  have nd' : (d'.map Prod.fst).Nodup := (h.map _).nodup_iff.mp nd
  unfold ownFields
  have e1 : ∀ {x : TokenData}, (x.map Prod.fst).Nodup → ddel (ddel x .sigil) .pos = (x.filter (fun p => p.1 ≠ .sigil)).filter (fun p => p.1 ≠ .pos) := by
    intro x hx
    rw [ddel_eq_filter .sigil x hx, ddel_eq_filter]
    exact (List.filter_sublist.map _).nodup hx
  rw [e1 nd, e1 nd']
  exact (h.filter _).filter _

theorem keyOf_other {s : Str} (h : s ≠ S "t" ∧ s ≠ S "n" ∧ s ≠ S "_sigil" ∧ s ≠ S "_token_array_position") : keyOf s = .other s := by
  unfold keyOf
  rw [if_neg h.1, if_neg h.2.1, if_neg h.2.2.1, if_neg h.2.2.2]

theorem key_name_inj {d : TokenData} {raw : Str → Json} {code : Json → Str} (h : IsRecord raw code d) :
    (d.map fun e => e.1.name).Nodup := by
  have key : ∀ a ∈ d, keyOf a.1.name = a.1 := by
    rintro ⟨k, v⟩ ha
    cases k with
    | t => show keyOf (S "t") = .t; decide
    | n => show keyOf (S "n") = .n; decide
    | sigil => show keyOf (S "_sigil") = .sigil; decide
    | pos => show keyOf (S "_token_array_position") = .pos; decide
    | other s => exact keyOf_other (h.names s v ha)
  have : ((d.map fun e => e.1.name).map keyOf).Nodup := by
    rw [List.map_map]
    have e : d.map (keyOf ∘ fun e => e.1.name) = d.map Prod.fst := List.map_congr_left fun a ha => key a ha
    rw [e]
    exact h.keys
  exact this.of_map

theorem sortKeysEntries_congr {l l' : List (Str × Json)} (h : l.Perm l') (nd : (l.map Prod.fst).Nodup) :
    sortKeysEntries l = sortKeysEntries l' := by
  have p1 := sortKeysEntries_perm l
  have p2 := sortKeysEntries_perm l'
  have pr : (rawEntries l).Perm (rawEntries l') := by
    rw [rawEntries_eq, rawEntries_eq]
    exact h.map _
  have p : (sortKeysEntries l).Perm (sortKeysEntries l') := p1.trans (pr.trans p2.symm)
  have hk : ((sortKeysEntries l).map Prod.fst).Nodup := by
    refine (p1.map Prod.fst).nodup_iff.mpr ?_
    rw [rawEntries_eq, List.map_map]
    exact nd
  refine p.eq_of_pairwise ?_ (sortKeysEntries_sorted l) (sortKeysEntries_sorted l')
  intro a b ha hb h1 h2
  have hb' := p.mem_iff.mpr hb
  have hab : a.1 = b.1 := by
    by_contra hne
    rcases strLt_total a.1 b.1 hne with h | h
    · exact h2 ((strLt_iff ..).mp h)
    · exact h1 ((strLt_iff ..).mp h)
  obtain ⟨k, v⟩ := a
  obtain ⟨k', v'⟩ := b
  obtain rfl : k = k' := hab
  have := (dget_iff_mem hk).mpr ha
  rw [(dget_iff_mem hk).mpr hb'] at this
  rw [Option.some.inj this]

/-- Records with the same entries have the same text. -/
theorem recordJson_congr {raw : Str → Json} {code : Json → Str} {d d' : TokenData} (h : d.Perm d') (hd : IsRecord raw code d) :
    (recordJson raw d).sortKeys = (recordJson raw d').sortKeys := by
  unfold recordJson
  rw [Json.sortKeys, Json.sortKeys]
  congr 1
  refine sortKeysEntries_congr (h.map _) ?_
  rw [List.map_map]
  exact key_name_inj hd

theorem tableJson_sortKeys (raw : Str → Json) (table : List (List (Option (List TokenData)))) :
    (Json.arr (table.map fun row => Json.arr (row.map (cellJson raw)))).sortKeys =
      .arr (table.map fun row => .arr (row.map fun c => (cellJson raw c).sortKeys)) := by
  rw [Json.sortKeys, sortKeysList_eq, List.map_map]
  congr 1
  refine List.map_congr_left (fun row _ => ?_)
  show (Json.arr _).sortKeys = _
  rw [Json.sortKeys, sortKeysList_eq, List.map_map]
  rfl

/-- JSON outputs with the same sigla, flags and, but for the order of entries, the same records have the same text. -/
theorem text_congr {raw : Str → Json} {j j' : JsonTable} (hw : j.witnesses = j'.witnesses) (hst : j.status = j'.status)
    (ht : List.Forall₂ (List.Forall₂ (fun c c' => (cellJson raw c).sortKeys = (cellJson raw c').sortKeys)) j.table j'.table)
    (indent : Option Nat) : j.text raw indent = j'.text raw indent := by
  have htab : (Json.arr (j.table.map fun row => Json.arr (row.map (cellJson raw)))).sortKeys =
      (Json.arr (j'.table.map fun row => Json.arr (row.map (cellJson raw)))).sortKeys := by
    rw [tableJson_sortKeys, tableJson_sortKeys]
    congr 1
    exact forall₂_map_eq ht fun row row' hr => congrArg Json.arr (forall₂_map_eq hr fun _ _ h => h)
  unfold JsonTable.text jsonDumps JsonTable.json
  rw [hw, hst, Json.sortKeys, Json.sortKeys]
  cases j'.status with
  | none => simp only [List.append_nil, sortKeysEntries, htab]
  | some bs => simp only [List.cons_append, List.nil_append, sortKeysEntries, htab]

/-! ### Reading the text -/

theorem recordOf_reads {raw : Str → Json} {code : Json → Str} {d : TokenData} (hd : IsRecord raw code d) {v : Json}
    (h : ReadsRecord raw d v) : ∃ d', recordOf code v = some d' ∧ d'.Perm d := by
  obtain ⟨l, l', rfl, _, hp, hf⟩ := h
  refine ⟨_, rfl, (hp.map _).trans ?_⟩
  suffices e : l'.map (fun e => (keyOf e.1, valueOf code e.2)) = d by rw [e]
  have hn := hd.names
  have hv := hd.values
  clear hp hd
  induction hf with
  | nil => rfl
  | @cons e a d l' h _ ih =>
    rw [List.map_cons, ih (fun s v h => hn s v (by simp [h])) (fun k r h => hv k r (by simp [h]))]
    obtain ⟨k, x⟩ := e
    obtain ⟨s, y⟩ := a
    obtain ⟨h1, h2⟩ := h
    simp only at h1 h2
    have hk : keyOf s = k := by
      cases h1 with
      | t => decide
      | n => decide
      | sigil => decide
      | pos => decide
      | other s => exact keyOf_other (hn s x (by simp))
    have hx : valueOf code y = x := by
      cases x with
      | str s' => simp only [ReadsValue] at h2; subst h2; rfl
      | nat n => simp only [ReadsValue] at h2; subst h2; rfl
      | raw r => exact hv k r (by simp) y h2
    simp only [hk, hx]

theorem mapM_forall₂ {α β γ : Type} {f : β → Option γ} {R : α → γ → Prop} : ∀ {l : List α} {l' : List β},
    List.Forall₂ (fun a b => ∃ c, f b = some c ∧ R a c) l l' → ∃ cs, l'.mapM f = some cs ∧ List.Forall₂ R l cs
  | _, _, .nil => ⟨[], rfl, .nil⟩
  | _, _, .cons ⟨c, h1, h2⟩ hl => by
    obtain ⟨cs, g1, g2⟩ := mapM_forall₂ hl
    refine ⟨c :: cs, ?_, .cons h2 g2⟩
    rw [List.mapM_cons, h1, g1]
    rfl

/-- Reading the text of a JSON output as input gives the records back, but for the order of their entries. -/
theorem inputOfJson_reads {raw : Str → Json} {code : Json → Str} {j : JsonTable} (indent : Option Nat)
    (hl : j.witnesses.length = j.table.length)
    (hd : ∀ row ∈ j.table, ∀ ds, some ds ∈ row → ∀ d ∈ ds, IsRecord raw code d) :
    ∃ data, (readJson (j.text raw indent)).bind (inputOfJson code) = some data ∧
      List.Forall₂ (fun a b : WitnessData => b.id = a.id ∧ b.content = none ∧ ∃ ds ds', a.tokens = some ds ∧ b.tokens = some ds' ∧
        List.Forall₂ (fun d d' => d'.Perm d) ds ds') (inputOfTable j) data := by
  obtain ⟨fields, rows, h1, h2, h3, h4, h5, h6⟩ := C72_json_text raw indent j
  have nd : (fields.map Prod.fst).Nodup := by
    rw [h2]
    split <;> decide
  have hrows : ∃ ts, rows.mapM (jsonRowOf code) = some ts ∧
      List.Forall₂ (fun (row : List (Option (List TokenData))) ds' => List.Forall₂ (fun d d' => d'.Perm d) (row.filterMap id).flatten ds') j.table ts := by
    apply mapM_forall₂
    refine forall₂_imp_mem h6 ?_
    rintro row hrow v ⟨cells, rfl, hc⟩
    have : ∃ cs, cells.mapM (jsonCellOf code) = some cs ∧
        List.Forall₂ (fun (c : Option (List TokenData)) ds' => List.Forall₂ (fun d d' => d'.Perm d) (c.getD []) ds') row cs := by
      apply mapM_forall₂
      refine forall₂_imp_mem hc ?_
      intro c hcm v hv
      cases c with
      | none =>
        simp only [ReadsCell] at hv
        subst hv
        exact ⟨[], rfl, .nil⟩
      | some ds =>
        obtain ⟨l, rfl, hl⟩ := hv
        apply mapM_forall₂
        refine forall₂_imp_mem hl ?_
        intro d hdm v hv
        exact recordOf_reads (hd row hrow ds hcm d hdm) hv
    obtain ⟨cs, g1, g2⟩ := this
    refine ⟨cs.flatten, by simp only [jsonRowOf, g1, Option.map_some], ?_⟩
    clear hc g1 hrow
    induction g2 with
    | nil => exact .nil
    | @cons c ds' row cs h _ ih =>
      cases c with
      | none =>
        cases h
        simpa using ih
      | some ds => 
        simp only [List.filterMap_cons, id, List.flatten_cons]
        exact forall₂_append h ih
  obtain ⟨ts, g1, g2⟩ := hrows
  have hw : (j.witnesses.map Json.str).mapM stringOf = some j.witnesses := by
    generalize j.witnesses = l
    induction l with
    | nil => rfl
    | cons s l ih =>
      rw [List.map_cons, List.mapM_cons, ih]
      rfl
  refine ⟨List.zipWith (fun σ ts => { id := some σ, tokens := some ts }) j.witnesses ts, ?_, ?_⟩
  · rw [h1, Option.bind_some]
    simp only [inputOfJson]
    rw [(dget_iff_mem nd).mpr h3, (dget_iff_mem nd).mpr h4]
    simp only [hw, g1]
    rfl
  · unfold inputOfTable
    clear h1 h2 h3 h4 h5 h6 nd hw g1 hd
    revert hl g2
    generalize j.witnesses = σs
    generalize j.table = table
    intro hl g2
    induction g2 generalizing σs with
    | nil => simp
    | @cons row ds' table ts h _ ih =>
      cases σs with
      | nil => simp at hl
      | cons σ σs =>
        exact .cons ⟨rfl, rfl, _, _, rfl, rfl, h⟩ (ih σs (by simpa using hl))

/-! ### The second run -/

/-- The same token, but for the order of the entries of its record. -/
def PermToken (t t' : Token) : Prop := t'.str = t.str ∧ t'.data.Perm t.data

def PermWitness (w w' : Witness) : Prop := w'.sigil = w.sigil ∧ List.Forall₂ PermToken w.tokens w'.tokens

theorem valid_of_same {ws ws' : List Witness} (hv : Valid ws)
    (h : List.Forall₂ (fun w w' : Witness => w'.sigil = w.sigil ∧ w'.tokens.map Token.str = w.tokens.map Token.str) ws ws') : Valid ws' := by
  have hsig : ws'.map Witness.sigil = ws.map Witness.sigil := (forall₂_map_eq h fun _ _ h => h.1.symm).symm
  have hmem : ∀ w' ∈ ws', ∃ w ∈ ws, w'.tokens.map Token.str = w.tokens.map Token.str := by
    intro w' hw'
    obtain ⟨k, hk⟩ := List.getElem?_of_mem hw'
    obtain ⟨h1, h2⟩ := List.getElem?_eq_some_iff.mp hk
    rw [List.forall₂_iff_get] at h
    have := h.2 k (by omega) h1
    simp only [List.get_eq_getElem, h2] at this
    exact ⟨_, List.getElem_mem _, this.2⟩
  refine ⟨?_, ?_, by rw [hsig]; exact hv.sigla, ?_⟩
  · rintro rfl
    cases h
    exact hv.ne rfl
  · intro w' hw'
    obtain ⟨w, hw, he⟩ := hmem w' hw'
    have hl : w'.tokens.length = w.tokens.length := by simpa using congrArg List.length he
    obtain ⟨h1, h2⟩ := hv.tokens w hw
    refine ⟨?_, by omega⟩
    intro h0
    rw [h0] at hl
    exact h1 (List.length_eq_zero_iff.mp hl.symm)
  · intro w' hw' t ht
    obtain ⟨w, hw, he⟩ := hmem w' hw'
    have : t.str ∈ w.tokens.map Token.str := by rw [← he]; exact List.mem_map.mpr ⟨t, ht, rfl⟩
    obtain ⟨u, hu, hut⟩ := List.mem_map.mp this
    rw [← hut, ← h.length_eq]
    exact hv.sep w hw u hu

theorem PermWitness.strs {w w' : Witness} (h : PermWitness w w') : w'.tokens.map Token.str = w.tokens.map Token.str :=
  (forall₂_map_eq h.2 fun _ _ h => h.1.symm).symm

theorem valid_indexed {ws : List Witness} (hv : Valid ws) : Valid (indexed 0 ws) := by
  refine valid_of_same hv ?_
  rw [List.forall₂_iff_get]
  refine ⟨(indexed_length 0 ws).symm, fun k h1 h2 => ?_⟩
  obtain ⟨w0, g1, g2, g3⟩ := indexed_strs ws (List.getElem?_eq_getElem h2)
  rw [List.getElem?_eq_getElem h1] at g1
  obtain rfl := Option.some.inj g1
  exact ⟨g2, g3⟩

theorem isRecord_dset {raw : Str → Json} {code : Json → Str} {d : TokenData} (h : IsRecord raw code d) {k : Key} {v : JVal}
    (hk : k = .sigil ∨ k = .pos) (hv : ∀ r, v ≠ .raw r) : IsRecord raw code (dset d k v) := by
  refine ⟨nodup_keys_dset h.keys k v, ?_, ?_⟩
  · intro s x hm
    rcases mem_dset hm with hm | hm
    · exact h.names s x hm
    · rcases hk with rfl | rfl <;> simp at hm
  · intro a r hm
    rcases mem_dset hm with hm | hm
    · exact h.values a r hm
    · exact absurd (congrArg Prod.snd hm).symm (hv r)

theorem isRecord_indexed {raw : Str → Json} {code : Json → Str} {ws : List Witness}
    (h : ∀ w ∈ ws, ∀ t ∈ w.tokens, IsRecord raw code t.data) : ∀ w ∈ indexed 0 ws, ∀ t ∈ w.tokens, IsRecord raw code t.data := by
  intro w hw t ht
  obtain ⟨k, hk⟩ := List.getElem?_of_mem hw
  obtain ⟨i, hi⟩ := List.getElem?_of_mem ht
  rw [indexed_getElem?] at hk
  obtain ⟨u, hu, rfl⟩ := Option.map_eq_some_iff.mp hk
  simp only [indexTokens_getElem?] at hi
  obtain ⟨x, hx, rfl⟩ := Option.map_eq_some_iff.mp hi
  have := h u (List.mem_of_getElem? hu) x (List.mem_of_getElem? hx)
  unfold indexToken
  exact isRecord_dset (isRecord_dset this (Or.inl rfl) (by simp)) (Or.inr rfl) (by simp)

/-- Inputs that differ in the order of the entries of records have JSON outputs with the same text. -/
theorem perm_run {env : Env} (hts : TopoSpec env.topo) {ws ws' : List Witness} (hv : Valid ws) (hs : ∀ w ∈ ws, w.sigil ≠ [])
    (hp : List.Forall₂ PermWitness ws ws') {raw : Str → Json} {code : Json → Str}
    (hr : ∀ w ∈ ws, ∀ t ∈ w.tokens, IsRecord raw code t.data) {o : Opts} (ho : ExactMatching o) (hf : Blind o.pfilter List.Perm) (b : Bool) :
    ∃ t t', collateTable env ws o = .ok t ∧ collateTable env ws' o = .ok t' ∧
      ∀ indent, (exportJson t' b).text raw indent = (exportJson t b).text raw indent := by
  have hv' : Valid ws' := valid_of_same hv (hp.imp fun _ _ h => ⟨h.1, h.strs⟩)
  have hget : ∀ (k : Nat) (w w' : Witness), ws[k]? = some w → ws'[k]? = some w' → PermWitness w w' := by
    intro k w w' h1 h2
    rw [List.forall₂_iff_get] at hp
    obtain ⟨b1, b2⟩ := List.getElem?_eq_some_iff.mp h1
    obtain ⟨c1, c2⟩ := List.getElem?_eq_some_iff.mp h2
    have := hp.2 k b1 c1
    simp only [List.get_eq_getElem, b2, c2] at this
    exact this
  have hs' : ∀ w ∈ ws', w.sigil ≠ [] := by
    intro w' hw'
    obtain ⟨k, hk⟩ := List.getElem?_of_mem hw'
    have hk' := (List.getElem?_eq_some_iff.mp hk).1
    rw [← hp.length_eq] at hk'
    rw [(hget k _ w' (List.getElem?_eq_getElem hk') hk).1]
    exact hs _ (List.getElem_mem _)
  have hsh : Shape ws.length ws ws' := by
    intro k hk
    have hk' : k < ws'.length := by rw [← hp.length_eq]; exact hk
    exact ⟨_, _, List.getElem?_eq_getElem hk, List.getElem?_eq_getElem hk',
      (hget k _ _ (List.getElem?_eq_getElem hk) (List.getElem?_eq_getElem hk')).2.length_eq⟩
  obtain ⟨g, g', rk, h1, h2, hg⟩ := collateRanked_like_tokens (Q := List.Perm) hts hv hv' hs hs'
    (by
      refine forall₂_imp_mem hp fun w hw w' h => forall₂_imp_mem h.2 fun t ht t' h => ⟨h.1.symm, ?_⟩
      exact perm_ownFields h.2.symm (hr w hw t ht).keys) hf ho
  have hR : OneOne (SigRel (indexed 0 ws) (indexed 0 ws')) :=
    sigRel_oneOne (by rw [indexed_sigla]; exact hv.sigla) (by rw [indexed_sigla]; exact hv'.sigla)
  have hw : List.Forall₂ (fun w w' : Witness => SigRel (indexed 0 ws) (indexed 0 ws') w.sigil w'.sigil) (indexed 0 ws) (indexed 0 ws') := by
    rw [List.forall₂_iff_get]
    refine ⟨by rw [indexed_length, indexed_length, hp.length_eq], fun i h1 h2 => ⟨i, _, _, ?_, ?_, rfl, rfl⟩⟩ <;> simp [h1, h2]
  obtain ⟨hcol, hrow⟩ := hg.table hR hw rk
  refine ⟨_, _, by unfold collateTable; rw [h1]; rfl, by unfold collateTable; rw [h2]; rfl, fun indent => ?_⟩
  symm
  have htok : ∀ a a', TokRel (indexed 0 ws) (indexed 0 ws') a a' → (recordJson raw a.data).sortKeys = (recordJson raw a'.data).sortKeys := by
    rintro a a' ⟨k, i, x, x', k1, k2, k3, k4⟩
    rw [indexed_getElem?] at k1 k2
    obtain ⟨w, j1, rfl⟩ := Option.map_eq_some_iff.mp k1
    obtain ⟨w', j2, rfl⟩ := Option.map_eq_some_iff.mp k2
    simp only [indexTokens_getElem?] at k3 k4
    obtain ⟨u, j3, rfl⟩ := Option.map_eq_some_iff.mp k3
    obtain ⟨u', j4, rfl⟩ := Option.map_eq_some_iff.mp k4
    have hpw := hget k w w' j1 j2
    have hpt : PermToken u u' := by
      have := hpw.2
      rw [List.forall₂_iff_get] at this
      obtain ⟨b1, b2⟩ := List.getElem?_eq_some_iff.mp j3
      obtain ⟨c1, c2⟩ := List.getElem?_eq_some_iff.mp j4
      have := this.2 i b1 c1
      simp only [List.get_eq_getElem, b2, c2] at this
      exact this
    have hrec := hr w (List.mem_of_getElem? j1) u (List.mem_of_getElem? j3)
    have hk := (List.getElem?_eq_some_iff.mp j1).1
    rw [hpw.1, ← hsh.off k (by omega)]
    refine recordJson_congr (code := code) ?_ (isRecord_dset (isRecord_dset hrec (Or.inl rfl) (by simp)) (Or.inr rfl) (by simp))
    unfold indexToken
    exact perm_dset (perm_dset hpt.2.symm hrec.keys _ _) (nodup_keys_dset hrec.keys _ _) _ _
  apply text_congr
  · unfold exportJson
    simp only [mkTable_rows, List.map_map, Function.comp_def]
    show (indexed 0 ws).map Witness.sigil = (indexed 0 ws').map Witness.sigil
    rw [indexed_sigla, indexed_sigla]
    exact forall₂_map_eq hp fun _ _ h => h.1.symm
  · unfold exportJson
    simp only
    rw [forall₂_map_eq hcol (fun _ _ h => h.1)]
  · unfold exportJson
    simp only
    refine forall₂_map hrow fun r r' hrr => forall₂_map hrr fun c c' hc => ?_
    cases hc with
    | none => rfl
    | @some ts ts' hcc =>
      cases hcc with
      | nil => rfl
      | @cons a a' ts ts' ha hl =>
        show (Json.arr (((a :: ts).map Token.data).map (recordJson raw))).sortKeys = (Json.arr (((a' :: ts').map Token.data).map (recordJson raw))).sortKeys
        rw [Json.sortKeys, Json.sortKeys, sortKeysList_eq, sortKeysList_eq, List.map_map, List.map_map, List.map_map, List.map_map]
        congr 1
        exact forall₂_map_eq (List.Forall₂.cons ha hl) fun x y h => htok x y h

end CollateX
