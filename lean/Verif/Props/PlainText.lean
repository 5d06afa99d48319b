import Verif.Spec.PlainText
import Verif.Proofs.Again
import Verif.Props.Limits
import Verif.Props.Display
import Verif.Props.Export
import Verif.Props.XmlText
/-
From plain texts to the text of the output and back: C90.
-/

namespace CollateX
open Spec

/-- The text of token records. -/
def DataText (ds : List TokenData) (s : Str) : Prop :=
  ∃ l : List Str, ds.map (fun d => dget d .t) = l.map (fun x => some (JVal.str x)) ∧ l.flatten = s

theorem DataText.unique {ds : List TokenData} {s s' : Str} (h : DataText ds s) (h' : DataText ds s') : s = s' := by
  obtain ⟨l, h1, rfl⟩ := h
  obtain ⟨l', h2, rfl⟩ := h'
  rw [h1] at h2
  rw [List.map_injective_iff.mpr (fun a b e => by injection e with e; injection e) h2]

theorem dataText_of_textOf {ts : List Token} {s : Str} : DataText (ts.map Token.data) s ↔ TextOf ts s := by
  unfold DataText TextOf
  rw [List.map_map]
  rfl

theorem dataText_nil : DataText [] [] := ⟨[], rfl, rfl⟩

theorem dataText_append {a b : List TokenData} {x y : Str} (h1 : DataText a x) (h2 : DataText b y) : DataText (a ++ b) (x ++ y) := by
  obtain ⟨l, a1, rfl⟩ := h1
  obtain ⟨m, b1, rfl⟩ := h2
  exact ⟨l ++ m, by simp [a1, b1], by simp⟩

theorem dataText_row {row : List (Option (List TokenData))} {xs : List Str} (h : List.Forall₂ (fun c x => DataText (Option.getD c []) x) row xs) :
    DataText (row.filterMap id).flatten xs.flatten := by
  induction h with
  | nil => exact dataText_nil
  | @cons c x row xs h _ ih =>
    cases c with
    | none =>
      have : x = [] := h.unique dataText_nil
      subst this
      simpa using ih
    | some ds => simpa using dataText_append h ih

theorem keyIs_eq {k : Key} {s : Str} (h : KeyIs k s) : s = k.name := by cases h <;> rfl

/-- The text of a token record that has been read. -/
theorem jsonTokenText_reads {raw : Str → Json} {d : TokenData} {v : Json} (hn : (d.map fun e => e.1.name).Nodup) (h : ReadsRecord raw d v)
    {s : Str} (hs : dget d .t = some (.str s)) : jsonTokenText v = some s := by
  obtain ⟨l, l', rfl, _, hp, hf⟩ := h
  have hnames : l'.map Prod.fst = d.map fun e => e.1.name := by
    clear hp hn hs
    induction hf with
    | nil => rfl
    | cons h _ ih => rw [List.map_cons, List.map_cons, ih, keyIs_eq h.1]
  have hmem : (S "t", Json.str s) ∈ l' := by
    obtain ⟨b, hb, h1, h2⟩ := forall₂_mem_left hf _ (dget_mem hs)
    have h1 := keyIs_eq h1
    simp only [ReadsValue] at h2
    have : b = (S "t", Json.str s) := Prod.ext h1 h2
    rw [← this]
    exact hb
  have nd : (l.map Prod.fst).Nodup := by
    rw [(hp.map Prod.fst).nodup_iff, hnames]
    exact hn
  unfold jsonTokenText
  simp only
  rw [(dget_iff_mem nd).mpr (hp.mem_iff.mpr hmem)]
  rfl

/-- The texts of the cells of an output that has been read. -/
theorem jsonCells_reads (raw : Str → Json) (indent : Option Nat) (j : JsonTable)
    (hd : ∀ row ∈ j.table, ∀ ds, some ds ∈ row → ∀ d ∈ ds, (d.map fun e => e.1.name).Nodup ∧ ∃ s, dget d .t = some (.str s)) :
    ∃ tt, (readJson (j.text raw indent)).bind jsonCells = some (j.witnesses, tt) ∧
      List.Forall₂ (List.Forall₂ (fun c x => DataText (Option.getD c []) x)) j.table tt := by
  obtain ⟨fields, rows, h1, h2, h3, h4, _, h6⟩ := C72_json_text raw indent j
  have nd : (fields.map Prod.fst).Nodup := by
    rw [h2]
    split <;> decide
  have hrows : ∃ tt, rows.mapM jsonLineTexts = some tt ∧ List.Forall₂ (List.Forall₂ (fun c x => DataText (Option.getD c []) x)) j.table tt := by
    apply mapM_forall₂
    refine forall₂_imp_mem h6 ?_
    rintro row hrow v ⟨cells, rfl, hc⟩
    apply mapM_forall₂
    refine forall₂_imp_mem hc ?_
    intro c hcm v hv
    cases c with
    | none =>
      simp only [ReadsCell] at hv
      subst hv
      exact ⟨[], rfl, dataText_nil⟩
    | some ds =>
      obtain ⟨l, rfl, hl⟩ := hv
      obtain ⟨ts, g1, g2⟩ := mapM_forall₂ (f := jsonTokenText) (R := fun d s => dget d .t = some (JVal.str s)) (forall₂_imp_mem hl (by
        intro d hdm v hv
        obtain ⟨hn, s, hs⟩ := hd row hrow ds hcm d hdm
        exact ⟨s, jsonTokenText_reads hn hv hs, hs⟩))
      refine ⟨ts.flatten, by simp only [jsonCellText, g1, Option.map_some], ts, ?_, rfl⟩
      simp only [Option.getD_some]
      clear g1 hl hcm
      induction g2 with
      | nil => rfl
      | cons h _ ih => rw [List.map_cons, List.map_cons, h, ih]
  obtain ⟨tt, g1, g2⟩ := hrows
  have hw : (j.witnesses.map Json.str).mapM stringOf = some j.witnesses := by
    generalize j.witnesses = l
    induction l with
    | nil => rfl
    | cons s l ih =>
      rw [List.map_cons, List.mapM_cons, ih]
      rfl
  refine ⟨tt, ?_, g2⟩
  rw [h1, Option.bind_some]
  simp only [jsonCells]
  rw [(dget_iff_mem nd).mpr h3, (dget_iff_mem nd).mpr h4]
  simp only [hw, g1]
  rfl

/-- The witnesses made from plain texts. -/
def plainWitnessesOf (cc : CharClass) (texts : List (Str × Str)) : List Witness :=
  texts.map (fun p => ⟨p.1, (tokenize cc p.2).map (plainToken cc)⟩)

theorem plain_added (cc : CharClass) (texts : List (Str × Str)) (c : Collation) :
    addWitnesses cc c (plainInput texts) = .ok (c ++ plainWitnessesOf cc texts) := by
  induction texts generalizing c with
  | nil => simp [addWitnesses, plainInput, plainWitnessesOf]
  | cons p l ih =>
    have h1 : addWitness cc c { id := some p.1, content := some p.2 } = .ok (c ++ [⟨p.1, (tokenize cc p.2).map (plainToken cc)⟩]) := rfl
    have := ih (c ++ [⟨p.1, (tokenize cc p.2).map (plainToken cc)⟩])
    simp only [plainInput, List.map_cons, addWitnesses, h1, bind_ok] at this ⊢
    rw [this, plainWitnessesOf, plainWitnessesOf, List.map_cons, List.append_assoc, List.cons_append, List.nil_append]

theorem plain_valid {env : Env} (hts : TopoSpec env.topo) (hdol : env.cc.word '$' = false)
    (hd : ∀ c, c.isDigit = true → env.cc.word c = true) {texts : List (Str × Str)} (hne : texts ≠ [])
    (htx : ∀ p ∈ texts, p.2 ≠ [] ∧ p.2.length < 1000000000) (hsig : (texts.map Prod.fst).Nodup) : Valid (plainWitnessesOf env.cc texts) := by
  obtain ⟨ws, h1, _, h2, _⟩ := C45_plain_text_partial env hts hdol hd texts hne htx hsig {} ⟨rfl, rfl, rfl⟩
  have h3 := plain_added env.cc texts []
  unfold createFromDict at h1
  simp only at h1
  unfold plainInput at h3
  rw [h1] at h3
  have := Except.ok.inj h3
  rw [List.nil_append] at this
  rw [← this]
  exact h2

theorem plain_text (cc : CharClass) (σ s : Str) {w : Witness} (hw : w = ⟨σ, (tokenize cc s).map (plainToken cc)⟩) : TextOf w.tokens s := by
  subst hw
  refine ⟨tokenize cc s, ?_, (tokenizeF_isTokenisation cc s.length s (Nat.le_refl _)).lossless⟩
  rw [List.map_map]
  rfl

theorem plain_hasTexts (cc : CharClass) (texts : List (Str × Str)) : HasTexts (plainWitnessesOf cc texts) := by
  intro w hw t ht
  obtain ⟨p, _, rfl⟩ := List.mem_map.mp hw
  obtain ⟨s, _, rfl⟩ := List.mem_map.mp ht
  exact ⟨s, rfl⟩

theorem plain_isRecord (raw : Str → Json) (cc : CharClass) (texts : List (Str × Str)) :
    ∀ w ∈ plainWitnessesOf cc texts, ∀ t ∈ w.tokens, IsRecord raw (fun _ => []) t.data := by
  intro w hw t ht
  obtain ⟨p, _, rfl⟩ := List.mem_map.mp hw
  obtain ⟨s, _, rfl⟩ := List.mem_map.mp ht
  exact ⟨by simp [plainToken], by simp [plainToken], by simp [plainToken]⟩

/-- The JSON output of a collation: its rows have the records of the tokens with their bookkeeping fields. -/
theorem json_output {env : Env} (hts : TopoSpec env.topo) {ws : List Witness} (hv : Valid ws) (hs : ∀ w ∈ ws, w.sigil ≠ []) (o : Opts)
    (ho : ExactMatching o) :
    ∃ j, collate env ws { o with output := S "json", layout := S "horizontal" } = .ok (.json j) ∧
      List.Forall₂ (fun (w : Witness) (row : List (Option (List TokenData))) => (row.filterMap id).flatten = w.tokens.map Token.data) (indexed 0 ws) j.table := by
  obtain ⟨j, _, h1, _, h3, _, h5, _⟩ := C35_json_of_collation env hts ws hv hs o ho
  refine ⟨j, h1, ?_⟩
  obtain ⟨t, ws', g, rk, h6, h7, rfl, _⟩ := exists_table env hts ws hv { o with output := S "json", layout := S "horizontal" } ⟨ho.astar, ho.detect, ho.near⟩
  have hj : j = exportJson (mkTable ws' g rk) false := by
    simp only [collate, h6, bind_ok] at h1
    have e1 : ¬ (S "json" = S "svg" ∨ S "json" = S "svg_simple") := by decide
    have e2 : S "json" ≠ S "graph" := by decide
    have e3 : S "horizontal" ≠ S "vertical" := by decide
    simp only [render, if_neg e1, if_neg e2, if_neg e3, if_true] at h1
    exact (Output.json.inj (Except.ok.inj h1)).symm
  have h8 := jsonRows hts hv hs (o := { o with output := S "json", layout := S "horizontal" }) ⟨ho.astar, ho.detect, ho.near⟩ h7 false
  rw [← hj] at h8
  have hlen : j.witnesses.length = j.table.length := by rw [h3, h5, List.length_map]
  rw [List.forall₂_iff_get]
  refine ⟨by rw [indexed_length, h5], ?_⟩
  intro k k1 k2
  have := congrArg (fun l => l[k]?) h8
  simp only [inputOfTable, List.getElem?_zipWith, List.getElem?_map, List.getElem?_eq_getElem k1, List.getElem?_eq_getElem k2,
    List.getElem?_eq_getElem (show k < j.witnesses.length by omega), Option.map_some, Option.some.injEq, WitnessData.mk.injEq] at this
  exact this.2.2

/-- The text of a witness of plain texts after indexing. -/
theorem plain_indexed (cc : CharClass) (texts : List (Str × Str)) {env : Env} {o : Opts} {g : VGraph} {rk : Ranking}
    (h0 : collateRanked env (plainWitnessesOf cc texts) o = .ok (indexed 0 (plainWitnessesOf cc texts), g, rk)) :
    List.Forall₂ (fun (p : Str × Str) (w : Witness) => w.sigil = p.1 ∧ TextOf w.tokens p.2) texts (indexed 0 (plainWitnessesOf cc texts)) := by
  rw [List.forall₂_iff_get]
  refine ⟨by rw [indexed_length, plainWitnessesOf, List.length_map], ?_⟩
  intro k k1 k2
  have e : (indexed 0 (plainWitnessesOf cc texts))[k]? = some (indexed 0 (plainWitnessesOf cc texts))[k] := List.getElem?_eq_getElem k2
  have e1 : (plainWitnessesOf cc texts)[k]? = some ⟨texts[k].1, (tokenize cc texts[k].2).map (plainToken cc)⟩ := by
    rw [plainWitnessesOf, List.getElem?_map, List.getElem?_eq_getElem k1]
    rfl
  obtain ⟨w, hw, hsig, _⟩ := indexed_strs _ e
  rw [e1] at hw
  obtain rfl := Option.some.inj hw
  refine ⟨hsig, ?_⟩
  have := sameTokens_at h0 e1 e
  exact (textOf_sameToken this).mp (plain_text cc _ _ rfl)

/-- The JSON outputs of plain texts: the cells of the rows, whose tokens have a text, give the texts. -/
theorem plain_json {env : Env} (hts : TopoSpec env.topo) (hdol : env.cc.word '$' = false)
    (hd : ∀ c, c.isDigit = true → env.cc.word c = true) {texts : List (Str × Str)} (hne : texts ≠ [])
    (htx : ∀ p ∈ texts, p.1 ≠ [] ∧ p.2 ≠ [] ∧ p.2.length < 1000000000) (hsig : (texts.map Prod.fst).Nodup) (o : Opts)
    (ho : ExactMatching o) :
    ∃ jh jv, collateDict env (plainInput texts) { o with output := S "json", layout := S "horizontal" } = .ok (.json jh) ∧
      collateDict env (plainInput texts) { o with output := S "json", layout := S "vertical" } = .ok (.json jv) ∧
      jh.witnesses = texts.map Prod.fst ∧ jv.witnesses = texts.map Prod.fst ∧ (∀ row ∈ jh.table, row.length = jv.table.length) ∧
      (∀ k i : Nat, (jh.table[k]?.bind (·[i]?)) = (jv.table[i]?.bind (·[k]?))) ∧
      (∀ row ∈ jh.table, ∀ ds, some ds ∈ row → ∀ d ∈ ds, (d.map fun e => e.1.name).Nodup ∧ ∃ s, dget d .t = some (.str s)) ∧
      List.Forall₂ (fun p (row : List (Option (List TokenData))) => DataText (row.filterMap id).flatten p.2) texts jh.table := by
  have hv := plain_valid hts hdol hd hne (fun p hp => (htx p hp).2) hsig
  have hs : ∀ w ∈ plainWitnessesOf env.cc texts, w.sigil ≠ [] := by
    intro w hw
    obtain ⟨p, hp, rfl⟩ := List.mem_map.mp hw
    exact (htx p hp).1
  have hwit : (plainWitnessesOf env.cc texts).map Witness.sigil = texts.map Prod.fst := by
    rw [plainWitnessesOf, List.map_map]
    rfl
  obtain ⟨j, h1, h2⟩ := json_output hts hv hs o ho
  obtain ⟨j', jv, h3, h4, h5, h6, h7, h8, h9, _⟩ := C35_json_of_collation env hts _ hv hs o ho
  rw [h1] at h3
  obtain rfl := Output.json.inj (Except.ok.inj h3)
  have hrec := isRecord_indexed (plain_isRecord (fun _ => .null) env.cc texts)
  obtain ⟨_, _, _, _, _, _, h0, _⟩ := collateRanked_ok env hts hv o ho.astar ho.detect ho.near
  have htexts := plain_indexed env.cc texts h0
  refine ⟨j, jv, ?_, ?_, by rw [h5, hwit], by rw [h6, hwit], h8, h9, ?_, ?_⟩
  · unfold collateDict
    rw [plain_added, bind_ok, List.nil_append]
    exact h1
  · unfold collateDict
    rw [plain_added, bind_ok, List.nil_append]
    exact h4
  · intro row hrow ds hds d hdm
    obtain ⟨w, hw, he⟩ := forall₂_mem h2 row hrow
    have hm : d ∈ w.tokens.map Token.data := by
      rw [← he]
      exact List.mem_flatten.mpr ⟨ds, List.mem_filterMap.mpr ⟨some ds, hds, rfl⟩, hdm⟩
    obtain ⟨t, ht, rfl⟩ := List.mem_map.mp hm
    refine ⟨key_name_inj (hrec w hw t ht), ?_⟩
    obtain ⟨p, _, _, l, hl, _⟩ := forall₂_mem htexts w hw
    have : dget t.data .t ∈ w.tokens.map (fun t => dget t.data .t) := List.mem_map.mpr ⟨t, ht, rfl⟩
    rw [hl] at this
    obtain ⟨s, _, hs⟩ := List.mem_map.mp this
    exact ⟨s, hs.symm⟩
  · rw [List.forall₂_iff_get]
    refine ⟨by rw [htexts.length_eq, h2.length_eq], ?_⟩
    intro k k1 k2
    have a2 := (List.forall₂_iff_get.mp h2).2 k (by rw [h2.length_eq]; exact k2) k2
    have a3 := (List.forall₂_iff_get.mp htexts).2 k k1 (by rw [h2.length_eq]; exact k2)
    rw [a2]
    exact dataText_of_textOf.mpr a3.2

/-- C90, JSON. Plain texts come back: the text of the JSON output, read by a JSON reader, has for each witness its siglum and, in the fields
`t` of its row, its text, in the order of the input and whatever the alignment. -/
theorem C90_json (env : Env) (hts : TopoSpec env.topo) (hdol : env.cc.word '$' = false)
    (hd : ∀ c, c.isDigit = true → env.cc.word c = true) (texts : List (Str × Str)) (hne : texts ≠ [])
    (htx : ∀ p ∈ texts, p.1 ≠ [] ∧ p.2 ≠ [] ∧ p.2.length < 1000000000) (hsig : (texts.map Prod.fst).Nodup) (o : Opts)
    (ho : ExactMatching o) (raw : Str → Json) (indent : Option Nat) :
    ∃ j, collateDict env (plainInput texts) { o with output := S "json", layout := S "horizontal" } = .ok (.json j) ∧
      (readJson (j.text raw indent)).bind jsonTexts = some texts := by
  obtain ⟨j, _, h1, _, hwit, _, _, _, hrec, hF⟩ := plain_json hts hdol hd hne htx hsig o ho
  refine ⟨j, h1, ?_⟩
  obtain ⟨tt, g1, g2⟩ := jsonCells_reads raw indent j hrec
  cases hr : readJson (j.text raw indent) with
  | none => rw [hr] at g1; cases g1
  | some v =>
    rw [hr] at g1
    simp only [Option.bind_some] at g1 ⊢
    have hlen : j.witnesses.length = tt.length := by rw [hwit, ← g2.length_eq, ← hF.length_eq, List.length_map]
    simp only [jsonTexts, g1, Option.bind_eq_bind, Option.bind_some, if_pos hlen, Option.some.injEq]
    have hrow : tt.map List.flatten = texts.map Prod.snd := by
      apply List.ext_getElem
      · rw [List.length_map, List.length_map, ← hlen, hwit, List.length_map]
      · intro k k1 k2
        rw [List.length_map] at k1 k2
        rw [List.getElem_map, List.getElem_map]
        have a1 := (List.forall₂_iff_get.mp g2).2 k (by rw [g2.length_eq]; exact k1) k1
        have a2 := (List.forall₂_iff_get.mp hF).2 k k2 (by rw [g2.length_eq]; exact k1)
        exact (dataText_row a1).unique a2
    rw [hwit, hrow, List.zip_map']
    exact List.map_id texts

/-- C90, JSON in vertical layout. -/
theorem C90_json_vertical (env : Env) (hts : TopoSpec env.topo) (hdol : env.cc.word '$' = false)
    (hd : ∀ c, c.isDigit = true → env.cc.word c = true) (texts : List (Str × Str)) (hne : texts ≠ [])
    (htx : ∀ p ∈ texts, p.1 ≠ [] ∧ p.2 ≠ [] ∧ p.2.length < 1000000000) (hsig : (texts.map Prod.fst).Nodup) (o : Opts)
    (ho : ExactMatching o) (raw : Str → Json) (indent : Option Nat) :
    ∃ j, collateDict env (plainInput texts) { o with output := S "json", layout := S "vertical" } = .ok (.json j) ∧
      (readJson (j.text raw indent)).bind jsonVerticalTexts = some texts := by
  obtain ⟨jh, j, _, h1, _, hwit, hlen, hcross, hrec, hF⟩ := plain_json hts hdol hd hne htx hsig o ho
  refine ⟨j, h1, ?_⟩
  obtain ⟨tt, g1, g2⟩ := jsonCells_reads raw indent j (by
    intro col hcol ds hds d hdm
    obtain ⟨i, hi⟩ := List.getElem?_of_mem hcol
    obtain ⟨k, hk⟩ := List.getElem?_of_mem hds
    have := hcross k i
    rw [hi, Option.bind_some, hk] at this
    obtain ⟨row, hr, hr'⟩ := Option.bind_eq_some_iff.mp this
    exact hrec row (List.mem_of_getElem? hr) ds (List.mem_of_getElem? hr') d hdm)
  have hcol : ∀ col ∈ j.table, col.length = texts.length := by
    intro col hcol
    obtain ⟨i, hi⟩ := List.getElem?_of_mem hcol
    have hil := (List.getElem?_eq_some_iff.mp hi).1
    have key : ∀ k, k < col.length ↔ k < jh.table.length := by
      intro k
      have := hcross k i
      rw [hi, Option.bind_some] at this
      constructor
      · intro hk
        rw [List.getElem?_eq_getElem hk] at this
        obtain ⟨row, hr, _⟩ := Option.bind_eq_some_iff.mp this
        exact (List.getElem?_eq_some_iff.mp hr).1
      · intro hk
        rw [List.getElem?_eq_getElem hk, Option.bind_some, List.getElem?_eq_getElem (by rw [hlen _ (List.getElem_mem hk)]; exact hil)] at this
        exact (List.getElem?_eq_some_iff.mp this.symm).1
    rw [hF.length_eq]
    have a := key col.length
    have b := key jh.table.length
    omega
  cases hr : readJson (j.text raw indent) with
  | none => rw [hr] at g1; cases g1
  | some v =>
    rw [hr] at g1
    simp only [Option.bind_some] at g1 ⊢
    have hl : ∀ c ∈ tt, c.length = j.witnesses.length := by
      intro c hc
      obtain ⟨col, hm, h⟩ := forall₂_mem g2 c hc
      rw [← h.length_eq, hcol col hm, hwit, List.length_map]
    simp only [jsonVerticalTexts, g1, Option.bind_eq_bind, Option.bind_some, if_pos hl, Option.some.injEq]
    apply List.ext_getElem
    · rw [List.length_map, List.length_zipIdx, hwit, List.length_map]
    · intro k k1 k2
      rw [List.getElem_map, List.getElem_zipIdx]
      simp only [Nat.zero_add]
      have hk : k < jh.table.length := by rw [← hF.length_eq]; exact k2
      have e1 : j.witnesses[k]'(by rw [hwit, List.length_map]; exact k2) = texts[k].1 := by simp [hwit]
      have e2 : (tt.map (fun c => c.getD k [])).flatten = texts[k].2 := by
        have a2 := (List.forall₂_iff_get.mp hF).2 k k2 hk
        have hjr : jh.table[k] = j.table.map (fun c => (c[k]?).getD none) := by
          apply List.ext_getElem?
          intro i
          have := hcross k i
          rw [List.getElem?_eq_getElem hk, Option.bind_some] at this
          rw [this, List.getElem?_map]
          cases hi : j.table[i]? with
          | none => rfl
          | some c =>
            have hc : k < c.length := by rw [hcol c (List.mem_of_getElem? hi)]; exact k2
            simp [List.getElem?_eq_getElem hc]
        have hF2 : List.Forall₂ (fun c x => DataText (Option.getD c []) x) (j.table.map (fun c => (c[k]?).getD none)) (tt.map (fun c => c.getD k [])) := by
          rw [List.forall₂_map_left_iff, List.forall₂_map_right_iff]
          refine g2.imp ?_
          intro c x hcx
          by_cases hkc : k < c.length
          · have := (List.forall₂_iff_get.mp hcx).2 k hkc (by rw [← hcx.length_eq]; exact hkc)
            simpa [List.getD_eq_getElem?_getD, List.getElem?_eq_getElem hkc, List.getElem?_eq_getElem (show k < x.length by rw [← hcx.length_eq]; exact hkc)]
              using this
          · simp only [List.getD_eq_getElem?_getD]
            rw [List.getElem?_eq_none (by omega), List.getElem?_eq_none (by rw [← hcx.length_eq]; omega)]
            exact dataText_nil
        have a3 := dataText_row hF2
        simp only [List.get_eq_getElem] at a2
        rw [← hjr] at a3
        exact a3.unique a2
      rw [e1, e2]

/-- C90, CSV and TSV. If no siglum and no text has a carriage return, each record is the siglum of a witness and cells that make up its text. -/
theorem C90_csv (env : Env) (hts : TopoSpec env.topo) (hdol : env.cc.word '$' = false)
    (hd : ∀ c, c.isDigit = true → env.cc.word c = true) (texts : List (Str × Str)) (hne : texts ≠ [])
    (htx : ∀ p ∈ texts, p.1 ≠ [] ∧ p.2 ≠ [] ∧ p.2.length < 1000000000) (hsig : (texts.map Prod.fst).Nodup)
    (hcr : ∀ p ∈ texts, '\r' ∉ p.1 ∧ '\r' ∉ p.2) (o : Opts) (ho : ExactMatching o) (tsv : Bool) :
    ∃ s, collateDict env (plainInput texts) { o with output := if tsv then S "tsv" else S "csv" } = .ok (.csv s) ∧
      (readCsv (csvDelim tsv) s).map (fun fields => (fields.headD [], fields.tail.flatten)) = texts := by
  have hv := plain_valid hts hdol hd hne (fun p hp => (htx p hp).2) hsig
  obtain ⟨s, h1, h2⟩ := C36_csv_of_collation env hts (plainWitnessesOf env.cc texts) hv (by
    intro w hw
    obtain ⟨p, hp, rfl⟩ := List.mem_map.mp hw
    exact ⟨(htx p hp).1, (hcr p hp).1⟩) (plain_hasTexts _ _) (by
    intro w hw t ht s hs
    obtain ⟨p, hp, rfl⟩ := List.mem_map.mp hw
    obtain ⟨x, hx, rfl⟩ := List.mem_map.mp ht
    have he : x = s := by
      have : dget (plainToken env.cc x).data .t = some (.str x) := rfl
      rw [this] at hs
      injection hs with hs
      injection hs
    subst he
    intro hc
    apply (hcr p hp).2
    have : (tokenize env.cc p.2).flatten = p.2 := (tokenizeF_isTokenisation env.cc p.2.length p.2 (Nat.le_refl _)).lossless
    rw [← this]
    exact List.mem_flatten.mpr ⟨x, hx, hc⟩) o ho tsv
  refine ⟨s, ?_, ?_⟩
  · unfold collateDict
    rw [plain_added, bind_ok, List.nil_append]
    exact h1
  · rw [plainWitnessesOf, List.forall₂_map_left_iff] at h2
    revert h2
    generalize readCsv (csvDelim tsv) s = recs
    intro h2
    clear hne htx hsig hcr hv h1
    induction h2 with
    | nil => rfl
    | @cons p rec texts recs h _ ih =>
      obtain ⟨cells, rfl, ht⟩ := h
      rw [List.map_cons, ih]
      have := ht.unique (plain_text env.cc p.1 p.2 rfl)
      simp [this]

/-- C90, TEI. If there is no character that XML does not allow and no siglum has a blank, the text of a witness in the apparatus, read by an XML reader,
is its text up to white space, with and without indentation. -/
theorem C90_tei (env : Env) (hts : TopoSpec env.topo) (hdol : env.cc.word '$' = false)
    (hd : ∀ c, c.isDigit = true → env.cc.word c = true) (hsp : LineSpace env.cc) (texts : List (Str × Str)) (hne : texts ≠ [])
    (htx : ∀ p ∈ texts, p.1 ≠ [] ∧ p.2 ≠ [] ∧ p.2.length < 1000000000) (hsig : (texts.map Prod.fst).Nodup)
    (hl : ∀ p ∈ texts, ' ' ∉ p.1 ∧ ∀ c ∈ p.1 ++ p.2, xmlLegal c = true) (o : Opts) (ho : ExactMatching o) (indent : Bool) :
    ∃ nodes root, collateDict env (plainInput texts) { o with output := S "tei" } = .ok (.tei nodes) ∧
      readXml (teiString indent nodes) = some root ∧ ∀ p ∈ texts, squeeze env.cc (apparatusText p.1 root) = squeeze env.cc p.2 := by
  have hv := plain_valid hts hdol hd hne (fun p hp => (htx p hp).2) hsig
  obtain ⟨nodes, root, h1, h2, h3⟩ := C73_tei_of_collation env hts hsp (plainWitnessesOf env.cc texts) hv (by
    intro w hw
    obtain ⟨p, hp, rfl⟩ := List.mem_map.mp hw
    exact ⟨(htx p hp).1, (hl p hp).1⟩) (plain_hasTexts _ _) (by
    intro w hw
    obtain ⟨p, hp, rfl⟩ := List.mem_map.mp hw
    refine ⟨fun c hc => (hl p hp).2 c (by simp [hc]), ?_⟩
    intro s hs c hc
    rw [hs.unique (plain_text env.cc p.1 p.2 rfl)] at hc
    exact (hl p hp).2 c (by simp [hc])) o ho indent
  refine ⟨nodes, root, ?_, h2, ?_⟩
  · unfold collateDict
    rw [plain_added, bind_ok, List.nil_append]
    exact h1
  · intro p hp
    obtain ⟨s, hs, he⟩ := h3 _ (List.mem_map.mpr ⟨p, hp, rfl⟩)
    rw [hs.unique (plain_text env.cc p.1 p.2 rfl)] at he
    exact he

/-- The text of a witness in the readings of a column: only its own reading refers to it. -/
theorem rdgs_text (T : Str → Str → Prop) {sigla : List Str} {rdgs : List Rdg} (hF : List.Forall₂ (fun σ' r => r.wit = '#' :: σ' ∧ T σ' r.text) sigla rdgs)
    (hnd : sigla.Nodup) (hb : ∀ σ' ∈ sigla, ' ' ∉ σ') (σ : Str) :
    (σ ∉ sigla → rdgs.flatMap (fun r => if Lists r σ then r.text else []) = []) ∧
      (σ ∈ sigla → T σ (rdgs.flatMap (fun r => if Lists r σ then r.text else []))) := by
  induction hF with
  | nil => exact ⟨fun _ => rfl, by simp⟩
  | @cons σ' r sigla rdgs h _ ih =>
    obtain ⟨h1, h2⟩ := List.nodup_cons.mp hnd
    obtain ⟨a, b⟩ := ih h2 (fun σ' hs => hb σ' (by simp [hs]))
    have hlist : Lists r σ ↔ σ = σ' := by
      unfold Lists
      rw [h.1, splitBlanks_word (by simpa using hb σ' (by simp))]
      simp
    rw [List.flatMap_cons]
    constructor
    · intro hn
      rw [List.mem_cons, not_or] at hn
      rw [if_neg (fun hc => hn.1 (hlist.mp hc)), a hn.2]
      rfl
    · intro hm
      by_cases he : σ = σ'
      · subst he
        rw [if_pos (hlist.mpr rfl), a h1, List.append_nil]
        exact h.2
      · rw [if_neg (fun hc => he (hlist.mp hc)), List.nil_append]
        exact b ((List.mem_cons.mp hm).resolve_left he)

theorem irrefl_strLt : ∀ a : Str, ¬ StrLt a a
  | [], h => by cases h
  | c :: a, h => by
    cases h with
    | cons h => exact irrefl_strLt a h
    | rel h => exact absurd h (Nat.lt_irrefl _)

theorem printed_unique {ts : List Token} {x s : Str} (h1 : PrintedText ts x) (h2 : TextOf ts s) : x = s := by
  obtain ⟨l, hF, rfl⟩ := h1
  obtain ⟨m, hm, rfl⟩ := h2
  congr 1
  induction hF generalizing m with
  | nil => cases m with
    | nil => rfl
    | cons a m => cases hm
  | @cons t y ts l h _ ih =>
    cases m with
    | nil => cases hm
    | cons a m =>
      rw [List.map_cons, List.map_cons] at hm
      injection hm with e1 e2
      obtain ⟨v, hv, hp⟩ := h
      rw [hv] at e1
      obtain rfl := Option.some.inj e1
      simp only [Printed] at hp
      rw [hp, ih m e2]

/-- C90, XML. If there is no character that XML does not allow, no carriage return, and no siglum has a blank, the readings that refer to a witness
make up its text. -/
theorem C90_xml (env : Env) (hts : TopoSpec env.topo) (hdol : env.cc.word '$' = false)
    (hd : ∀ c, c.isDigit = true → env.cc.word c = true) (texts : List (Str × Str)) (hne : texts ≠ [])
    (htx : ∀ p ∈ texts, p.1 ≠ [] ∧ p.2 ≠ [] ∧ p.2.length < 1000000000) (hsig : (texts.map Prod.fst).Nodup)
    (hl : ∀ p ∈ texts, ' ' ∉ p.1 ∧ '\r' ∉ p.2 ∧ ∀ c ∈ p.1 ++ p.2, xmlLegal c = true) (o : Opts) (ho : ExactMatching o) :
    ∃ apps root, collateDict env (plainInput texts) { o with output := S "xml" } = .ok (.xml apps) ∧
      readXml (xmlString apps) = some root ∧ ∀ p ∈ texts, apparatusText p.1 root = p.2 := by
  have hv := plain_valid hts hdol hd hne (fun p hp => (htx p hp).2) hsig
  have hs : ∀ w ∈ plainWitnessesOf env.cc texts, w.sigil ≠ [] := by
    intro w hw
    obtain ⟨p, hp, rfl⟩ := List.mem_map.mp hw
    exact (htx p hp).1
  obtain ⟨t, apps, h1, h2, G, h3, h4⟩ := C73_xml_of_collation env hts (plainWitnessesOf env.cc texts) hv hs (plain_hasTexts _ _) (by
    intro w hw
    obtain ⟨p, hp, rfl⟩ := List.mem_map.mp hw
    refine ⟨fun c hc => (hl p hp).2.2 c (by simp [hc]), ?_⟩
    intro s hs c hc
    rw [hs.unique (plain_text env.cc p.1 p.2 rfl)] at hc
    exact (hl p hp).2.2 c (by simp [hc])) o ho
  refine ⟨apps, _, ?_, h4, ?_⟩
  · unfold collateDict
    rw [plain_added, bind_ok, List.nil_append]
    exact h2
  · intro p hp
    have hcells := cells_texts env hts _ hv hs o ho t h1 (plain_hasTexts _ _)
    rw [plainWitnessesOf, List.forall₂_map_left_iff] at hcells
    obtain ⟨r, hr, hh, _, hfull, xs, hxs, hx⟩ := forall₂_mem_left hcells p hp
    simp only at hh hx
    have htext := hx.unique (plain_text env.cc p.1 p.2 rfl)
    obtain ⟨hlen, hcol⟩ := C37_xml t G apps h3
    have hnocr : ∀ r' ∈ t.rows, ∀ (i : Nat) (ts : List Token) (s : Str), r'.cells[i]? = some (some ts) → TextOf ts s → '\r' ∉ s := by
      intro r' hr' i ts s hi hts'
      obtain ⟨q, hq, _, _, _, ys, hys, hy⟩ := forall₂_mem hcells r' hr'
      have hqt := hy.unique (plain_text env.cc q.1 q.2 rfl)
      have hi1 := (List.getElem?_eq_some_iff.mp hi).1
      have hi2 : i < ys.length := by rw [← hys.length_eq]; exact hi1
      have := (List.forall₂_iff_get.mp hys).2 i hi1 hi2
      simp only [List.get_eq_getElem, (List.getElem?_eq_some_iff.mp hi).2] at this
      rw [hts'.unique this]
      intro hc
      apply (hl q hq).2.1
      rw [← hqt]
      exact List.mem_flatten.mpr ⟨_, List.getElem_mem hi2, hc⟩
    have column_text_of : ∀ r' ∈ t.rows, ∀ (i : Nat) (ts : List Token), r'.cells[i]? = some (some ts) → ∃ s, TextOf ts s := by
      intro r' hr' i ts hi
      obtain ⟨q, hq, _, _, _, ys, hys, hy⟩ := forall₂_mem hcells r' hr'
      have hi1 := (List.getElem?_eq_some_iff.mp hi).1
      have hi2 : i < ys.length := by rw [← hys.length_eq]; exact hi1
      have := (List.forall₂_iff_get.mp hys).2 i hi1 hi2
      simp only [List.get_eq_getElem, (List.getElem?_eq_some_iff.mp hi).2] at this
      exact ⟨_, this⟩
    have hsigla : ∀ r' ∈ t.rows, ' ' ∉ r'.header := by
      intro r' hr'
      obtain ⟨q, hq, hh', _⟩ := forall₂_mem hcells r' hr'
      rw [hh']
      exact (hl q hq).1
    rw [← htext, apparatusText, List.flatMap_def, List.map_map]
    congr 1
    apply List.ext_getElem
    · rw [List.length_map, hlen, ← hxs.length_eq, G.cells r hr, List.length_map]
    · intro i i1 i2
      rw [List.length_map] at i1
      have ic : i < t.columns.length := by rw [← hlen]; exact i1
      rw [List.getElem_map]
      obtain ⟨sigla, hw, hord, hmem, hrd⟩ := hcol i _ _ (List.getElem?_eq_getElem ic) (List.getElem?_eq_getElem i1)
      have hF : List.Forall₂ (fun σ' r => r.wit = '#' :: σ' ∧ ∃ r' ∈ t.rows, r'.header = σ' ∧ ∃ ts, r'.cells[i]? = some (some ts) ∧ PrintedText ts r.text)
          sigla apps[i] := by
        have hl0 : sigla.length = apps[i].length := by
          have := congrArg List.length hw
          simpa using this.symm
        rw [List.forall₂_iff_get]
        refine ⟨hl0, ?_⟩
        intro j j1 j2
        refine ⟨?_, hrd j _ _ (List.getElem?_eq_getElem j1) (List.getElem?_eq_getElem j2)⟩
        have := congrArg (fun l => l[j]?) hw
        simpa [List.getElem?_map, List.getElem?_eq_getElem j1, List.getElem?_eq_getElem j2] using this
      have hnd : sigla.Nodup := hord.imp (fun {a b} h e => by subst e; exact irrefl_strLt _ h)
      have hb : ∀ σ' ∈ sigla, ' ' ∉ σ' := by
        intro σ' hσ
        obtain ⟨r', hr', rfl, _⟩ := (hmem σ').mp hσ
        exact hsigla r' hr'
      obtain ⟨k1, k2⟩ := rdgs_text (fun σ' x => ∃ r' ∈ t.rows, r'.header = σ' ∧ ∃ ts, r'.cells[i]? = some (some ts) ∧ PrintedText ts x) hF hnd hb p.1
      have hi1 : i < r.cells.length := by rw [G.cells r hr, List.length_map]; exact ic
      have hcell := (List.forall₂_iff_get.mp hxs).2 i hi1 i2
      simp only [List.get_eq_getElem] at hcell
      have hread : ∀ rdgs : List Rdg, (∀ r ∈ rdgs, '\r' ∉ r.text) → childText p.1 (.elem (S "app") [] (rdgs.map fun r =>
          .elem (S "rdg") [(S "wit", r.wit)] (if r.text = [] then [] else [.text (xmlLines r.text)]))) =
          rdgs.flatMap (fun r => if Lists r p.1 then r.text else []) := by
        intro rdgs hno
        simp only [childText, if_true, List.flatMap_map]
        apply List.flatMap_congr
        intro r hr
        simp only [rdgText, true_and]
        by_cases hL : '#' :: p.1 ∈ splitBlanks r.wit
        · rw [if_pos hL, if_pos (show Lists r p.1 from hL)]
          split
          · rename_i e; simp [ownText, e]
          · simp [ownText, xmlLines_of_not_mem (hno r hr)]
        · rw [if_neg hL, if_neg (show ¬ Lists r p.1 from hL)]
      show childText p.1 (.elem (S "app") [] (apps[i].map fun r =>
          .elem (S "rdg") [(S "wit", r.wit)] (if r.text = [] then [] else [.text (xmlLines r.text)]))) = _
      have hno : ∀ x ∈ apps[i], '\r' ∉ x.text := by
        intro x hx
        obtain ⟨σ', _, _, r', hr', _, ts, hts', hpt⟩ := forall₂_mem hF x hx
        obtain ⟨s, hs⟩ := (column_text_of r' hr' i ts hts')
        rw [printed_unique hpt hs]
        exact hnocr r' hr' i ts s hts' hs
      rw [hread _ hno]
      by_cases hm : p.1 ∈ sigla
      · obtain ⟨r', hr', hh', ts, hts', hpt⟩ := k2 hm
        have : r' = r := by
          have h5 := G.sigla
          exact List.inj_on_of_nodup_map h5 hr' hr (by rw [hh', hh])
        subst this
        have he : r'.cells[i] = some ts := (List.getElem?_eq_some_iff.mp hts').2
        rw [he] at hcell
        exact printed_unique hpt hcell
      · rw [k1 hm]
        have he : r.cells[i] = none := by
          cases hc : r.cells[i] with
          | none => rfl
          | some ts => exact absurd ((hmem p.1).mpr ⟨r, hr, hh, ts, by rw [List.getElem?_eq_getElem hi1, hc]⟩) hm
        rw [he] at hcell
        exact (textOf_nil.unique hcell)

/-- Two texts with punctuation and quotes. -/
def greetings : List (Str × Str) := [(S "A", S "Hi, \"you\" <all>"), (S "B", S "Hi; you & me")]

/-- The hypotheses of the theorems of this file are met, and the texts are read back from the outputs, as far as the output keeps them. -/
example : TopoSpec exampleEnv.topo ∧ exampleEnv.cc.word '$' = false ∧ LineSpace exampleEnv.cc ∧ greetings ≠ [] ∧
    (∀ p ∈ greetings, p.1 ≠ [] ∧ p.2 ≠ [] ∧ p.2.length < 1000000000) ∧ (greetings.map Prod.fst).Nodup ∧
    (∀ p ∈ greetings, ' ' ∉ p.1 ∧ '\r' ∉ p.1 ∧ '\r' ∉ p.2 ∧ ∀ c ∈ p.1 ++ p.2, xmlLegal c = true) ∧
    ExactMatching { segmentation := false } ∧
    collateDict exampleEnv (plainInput greetings) { output := S "csv", segmentation := false } =
      .ok (.csv (S "A,Hi,\", \"\"\",you,\"\"\" <\",all,>\nB,Hi,; ,you ,& ,me,\n")) ∧
    collateDict exampleEnv (plainInput greetings) { output := S "xml" } =
      .ok (.xml [[⟨S "#A", S "Hi"⟩, ⟨S "#B", S "Hi"⟩], [⟨S "#A", S ", \""⟩, ⟨S "#B", S "; "⟩], [⟨S "#A", S "you"⟩, ⟨S "#B", S "you "⟩],
        [⟨S "#A", S "\" <all>"⟩, ⟨S "#B", S "& me"⟩]]) := by
  refine ⟨kahn_spec, by decide, ⟨by decide, by decide, by decide, by decide⟩, by decide, by decide, by decide, by decide, ⟨rfl, rfl, rfl⟩, by decide +kernel, by decide +kernel⟩

end CollateX
