import Verif.Proofs.NoTwins
import Verif.Props.EndToEnd
import Verif.Props.Placing
import Verif.Props.Beginning
/-
Three witnesses, the second without equal neighbours: nothing is left to choose. The properties that ask for a collation without twins
(C57, C59, C101, C103, C104 and C107) hold of them without that condition.
-/

namespace CollateX
open Spec

/-- C103: for at most three witnesses of which the second has no equal neighbours, the short program computes the table. -/
theorem C103_three (env : Env) (hts : TopoSpec env.topo) (ws : List Witness) (hv : Valid ws) (hs : ∀ w ∈ ws, w.sigil ≠ []) (h3 : ws.length ≤ 3)
    (hrep : ∀ w, ws[1]? = some w → NoRepeats w) (o : Opts) (ho : ExactMatching o) (hf : o.pfilter = none) (hseg : o.segmentation = false) :
    ∃ t, collateTable env ws o = .ok t ∧ markedStrings t = (workOf (ws.map strings)).shown :=
  C103_computed env hts ws hv hs o ho hf hseg (untwinned_three hv hs h3 hrep)

/-- C104: the same with segmentation. -/
theorem C104_three (env : Env) (hts : TopoSpec env.topo) (ws : List Witness) (hv : Valid ws) (hs : ∀ w ∈ ws, w.sigil ≠ []) (h3 : ws.length ≤ 3)
    (hrep : ∀ w, ws[1]? = some w → NoRepeats w) (o : Opts) (ho : ExactMatching o) (hf : o.pfilter = none) (hseg : o.segmentation = true) :
    ∃ t, collateTable env ws o = .ok t ∧ markedStrings t = (workOf (ws.map strings)).shownSegmented :=
  C104_computed env hts ws hv hs o ho hf hseg (untwinned_three hv hs h3 hrep)

/-- The first two of at most three witnesses have no twins. -/
theorem twinFree_three {env : Env} (hts : TopoSpec env.topo) {ws : List Witness} (hv : Valid ws) (hs : ∀ w ∈ ws, w.sigil ≠ [])
    (hrep : ∀ w, ws[1]? = some w → NoRepeats w) {o : Opts} (ho : ExactMatching o) (hf : o.pfilter = none)
    (hseg : o.segmentation = false) {n : Nat} (hn : n = 2) (hn' : n ≤ ws.length) {us : List Witness} {g : VGraph} {rk : Ranking}
    (h : collateRanked env (ws.take n) o = .ok (us, g, rk)) : Spec.TwinFree g rk := by
  subst hn
  match ws, hn' with
  | A :: B :: rest, _ =>
    refine two_twinFree env hts A B (hv.take (n := 2) (by omega)) (fun w hw => hs w ?_) (hrep B rfl) o ho hf hseg h
    simp only [List.mem_cons, List.not_mem_nil, or_false] at hw ⊢
    tauto

/-- C57: for at most three witnesses of which the second has no equal neighbours, the spelling of the words does not matter. -/
theorem C57_three_witnesses (env : Env) (hts : TopoSpec env.topo) (ws ws' : List Witness) (hv : Valid ws) (hv' : Valid ws')
    (hs : ∀ w ∈ ws, w.sigil ≠ []) (hs' : ∀ w ∈ ws', w.sigil ≠ []) (hp : SamePattern ws ws') (o : Opts) (ho : ExactMatching o)
    (hf : o.pfilter = none) (h3 : ws.length ≤ 3) (hrep : ∀ w, ws[1]? = some w → NoRepeats w) :
    ∃ t t', collateTable env ws o = .ok t ∧ collateTable env ws' o = .ok t' ∧ SameLayout ws ws' t t' :=
  C57_spelling_partial env hts ws ws' hv hv' hs hs' hp o ho hf (by
    intro n h4 h5 us g rk h
    exact twinFree_three hts hv hs hrep (o := { o with segmentation := false }) ⟨ho.astar, ho.detect, ho.near⟩ hf rfl (by omega) (by omega) h)

/-- C59: how the first three witnesses are aligned with each other does not depend on what follows, if the second has no equal neighbours. -/
theorem C59_first_three (env : Env) (hts : TopoSpec env.topo) (ws : List Witness) (hv : Valid ws) (hs : ∀ w ∈ ws, w.sigil ≠ [])
    (hrep : ∀ w, ws[1]? = some w → NoRepeats w) (o : Opts) (ho : ExactMatching o) (hf : o.pfilter = none) (hn : 3 ≤ ws.length) :
    ∃ us g rk us' g' rk', collateRanked env ws { o with segmentation := false } = .ok (us, g, rk) ∧
      collateRanked env (ws.take 3) { o with segmentation := false } = .ok (us', g', rk') ∧
      ∀ k i l j, k < 3 → l < 3 → (SharesVertex us g k i l j ↔ SharesVertex us' g' k i l j) :=
  C59_beginning_partial env hts ws hv hs o ho hf 3 (by omega) hn (by
    intro m h1 h2 us g rk h
    exact twinFree_three hts hv hs hrep (o := { o with segmentation := false }) ⟨ho.astar, ho.detect, ho.near⟩ hf rfl (by omega) (by omega) h)

/-- C101: a fourth witness is placed as well as can be, if the second has no equal neighbours and the fourth does not return to a column. -/
theorem C101_fourth_partial (env : Env) (hts : TopoSpec env.topo) (us : List Witness) (w : Witness) (hv : Valid (us ++ [w])) (hne : us ≠ [])
    (h3 : us.length ≤ 3) (hsg : ∀ u ∈ us ++ [w], u.sigil ≠ []) (hrep : ∀ w, us[1]? = some w → NoRepeats w) (o : Opts) (ho : ExactMatching o)
    (hf : o.pfilter = none) (hseg : o.segmentation = false) :
    ∃ t0 t, collateTable env us o = .ok t0 ∧ collateTable env (us ++ [w]) o = .ok t ∧
      (NoReturn (columnWords t0) (strings w) → ∀ pl, Placing (columnWords t0) (strings w) pl → gain pl ≤ gainOfLast t) :=
  C101_placed_partial env hts us w hv hne hsg o ho hf hseg (by
    intro n h4 h5 us' g rk h
    have hvu : Valid us := by
      have := hv.take (n := us.length) (List.length_pos_iff.mpr hne)
      rwa [List.take_left] at this
    exact twinFree_three hts hvu (fun w hw => hsg w (List.mem_append_left _ hw)) hrep ho hf hseg (by omega) (by omega) h)

/-- The words of the second text have no equal neighbours. -/
theorem plain_untwinned {env : Env} (hts : TopoSpec env.topo) (hdol : env.cc.word '$' = false) (hd : ∀ c, c.isDigit = true → env.cc.word c = true)
    {texts : List (Str × Str)} (hne : texts ≠ []) (htx : ∀ p ∈ texts, p.1 ≠ [] ∧ p.2 ≠ [] ∧ p.2.length < 1000000000)
    (hsig : (texts.map Prod.fst).Nodup) {toks words : List (List Str)} (hw : WordsOf env.cc (texts.map Prod.snd) toks words)
    (h3 : texts.length ≤ 3) (hrep : ∀ l, words[1]? = some l → l.IsChain (· ≠ ·)) : ∀ n < texts.length, (workOf (words.take n)).Untwinned := by
  have hv := plain_valid hts hdol hd hne (fun p hp => (htx p hp).2) hsig
  have hs : ∀ w ∈ plainWitnessesOf env.cc texts, w.sigil ≠ [] := by
    intro w hw
    obtain ⟨p, hp, rfl⟩ := List.mem_map.mp hw
    exact (htx p hp).1
  have hst := plain_strings hw
  have hlen : (plainWitnessesOf env.cc texts).length = texts.length := by simp [plainWitnessesOf]
  have := untwinned_three hv hs (by omega) (by
    intro w hw1 i x h1 h2
    have hl := hrep (strings w) (by rw [← hst, List.getElem?_map, hw1, Option.map_some])
    obtain ⟨q1, q2⟩ := List.getElem?_eq_some_iff.mp h1
    obtain ⟨q3, q4⟩ := List.getElem?_eq_some_iff.mp h2
    exact (List.isChain_iff_getElem.mp hl i (by omega)) (by rw [q2, q4]))
  rw [hst, hlen] at this
  exact this

/-- C107: up to three texts, the second without equal neighbours, from text to JSON output. -/
theorem C107_json_three (env : Env) (hts : TopoSpec env.topo) (hdol : env.cc.word '$' = false) (hd : ∀ c, c.isDigit = true → env.cc.word c = true)
    (texts : List (Str × Str)) (hne : texts ≠ []) (htx : ∀ p ∈ texts, p.1 ≠ [] ∧ p.2 ≠ [] ∧ p.2.length < 1000000000)
    (hsig : (texts.map Prod.fst).Nodup) (o : Opts) (ho : ExactMatching o) (hf : o.pfilter = none) (toks words : List (List Str))
    (hw : WordsOf env.cc (texts.map Prod.snd) toks words) (h3 : texts.length ≤ 3) (hrep : ∀ l, words[1]? = some l → l.IsChain (· ≠ ·))
    (raw : Str → Json) (indent : Option Nat) :
    ∃ j, collateDict env (plainInput texts) { o with output := S "json", layout := S "horizontal" } = .ok (.json j) ∧
      (readJson (j.text raw indent)).bind jsonCells =
        some (texts.map Prod.fst, cellTexts (rowsBy false o.segmentation env.ratio words) toks) := by
  have := C107_json env hts hdol hd texts hne htx hsig o ho.astar ho.detect hf (by rw [ho.near]; nofun) toks words hw
    (fun _ => plain_untwinned hts hdol hd hne htx hsig hw h3 hrep) raw indent
  rw [ho.near] at this ⊢
  exact this

/-- C107: the same for CSV and TSV. -/
theorem C107_csv_three (env : Env) (hts : TopoSpec env.topo) (hdol : env.cc.word '$' = false) (hd : ∀ c, c.isDigit = true → env.cc.word c = true)
    (texts : List (Str × Str)) (hne : texts ≠ []) (htx : ∀ p ∈ texts, p.1 ≠ [] ∧ p.2 ≠ [] ∧ p.2.length < 1000000000)
    (hcr : ∀ p ∈ texts, '\r' ∉ p.1 ∧ '\r' ∉ p.2) (hsig : (texts.map Prod.fst).Nodup) (o : Opts) (ho : ExactMatching o) (hf : o.pfilter = none)
    (toks words : List (List Str)) (hw : WordsOf env.cc (texts.map Prod.snd) toks words) (h3 : texts.length ≤ 3)
    (hrep : ∀ l, words[1]? = some l → l.IsChain (· ≠ ·)) (tsv : Bool) :
    ∃ s, collateDict env (plainInput texts) { o with output := if tsv then S "tsv" else S "csv" } = .ok (.csv s) ∧
      readCsv (csvDelim tsv) s =
        List.zipWith List.cons (texts.map Prod.fst) (cellTexts (rowsBy false o.segmentation env.ratio words) toks) := by
  have := C107_csv env hts hdol hd texts hne htx hcr hsig o ho.astar ho.detect hf (by rw [ho.near]; nofun) toks words hw
    (fun _ => plain_untwinned hts hdol hd hne htx hsig hw h3 hrep) tsv
  rw [ho.near] at this ⊢
  exact this

/-- Three witnesses that meet the hypotheses, and what the short program makes of them. -/
example : Valid threeWitnesses ∧ (∀ w ∈ threeWitnesses, w.sigil ≠ []) ∧ threeWitnesses.length ≤ 3 ∧
    (∀ w, threeWitnesses[1]? = some w → NoRepeats w) ∧ (workOf (threeWitnesses.map strings)).shown.length = 3 :=
  ⟨threeWitnesses_valid, by decide, by decide, by
    intro w hw
    obtain rfl := Option.some.inj hw
    exact noRepeats_of_check (by decide), by decide +kernel⟩

/-- Three texts that meet the hypotheses of C107. -/
example : ∃ toks words, WordsOf exampleEnv.cc ([(S "A", S "the cat sat"), (S "B", S "the dog sat"), (S "C", S "the dog ran")].map Prod.snd) toks words ∧
    ∀ l, words[1]? = some l → l.IsChain (· ≠ ·) := by
  refine ⟨_, _, wordsOf_exists _ _, ?_⟩
  intro l hl
  have : ((([(S "A", S "the cat sat"), (S "B", S "the dog sat"), (S "C", S "the dog ran")].map Prod.snd).map (tokenize exampleEnv.cc)).map
      (List.map (rstrip exampleEnv.cc)))[1]? = some [S "the", S "dog", S "sat"] := by decide +kernel
  rw [this] at hl
  obtain rfl := Option.some.inj hl
  decide

end CollateX
