import Verif.Proofs.Features
import Verif.Proofs.SuffixText
import Verif.Proofs.Merge
import Mathlib.Data.List.Forall2
/-
The features of the suffix array: C87. A feature has a value for every suffix, in the order of the suffix array.
-/

namespace CollateX

/-- `v` is the value of the feature `f` for the suffix of the text that starts at `p`. -/
def Spec.ValueOf (sa : SuffixArray) (f : Feature) (p : Nat) (v : Option Nat) : Prop := ∃ i : Nat, sa.SA[i]? = some p ∧ f.values[i]? = some v

/-- A suffix array of this text with LCP values, of which all features have as many values as there are suffixes. -/
structure Spec.FeaturesOf (text : List Str) (x : FeatSA) : Prop where
  sa : x.sa = mkSuffixArray text
  lcp : dmem x.features (S "LCP") = true
  full : ∀ e ∈ x.features, e.2.values.length = x.sa.SA.length

open Spec

/-- C87, a feature of `addFeatureSA`: the method returns the value of a suffix that begins with the pattern, or the default value if the
pattern does not occur. (What is missing: texts of one token, see `C47_single_token`, and features of `addFeature`, see
`C87_first_suffix`.) -/
theorem C87_feature_partial (text pattern : List Str) (x : FeatSA) (hx : FeaturesOf text x) (h1 : text.length ≠ 1) (name : Str) (f : Feature)
    (hf : dget x.features name = some f) (hsa : f.ofSA = true) :
    (∃ p v, p < text.length ∧ pattern <+: text.drop p ∧ ValueOf x.sa f p v ∧ x.feature name pattern = .ok v) ∨
      ((∀ p < text.length, ¬ pattern <+: text.drop p) ∧ x.feature name pattern = .ok f.default) := by
  have hfe : x.feature name pattern = match foundAt x.sa pattern with
      | none => .ok f.default
      | some i => lgetE f.values i := by
    unfold FeatSA.feature
    rw [hf]
    simp only
    rw [FeatSA.findOne_eq hx.lcp, bind_ok]
    cases foundAt x.sa pattern <;> simp [hsa]
  rw [hfe, hx.sa]
  cases hm : foundAt (mkSuffixArray text) pattern with
  | none => exact Or.inr ⟨foundAt_none h1 hm, rfl⟩
  | some mid =>
    obtain ⟨p, hp, hlt, hpre⟩ := foundAt_some h1 hm
    have hl : mid < f.values.length := by
      rw [hx.full _ (dget_mem hf), hx.sa]
      exact foundAt_lt hm
    refine Or.inl ⟨p, f.values[mid], hlt, hpre, ⟨mid, hp, List.getElem?_eq_getElem hl⟩, ?_⟩
    simp only
    rw [lgetE_eq_ok, List.getElem?_eq_getElem hl]

/-- C87, a feature of `addFeature`: the same if the first suffix in the order of the suffix array does not begin with the pattern. -/
theorem C87_feature_later_partial (text pattern : List Str) (x : FeatSA) (hx : FeaturesOf text x) (h1 : text.length ≠ 1) (name : Str)
    (f : Feature) (hf : dget x.features name = some f) (hfirst : ∀ p, x.sa.SA[0]? = some p → ¬ pattern <+: text.drop p) :
    (∃ p v, p < text.length ∧ pattern <+: text.drop p ∧ ValueOf x.sa f p v ∧ x.feature name pattern = .ok v) ∨
      ((∀ p < text.length, ¬ pattern <+: text.drop p) ∧ x.feature name pattern = .ok f.default) := by
  unfold FeatSA.feature
  rw [hf]
  simp only
  rw [FeatSA.findOne_eq hx.lcp, bind_ok, hx.sa]
  cases hm : foundAt (mkSuffixArray text) pattern with
  | none => exact Or.inr ⟨foundAt_none h1 hm, rfl⟩
  | some mid =>
    obtain ⟨p, hp, hlt, hpre⟩ := foundAt_some h1 hm
    have hl : mid < f.values.length := by
      rw [hx.full _ (dget_mem hf), hx.sa]
      exact foundAt_lt hm
    have h0 : mid ≠ 0 := by
      rintro rfl
      exact hfirst p (by rw [hx.sa]; exact hp) hpre
    refine Or.inl ⟨p, f.values[mid], hlt, hpre, ⟨mid, hp, List.getElem?_eq_getElem hl⟩, ?_⟩
    simp only
    rw [if_pos (Or.inr h0), lgetE_eq_ok, List.getElem?_eq_getElem hl]

/-- C87, `find` with features: the positions are those of `find` without features, and each comes with its own values of the features, in
the order of the names. -/
theorem C87_find_with (text pattern : List Str) (x : FeatSA) (hx : FeaturesOf text x) (names : List Str) (fs : List Feature)
    (hfs : names.map (dget x.features) = fs.map some) :
    ∃ l, x.findWith pattern names = .ok l ∧ l.map Prod.fst = find x.sa pattern ∧
      ∀ q ∈ l, q.2.length = fs.length ∧ ∃ i : Nat, x.sa.SA[i]? = some q.1 ∧ ∀ (k : Nat) (f : Feature), fs[k]? = some f → ∃ v, q.2[k]? = some v ∧ f.values[i]? = some v := by
  unfold FeatSA.findWith
  rw [FeatSA.findOne_eq hx.lcp, bind_ok, find_eq]
  cases hm : foundAt x.sa pattern with
  | none => exact ⟨[], rfl, rfl, by simp⟩
  | some mid =>
    simp only
    obtain ⟨lo, hlo⟩ : ∃ lo, lo = goDown x.sa.LCP pattern.length mid := ⟨_, rfl⟩
    obtain ⟨up, hup⟩ : ∃ up, up = goUp x.sa.LCP pattern.length (x.sa.SA.length - (mid + 1)) (mid + 1) := ⟨_, rfl⟩
    rw [← hlo, ← hup]
    have hmem : ∀ f ∈ fs, f.values.length = x.sa.SA.length := by
      intro f hf
      have : some f ∈ names.map (dget x.features) := by rw [hfs]; exact List.mem_map.mpr ⟨f, hf, rfl⟩
      obtain ⟨n, _, hn⟩ := List.mem_map.mp this
      exact hx.full _ (dget_mem hn)
    rw [mapE_lookup (d := x.features) _ (fun f => (f.values.take up).drop lo) (fun n f h => by simp only [h]) names fs hfs, bind_ok]
    have hlen : ((fs.map (fun f => (f.values.take up).drop lo)).map List.length).foldl min ((x.sa.SA.take up).drop lo).length =
        ((x.sa.SA.take up).drop lo).length := by
      apply foldl_min_const
      intro a ha
      simp only [List.map_map, List.mem_map, Function.comp] at ha
      obtain ⟨f, hf, rfl⟩ := ha
      simp [hmem f hf]
    rw [hlen]
    refine ⟨_, rfl, ?_, ?_⟩
    · rw [List.map_map]
      apply List.ext_getElem
      · simp
      · intro i h3 h4
        simp only [List.getElem_map, List.getElem_range, Function.comp]
        rw [List.getD_eq_getElem?_getD, List.getElem?_eq_getElem h4]
        rfl
    · intro q hq
      obtain ⟨i, hi, rfl⟩ := List.mem_map.mp hq
      rw [List.mem_range] at hi
      simp only [List.length_map, true_and]
      have hsl : ∀ {α : Type} (l : List α), l.length = x.sa.SA.length → ((l.take up).drop lo)[i]? = l[lo + i]? ∧ lo + i < l.length := by
        intro α l hl
        simp only [List.length_drop, List.length_take] at hi
        rw [List.getElem?_drop, List.getElem?_take, if_pos (by omega)]
        exact ⟨rfl, by omega⟩
      refine ⟨lo + i, ?_, ?_⟩
      · obtain ⟨e1, e2⟩ := hsl x.sa.SA rfl
        rw [List.getD_eq_getElem?_getD, e1, List.getElem?_eq_getElem e2]
        rfl
      · intro k f hk
        obtain ⟨e1, e2⟩ := hsl f.values (hmem f (List.mem_of_getElem? hk))
        refine ⟨f.values[lo + i], ?_, List.getElem?_eq_getElem e2⟩
        rw [List.map_map, List.getElem?_map, hk]
        simp only [Option.map_some, Function.comp, List.getD_eq_getElem?_getD, e1, List.getElem?_eq_getElem e2, Option.getD_some]

/-- C87, `addFeature`: the value of a suffix is the callback applied to the values of the arguments for this suffix; everything else stays,
and the suffix array is again one whose features are complete. -/
theorem C87_add_feature (text : List Str) (x : FeatSA) (hx : FeaturesOf text x) (callback : List (Option Nat) → Option Nat)
    (signature : List Str) (args : List Feature) (hargs : signature.map (dget x.features) = args.map some) (default : Option Nat) (name : Str) :
    ∃ y f, x.addFeature callback signature default name = .ok y ∧ FeaturesOf text y ∧ dget y.features name = some f ∧ f.default = default ∧
      (∀ n, n ≠ name → dget y.features n = dget x.features n) ∧
      ∀ p v, ValueOf x.sa f p v ↔ ∃ i : Nat, x.sa.SA[i]? = some p ∧ v = callback (args.map (fun a => a.values.getD i none)) := by
  have hmem : ∀ f ∈ args, f.values.length = x.sa.SA.length := by
    intro f hf
    have : some f ∈ signature.map (dget x.features) := by rw [hargs]; exact List.mem_map.mpr ⟨f, hf, rfl⟩
    obtain ⟨n, _, hn⟩ := List.mem_map.mp this
    exact hx.full _ (dget_mem hn)
  have hadd : x.addFeature callback signature default name = .ok ⟨x.sa, dset x.features name
      ⟨(List.range x.sa.SA.length).map (fun i => callback (args.map (fun a => a.values.getD i none))), default, false⟩⟩ := by
    unfold FeatSA.addFeature
    rw [mapE_lookup (d := x.features) _ id (fun n f h => by simp only [h]; rfl) signature args hargs, bind_ok, List.map_id,
      mapE_ok (g := fun i => callback (args.map (fun a => a.values.getD i none))), bind_ok]
    intro i hi
    rw [List.mem_range] at hi
    rw [featArgs_ok x i args (fun f hf => by rw [hmem f hf]; exact hi), bind_ok]
  refine ⟨_, _, hadd, ⟨hx.sa, ?_, ?_⟩, dget_dset_self .., rfl, ?_, ?_⟩
  · unfold dmem
    by_cases hn : name = S "LCP"
    · subst hn
      rw [dget_dset_self]
      rfl
    · rw [dget_dset_ne _ _ hn]
      exact hx.lcp
  · intro e he
    rcases mem_dset he with he | rfl
    · exact hx.full e he
    · simp
  · intro n hn
    exact dget_dset_ne _ _ (Ne.symm hn)
  · intro p v
    constructor
    · rintro ⟨i, h1, h2⟩
      refine ⟨i, h1, ?_⟩
      simp only [List.getElem?_map] at h2
      have hi := (List.getElem?_eq_some_iff.mp h1).1
      rw [List.getElem?_range hi] at h2
      simpa using h2.symm
    · rintro ⟨i, h1, rfl⟩
      refine ⟨i, h1, ?_⟩
      have hi := (List.getElem?_eq_some_iff.mp h1).1
      simp only [List.getElem?_map]
      rw [List.getElem?_range hi]
      rfl

/-- C87, the docstring of `addFeature` promises the arguments `pos` and `iSA`, and other attributes: every argument that is not a feature
raises AttributeError. -/
theorem C87_arguments (x : FeatSA) (callback : List (Option Nat) → Option Nat) (signature : List Str) (default : Option Nat) (name n : Str)
    (hn : n ∈ signature) (hx : dget x.features n = none) : x.addFeature callback signature default name = .error .attributeError := by
  unfold FeatSA.addFeature
  rw [mapE_lookup_none (d := x.features) (e := .attributeError) _ (fun n h => by simp only [h]) (fun n f h => ⟨f, by simp only [h]⟩) signature n hn hx]
  rfl

/-- C87, without LCP values (`noLCPs=True`) every search raises AttributeError, even one for a token that is not in the text. -/
theorem C87_without_lcp (sa : SuffixArray) (pattern : List Str) (names : List Str) :
    (featInit true sa).findOne pattern = .error .attributeError ∧ (featInit true sa).findWith pattern names = .error .attributeError := by
  have : (featInit true sa).findOne pattern = .error .attributeError := by
    unfold FeatSA.findOne
    rw [if_neg (by simp [featInit, dmem])]
  refine ⟨this, ?_⟩
  unfold FeatSA.findWith
  rw [this]
  rfl

/-- C87: `addFeatureSA` with a callback that gives one value for each suffix adds a feature with these values and this default value, and
changes no other feature and not the suffix array. -/
theorem C87_add_feature_sa (text : List Str) (x : FeatSA) (hx : FeaturesOf text x) (callback : FeatSA → List (Option Nat))
    (hlen : (callback x).length = x.sa.SA.length) (default : Option Nat) (name : Str) :
    FeaturesOf text (x.addFeatureSA callback default name) ∧
      dget (x.addFeatureSA callback default name).features name = some ⟨callback x, default, true⟩ ∧
      ∀ n, n ≠ name → dget (x.addFeatureSA callback default name).features n = dget x.features n := by
  refine ⟨⟨hx.sa, ?_, ?_⟩, dget_dset_self .., fun n hn => dget_dset_ne _ _ (Ne.symm hn)⟩
  · unfold dmem FeatSA.addFeatureSA
    by_cases hn : name = S "LCP"
    · subst hn
      rw [dget_dset_self]
      rfl
    · rw [dget_dset_ne _ _ hn]
      exact hx.lcp
  · intro e he
    rcases mem_dset he with he | rfl
    · exact hx.full e he
    · exact hlen

/-- C87, `__str__` from the beginning: the lines show the suffixes up to `end` in order, each with the first `maxLen` characters of its first
`maxLen` tokens and its own values of the features. (What is missing: other starts, see `C87_str_start`.) -/
theorem C87_str_partial (text : List Str) (x : FeatSA) (hx : FeaturesOf text x) (unit : SAUnit) (end_ maxLen : Nat) :
    ∃ l, x.lines unit 0 end_ maxLen = .ok l ∧ l.map Prod.fst = x.sa.SA.take end_ ∧
      ∀ q ∈ l, (∃ r, reprString unit x.sa q.1 maxLen = .ok r ∧ q.2.1 = r.take maxLen) ∧
        List.Forall₂ (fun e v => ValueOf x.sa e.2 q.1 v) x.features q.2.2 := by
  have hrep : ∀ p, ∃ r, reprString unit x.sa p maxLen = .ok r := by
    intro p
    rw [hx.sa]
    exact ⟨_, reprString_eq unit text p maxLen⟩
  choose R hR using hrep
  have hlines : x.lines unit 0 end_ maxLen = .ok (((List.range (x.sa.SA.take end_).length).zip (x.sa.SA.take end_)).map
      (fun q => (q.2, (R q.2).take maxLen, (x.features.map Prod.snd).map (fun f => f.values.getD q.1 none)))) := by
    unfold FeatSA.lines
    simp only [List.drop_zero]
    apply mapE_ok
    intro q hq
    have h1 := (List.of_mem_zip hq).1
    rw [List.mem_range, List.length_take] at h1
    rw [hR, bind_ok, featArgs_ok, bind_ok]
    intro f hf
    obtain ⟨e, he, rfl⟩ := List.mem_map.mp hf
    rw [hx.full e he]
    omega
  refine ⟨_, hlines, ?_, ?_⟩
  · rw [List.map_map]
    show List.map Prod.snd _ = _
    rw [List.map_snd_zip]
    simp
  · intro q hq
    obtain ⟨⟨k, p⟩, hkp, rfl⟩ := List.mem_map.mp hq
    refine ⟨⟨R p, hR p, rfl⟩, ?_⟩
    obtain ⟨n, hn, he⟩ := List.mem_iff_getElem.mp hkp
    simp only [List.getElem_zip, List.getElem_range, Prod.mk.injEq] at he
    obtain ⟨rfl, he⟩ := he
    simp only [List.length_zip, List.length_range, Nat.min_self, List.length_take] at hn
    have hp : x.sa.SA[n]? = some p := by
      rw [← he, List.getElem_take, List.getElem?_eq_getElem]
    simp only [List.map_map]
    rw [List.forall₂_map_right_iff, List.forall₂_same]
    intro e hmem
    refine ⟨n, hp, ?_⟩
    have hl : n < e.2.values.length := by rw [hx.full e hmem]; omega
    simp only [Function.comp]
    rw [List.getD_eq_getElem?_getD, List.getElem?_eq_getElem hl]
    rfl

/-- The text and the suffix array of the examples. -/
def abText : List Str := [S "a", S "b", S "a", S "c"]

def abFeat : FeatSA := featInit false (mkSuffixArray abText)

/-- `abFeat` with a copy of the feature LCP and the default value 9. -/
def abCopy : FeatSA := ⟨abFeat.sa, abFeat.features ++ [(S "copy", ⟨[some 0, some 1, some 0, some 0], some 9, false⟩)]⟩

/-- A new suffix array has complete features. -/
theorem featInit_of (text : List Str) (h : 2 ≤ text.length) : FeaturesOf text (featInit false (mkSuffixArray text)) := by
  refine ⟨rfl, by simp [featInit, dmem, dget], ?_⟩
  intro e he
  simp only [featInit, Bool.false_eq_true, if_false, List.mem_singleton] at he
  subst he
  simp only [List.length_map]
  exact (saFacts text h).len

/-- Both suffix arrays meet the hypotheses of the theorems above. -/
example : FeaturesOf abText abFeat := featInit_of abText (by decide)

/-- A case that meets the hypotheses of `C87_add_feature_sa`: the positions as a feature. -/
example : ((fun x : FeatSA => x.sa.SA.map some) abFeat).length = abFeat.sa.SA.length := by simp

theorem abCopy_added : abFeat.addFeature (fun l => l.headD none) [S "LCP"] (some 9) (S "copy") = .ok abCopy := by decide +kernel

theorem abCopy_of : FeaturesOf abText abCopy := by
  obtain ⟨y, f, hy, h, _⟩ := C87_add_feature abText abFeat (featInit_of abText (by decide)) (fun l => l.headD none) [S "LCP"]
    [⟨[some 0, some 1, some 0, some 0], none, true⟩] (by decide +kernel) (some 9) (S "copy")
  rw [abCopy_added] at hy
  obtain rfl := Except.ok.inj hy
  exact h

example : (∀ p, abCopy.sa.SA[0]? = some p → ¬ [S "b"] <+: abText.drop p) ∧ abCopy.feature (S "copy") [S "b"] = .ok (some 0) := by
  refine ⟨?_, by decide +kernel⟩
  have : abCopy.sa.SA[0]? = some 0 := by decide +kernel
  rw [this]
  intro p hp
  obtain rfl := Option.some.inj hp
  decide

example : abCopy.findWith [S "a"] [S "copy", S "LCP"] = .ok [(0, [some 0, some 0]), (2, [some 1, some 1])] := by decide +kernel

/-- The claim is false for features of `addFeature`: the index of the first suffix is 0, which counts as `False`, so the default value is
returned although the pattern occurs, and no suffix has this value. -/
theorem C87_first_suffix : [S "a", S "b"] <+: abText.drop 0 ∧ abCopy.feature (S "copy") [S "a", S "b"] = .ok (some 9) ∧
    ¬ ∀ (text pattern : List Str) (x : FeatSA), FeaturesOf text x → text.length ≠ 1 → ∀ (name : Str) (f : Feature),
      dget x.features name = some f → (∃ p < text.length, pattern <+: text.drop p) →
      ∃ p v, p < text.length ∧ pattern <+: text.drop p ∧ ValueOf x.sa f p v ∧ x.feature name pattern = .ok v := by
  have h9 : abCopy.feature (S "copy") [S "a", S "b"] = .ok (some 9) := by decide +kernel
  refine ⟨by decide, h9, ?_⟩
  intro h
  obtain ⟨p, v, _, _, ⟨i, _, hi⟩, he⟩ := h abText [S "a", S "b"] abCopy abCopy_of (by decide) (S "copy")
    ⟨[some 0, some 1, some 0, some 0], some 9, false⟩ (by decide +kernel) ⟨0, by decide, by decide⟩
  rw [h9] at he
  obtain rfl := Except.ok.inj he
  have := List.mem_of_getElem? hi
  revert this
  decide

/-- The claim about `__str__` is false for other starts: the second suffix (at position 2) is shown with the value 0 of the first suffix, but
its value is 1. -/
theorem C87_str_start : abFeat.lines .word 1 2 10 = .ok [(2, S "a c", [some 0])] ∧
    abFeat.lines .word 0 2 10 = .ok [(0, S "a b a c", [some 0]), (2, S "a c", [some 1])] := by
  constructor <;> decide +kernel

/-- An argument that is not a feature. -/
example : S "pos" ∈ [S "LCP", S "pos"] ∧ dget abFeat.features (S "pos") = none := by decide +kernel

end CollateX
