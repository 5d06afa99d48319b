import Verif.Model.SuffixFile
import Verif.Props.Features
/-
A suffix array that is saved and loaded: C91.
-/

namespace CollateX
open Spec

/-- A suffix array as the methods make it: the features have different names and the feature LCP, if there is one, has the LCP values. -/
structure Spec.Kept (x : FeatSA) : Prop where
  names : (x.features.map Prod.fst).Nodup
  lcp : ∀ f, dget x.features (S "LCP") = some f → f.values = x.sa.LCP.map some

theorem loadFeatures_eq : ∀ (l : List (Str × List (Option Nat) × Option Nat)) (x : FeatSA), ((x.features.map Prod.fst) ++ l.map Prod.fst).Nodup →
    loadFeatures x l = ⟨x.sa, x.features ++ l.map (fun e => (e.1, ⟨e.2.1, e.2.2, true⟩))⟩
  | [], x, _ => by simp [loadFeatures]
  | (n, vs, d) :: l, x, h => by
    have hn : n ∉ x.features.map Prod.fst := by
      intro hm
      rw [List.map_cons] at h
      exact (List.disjoint_of_nodup_append h) hm (by simp)
    have hadd : x.addFeatureSA (fun _ => vs) d n = ⟨x.sa, x.features ++ [(n, ⟨vs, d, true⟩)]⟩ := by
      unfold FeatSA.addFeatureSA
      rw [dset_of_not_mem hn]
    rw [loadFeatures, hadd, loadFeatures_eq l _ (by simpa using h)]
    simp

/-- The features of the loaded array. -/
def asOfSA (fs : Dict Str Feature) : Dict Str Feature := fs.map (fun e => (e.1, ⟨e.2.values, e.2.default, true⟩))

theorem dget_mapSnd {V W : Type} (F : V → W) : ∀ (d : Dict Str V) (n : Str), dget (d.map (fun e => (e.1, F e.2))) n = (dget d n).map F
  | [], _ => rfl
  | (k, v) :: d, n => by
    simp only [List.map_cons, dget]
    by_cases h : k = n
    · simp [h]
    · simp [h, dget_mapSnd F d n]

theorem fromFile_toFile {x : FeatSA} (hx : Kept x) (unit : SAUnit) {name : Str} (hn : opensBytes name = true) :
    ∃ c y, x.toFile unit name = .ok c ∧ fromFile name c = .ok (y, unit) ∧ y.features = asOfSA x.features ∧ y.sa.SA = x.sa.SA ∧
      y.sa.voc = x.sa.voc ∧ y.sa.string = x.sa.string ∧ (dmem x.features (S "LCP") = true → y.sa = x.sa) := by
  refine ⟨_, _, by rw [FeatSA.toFile, if_pos hn], by rw [fromFile, if_pos hn], ?_⟩
  rw [loadFeatures_eq _ _ (by simpa [Function.comp_def] using hx.names)]
  refine ⟨by simp [asOfSA, Function.comp_def], rfl, rfl, rfl, ?_⟩
  intro hl
  obtain ⟨f, hf⟩ := Option.isSome_iff_exists.mp hl
  have he : dget (x.features.map (fun e => (e.1, e.2.values, e.2.default))) (S "LCP") = some (f.values, f.default) := by
    rw [dget_mapSnd (fun f : Feature => (f.values, f.default)), hf]
    rfl
  simp only [he]
  have : x.sa.LCP = f.values.map (fun v => v.getD 0) := by
    rw [hx.lcp f hf, List.map_map]
    simp [Function.comp_def]
  rw [← this]

/-- C91: a suffix array that was saved under a name with `.gz` and loaded again has the same text, order and unit; it finds the same patterns, `find` gives
the same positions and values, the lines of `__str__` are the same, and so are the methods of the features, for those of `addFeatureSA` always and for
those of `addFeature` wherever the pattern is not found at the first suffix. (What is missing: the first suffix, see
`C91_first_suffix`, and other names, see `C91_other_names`.) -/
theorem C91_load_partial (x : FeatSA) (hx : Kept x) (unit : SAUnit) (name : Str) (hn : S ".gz" <:+ name) :
    ∃ c y, x.toFile unit name = .ok c ∧ fromFile name c = .ok (y, unit) ∧ y.sa.SA = x.sa.SA ∧ y.sa.voc = x.sa.voc ∧ y.sa.string = x.sa.string ∧
      (∀ pattern, y.findOne pattern = x.findOne pattern) ∧
      (∀ pattern names, y.findWith pattern names = x.findWith pattern names) ∧
      (∀ start end_ maxLen, y.lines unit start end_ maxLen = x.lines unit start end_ maxLen) ∧
      (∀ offset length, reprString unit y.sa offset length = reprString unit x.sa offset length) ∧
      ∀ feat pattern, ((∀ f, dget x.features feat = some f → f.ofSA = true) ∨ x.findOne pattern ≠ .ok (some 0)) →
        y.feature feat pattern = x.feature feat pattern := by
  obtain ⟨c, y, hc, hy, hf, h1, h2, h3, hsa⟩ := fromFile_toFile hx unit (name := name) (by unfold opensBytes; rw [List.isSuffixOf_iff_suffix]; exact hn)
  have hget : ∀ n, dget y.features n = (dget x.features n).map (fun f => ⟨f.values, f.default, true⟩) := by
    intro n
    rw [hf]
    exact dget_mapSnd (fun f : Feature => (⟨f.values, f.default, true⟩ : Feature)) _ _
  have hmem : ∀ n, dmem y.features n = dmem x.features n := by
    intro n
    unfold dmem
    rw [hget]
    simp
  have hone : ∀ pattern, y.findOne pattern = x.findOne pattern := by
    intro pattern
    unfold FeatSA.findOne
    rw [hmem]
    by_cases hl : dmem x.features (S "LCP") = true
    · rw [hsa hl]
    · rw [if_neg hl, if_neg hl]
  have hrep : ∀ offset length, reprString unit y.sa offset length = reprString unit x.sa offset length := by
    intro o l
    unfold reprString reprIds
    rw [h2, h3]
  refine ⟨c, y, hc, hy, h1, h2, h3, hone, ?_, ?_, hrep, ?_⟩
  · intro pattern names
    by_cases hl : dmem x.features (S "LCP") = true
    · unfold FeatSA.findWith
      rw [hone, hsa hl]
      congr 1
      funext res
      cases res with
      | none => rfl
      | some mid =>
        simp only
        congr 2
        funext n
        rw [hget]
        cases dget x.features n <;> rfl
    · unfold FeatSA.findWith FeatSA.findOne
      rw [hmem, if_neg hl, if_neg hl]
      rfl
  · intro s e m
    have hargs : ∀ i, ∀ fs : Dict Str Feature, featArgs y i ((asOfSA fs).map Prod.snd) = featArgs x i (fs.map Prod.snd) := by
      intro i fs
      induction fs with
      | nil => rfl
      | cons p fs ih =>
        simp only [asOfSA, List.map_cons, featArgs] at ih ⊢
        rw [ih]
    unfold FeatSA.lines
    rw [h1, hf]
    simp only [hrep, hargs]
  · intro feat pattern h
    unfold FeatSA.feature
    rw [hget, hone]
    cases hd : dget x.features feat with
    | none => rfl
    | some f =>
      simp only [Option.map_some]
      cases ho : x.findOne pattern with
      | error e => rfl
      | ok r =>
        simp only [bind_ok]
        cases r with
        | none => rfl
        | some i =>
          rcases h with h | h
          · simp [h f hd]
          · rw [ho] at h
            have : i ≠ 0 := fun e => h (by rw [e])
            simp [this]

/-- C91: saving under any other name, or loading from it, raises TypeError, although the docstrings accept every name. -/
theorem C91_other_names (x : FeatSA) (unit : SAUnit) (c : SavedSA) (name : Str) (hn : ¬ S ".gz" <:+ name) :
    x.toFile unit name = .error .typeError ∧ fromFile name c = .error .typeError := by
  have : ¬ opensBytes name = true := by
    unfold opensBytes
    rw [List.isSuffixOf_iff_suffix]
    exact hn
  exact ⟨by rw [FeatSA.toFile, if_neg this], by rw [fromFile, if_neg this]⟩

/-- New suffix arrays are of this kind. -/
theorem kept_init (b : Bool) (sa : SuffixArray) : Kept (featInit b sa) := by
  cases b
  · refine ⟨by simp [featInit], ?_⟩
    intro f hf
    simp only [featInit, Bool.false_eq_true, if_false, dget, if_true, Option.some.injEq] at hf
    rw [← hf]
    rfl
  · exact ⟨by simp [featInit], fun f hf => by simp [featInit] at hf⟩

/-- And they stay so when features with other names than LCP are added. -/
theorem Spec.Kept.add {x : FeatSA} (hx : Kept x) {name : Str} (hn : name ≠ S "LCP") (f : Feature) : Kept { x with features := dset x.features name f } := by
  refine ⟨nodup_keys_dset hx.names _ _, ?_⟩
  intro f' hf'
  simp only at hf'
  rw [dget_dset_ne _ _ hn] at hf'
  exact hx.lcp f' hf'

theorem abCopy_kept : Kept abCopy := by
  have h := (kept_init false (mkSuffixArray abText)).add (name := S "copy") (by decide) ⟨[some 0, some 1, some 0, some 0], some 9, false⟩
  exact h

/-- A case that meets the hypotheses of `C91_load_partial`. -/
example : Kept abCopy ∧ S ".gz" <:+ S "poem.gz" ∧ ¬ S ".gz" <:+ S "poem.sa" ∧ abCopy.findOne [S "b"] ≠ .ok (some 0) :=
  ⟨abCopy_kept, by decide, by decide, by decide +kernel⟩

/-- The loaded array is not always like the saved one: the method of a feature of `addFeature` gives the default value 9 for the
pattern of the first suffix, and after loading its value 0. -/
theorem C91_first_suffix : ¬ ∀ (x : FeatSA), Kept x → ∀ (unit : SAUnit) (name : Str), S ".gz" <:+ name → ∀ c y u, x.toFile unit name = .ok c →
    fromFile name c = .ok (y, u) → ∀ feat pattern, y.feature feat pattern = x.feature feat pattern := by
  intro h
  have h9 : abCopy.feature (S "copy") [S "a", S "b"] = .ok (some 9) := C87_first_suffix.2.1
  have h0 : (do
      let c ← abCopy.toFile .word (S "poem.gz")
      let r ← fromFile (S "poem.gz") c
      r.1.feature (S "copy") [S "a", S "b"]) = .ok (some 0) := by decide +kernel
  obtain ⟨c, y, hc, hy, _⟩ := C91_load_partial abCopy abCopy_kept .word (S "poem.gz") (by decide)
  have := h abCopy abCopy_kept .word (S "poem.gz") (by decide) c y _ hc hy (S "copy") [S "a", S "b"]
  rw [hc, bind_ok, hy, bind_ok] at h0
  rw [h9, h0] at this
  exact absurd this (by decide)

end CollateX
