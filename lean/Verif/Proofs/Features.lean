import Verif.Model.SuffixText
import Verif.Props.Find
import Verif.Proofs.Transpositions
/-
Lemmas for C87: the index that `_findOne` returns and the features of a suffix array.
-/

namespace CollateX

theorem findLoop_lt (sa : SuffixArray) (pat : List Nat) : ∀ (fuel lower upper mid : Nat), findLoop sa pat fuel lower upper = some mid → mid < upper
  | 0, _, _, _, h => by cases h
  | fuel + 1, lower, upper, mid, h => by
    unfold findLoop at h
    split at h
    · simp only at h
      split at h
      · have := findLoop_lt sa pat fuel _ _ _ h
        omega
      split at h
      · exact findLoop_lt sa pat fuel _ _ _ h
      · injection h with h
        omega
    · cases h

theorem goDown_le (lcp : List Nat) (m : Nat) : ∀ l, goDown lcp m l ≤ l
  | 0 => Nat.le_refl _
  | l + 1 => by
    unfold goDown
    split
    · have := goDown_le lcp m l
      omega
    · exact Nat.le_refl _

theorem goUp_ge (lcp : List Nat) (m : Nat) : ∀ k u, u ≤ goUp lcp m k u
  | 0, _ => Nat.le_refl _
  | k + 1, u => by
    unfold goUp
    split
    · have := goUp_ge lcp m k (u + 1)
      omega
    · exact Nat.le_refl _

theorem goUp_le (lcp : List Nat) (m : Nat) : ∀ k u, goUp lcp m k u ≤ u + k
  | 0, _ => Nat.le_refl _
  | k + 1, u => by
    unfold goUp
    split
    · have := goUp_le lcp m k (u + 1)
      omega
    · omega

theorem patIds_length (voc : List Str) : ∀ (p : List Str) (l : List Nat), patIds voc p = some l → l.length = p.length
  | [], l, h => by injection h with h; subst h; rfl
  | x :: xs, l, h => by
    unfold patIds at h
    split at h
    · cases hr : patIds voc xs with
      | none => rw [hr] at h; cases h
      | some r =>
        rw [hr] at h
        injection h with h
        subst h
        simp [patIds_length voc xs r hr]
    · cases h

/-- The index that `_findOne` returns. -/
def foundAt (sa : SuffixArray) (pattern : List Str) : Option Nat :=
  match patIds sa.voc pattern with
  | none => none
  | some pat => findOne sa pat

/-- The range of indices that `find` returns. -/
theorem find_eq (sa : SuffixArray) (pattern : List Str) : find sa pattern = match foundAt sa pattern with
    | none => []
    | some mid => (sa.SA.take (goUp sa.LCP pattern.length (sa.SA.length - (mid + 1)) (mid + 1))).drop (goDown sa.LCP pattern.length mid) := by
  unfold find foundAt
  cases hp : patIds sa.voc pattern with
  | none => rfl
  | some pat =>
    simp only
    rw [patIds_length _ _ _ hp]
    cases findOne sa pat <;> rfl

theorem foundAt_lt {sa : SuffixArray} {pattern : List Str} {mid : Nat} (h : foundAt sa pattern = some mid) : mid < sa.SA.length := by
  unfold foundAt at h
  cases hp : patIds sa.voc pattern with
  | none => rw [hp] at h; cases h
  | some pat =>
    rw [hp] at h
    exact findLoop_lt _ _ _ _ _ _ h

/-- A suffix that is found begins with the pattern. -/
theorem foundAt_some {text pattern : List Str} (h1 : text.length ≠ 1) {mid : Nat} (h : foundAt (mkSuffixArray text) pattern = some mid) :
    ∃ p, (mkSuffixArray text).SA[mid]? = some p ∧ p < text.length ∧ pattern <+: text.drop p := by
  have hl := foundAt_lt h
  refine ⟨_, List.getElem?_eq_getElem hl, ?_⟩
  rw [← (C47_find_exact_partial text pattern h1).2, find_eq, h]
  simp only
  rw [mem_slice]
  have h2 := goDown_le (mkSuffixArray text).LCP pattern.length mid
  have h3 := goUp_ge (mkSuffixArray text).LCP pattern.length ((mkSuffixArray text).SA.length - (mid + 1)) (mid + 1)
  exact ⟨mid, h2, by omega, List.getElem?_eq_getElem hl⟩

/-- If nothing is found, the pattern does not occur. -/
theorem foundAt_none {text pattern : List Str} (h1 : text.length ≠ 1) (h : foundAt (mkSuffixArray text) pattern = none) :
    ∀ p < text.length, ¬ pattern <+: text.drop p := by
  intro p hp hpre
  have := ((C47_find_exact_partial text pattern h1).2 p).mpr ⟨hp, hpre⟩
  rw [find_eq, h] at this
  cases this

theorem FeatSA.findOne_eq {x : FeatSA} (h : dmem x.features (S "LCP") = true) (pattern : List Str) :
    x.findOne pattern = .ok (foundAt x.sa pattern) := by
  unfold FeatSA.findOne foundAt
  rw [if_pos h]
  cases patIds x.sa.voc pattern <;> rfl

theorem featArgs_ok (x : FeatSA) (i : Nat) : ∀ fs : List Feature, (∀ f ∈ fs, i < f.values.length) →
    featArgs x i fs = .ok (fs.map (fun f => f.values.getD i none))
  | [], _ => rfl
  | f :: fs, h => by
    have hi : i < f.values.length := h f (by simp)
    have : lgetE f.values i = .ok (f.values.getD i none) := by
      rw [lgetE_eq_ok, List.getD_eq_getElem?_getD, List.getElem?_eq_getElem hi]
      rfl
    rw [featArgs, this, bind_ok, featArgs_ok x i fs (fun f hf => h f (by simp [hf])), bind_ok]
    rfl

/-- Looking up a list of names. -/
theorem mapE_lookup {β : Type} {d : Dict Str Feature} (F : Str → Py β) (g : Feature → β) (hF : ∀ n f, dget d n = some f → F n = .ok (g f)) :
    ∀ (names : List Str) (fs : List Feature), names.map (dget d) = fs.map some → mapE F names = .ok (fs.map g)
  | [], [], _ => rfl
  | [], f :: fs, h => by simp at h
  | n :: names, [], h => by simp at h
  | n :: names, f :: fs, h => by
    simp only [List.map_cons, List.cons.injEq] at h
    rw [mapE, hF n f h.1, bind_ok, mapE_lookup F g hF names fs h.2, bind_ok]
    rfl

/-- Looking up a name that does not exist. -/
theorem mapE_lookup_none {β : Type} {d : Dict Str Feature} {e : PyErr} (F : Str → Py β) (hF : ∀ n, dget d n = none → F n = .error e)
    (hG : ∀ n f, dget d n = some f → ∃ b, F n = .ok b) : ∀ (names : List Str) (n : Str), n ∈ names → dget d n = none → mapE F names = .error e
  | m :: names, n, hn, hd => by
    rw [mapE]
    cases hm : dget d m with
    | none => rw [hF m hm]; rfl
    | some f =>
      obtain ⟨b, hb⟩ := hG m f hm
      rw [hb, bind_ok]
      rcases List.mem_cons.mp hn with rfl | h
      · rw [hd] at hm; cases hm
      · rw [mapE_lookup_none F hF hG names n h hd]
        rfl

theorem foldl_min_const : ∀ (l : List Nat) (n : Nat), (∀ a ∈ l, a = n) → l.foldl min n = n
  | [], _, _ => rfl
  | a :: l, n, h => by
    rw [List.foldl_cons, h a (by simp), Nat.min_self]
    exact foldl_min_const l n (fun a ha => h a (by simp [ha]))

end CollateX
