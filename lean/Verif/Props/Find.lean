import Verif.Proofs.Find
import Verif.Props.SuffixArray
/-
C47: search in the suffix array.
-/

namespace CollateX

theorem take_eq_iff_share {l : List Nat} {p q m : Nat} (hp : p + m ≤ l.length) (hq : q + m ≤ l.length) :
    (l.drop p).take m = (l.drop q).take m ↔ Share (rd l) p q m := by
  constructor
  · intro h i hi
    have := congrArg (fun l => l[i]?) h
    simp only [List.getElem?_take, if_pos hi, List.getElem?_drop] at this
    unfold rd
    rw [List.getD_eq_getElem?_getD, List.getD_eq_getElem?_getD, this]
  · intro h
    apply List.ext_getElem?
    intro i
    by_cases hi : i < m
    · simp only [List.getElem?_take, if_pos hi, List.getElem?_drop]
      have := h i hi
      rw [rd_inside (by omega), rd_inside (by omega)] at this
      rw [List.getElem?_eq_getElem (by omega), List.getElem?_eq_getElem (by omega), this]
    · simp [List.getElem?_take, hi]

theorem map_tokId_inj {text : List Str} {a b : List Str} (ha : ∀ x ∈ a, x ∈ text) (hb : ∀ x ∈ b, x ∈ text)
    (h : a.map (tokId (sortedSet text)) = b.map (tokId (sortedSet text))) : a = b := by
  induction a generalizing b with
  | nil =>
    cases b with
    | nil => rfl
    | cons y b => simp at h
  | cons x a ih =>
    cases b with
    | nil => simp at h
    | cons y b =>
      simp only [List.map_cons, List.cons.injEq] at h
      rw [tokId_inj (ha x (by simp)) (hb y (by simp)) h.1,
        ih (fun z hz => ha z (by simp [hz])) (fun z hz => hb z (by simp [hz])) h.2]

theorem mem_slice {l : List Nat} {lo up x : Nat} : x ∈ (l.take up).drop lo ↔ ∃ i, lo ≤ i ∧ i < up ∧ l[i]? = some x := by
  rw [List.mem_iff_getElem?]
  constructor
  · rintro ⟨i, hi⟩
    rw [List.getElem?_drop, List.getElem?_take] at hi
    split at hi
    · exact ⟨lo + i, by omega, by assumption, hi⟩
    · cases hi
  · rintro ⟨i, h1, h2, h3⟩
    refine ⟨i - lo, ?_⟩
    rw [List.getElem?_drop, List.getElem?_take, show lo + (i - lo) = i by omega, if_pos h2]
    exact h3

/-- C47 for texts that do not consist of a single token (what is missing: one-token texts, for which the claim is false, see
`C47_single_token`). `find` lists, without repetition, exactly the positions of the text at which the pattern occurs. -/
theorem C47_find_exact_partial (text pattern : List Str) (h1 : text.length ≠ 1) :
    (find (mkSuffixArray text) pattern).Nodup ∧
      ∀ i, i ∈ find (mkSuffixArray text) pattern ↔ i < text.length ∧ pattern <+: text.drop i := by
  by_cases h2 : 2 ≤ text.length
  swap
  · have h0 : text = [] := List.length_eq_zero_iff.mp (by omega)
    subst h0
    have : find (mkSuffixArray []) pattern = [] := by
      unfold find
      split
      · rfl
      · have : findOne (mkSuffixArray []) ‹_› = none := rfl
        rw [this]
    rw [this]
    simp
  have F := saFacts text h2
  have hvoc : (mkSuffixArray text).voc = sortedSet text := rfl
  have hstr : (mkSuffixArray text).string = text.map (tokId (sortedSet text)) := rfl
  by_cases hall : ∀ x ∈ pattern, x ∈ sortedSet text
  swap
  · have hno : ∃ x ∈ pattern, x ∉ sortedSet text := by
      by_contra hcon
      exact hall (fun x hx => by
        by_contra hxn
        exact hcon ⟨x, hx, hxn⟩)
    have : find (mkSuffixArray text) pattern = [] := by
      unfold find
      rw [hvoc, patIds_none hno]
    rw [this]
    refine ⟨List.nodup_nil, fun i => ⟨by simp, ?_⟩⟩
    rintro ⟨_, hp⟩
    obtain ⟨x, hx, hxn⟩ := hno
    exact absurd (mem_sortedSet.mpr (List.mem_of_mem_drop (hp.subset hx))) hxn
  -- the numbered pattern and the keys
  obtain ⟨P, hP⟩ : ∃ P, P = pattern.map (tokId (sortedSet text)) := ⟨_, rfl⟩
  obtain ⟨N, hN⟩ : ∃ N, N = text.map (tokId (sortedSet text)) := ⟨_, rfl⟩
  obtain ⟨SA, hSA⟩ : ∃ SA, SA = (mkSuffixArray text).SA := ⟨_, rfl⟩
  have hPl : P.length = pattern.length := by rw [hP]; simp
  have hNl : N.length = text.length := by rw [hN]; simp
  have hSl : SA.length = text.length := by rw [hSA]; exact F.length
  have hnum : numbered text = rd N := by rw [hN]; rfl
  let K : Nat → List Nat := fun i => (N.drop (rd SA i)).take P.length
  have hpos : ∀ x ∈ N, 1 ≤ x := by
    intro x hx
    rw [hN] at hx
    obtain ⟨y, _, rfl⟩ := List.mem_map.mp hx
    unfold tokId; omega
  have hmono : ∀ i j, i < j → j < SA.length → K i ≤ K j := by
    intro i j hij hj
    have hs := F.sorted
    rw [← hSA, hnum] at hs
    have hs' := List.pairwise_iff_getElem.mp hs i j (by omega) hj hij
    have := take_mono (m := P.length) (drop_lt_of_slt hpos hs')
    simp only [K]
    rw [rd_inside (by omega), rd_inside hj]
    rcases this with h | h
    · exact le_of_lt h
    · exact le_of_eq h
  have hocc : ∀ i < SA.length, (K i = P ↔ pattern <+: text.drop (rd SA i)) := by
    intro i hi
    simp only [K]
    rw [hN, ← List.map_drop, ← List.map_take, List.prefix_iff_eq_take, hPl, hP]
    constructor
    · intro h
      exact (map_tokId_inj (fun x hx => List.mem_of_mem_drop (List.mem_of_mem_take hx))
        (fun x hx => mem_sortedSet.mp (hall x hx)) h).symm
    · intro h; rw [← h]
  have hlcp : ∀ i, i + 1 < SA.length → rd (mkSuffixArray text).LCP (i + 1) = longestCommonPrefix N (rd SA i) (rd SA (i + 1)) := by
    intro i hi
    rw [hSA, hN]
    exact F.succ i (by rw [← hSA]; exact hi)
  have hKlen : ∀ i, K i = P → rd SA i + P.length ≤ N.length ∨ P.length = 0 := by
    intro i hi
    have := congrArg List.length hi
    simp only [K, List.length_take, List.length_drop] at this
    omega
  have hlt : ∀ i < SA.length, rd SA i < N.length := by
    intro i hi
    rw [hSA, hNl]
    exact F.lt (i := i) (by rw [← hSA]; exact hi)
  have hshare : ∀ i, i + 1 < SA.length → (K i = P ∨ K (i + 1) = P) →
      (rd (mkSuffixArray text).LCP (i + 1) ≥ P.length ↔ K i = K (i + 1)) := by
    intro i hi hor
    rw [hlcp i hi]
    obtain ⟨s1, s2, s3, s4⟩ := longestCommonPrefix_spec N (rd SA i) (rd SA (i + 1))
    have l1 := hlt i (by omega)
    have l2 := hlt (i + 1) hi
    constructor
    · intro h
      exact (take_eq_iff_share (by omega) (by omega)).mpr (fun k hk => s1 k (by omega))
    · intro h
      have e1 : K i = P := by rcases hor with h' | h'; exacts [h', h.trans h']
      have e2 : K (i + 1) = P := by rcases hor with h' | h'; exacts [h.symm.trans h', h']
      have a1 := hKlen i e1
      have a2 := hKlen (i + 1) e2
      by_cases hz : P.length = 0
      · omega
      · have b1 : rd SA i + P.length ≤ N.length := by omega
        have b2 : rd SA (i + 1) + P.length ≤ N.length := by omega
        exact s4 _ ((take_eq_iff_share b1 b2).mp h) (by omega) (by omega)
  have hconv : ∀ i j k, i < j → j < k → k < SA.length → K i = P → K k = P → K j = P := by
    intro i j k hij hjk hk h3 h4
    exact le_antisymm (by rw [← h4]; exact hmono j k hjk hk) (by rw [← h3]; exact hmono i j hij (by omega))
  have hloop := findLoop_ok (mkSuffixArray text) P K (fun i => by rw [hstr, ← hN, ← hSA]) (by rw [← hSA]; exact hmono)
    ((mkSuffixArray text).SA.length + 1) 0 (mkSuffixArray text).SA.length (by omega) (Nat.le_refl _) (by omega)
    (fun i hi hi' => by omega)
  have hfind : find (mkSuffixArray text) pattern = match findOne (mkSuffixArray text) P with
      | none => []
      | some middle => (SA.take (goUp (mkSuffixArray text).LCP P.length (SA.length - (middle + 1)) (middle + 1))).drop
          (goDown (mkSuffixArray text).LCP P.length middle) := by
    unfold find
    rw [hvoc, patIds_some hall, ← hP, ← hSA]
    rfl
  have hpermN : ∀ i, i < text.length ↔ ∃ k, k < SA.length ∧ rd SA k = i := by
    intro i
    rw [← List.mem_range, ← F.perm.mem_iff, ← hSA, List.mem_iff_getElem]
    constructor
    · rintro ⟨k, hk, he⟩; exact ⟨k, hk, by rw [rd_inside hk]; exact he⟩
    · rintro ⟨k, hk, he⟩; exact ⟨k, hk, by rw [← rd_inside hk]; exact he⟩
  rw [hfind]
  unfold findOne
  cases hf : findLoop (mkSuffixArray text) P ((mkSuffixArray text).SA.length + 1) 0 (mkSuffixArray text).SA.length with
  | none =>
    rw [hf] at hloop
    refine ⟨List.nodup_nil, fun i => ⟨by simp, ?_⟩⟩
    rintro ⟨hi, hp⟩
    obtain ⟨k, hk, rfl⟩ := (hpermN i).mp hi
    exact absurd ((hocc k hk).mpr hp) (hloop k (by rw [← hSA]; exact hk))
  | some mid =>
    rw [hf] at hloop
    obtain ⟨hm, hmP⟩ := hloop
    rw [← hSA] at hm
    obtain ⟨d1, d2, d3⟩ := goDown_ok (mkSuffixArray text).LCP P.length (fun i => K i = P ∧ i < SA.length) SA.length
      (fun i hi hPi => by
        rw [hshare i hi (.inr hPi.1)]
        exact ⟨fun h => ⟨h.trans hPi.1, by omega⟩, fun h => h.1.trans hPi.1.symm⟩)
      (fun i j hij hnj k hjk hk hi => hnj ⟨hconv i j k hij hjk hk.2 hi.1 hk.1, by omega⟩) mid hm ⟨hmP, hm⟩
    obtain ⟨u1, u2, u3, u4⟩ := goUp_ok (mkSuffixArray text).LCP P.length (fun i => K i = P) SA.length
      (fun i hi hPi => by
        rw [hshare i hi (.inl hPi)]
        exact ⟨fun h => h.symm.trans hPi, fun h => hPi.trans h.symm⟩)
      (fun i j k hij hjk hk hi hnj hPk => hnj (hconv i j k hij hjk hk hi hPk))
      (SA.length - (mid + 1)) mid (by omega) hmP
    refine ⟨?_, ?_⟩
    · have hnd : SA.Nodup := by rw [hSA]; exact F.perm.nodup_iff.mpr List.nodup_range
      exact (hnd.sublist (List.take_sublist _ _)).sublist (List.drop_sublist _ _)
    · intro i
      rw [mem_slice, hpermN i]
      constructor
      · rintro ⟨k, h3, h4, h5⟩
        have hk : k < SA.length := by omega
        have hKk : K k = P := by
          by_cases hkm : k ≤ mid
          · exact (d2 k h3 hkm).1
          · exact u3 k (by omega) h4
        have e : rd SA k = i := rd_eq h5
        refine ⟨⟨k, hk, e⟩, ?_⟩
        rw [← e]; exact (hocc k hk).mp hKk
      · rintro ⟨⟨k, hk, e⟩, hp⟩
        have hKk : K k = P := (hocc k hk).mpr (by rw [e]; exact hp)
        refine ⟨k, ?_, ?_, ?_⟩
        · by_contra hlow
          exact d3 k (by omega) ⟨hKk, hk⟩
        · by_contra hup
          exact u4 k (by omega) hk hKk
        · rw [List.getElem?_eq_getElem hk, ← rd_inside hk, e]

/-- C47 is false for a text of one token: the suffix array of `a` is `[1]` (the algorithm requires two tokens), so `a` is not
found, and the empty pattern is found at position 1. -/
theorem C47_single_token : find (mkSuffixArray [S "a"]) [S "a"] = [] ∧ find (mkSuffixArray [S "a"]) [] = [1] ∧
    ¬ ∀ (text pattern : List Str) (i : Nat), i ∈ find (mkSuffixArray text) pattern ↔ i < text.length ∧ pattern <+: text.drop i := by
  refine ⟨by decide +kernel, by decide +kernel, ?_⟩
  intro h
  have h1 : find (mkSuffixArray [S "a"]) [S "a"] = [] := by decide +kernel
  have := (h [S "a"] [S "a"] 0).mpr ⟨by decide, by decide⟩
  rw [h1] at this
  cases this

/-- `mississippi` as in the docstring of `find` (lines 837–863). -/
example : let m := [S "m", S "i", S "s", S "s", S "i", S "s", S "s", S "i", S "p", S "p", S "i"]
    m.length ≠ 1 ∧ find (mkSuffixArray m) [S "s", S "s", S "i"] = [5, 2] ∧ find (mkSuffixArray m) [S "m", S "i"] = [0] ∧
    find (mkSuffixArray m) [S "A"] = [] ∧ find (mkSuffixArray m) [S "i", S "m"] = [] := by
  decide +kernel

end CollateX
