import Verif.Proofs.Intervals
import Verif.Proofs.Layout
/-
The blocks of the token index: from the suffix array to `BlocksOK`.
-/

namespace CollateX

/-! ### Numbers as strings -/

/-- Value of a decimal numeral. -/
def digitsVal (s : Str) : Nat := s.foldl (fun a c => 10 * a + (c.toNat - 48)) 0

theorem digit_val (d : Nat) (h : d < 10) : (Char.ofNat (48 + d)).toNat - 48 = d := by
  have : d = 0 ∨ d = 1 ∨ d = 2 ∨ d = 3 ∨ d = 4 ∨ d = 5 ∨ d = 6 ∨ d = 7 ∨ d = 8 ∨ d = 9 := by omega
  rcases this with rfl | rfl | rfl | rfl | rfl | rfl | rfl | rfl | rfl | rfl <;> rfl

theorem digitsVal_natDigits : ∀ (f n : Nat), n < f → digitsVal (natDigits f n) = n
  | 0, n, h => by omega
  | f + 1, n, h => by
    simp only [natDigits]
    split
    · rename_i h1
      simp only [digitsVal, List.foldl_cons, List.foldl_nil]
      have := digit_val n h1
      omega
    · have ih := digitsVal_natDigits f (n / 10) (by omega)
      unfold digitsVal at ih ⊢
      rw [List.foldl_append, ih]
      simp only [List.foldl_cons, List.foldl_nil]
      have := digit_val (n % 10) (by omega)
      omega

theorem natStr_inj {m n : Nat} (h : natStr m = natStr n) : m = n := by
  have h1 := digitsVal_natDigits (m + 1) m (by omega)
  have h2 := digitsVal_natDigits (n + 1) n (by omega)
  unfold natStr at h
  rw [h] at h1
  omega

theorem markerStr_inj {m n : Nat} (h : markerStr m = markerStr n) : m = n := by
  unfold markerStr at h
  injection h with _ h
  exact natStr_inj h

/-! ### Occurrences -/

theorem mem_occs {SA : List Nat} {b : Block} {p : Nat} : p ∈ b.occs SA ↔ ∃ i : Nat, b.start ≤ i ∧ i ≤ b.stop ∧ SA[i]? = some p := by
  unfold Block.occs
  rw [List.mem_iff_getElem?]
  constructor
  · rintro ⟨i, hi⟩
    rw [List.getElem?_take] at hi
    split at hi
    · rw [List.getElem?_drop] at hi
      exact ⟨b.start + i, by omega, by omega, hi⟩
    · cases hi
  · rintro ⟨i, h1, h2, h3⟩
    refine ⟨i - b.start, ?_⟩
    rw [List.getElem?_take, if_pos (by omega), List.getElem?_drop, show b.start + (i - b.start) = i by omega]
    exact h3

theorem instancesFrom_ok (SA : List Nat) : ∀ (k i : Nat), i + k ≤ SA.length → instancesFrom SA i k = .ok ((SA.drop i).take k)
  | 0, i, _ => by simp [instancesFrom]
  | k + 1, i, h => by
    have hi : i < SA.length := by omega
    rw [instancesFrom, lgetE_eq_ok.mpr (List.getElem?_eq_getElem hi), bind_ok, instancesFrom_ok SA k (i + 1) (by omega),
      bind_ok, List.drop_eq_getElem_cons hi, List.take_succ_cons]

/-! ### The suffix array and its LCP values -/

/-- The numbered text as a function. -/
def numbered (strings : List Str) : Nat → Nat := rd (strings.map (tokId (sortedSet strings)))

theorem numbered_eq (strings : List Str) : numbered strings = rd ((strings.map (tokId (sortedSet strings))) ++ [0, 0, 0]) := by
  funext i
  rw [rd_string]
  unfold numbered rd
  rw [List.getD_eq_getElem?_getD, List.getElem?_map]
  cases strings[i]? <;> rfl

theorem numbered_eq_iff {strings : List Str} {i j : Nat} {x y : Str} (hx : strings[i]? = some x) (hy : strings[j]? = some y) :
    numbered strings i = numbered strings j ↔ x = y := by
  rw [numbered_eq, rd_string, rd_string, hx, hy]
  constructor
  · exact tokId_inj (List.mem_of_getElem? hx) (List.mem_of_getElem? hy)
  · rintro rfl; rfl

structure SAFacts (strings : List Str) (SA LCP : List Nat) : Prop where
  pad : Pad (numbered strings) strings.length
  perm : SA.Perm (List.range strings.length)
  sorted : SA.Pairwise (SLt (numbered strings))
  len : LCP.length = SA.length
  zero : rd LCP 0 = 0
  succ : ∀ i, i + 1 < SA.length → rd LCP (i + 1) = longestCommonPrefix (strings.map (tokId (sortedSet strings))) (rd SA i) (rd SA (i + 1))

theorem saFacts (strings : List Str) (h : 2 ≤ strings.length) :
    SAFacts strings (mkSuffixArray strings).SA (mkSuffixArray strings).LCP := by
  obtain ⟨h1, h2⟩ := mkSuffixArray_sorted strings h
  refine ⟨by rw [numbered_eq]; exact pad_string strings, h1, by rw [numbered_eq]; exact h2, lcpArray_length _ _, lcpArray_zero _ _, ?_⟩
  intro i hi
  exact lcpArray_succ _ _ i hi

namespace SAFacts
variable {strings : List Str} {SA LCP : List Nat}

theorem length (F : SAFacts strings SA LCP) : SA.length = strings.length := by rw [F.perm.length_eq]; simp

theorem lt (F : SAFacts strings SA LCP) {i : Nat} (hi : i < SA.length) : rd SA i < strings.length := by
  have : rd SA i ∈ SA := by
    have h : SA[i]? = some SA[i] := List.getElem?_eq_getElem hi
    rw [rd_eq h]; exact List.getElem_mem hi
  exact List.mem_range.mp (F.perm.mem_iff.mp this)

theorem rd_eq' {i : Nat} (hi : i < SA.length) : SA[i]? = some (rd SA i) := by
  have h : SA[i]? = some SA[i] := List.getElem?_eq_getElem hi
  rw [h, rd_eq h]

theorem slt (F : SAFacts strings SA LCP) {i j : Nat} (hij : i < j) (hj : j < SA.length) :
    SLt (numbered strings) (rd SA i) (rd SA j) := by
  have := List.pairwise_iff_getElem.mp F.sorted i j (by omega) hj hij
  have e1 := rd_eq' (SA := SA) (i := i) (by omega)
  have e2 := rd_eq' (SA := SA) (i := j) hj
  rw [List.getElem?_eq_getElem (by omega)] at e1
  rw [List.getElem?_eq_getElem hj] at e2
  rw [Option.some.inj e1, Option.some.inj e2] at this
  exact this

theorem ne (F : SAFacts strings SA LCP) {i j : Nat} (hij : i < j) (hj : j < SA.length) : rd SA i ≠ rd SA j := by
  intro he
  have := F.slt hij hj
  rw [he] at this
  exact slt_irrefl _ _ this

/-- A lower bound for the LCP values is a common prefix length. -/
theorem share_of_le (F : SAFacts strings SA LCP) (L : Nat) : ∀ (d a b : Nat), b = a + d → b < SA.length →
    (∀ i, a < i → i ≤ b → L ≤ rd LCP i) → Share (numbered strings) (rd SA a) (rd SA b) L := by
  intro d
  induction d with
  | zero =>
    intro a b hb _ _
    rw [hb]; exact fun _ _ => rfl
  | succ d ih =>
    intro a b hb hlt h
    have h1 := ih a (a + d) rfl (by omega) (fun i h1 h2 => h i h1 (by omega))
    refine h1.trans ?_
    have hb' : b = (a + d) + 1 := by omega
    have h2 := h b (by omega) (Nat.le_refl _)
    rw [hb', F.succ (a + d) (by omega)] at h2
    rw [hb']
    exact (longestCommonPrefix_spec _ _ _).1.mono h2

/-- A common prefix length is a lower bound for the LCP values. -/
theorem le_of_share (F : SAFacts strings SA LCP) {L a b : Nat} (hb : b < SA.length)
    (h : Share (numbered strings) (rd SA a) (rd SA b) L) (i : Nat) (h1 : a < i) (h2 : i ≤ b) : L ≤ rd LCP i := by
  have hs1 : Share (numbered strings) (rd SA a) (rd SA (i - 1)) L := by
    by_cases he : i - 1 = a
    · rw [he]; exact fun _ _ => rfl
    · exact h.between (F.slt (by omega) (by omega)) (F.slt (by omega) hb)
  have hs2 : Share (numbered strings) (rd SA a) (rd SA i) L := by
    by_cases he : i = b
    · rw [he]; exact h
    · exact h.between (F.slt (by omega) (by omega)) (F.slt (by omega) hb)
  have hs3 := hs1.symm.trans hs2
  have hin := hs3.inside F.pad (Nat.le_of_lt (F.lt (by omega))) (Nat.le_of_lt (F.lt (by omega))) (F.ne (by omega) (by omega))
  have e : i = (i - 1) + 1 := by omega
  rw [e, F.succ (i - 1) (by omega), ← e]
  exact (longestCommonPrefix_spec _ _ _).2.2.2 L hs3 (by simp; omega) (by simp; omega)

/-- The least LCP value between two entries is the length of their longest common prefix. -/
theorem isMin (F : SAFacts strings SA LCP) {a b L : Nat} (hab : a < b) (hb : b < SA.length)
    (h : Share (numbered strings) (rd SA a) (rd SA b) L) (hL : ¬ Share (numbered strings) (rd SA a) (rd SA b) (L + 1)) :
    IsMin (rd LCP) a b L := by
  refine ⟨F.le_of_share hb h, ?_⟩
  by_contra hc
  apply hL
  refine F.share_of_le (L + 1) (b - a) a b (by omega) hb ?_
  intro i h1 h2
  have h3 := F.le_of_share hb h i h1 h2
  by_contra h4
  exact hc ⟨i, h1, h2, by omega⟩

end SAFacts

/-- What is known about the blocks, in terms of the token strings. -/
structure BlockFacts (strings : List Str) (SA : List Nat) (bs : List Block) : Prop where
  bounds : ∀ b ∈ bs, 0 < b.length ∧ b.start < b.stop ∧ b.stop < SA.length
  inj : ∀ (i j p : Nat), SA[i]? = some p → SA[j]? = some p → i = j
  inside : ∀ b ∈ bs, ∀ p ∈ b.occs SA, p + b.length ≤ strings.length
  same : ∀ b ∈ bs, ∀ p ∈ b.occs SA, ∀ q ∈ b.occs SA, ∀ i < b.length, strings[p + i]? = strings[q + i]?
  complete : ∀ (p q L : Nat), p ≠ q → 0 < L → p + L ≤ strings.length → q + L ≤ strings.length →
    (∀ i < L, strings[p + i]? = strings[q + i]?) →
    (p + L < strings.length → q + L < strings.length → strings[p + L]? ≠ strings[q + L]?) →
    ∃ b ∈ bs, b.length = L ∧ p ∈ b.occs SA ∧ q ∈ b.occs SA

theorem share_iff {strings : List Str} {p q L : Nat} (hp : p + L ≤ strings.length) (hq : q + L ≤ strings.length) :
    Share (numbered strings) p q L ↔ ∀ i < L, strings[p + i]? = strings[q + i]? := by
  have key : ∀ i < L, (numbered strings (p + i) = numbered strings (q + i) ↔ strings[p + i]? = strings[q + i]?) := by
    intro i hi
    have h1 : strings[p + i]? = some (strings[p + i]'(by omega)) := List.getElem?_eq_getElem _
    have h2 : strings[q + i]? = some (strings[q + i]'(by omega)) := List.getElem?_eq_getElem _
    rw [numbered_eq_iff h1 h2, h1, h2]
    simp
  exact ⟨fun h i hi => (key i hi).mp (h i hi), fun h i hi => (key i hi).mpr (h i hi)⟩

theorem blockFacts (strings : List Str) (hne : strings ≠ []) : ∃ bs, splitLcp (mkSuffixArray strings).LCP = .ok bs ∧
    BlockFacts strings (mkSuffixArray strings).SA bs := by
  obtain ⟨bs, h1, h2, h3⟩ := splitLcp_ok (mkSuffixArray strings).LCP (lcpArray_zero _ _)
  refine ⟨bs, h1, ?_⟩
  by_cases hlen : strings.length = 1
  · obtain ⟨x, rfl⟩ := List.length_eq_one_iff.mp hlen
    obtain ⟨p, hp⟩ := mkSuffixArray_one x
    have hlcp : (mkSuffixArray [x]).LCP.length = 1 := by
      have : (mkSuffixArray [x]).LCP.length = (mkSuffixArray [x]).SA.length := lcpArray_length _ _
      rw [this, hp]; rfl
    have hno : bs = [] := by
      cases bs with
      | nil => rfl
      | cons b bs => have := h2 b (by simp); omega
    subst hno
    rw [hp]
    refine ⟨by simp, ?_, by simp, by simp, ?_⟩
    · intro i j q hi hj
      have := (List.getElem?_eq_some_iff.mp hi).1
      have := (List.getElem?_eq_some_iff.mp hj).1
      simp at *; omega
    · intro a b L hab hL ha hb
      simp only [List.length_singleton] at ha hb
      omega
  · have hlen2 : 2 ≤ strings.length := by
      have := List.length_pos_iff.mpr hne
      omega
    have F := saFacts strings hlen2
    set SA := (mkSuffixArray strings).SA
    set LCP := (mkSuffixArray strings).LCP
    have hshare : ∀ b ∈ bs, ∀ p ∈ b.occs SA, ∀ q ∈ b.occs SA, Share (numbered strings) p q b.length := by
      have key : ∀ b ∈ bs, ∀ i j : Nat, b.start ≤ i → i ≤ j → j ≤ b.stop → Share (numbered strings) (rd SA i) (rd SA j) b.length := by
        intro b hb i j h4 h5 h6
        have hb' := h2 b hb
        rw [F.len] at hb'
        exact F.share_of_le b.length (j - i) i j (by omega) (by omega) (fun k h7 h8 => hb'.2.2.2 k (by omega) (by omega))
      intro b hb p hp q hq
      obtain ⟨i, i1, i2, i3⟩ := mem_occs.mp hp
      obtain ⟨j, j1, j2, j3⟩ := mem_occs.mp hq
      rw [← rd_eq i3, ← rd_eq j3]
      rcases Nat.le_total i j with h | h
      · exact key b hb i j i1 h j2
      · exact (key b hb j i j1 h i2).symm
    have hinj : ∀ (i j p : Nat), SA[i]? = some p → SA[j]? = some p → i = j := by
      intro i j p hi hj
      have hi' := (List.getElem?_eq_some_iff.mp hi).1
      have hj' := (List.getElem?_eq_some_iff.mp hj).1
      rcases Nat.lt_trichotomy i j with h | h | h
      · exact absurd (by rw [rd_eq hi, rd_eq hj]) (F.ne h hj')
      · exact h
      · exact absurd (by rw [rd_eq hi, rd_eq hj]) (F.ne h hi')
    have hltp : ∀ p ∈ SA, p < strings.length := fun p hp => List.mem_range.mp (F.perm.mem_iff.mp hp)
    have hoccSA : ∀ b : Block, ∀ p ∈ b.occs SA, p ∈ SA := fun b p hp => by
      obtain ⟨i, _, _, i3⟩ := mem_occs.mp hp
      exact List.mem_of_getElem? i3
    have hinside : ∀ b ∈ bs, ∀ p ∈ b.occs SA, p + b.length ≤ strings.length := by
      intro b hb p hp
      have hb' := h2 b hb
      rw [F.len] at hb'
      obtain ⟨i, i1, i2, i3⟩ := mem_occs.mp hp
      obtain ⟨j, j1, j2, j3⟩ : ∃ j, b.start ≤ j ∧ j ≤ b.stop ∧ j ≠ i := by
        by_cases h : i = b.start
        · exact ⟨b.stop, by omega, by omega, by omega⟩
        · exact ⟨b.start, by omega, by omega, by omega⟩
      have hj := SAFacts.rd_eq' (SA := SA) (i := j) (by omega)
      have hq : rd SA j ∈ b.occs SA := mem_occs.mpr ⟨j, j1, j2, hj⟩
      refine ((hshare b hb p hp _ hq).inside F.pad (Nat.le_of_lt (hltp _ (hoccSA b p hp))) (Nat.le_of_lt (hltp _ (hoccSA b _ hq))) ?_).1
      rintro rfl
      exact j3 (hinj j i _ hj i3)
    refine ⟨?_, hinj, hinside, ?_, ?_⟩
    · intro b hb
      have := h2 b hb
      rw [F.len] at this
      exact ⟨this.1, this.2.1, this.2.2.1⟩
    · intro b hb p hp q hq
      exact (share_iff (hinside b hb p hp) (hinside b hb q hq)).mp (hshare b hb p hp q hq)
    · have key : ∀ a b L : Nat, a < b → b < SA.length → 0 < L → Share (numbered strings) (rd SA a) (rd SA b) L →
          ¬ Share (numbered strings) (rd SA a) (rd SA b) (L + 1) →
          ∃ c ∈ bs, c.length = L ∧ rd SA a ∈ c.occs SA ∧ rd SA b ∈ c.occs SA := by
        intro a b L hab hb hL hs hns
        obtain ⟨c, hc, c1, c2, c3⟩ := h3 a b L hab (by rw [F.len]; exact hb) (F.isMin hab hb hs hns) hL
        exact ⟨c, hc, c1, mem_occs.mpr ⟨a, c2, by omega, SAFacts.rd_eq' (by omega)⟩,
          mem_occs.mpr ⟨b, by omega, c3, SAFacts.rd_eq' hb⟩⟩
      intro p q L hpq hL hp hq hall hmax
      obtain ⟨a, ha⟩ := List.getElem?_of_mem (F.perm.mem_iff.mpr (List.mem_range.mpr (show p < strings.length by omega)))
      obtain ⟨b, hb⟩ := List.getElem?_of_mem (F.perm.mem_iff.mpr (List.mem_range.mpr (show q < strings.length by omega)))
      have ha' := (List.getElem?_eq_some_iff.mp ha).1
      have hb' := (List.getElem?_eq_some_iff.mp hb).1
      have hs : Share (numbered strings) p q L := (share_iff hp hq).mpr hall
      have hns : ¬ Share (numbered strings) p q (L + 1) := by
        intro hc
        have hin := hc.inside F.pad (by omega) (by omega) hpq
        exact hmax (by omega) (by omega) ((share_iff hin.1 hin.2).mp hc L (by omega))
      have hab : a ≠ b := by
        rintro rfl
        rw [ha] at hb
        exact hpq (Option.some.inj hb)
      have ea := rd_eq ha
      have eb := rd_eq hb
      rcases Nat.lt_or_gt_of_ne hab with h | h
      · have := key a b L h hb' hL (by rw [ea, eb]; exact hs) (by rw [ea, eb]; exact hns)
        rw [ea, eb] at this
        exact this
      · obtain ⟨c, hc, h5, h6, h7⟩ := key b a L h ha' hL (by rw [ea, eb]; exact hs.symm) (by rw [ea, eb]; exact fun h => hns h.symm)
        rw [ea] at h7
        rw [eb] at h6
        exact ⟨c, hc, h5, h7, h6⟩

end CollateX
