import Verif.Model.LinSuffArr
import Mathlib.Data.List.Perm.Basic
import Mathlib.Data.List.Basic
/-
The radix pass is a stable counting sort.
-/

namespace CollateX

/-- Stable distribution of `l` over the keys `0..K`. -/
def bucketSort (key : Nat → Nat) (K : Nat) (l : List Nat) : List Nat :=
  (List.range (K + 1)).flatMap (fun k => l.filter (fun x => key x = k))

/-- Elements with key below `k`, counted. -/
def below (key : Nat → Nat) (l : List Nat) (k : Nat) : Nat := l.countP (fun x => key x < k)

def cnt (key : Nat → Nat) (l : List Nat) (k : Nat) : Nat := l.countP (fun x => key x = k)

theorem below_succ (key : Nat → Nat) (l : List Nat) (k : Nat) : below key l (k + 1) = below key l k + cnt key l k := by
  unfold below cnt
  induction l with
  | nil => rfl
  | cons x l ih =>
    simp only [List.countP_cons, ih, decide_eq_true_eq]
    split <;> split <;> split <;> omega

theorem below_zero (key : Nat → Nat) (l : List Nat) : below key l 0 = 0 := by simp [below]

theorem below_mono (key : Nat → Nat) (l : List Nat) {k k' : Nat} (h : k ≤ k') : below key l k ≤ below key l k' := by
  induction h with
  | refl => exact Nat.le_refl _
  | step _ ih => exact Nat.le_trans ih (by rw [below_succ]; omega)

theorem below_le (key : Nat → Nat) (l : List Nat) (k : Nat) : below key l k ≤ l.length := List.countP_le_length

theorem below_all (key : Nat → Nat) (l : List Nat) (k : Nat) (h : ∀ x ∈ l, key x < k) : below key l k = l.length := by
  unfold below
  rw [List.countP_eq_length]
  simpa using h

theorem length_bucket_prefix (key : Nat → Nat) (l : List Nat) (k : Nat) :
    ((List.range k).flatMap (fun k => l.filter (fun x => key x = k))).length = below key l k := by
  induction k with
  | zero => simp [below_zero]
  | succ k ih =>
    rw [List.range_succ, List.flatMap_append, List.length_append, ih, below_succ]
    simp [cnt, List.countP_eq_length_filter]

theorem bucketSort_getElem? (key : Nat → Nat) (K : Nat) (l : List Nat) (k i : Nat) (hk : k ≤ K) (hi : i < cnt key l k) :
    (bucketSort key K l)[below key l k + i]? = (l.filter (fun x => key x = k))[i]? := by
  unfold bucketSort
  have : K + 1 = k + (1 + (K - k)) := by omega
  rw [this, List.range_add, List.flatMap_append]
  rw [List.getElem?_append_right (by rw [length_bucket_prefix]; omega), length_bucket_prefix, Nat.add_sub_cancel_left]
  rw [List.range_add, List.map_append, List.flatMap_append, List.getElem?_append_left]
  · simp
  · simpa [cnt, List.countP_eq_length_filter] using hi

theorem length_bucketSort (key : Nat → Nat) (K : Nat) (l : List Nat) (h : ∀ x ∈ l, key x ≤ K) :
    (bucketSort key K l).length = l.length := by
  unfold bucketSort
  rw [length_bucket_prefix, below_all _ _ _ (fun x hx => by have := h x hx; omega)]

/-- Every position is in some bucket. -/
theorem position_in_bucket (key : Nat → Nat) (l : List Nat) (q : Nat) : ∀ K, q < below key l (K + 1) →
    ∃ k i, k ≤ K ∧ i < cnt key l k ∧ q = below key l k + i
  | 0, h => ⟨0, q, Nat.le_refl _, by rw [below_succ, below_zero] at h; omega, by rw [below_zero]; omega⟩
  | K + 1, h => by
    by_cases hq : q < below key l (K + 1)
    · obtain ⟨k, i, h1, h2, h3⟩ := position_in_bucket key l q K hq
      exact ⟨k, i, by omega, h2, h3⟩
    · refine ⟨K + 1, q - below key l (K + 1), Nat.le_refl _, ?_, by omega⟩
      rw [below_succ] at h; omega

/-! ### The counters -/

theorem rd_set (c : List Nat) (i j v : Nat) : rd (c.set i v) j = if i = j ∧ i < c.length then v else rd c j := by
  unfold rd
  simp only [List.getD_eq_getElem?_getD]
  by_cases h : i = j
  · subst h
    by_cases h2 : i < c.length
    · rw [List.getElem?_set_self h2, if_pos ⟨rfl, h2⟩]; rfl
    · rw [if_neg (by simp [h2]), List.set_eq_of_length_le (by omega)]
  · rw [List.getElem?_set_ne h, if_neg (by simp [h])]

theorem rd_eq {a : List Nat} {i v : Nat} (h : a[i]? = some v) : rd a i = v := by
  simp [rd, List.getD_eq_getElem?_getD, h]

theorem rpCount_spec (r : List Nat) (xs : List Nat) : ∀ c : List Nat, (∀ x ∈ xs, rd r x < c.length) →
    (rpCount r xs c).length = c.length ∧ ∀ k < c.length, rd (rpCount r xs c) k = rd c k + cnt (rd r) xs k := by
  induction xs with
  | nil => intro c _; exact ⟨rfl, fun k _ => by simp [rpCount, cnt]⟩
  | cons x xs ih =>
    intro c h
    obtain ⟨h1, h2⟩ := ih (c.set (rd r x) (rd c (rd r x) + 1)) (by
      intro y hy; simp only [List.length_set]; exact h y (by simp [hy]))
    simp only [List.length_set] at h1 h2
    refine ⟨h1, ?_⟩
    intro k hk
    simp only [rpCount]
    rw [h2 k hk, rd_set]
    have hx := h x (by simp)
    unfold cnt
    rw [List.countP_cons]
    simp only [decide_eq_true_eq]
    by_cases he : rd r x = k
    · rw [if_pos ⟨he, hx⟩, if_pos he, he]; omega
    · rw [if_neg (by simp [he]), if_neg he]; omega

theorem prefixSums_spec (c : List Nat) : ∀ sum, (prefixSums sum c).length = c.length ∧
    ∀ k < c.length, rd (prefixSums sum c) k = sum + (c.take k).sum := by
  induction c with
  | nil => intro sum; simp [prefixSums]
  | cons t ts ih =>
    intro sum
    obtain ⟨h1, h2⟩ := ih (sum + t)
    refine ⟨by simp [prefixSums, h1], ?_⟩
    intro k hk
    cases k with
    | zero => simp [prefixSums, rd]
    | succ k =>
      have := h2 k (by simpa using hk)
      simp only [prefixSums, rd, List.getD_cons_succ, List.take_succ_cons, List.sum_cons]
      unfold rd at this
      rw [this]; omega

theorem sum_take_count (key : Nat → Nat) (l c : List Nat) (h : ∀ k < c.length, rd c k = cnt key l k) (k : Nat)
    (hk : k ≤ c.length) : (c.take k).sum = below key l k := by
  induction k with
  | zero => simp [below_zero]
  | succ k ih =>
    have hk' : k < c.length := by omega
    rw [List.take_succ_eq_append_getElem hk', List.sum_append, ih (by omega), below_succ, ← h k hk']
    simp [rd, List.getD_eq_getElem?_getD, hk']

/-! ### Writing -/

theorem rpWrite_spec (r : List Nat) (l b0 : List Nat) (K : Nat) (hK : ∀ x ∈ l, rd r x ≤ K) (hb : l.length ≤ b0.length)
    (rest : List Nat) : ∀ (done c b : List Nat), l = done ++ rest → c.length = K + 1 → b.length = b0.length →
    (∀ k ≤ K, rd c k = below (rd r) l k + cnt (rd r) done k) →
    (∀ k ≤ K, ∀ i < cnt (rd r) done k, b[below (rd r) l k + i]? = (done.filter (fun x => rd r x = k))[i]?) →
    (∀ q, l.length ≤ q → b[q]? = b0[q]?) →
    (rpWrite r rest c b).length = b0.length ∧
    (∀ k ≤ K, ∀ i < cnt (rd r) l k, (rpWrite r rest c b)[below (rd r) l k + i]? = (l.filter (fun x => rd r x = k))[i]?) ∧
    (∀ q, l.length ≤ q → (rpWrite r rest c b)[q]? = b0[q]?) := by
  induction rest with
  | nil =>
    intro done c b hl hc hbl h1 h2 h3
    rw [List.append_nil] at hl
    subst hl
    exact ⟨hbl, h2, h3⟩
  | cons x rest ih =>
    intro done c b hl hc hbl h1 h2 h3
    have hxl : x ∈ l := by rw [hl]; simp
    have hxK := hK x hxl
    have hcx := h1 (rd r x) hxK
    -- room for x
    have hroom : cnt (rd r) done (rd r x) + 1 ≤ cnt (rd r) l (rd r x) := by
      rw [hl]; unfold cnt
      rw [List.countP_append, List.countP_cons]
      simp only [decide_true, ↓reduceIte]; omega
    have hle : below (rd r) l (rd r x) + cnt (rd r) l (rd r x) ≤ l.length := by
      rw [← below_succ]; exact below_le _ _ _
    have hcnt : ∀ k, cnt (rd r) (done ++ [x]) k = cnt (rd r) done k + if rd r x = k then 1 else 0 := by
      intro k
      unfold cnt
      rw [List.countP_append, List.countP_cons]
      simp
    refine ih (done ++ [x]) _ _ (by rw [hl]; simp) (by simpa using hc) (by simpa using hbl) ?_ ?_ ?_
    · intro k hk
      rw [rd_set, hcnt k]
      by_cases he : rd r x = k
      · rw [if_pos ⟨he, by omega⟩, if_pos he, hcx, he]; omega
      · rw [if_neg (by simp [he]), if_neg he, h1 k hk]; rfl
    · intro k hk i hi
      rw [hcnt k] at hi
      rw [List.filter_append, hcx]
      by_cases he : rd r x = k
      · rw [if_pos he] at hi
        subst he
        by_cases hi2 : i < cnt (rd r) done (rd r x)
        · rw [List.getElem?_set_ne (by omega), h2 _ hk i hi2]
          rw [List.getElem?_append_left (by rw [← List.countP_eq_length_filter]; exact hi2)]
        · have : i = cnt (rd r) done (rd r x) := by omega
          subst this
          rw [List.getElem?_set_self (by omega)]
          rw [List.getElem?_append_right (by rw [← List.countP_eq_length_filter]; exact Nat.le_refl _)]
          rw [← List.countP_eq_length_filter]
          simp [cnt]
      · rw [if_neg he] at hi
        have hik : i < cnt (rd r) l k := by
          have : cnt (rd r) done k ≤ cnt (rd r) l k := by
            rw [hl]; unfold cnt; rw [List.countP_append]; omega
          omega
        have hne : below (rd r) l (rd r x) + cnt (rd r) done (rd r x) ≠ below (rd r) l k + i := by
          rcases Nat.lt_or_gt_of_ne he with h | h
          · have := below_mono (rd r) l (show rd r x + 1 ≤ k by omega)
            rw [below_succ] at this
            omega
          · have := below_mono (rd r) l (show k + 1 ≤ rd r x by omega)
            rw [below_succ] at this
            omega
        rw [List.getElem?_set_ne hne, h2 k hk i (by omega)]
        have : [x].filter (fun y => decide (rd r y = k)) = [] := by simp [he]
        rw [this, List.append_nil]
    · intro q hq
      rw [List.getElem?_set_ne (by omega)]
      exact h3 q hq

theorem radixPass_eq (a b r : List Nat) (n K : Nat) (hn : n ≤ a.length) (hb : n ≤ b.length)
    (hK : ∀ x ∈ a.take n, rd r x ≤ K) :
    radixPass a b r n K = bucketSort (rd r) K (a.take n) ++ b.drop n := by
  have hlen : (a.take n).length = n := by simp; omega
  obtain ⟨c1, c2⟩ := rpCount_spec r (a.take n) (List.replicate (K + 1) 0) (by
    intro x hx; have := hK x hx; simp; omega)
  simp only [List.length_replicate] at c1 c2
  have c3 : ∀ k < K + 1, rd (rpCount r (a.take n) (List.replicate (K + 1) 0)) k = cnt (rd r) (a.take n) k := by
    intro k hk
    rw [c2 k hk]
    simp [rd, List.getD_eq_getElem?_getD, hk]
  obtain ⟨p1, p2⟩ := prefixSums_spec (rpCount r (a.take n) (List.replicate (K + 1) 0)) 0
  obtain ⟨w1, w2, w3⟩ := rpWrite_spec r (a.take n) b K hK (by rw [hlen]; exact hb) (a.take n) []
    (prefixSums 0 (rpCount r (a.take n) (List.replicate (K + 1) 0))) b (by simp) (by rw [p1, c1]) rfl
    (by
      intro k hk
      rw [p2 k (by omega), sum_take_count (rd r) (a.take n) _ (by rw [c1]; exact c3) k (by omega)]
      simp [cnt])
    (by intro k _ i hi; simp [cnt] at hi)
    (fun _ _ => rfl)
  have hlb : (bucketSort (rd r) K (a.take n)).length = n := by rw [length_bucketSort _ _ _ hK, hlen]
  apply List.ext_getElem?
  intro q
  unfold radixPass
  by_cases hq : q < n
  · rw [List.getElem?_append_left (by omega)]
    obtain ⟨k, i, h1, h2, rfl⟩ := position_in_bucket (rd r) (a.take n) q K (by
      rw [below_all _ _ _ (fun x hx => by have := hK x hx; omega), hlen]; exact hq)
    rw [w2 k h1 i h2, bucketSort_getElem? _ _ _ _ _ h1 h2]
  · rw [List.getElem?_append_right (by omega), hlb, List.getElem?_drop, w3 q (by omega)]
    congr 1; omega

/-! ### What the sort gives -/

theorem count_flatMap_filter (key : Nat → Nat) (l : List Nat) (y : Nat) : ∀ K : Nat,
    ((List.range K).flatMap (fun k => l.filter (fun x => key x = k))).count y = if key y < K then l.count y else 0
  | 0 => by simp
  | K + 1 => by
    rw [List.range_succ, List.flatMap_append, List.count_append, count_flatMap_filter key l y K]
    simp only [List.flatMap_cons, List.flatMap_nil, List.append_nil]
    by_cases h1 : key y = K
    · rw [List.count_filter (by simpa using h1), if_neg (by omega), if_pos (by omega)]; omega
    · have : (l.filter (fun x => decide (key x = K))).count y = 0 := by
        rw [List.count_eq_zero]; simp [h1]
      rw [this]
      by_cases h2 : key y < K
      · rw [if_pos h2, if_pos (by omega)]; rfl
      · rw [if_neg h2, if_neg (by omega)]

theorem bucketSort_perm (key : Nat → Nat) (K : Nat) (l : List Nat) (h : ∀ x ∈ l, key x ≤ K) :
    (bucketSort key K l).Perm l := by
  rw [List.perm_iff_count]
  intro y
  unfold bucketSort
  rw [count_flatMap_filter]
  split
  · rfl
  · rename_i hy
    rw [eq_comm, List.count_eq_zero]
    intro hm
    have := h y hm
    omega

theorem bucketSort_pairwise (key : Nat → Nat) (K : Nat) (l : List Nat) {R : Nat → Nat → Prop} (h : l.Pairwise R) :
    (bucketSort key K l).Pairwise (fun x y => key x < key y ∨ (key x = key y ∧ R x y)) := by
  unfold bucketSort
  rw [List.pairwise_flatMap]
  constructor
  · intro k _
    refine (h.filter _).imp_of_mem ?_
    intro a b ha hb hab
    simp only [List.mem_filter, decide_eq_true_eq] at ha hb
    exact Or.inr ⟨by rw [ha.2, hb.2], hab⟩
  · refine List.pairwise_lt_range.imp ?_
    intro k k' hkk x hx y hy
    simp only [List.mem_filter, decide_eq_true_eq] at hx hy
    left; omega

theorem bucketSort_filter (key : Nat → Nat) (K : Nat) (l : List Nat) (k : Nat) (hk : k ≤ K) :
    (bucketSort key K l).filter (fun x => key x = k) = l.filter (fun x => key x = k) := by
  unfold bucketSort
  have : ∀ m, ((List.range m).flatMap (fun k => l.filter (fun x => key x = k))).filter (fun x => key x = k) =
      if k < m then l.filter (fun x => key x = k) else [] := by
    intro m
    induction m with
    | zero => simp
    | succ m ih =>
      rw [List.range_succ, List.flatMap_append, List.filter_append, ih]
      simp only [List.flatMap_cons, List.flatMap_nil, List.append_nil, List.filter_filter]
      by_cases h1 : k = m
      · subst h1
        rw [if_neg (by omega), if_pos (by omega)]
        simp
      · have : l.filter (fun a => decide (key a = k) && decide (key a = m)) = [] := by
          rw [List.filter_eq_nil_iff]; intro a _; simp; omega
        rw [this, List.append_nil]
        by_cases h2 : k < m
        · rw [if_pos h2, if_pos (by omega)]
        · rw [if_neg h2, if_neg (by omega)]
  rw [this, if_pos (by omega)]

end CollateX
