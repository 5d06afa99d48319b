import Verif.Proofs.WorkStep
/-
Texts collated one after the other, cut at a node that stands in every text.
-/

namespace CollateX
open Spec

/-- What the texts have before a node. -/
def leftTexts (n0 : Nat) (ts : List (List Str)) (rows : List (List Nat)) : List (List Str) :=
  List.zipWith (fun t r => t.take (leftOf n0 r).length) ts rows

/-- What the texts have after a node. -/
def rightTexts (n0 : Nat) (ts : List (List Str)) (rows : List (List Nat)) : List (List Str) :=
  List.zipWith (fun t r => t.drop ((leftOf n0 r).length + 1)) ts rows

theorem workOf_rows_length (ts : List (List Str)) : (workOf ts).rows.length = ts.length := by
  have := congrArg List.length (workOf_reads ts)
  simpa using this

theorem leftOf_range {n N : Nat} (h : n < N) : leftOf n (List.range N) = List.range n ∧
    rightOf n (List.range N) = (List.range (N - (n + 1))).map (fun k => n + 1 + k) := by
  have hs : List.range N = List.range n ++ n :: (List.range (N - (n + 1))).map (fun k => n + 1 + k) := by
    conv => lhs; rw [show N = (n + 1) + (N - (n + 1)) by omega, List.range_add, List.range_succ, List.append_assoc]
    rfl
  rw [hs]
  exact ⟨leftOf_append (by simp), rightOf_append (by simp)⟩

/-- Both sides. -/
structure CutAt (n0 : Nat) (ts : List (List Str)) (fL fR : Nat → Nat) : Prop where
  left : PartOf (leftOf n0) (workOf ts) (workOf (leftTexts n0 ts (workOf ts).rows)) fL
  right : PartOf (rightOf n0) (workOf ts) (workOf (rightTexts n0 ts (workOf ts).rows)) fR
  coverL : ∀ n < (workOf (leftTexts n0 ts (workOf ts).rows)).words.length, (workOf (leftTexts n0 ts (workOf ts).rows)).Used n
  coverR : ∀ n < (workOf (rightTexts n0 ts (workOf ts).rows)).words.length, (workOf (rightTexts n0 ts (workOf ts).rows)).Used n

theorem cut_single {n0 : Nat} {A : List Str} (h : n0 < A.length) : CutAt n0 [A] (fun n => n) (fun n => n0 + 1 + n) := by
  obtain ⟨h1, h2⟩ := leftOf_range h
  have eL : leftTexts n0 [A] (workOf [A]).rows = [A.take n0] := by
    rw [workOf_single]
    simp [leftTexts, h1]
  have eR : rightTexts n0 [A] (workOf [A]).rows = [A.drop (n0 + 1)] := by
    rw [workOf_single]
    simp [rightTexts, h1]
  have used : ∀ (C : List Str) (n : Nat), (workOf [C]).Used n ↔ n < C.length := by
    intro C n
    rw [workOf_single]
    unfold Work.Used
    simp
  have len : ∀ C : List Str, (workOf [C]).words.length = C.length := by
    intro C
    rw [workOf_single]
  constructor
  · rw [eL]
    refine ⟨?_, ?_, ?_, ?_⟩
    · rw [workOf_single, workOf_single]
      simp only [List.map_singleton, List.map_id', h1, List.length_take, Nat.min_eq_left (Nat.le_of_lt h)]
    · intro n hn
      rw [len]
      exact (used _ n).mp hn
    · intro n hn
      have := (used _ n).mp hn
      rw [List.length_take] at this
      rw [workOf_single, workOf_single]
      exact List.getElem?_take_of_lt (by omega)
    · intro a b _ _ he
      exact he
  · rw [eR]
    refine ⟨?_, ?_, ?_, ?_⟩
    · rw [workOf_single, workOf_single]
      simp only [List.map_singleton, h2, List.length_drop]
    · intro n hn
      rw [len]
      exact (used _ n).mp hn
    · intro n hn
      rw [workOf_single, workOf_single]
      exact List.getElem?_drop
    · intro a b _ _ he
      omega
  · rw [eL]
    intro n hn
    rw [used]
    rwa [len] at hn
  · rw [eR]
    intro n hn
    rw [used]
    rwa [len] at hn

/-- A further text. -/
theorem cut_step {n0 : Nat} {ts : List (List Str)} {B : List Str} {fL fR : Nat → Nat} (hne : ts ≠ []) (C : CutAt n0 ts fL fR) (S : Sound (workOf ts))
    (hW : ∀ n < (workOf ts).words.length, (workOf ts).Used n) (hu : (workOf ts).Untwinned) (hB : NoDoubles B)
    (h0 : ∀ r ∈ (workOf (ts ++ [B])).rows, n0 ∈ r) : ∃ fL' fR', CutAt n0 (ts ++ [B]) fL' fR' := by
  obtain ⟨PL, PR, hVL, hVR⟩ := C
  have hlenR := workOf_rows_length ts
  rw [workOf_snoc] at h0
  have h0W : ∀ r ∈ (workOf ts).rows, n0 ∈ r := fun r hr => h0 r (List.mem_append_left _ hr)
  have hrow := h0 _ (List.mem_append_right _ (List.mem_singleton.mpr rfl))
  have hn0 : (workOf ts).Used n0 := by
    obtain ⟨r, hr⟩ := List.exists_mem_of_ne_nil (workOf ts).rows (fun h => hne (List.length_eq_zero_iff.mp (by rw [← hlenR, h]; rfl)))
    exact ⟨r, hr, h0W r hr⟩
  have hlt := S.bound n0 hn0
  have hsome : some n0 ∈ (workOf ts).nodesFor B ((workOf ts).firstFit B) := by
    rcases mem_numbered.mp hrow with h | h
    · exact h
    · omega
  obtain ⟨j0, hj0⟩ := List.getElem?_of_mem hsome
  obtain ⟨i0, b, hb, hlink, hpick, hfit⟩ := nodesFor_fits hj0
  have hi0 := (mem_fits.mp hfit).2.1
  have hcut := nodesFor_cut S h0W hW hVL hVR PL PR hn0 hu hB hi0 hlink hpick
  have hjlt : j0 < B.length := (List.getElem?_eq_some_iff.mp hb).1
  have hBs : B = B.take j0 ++ b :: B.drop (j0 + 1) := by
    rw [← (List.getElem?_eq_some_iff.mp hb).2, List.getElem_cons_drop, List.take_append_drop]
  -- the new row
  set W := workOf ts with hWdef
  set VL := workOf (leftTexts n0 ts W.rows) with hVLdef
  set VR := workOf (rightTexts n0 ts W.rows) with hVRdef
  set lL := VL.nodesFor (B.take j0) (VL.firstFit (B.take j0)) with hlL
  set lR := VR.nodesFor (B.drop (j0 + 1)) (VR.firstFit (B.drop (j0 + 1))) with hlR
  have hlenL : lL.length = (B.take j0).length := nodesFor_length
  have hlenR' : lR.length = (B.drop (j0 + 1)).length := nodesFor_length
  have hnewL : newOf (lL.map (Option.map fL)) (B.take j0) = newOf lL (B.take j0) := newOf_map fL
  have hmemL : ∀ n, some n ∈ lL → n < VL.words.length := by
    intro n hn
    obtain ⟨j, hj⟩ := List.getElem?_of_mem hn
    obtain ⟨x, c, _, _, _, h⟩ := nodesFor_fits hj
    exact (mem_fits.mp h).1
  have hmemR : ∀ n, some n ∈ lR → n < VR.words.length := by
    intro n hn
    obtain ⟨j, hj⟩ := List.getElem?_of_mem hn
    obtain ⟨x, c, _, _, _, h⟩ := nodesFor_fits hj
    exact (mem_fits.mp h).1
  have hcount : (lL.map (Option.map fL)).count none = (newOf lL (B.take j0)).length := by
    rw [← hnewL, newOf_length (by rw [List.length_map]; exact hlenL)]
  have hrowEq : Work.numbered W.words.length (W.nodesFor B (W.firstFit B)) =
      Work.numbered W.words.length (lL.map (Option.map fL)) ++
        n0 :: Work.numbered (W.words.length + (newOf lL (B.take j0)).length) (lR.map (Option.map fR)) := by
    rw [hcut, numbered_append, Work.numbered, hcount]
  have hnotin : n0 ∉ Work.numbered W.words.length (lL.map (Option.map fL)) := by
    intro h
    rcases mem_numbered.mp h with h | h
    · obtain ⟨o, ho, he⟩ := List.mem_map.mp h
      obtain ⟨k, rfl, hk⟩ := Option.map_eq_some_iff.mp he
      have := (PL.left_used S h0W (hVL k (hmemL k ho))).2
      rw [hk] at this
      omega
    · omega
  have hwords : newOf (W.nodesFor B (W.firstFit B)) B = newOf lL (B.take j0) ++ newOf lR (B.drop (j0 + 1)) := by
    rw [hcut]
    conv => lhs; rw [hBs]
    rw [newOf_append (by rw [List.length_map]; exact hlenL), hnewL]
    congr 1
    have : ∀ (l : List (Option Nat)) (C : List Str), newOf (some n0 :: l) (b :: C) = newOf l C := fun l C => by simp [newOf]
    rw [this, newOf_map]
  have hWadd : W.add B (W.firstFit B) = ⟨W.words ++ newOf (W.nodesFor B (W.firstFit B)) B,
      W.rows ++ [Work.numbered W.words.length (W.nodesFor B (W.firstFit B))]⟩ := rfl
  have hleftRow : leftOf n0 (Work.numbered W.words.length (W.nodesFor B (W.firstFit B))) = Work.numbered W.words.length (lL.map (Option.map fL)) := by
    rw [hrowEq]
    exact leftOf_append hnotin
  have hrightRow : rightOf n0 (Work.numbered W.words.length (W.nodesFor B (W.firstFit B))) =
      Work.numbered (W.words.length + (newOf lL (B.take j0)).length) (lR.map (Option.map fR)) := by
    rw [hrowEq]
    exact rightOf_append hnotin
  have hleftLen : (leftOf n0 (Work.numbered W.words.length (W.nodesFor B (W.firstFit B)))).length = j0 := by
    rw [hleftRow, numbered_length, List.length_map, hlenL, List.length_take]
    omega
  have eL : workOf (leftTexts n0 (ts ++ [B]) (W.add B (W.firstFit B)).rows) =
      ⟨VL.words ++ newOf lL (B.take j0), VL.rows ++ [Work.numbered VL.words.length lL]⟩ := by
    have : leftTexts n0 (ts ++ [B]) (W.add B (W.firstFit B)).rows = leftTexts n0 ts W.rows ++ [B.take j0] := by
      rw [hWadd]
      unfold leftTexts
      rw [List.zipWith_append hlenR.symm]
      simp only [List.zipWith_cons_cons, List.zipWith_nil_left, hleftLen]
    rw [this, workOf_snoc]
    rfl
  have eR : workOf (rightTexts n0 (ts ++ [B]) (W.add B (W.firstFit B)).rows) =
      ⟨VR.words ++ newOf lR (B.drop (j0 + 1)), VR.rows ++ [Work.numbered VR.words.length lR]⟩ := by
    have : rightTexts n0 (ts ++ [B]) (W.add B (W.firstFit B)).rows = rightTexts n0 ts W.rows ++ [B.drop (j0 + 1)] := by
      rw [hWadd]
      unfold rightTexts
      rw [List.zipWith_append hlenR.symm]
      simp only [List.zipWith_cons_cons, List.zipWith_nil_left, hleftLen]
    rw [this, workOf_snoc]
    rfl
  have XL := PL.extend (fun n hn => S.bound _ (PL.left_used S h0W hn).1) hVL hlenL hmemL [] (newOf lR (B.drop (j0 + 1)))
    (row := Work.numbered W.words.length (W.nodesFor B (W.firstFit B))) (by rw [hleftRow]; rfl)
  have XR := PR.extend (fun n hn => S.bound _ (PR.right_used S h0W hn).1) hVR hlenR' hmemR (newOf lL (B.take j0)) []
    (row := Work.numbered W.words.length (W.nodesFor B (W.firstFit B))) hrightRow
  refine ⟨stretched fL VL.words.length (W.words.length + ([] : List Str).length),
    stretched fR VR.words.length (W.words.length + (newOf lL (B.take j0)).length), ?_, ?_, ?_, ?_⟩
  · rw [workOf_snoc, eL, hWadd, hwords]
    exact XL.1
  · rw [workOf_snoc, eR, hWadd, hwords]
    have := XR.1
    rwa [List.append_nil] at this
  · rw [workOf_snoc, eL]
    exact XL.2
  · rw [workOf_snoc, eR]
    exact XR.2

/-- Texts collated one after the other, cut at a node that stands in each of them. -/
theorem workOf_cut {n0 : Nat} (ts : List (List Str)) (hne : ts ≠ []) (S : ∀ k < ts.length, Sound (workOf (ts.take (k + 1))))
    (hW : ∀ k < ts.length, ∀ n < (workOf (ts.take (k + 1))).words.length, (workOf (ts.take (k + 1))).Used n)
    (hu : ∀ n < ts.length, (workOf (ts.take n)).Untwinned) (hB : ∀ B ∈ ts.tail, NoDoubles B)
    (h0 : ∀ r ∈ (workOf ts).rows, n0 ∈ r) : ∃ fL fR, CutAt n0 ts fL fR := by
  induction ts using List.reverseRecOn with
  | nil => exact absurd rfl hne
  | append_singleton ts B ih =>
    cases ts with
    | nil =>
      refine ⟨_, _, cut_single ?_⟩
      have : (workOf [B]).Used n0 := ⟨List.range B.length, by rw [workOf_single]; simp, h0 _ (by
        show List.range B.length ∈ (workOf [B]).rows
        rw [workOf_single]
        simp)⟩
      rw [workOf_single] at this
      obtain ⟨r, hr, hn⟩ := this
      rw [List.mem_singleton] at hr
      rw [hr] at hn
      exact List.mem_range.mp hn
    | cons A ts =>
      have htake : ∀ k, k ≤ (A :: ts).length → ((A :: ts) ++ [B]).take k = (A :: ts).take k := fun k hk => List.take_append_of_le_length hk
      obtain ⟨fL, fR, C⟩ := ih (by simp)
        (fun k hk => by have := S k (by rw [List.length_append]; omega); rwa [htake _ (by omega)] at this)
        (fun k hk => by have := hW k (by rw [List.length_append]; omega); rwa [htake _ (by omega)] at this)
        (fun k hk => by have := hu k (by rw [List.length_append]; omega); rwa [htake _ (by omega)] at this)
        (fun C hC => hB C (by simp only [List.cons_append, List.tail_cons] at hC ⊢; exact List.mem_append_left _ hC))
        (fun r hr => h0 r (by rw [workOf_snoc]; exact List.mem_append_left _ hr))
      have hS := S ts.length (by simp; omega)
      have hWc := hW ts.length (by simp; omega)
      have hU := hu (ts.length + 1) (by simp)
      have ht : ((A :: ts) ++ [B]).take (ts.length + 1) = A :: ts := by
        rw [htake _ (by simp)]
        exact List.take_length (l := A :: ts)
      rw [ht] at hS hWc hU
      exact cut_step (by simp) C hS hWc hU (hB B (by simp)) h0

end CollateX
