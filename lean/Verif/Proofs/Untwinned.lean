import Verif.Props.Progressive
/-
When no two nodes of a column have the same word.
-/

namespace CollateX
open Spec

theorem numbered_replicate (k n : Nat) : Work.numbered k (List.replicate n none) = List.range' k n := by
  induction n generalizing k with
  | zero => rfl
  | succ n ih =>
    rw [List.replicate_succ, Work.numbered, ih, List.range'_succ]

/-- A single text: its words, one after the other. -/
theorem workOf_single (A : List Str) : workOf [A] = ⟨A, [List.range A.length]⟩ := by
  have h1 : ∀ pick, (⟨[], []⟩ : Work).nodesFor A pick = List.replicate A.length none := by
    intro pick
    unfold Work.nodesFor
    have hl : (⟨[], []⟩ : Work).links A pick = [] := by
      unfold Work.links
      have : ∀ p ∈ firstOf pick (aligned ((⟨[], []⟩ : Work).same A) (⟨[], []⟩ : Work).width A.length).2, False := by
        intro p hp
        have := aligned_same _ _ _ p (mem_of_firstOf hp)
        unfold Work.same at this
        cases hA : A[p.2]? with
        | none => rw [hA] at this; cases this
        | some b => rw [hA] at this; simp [Work.fits] at this
      exact List.eq_nil_iff_forall_not_mem.mpr (fun p hp => this p hp)
    rw [hl]
    apply List.ext_getElem?
    intro j
    rw [List.getElem?_map, List.getElem?_replicate]
    by_cases hj : j < A.length
    · rw [List.getElem?_range hj, if_pos hj]
      rfl
    · rw [List.getElem?_eq_none (by simpa using hj), if_neg hj]
      rfl
  show (⟨[], []⟩ : Work).add A _ = _
  unfold Work.add
  simp only [h1, List.nil_append, List.length_nil, numbered_replicate]
  congr 1
  · apply List.ext_getElem?
    intro j
    have : ((List.replicate A.length (none : Option Nat)).zip A).filterMap (fun p => if p.1 = none then some p.2 else none) =
        ((List.replicate A.length (none : Option Nat)).zip A).map Prod.snd := by
      rw [← List.filterMap_eq_map]
      apply List.filterMap_congr
      intro p hp
      have := (List.of_mem_zip hp).1
      rw [List.eq_of_mem_replicate this]
      rfl
    rw [this, List.map_snd_zip (by simp)]
  · rw [List.range_eq_range']

theorem mem_before_range {ws : List Str} {N k n : Nat} (hn : n < N) : k ∈ (⟨ws, [List.range N]⟩ : Work).before n ↔ k + 1 = n := by
  unfold Work.before
  simp only [List.flatMap_cons, List.flatMap_nil, List.append_nil, List.mem_map, List.mem_filter, decide_eq_true_eq, Prod.exists, exists_and_right,
    exists_eq_right]
  constructor
  · intro h1
    obtain ⟨i, hi⟩ := List.getElem?_of_mem h1
    obtain ⟨h2, h3⟩ := List.getElem?_zip_eq_some.mp hi
    rw [List.getElem?_tail] at h3
    have a1 := (List.getElem?_eq_some_iff.mp h2).2
    have a2 := (List.getElem?_eq_some_iff.mp h3).2
    rw [List.getElem_range] at a1 a2
    omega
  · rintro rfl
    refine List.mem_of_getElem? (i := k) (List.getElem?_zip_eq_some.mpr ⟨List.getElem?_range (by omega), ?_⟩)
    rw [List.getElem?_tail]
    exact List.getElem?_range hn

theorem column_single {A : List Str} {n : Nat} (hn : n < A.length) : (workOf [A]).column n = n + 1 := by
  rw [workOf_single]
  have key : ∀ k n : Nat, n < A.length → n < k → (⟨A, [List.range A.length]⟩ : Work).columnIn k n = n + 1 := by
    intro k
    induction k with
    | zero => intro n _ h; omega
    | succ k ih =>
      intro n hn hk
      rw [Work.columnIn]
      congr 1
      have hb : ∀ c, c ∈ (⟨A, [List.range A.length]⟩ : Work).before n → c + 1 = n := fun c hc => (mem_before_range hn).mp hc
      have : ∀ l : List Nat, (∀ c ∈ l, c = n) → (n ≠ 0 → l ≠ []) → Work.largest l = n := by
        intro l
        induction l with
        | nil =>
          intro _ h
          by_cases h0 : n = 0
          · rw [h0]; rfl
          · exact absurd rfl (h h0)
        | cons c l ihl =>
          intro h1 _
          show max c (Work.largest l) = n
          have hc := h1 c (by simp)
          cases l with
          | nil => rw [hc]; show max n 0 = n; omega
          | cons d l => rw [ihl (fun x hx => h1 x (by simp [hx])) (fun _ => by simp), hc]; omega
      apply this
      · intro c hc
        obtain ⟨c', hc', rfl⟩ := List.mem_map.mp hc
        have h1 := hb c' hc'
        rw [ih c' (by omega) (by omega)]
        exact h1
      · intro h0 he
        have h2 : n - 1 ∈ (⟨A, [List.range A.length]⟩ : Work).before n := (mem_before_range hn).mpr (by omega)
        rw [List.map_eq_nil_iff.mp he] at h2
        cases h2
  exact key A.length n hn hn

theorem untwinned_nil : (workOf []).Untwinned := by decide

theorem untwinned_single (A : List Str) : (workOf [A]).Untwinned := by
  unfold Work.Untwinned
  have hw : (workOf [A]).words.length = A.length := by rw [workOf_single]
  rw [hw]
  refine List.Nodup.map_on ?_ List.nodup_range
  intro x hx y hy h
  rw [column_single (List.mem_range.mp hx), column_single (List.mem_range.mp hy)] at h
  have := congrArg Prod.fst h
  simp only at this
  omega

/-- For two texts there is never a choice. -/
theorem untwinned_two {ts : List (List Str)} (h : ts.length ≤ 2) : ∀ n < ts.length, (workOf (ts.take n)).Untwinned := by
  intro n hn
  match ts, n, h, hn with
  | A :: _, 0, _, _ => exact untwinned_nil
  | [A, B], 1, _, _ => exact untwinned_single A
  | [A], n + 1, _, hn => simp at hn
  | [A, B], n + 2, _, hn => simp at hn

end CollateX
