import Verif.Proofs.Ranking
import Verif.Model.Kahn
/-
Kahn's algorithm is a topological sort; a finite graph without cycles can be layered.
-/

namespace CollateX
open Spec

theorem exists_min_image (h : VId → Nat) (l : List VId) (hl : l ≠ []) : ∃ v ∈ l, ∀ w ∈ l, h v ≤ h w := by
  induction l with
  | nil => exact absurd rfl hl
  | cons a l ih =>
    by_cases hl2 : l = []
    · subst hl2; exact ⟨a, by simp, by simp⟩
    · obtain ⟨v, hv, hm⟩ := ih hl2
      by_cases hav : h a ≤ h v
      · refine ⟨a, by simp, ?_⟩
        intro w hw
        rcases List.mem_cons.mp hw with rfl | hw
        · exact Nat.le_refl _
        · exact Nat.le_trans hav (hm w hw)
      · refine ⟨v, by simp [hv], ?_⟩
        intro w hw
        rcases List.mem_cons.mp hw with rfl | hw
        · omega
        · exact hm w hw

theorem kahnF_ok (f : Nat) : ∀ (nodes : List VId) (es : List (VId × VId)), nodes.length ≤ f → nodes.Nodup →
    (∀ p ∈ es, p.1 ∈ nodes ∧ p.2 ∈ nodes) → Layered es → ∃ o, kahnF f nodes es = some o ∧ IsTopo nodes es o := by
  induction f with
  | zero =>
    intro nodes es hl _ he _
    have : nodes = [] := List.length_eq_zero_iff.mp (by omega)
    subst this
    refine ⟨[], by simp [kahnF], List.Perm.refl _, ?_⟩
    intro p hp
    exact absurd (he p hp).1 (by simp)
  | succ f ih =>
    intro nodes es hl nd he lay
    cases nodes with
    | nil =>
      refine ⟨[], by simp [kahnF], List.Perm.refl _, ?_⟩
      intro p hp
      exact absurd (he p hp).1 (by simp)
    | cons n ns =>
      obtain ⟨h, hh⟩ := lay
      obtain ⟨v0, hv0, hmin⟩ := exists_min_image h (n :: ns) (by simp)
      have hsome : ((n :: ns).find? (fun v => es.all (fun e => e.2 ≠ v))).isSome := by
        rw [List.find?_isSome]
        refine ⟨v0, hv0, ?_⟩
        rw [List.all_eq_true]
        intro e hee
        simp only [ne_eq, decide_not, Bool.not_eq_true', decide_eq_false_iff_not]
        rintro rfl
        have := hh e hee
        have := hmin _ (he e hee).1
        omega
      obtain ⟨v, hv⟩ := Option.isSome_iff_exists.mp hsome
      have hvmem := List.mem_of_find?_eq_some hv
      have hvp := List.find?_some hv
      rw [List.all_eq_true] at hvp
      have hno : ∀ e ∈ es, e.2 ≠ v := by
        intro e hee
        simpa using hvp e hee
      obtain ⟨o, ho, ht⟩ := ih ((n :: ns).erase v) (es.filter (fun e => e.1 ≠ v))
        (by have := List.length_erase_of_mem hvmem; simp only [List.length_cons] at *; omega)
        (nd.erase v)
        (by
          intro p hp
          simp only [List.mem_filter, ne_eq, decide_not, Bool.not_eq_true', decide_eq_false_iff_not] at hp
          rw [nd.mem_erase_iff, nd.mem_erase_iff]
          exact ⟨⟨hp.2, (he p hp.1).1⟩, ⟨hno p hp.1, (he p hp.1).2⟩⟩)
        ⟨h, fun p hp => hh p (List.mem_filter.mp hp).1⟩
      refine ⟨v :: o, ?_, ?_, ?_⟩
      · simp only [kahnF, hv, ho, Option.map_some]
      · exact (ht.perm.cons v).trans (List.perm_cons_erase hvmem).symm
      · intro p hp pre post hpp
        cases pre with
        | nil =>
          simp only [List.nil_append, List.cons.injEq] at hpp
          exact absurd hpp.1.symm (hno p hp)
        | cons a pre =>
          simp only [List.cons_append, List.cons.injEq] at hpp
          by_cases hpv : p.1 = v
          · rw [hpv, hpp.1]; simp
          · have := ht.before p (List.mem_filter.mpr ⟨hp, by simpa using hpv⟩) pre post hpp.2
            simp [this]

theorem kahn_spec : TopoSpec kahn := fun nodes es nd he lay => kahnF_ok _ nodes es (Nat.le_refl _) nd he lay

theorem _root_.CollateX.Spec.Walk.trans {es : List (VId × VId)} {u v w : VId} {m n : Nat} (h1 : Walk es u v m)
    (h2 : Walk es v w n) : Walk es u w (m + n) := by
  induction h2 with
  | nil => exact h1
  | snoc _ he ih => exact .snoc ih he

theorem Layered.noCycle {es : List (VId × VId)} (h : Layered es) : NoCycle es := by
  obtain ⟨h, hh⟩ := h
  have key : ∀ u v n, Walk es u v n → h u + n ≤ h v := by
    intro u v n hw
    induction hw with
    | nil => simp
    | snoc _ he ih => have := hh _ he; simp only at this; omega
  intro u n hw
  have := key u u n hw
  omega

open Classical in
theorem NoCycle.layered {es : List (VId × VId)} (h : NoCycle es) : Layered es := by
  let nodes := es.map Prod.fst
  let anc : VId → List VId := fun v => nodes.filter (fun u => decide (∃ n, Walk es u v (n + 1)))
  refine ⟨fun v => (anc v).length, ?_⟩
  rintro ⟨u, v⟩ hp
  simp only
  have hu : u ∈ nodes := List.mem_map.mpr ⟨_, hp, rfl⟩
  have key : ∀ (l : List VId), u ∈ l →
      (l.filter (fun x => decide (∃ n, Walk es x u (n + 1)))).length
        < (l.filter (fun x => decide (∃ n, Walk es x v (n + 1)))).length := by
    have mono : ∀ x, (∃ n, Walk es x u (n + 1)) → ∃ n, Walk es x v (n + 1) := by
      rintro x ⟨n, hn⟩
      exact ⟨_, .snoc hn hp⟩
    have hle : ∀ (l : List VId), (l.filter (fun x => decide (∃ n, Walk es x u (n + 1)))).length
        ≤ (l.filter (fun x => decide (∃ n, Walk es x v (n + 1)))).length := by
      intro l
      induction l with
      | nil => simp
      | cons a l ih =>
        by_cases h1 : ∃ n, Walk es a u (n + 1)
        · have h2 := mono a h1
          simp only [List.filter_cons, h1, h2, decide_true, if_true, List.length_cons]
          omega
        · by_cases h2 : ∃ n, Walk es a v (n + 1)
          · simp only [List.filter_cons, h1, h2, decide_true, decide_false, if_true, List.length_cons]
            simp; omega
          · simp only [List.filter_cons, h1, h2, decide_false]
            simpa using ih
    intro l hl
    induction l with
    | nil => simp at hl
    | cons a l ih =>
      by_cases hau : a = u
      · subst hau
        have h1 : ¬ ∃ n, Walk es a a (n + 1) := by
          rintro ⟨n, hn⟩
          exact absurd (h a _ hn) (by omega)
        have h2 : ∃ n, Walk es a v (n + 1) := ⟨0, .snoc (.nil a) hp⟩
        simp only [List.filter_cons, h1, h2, decide_true, decide_false, if_true, List.length_cons]
        have := hle l
        simp; omega
      · have hl' : u ∈ l := by
          rcases List.mem_cons.mp hl with h3 | h3
          · exact absurd h3.symm hau
          · exact h3
        have := ih hl'
        by_cases h1 : ∃ n, Walk es a u (n + 1)
        · have h2 := mono a h1
          simp only [List.filter_cons, h1, h2, decide_true, if_true, List.length_cons]
          omega
        · by_cases h2 : ∃ n, Walk es a v (n + 1)
          · simp only [List.filter_cons, h1, h2, decide_true, decide_false, if_true, List.length_cons]
            simp; omega
          · simp only [List.filter_cons, h1, h2, decide_false]
            simpa using this
  exact key nodes hu

end CollateX
