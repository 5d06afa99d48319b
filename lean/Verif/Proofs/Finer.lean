import Verif.Proofs.WorkSegments
/-
A further text cuts the segments finer, and moves no segment to the left.
-/

namespace CollateX
open Spec

theorem splitBy_finer {α : Type} {R R' : α → α → Bool} (h : ∀ a b, R' a b = true → R a b = true) (l : List α) :
    l.splitBy R' = (l.splitBy R).flatMap (List.splitBy R') := by
  have hne := List.nil_notMem_splitBy R l
  have hch := List.isChain_getLast_head_splitBy R l
  conv => lhs; rw [← List.flatten_splitBy R l]
  generalize l.splitBy R = gs at hne hch
  induction gs with
  | nil => rfl
  | cons g gs ih =>
    rw [List.flatten_cons, List.flatMap_cons, ← ih (fun h0 => hne (by simp [h0])) hch.tail]
    apply List.splitBy_append
    intro x hx y hy
    cases gs with
    | nil => simp at hy
    | cons g2 gs =>
      obtain ⟨ha, hb, hR⟩ := (List.isChain_cons_cons.mp hch).1
      have e1 : g.getLast ha = x := by
        rw [List.getLast?_eq_getLast_of_ne_nil ha] at hx
        exact Option.some.inj hx
      have e2 : g2.head hb = y := by
        cases g2 with
        | nil => exact absurd rfl hb
        | cons a g2 => simpa using hy
      rw [e1, e2] at hR
      cases hR' : R' x y with
      | false => rfl
      | true => rw [h x y hR'] at hR; exact absurd hR (by decide)

theorem first_splitBy {R : Nat → Nat → Bool} {g : List Nat} (h : g ≠ []) : ∃ s gs, g.splitBy R = s :: gs ∧ Work.first s = Work.first g := by
  cases hs : g.splitBy R with
  | nil => exact absurd (List.splitBy_eq_nil.mp hs) h
  | cons s gs =>
    refine ⟨s, gs, rfl, ?_⟩
    have h1 := List.flatten_splitBy R g
    have h2 : s ≠ [] := List.ne_nil_of_mem_splitBy (r := R) (l := g) (by rw [hs]; simp)
    rw [hs] at h1
    rw [← h1]
    cases s with
    | nil => exact absurd rfl h2
    | cons a s => rfl

theorem firsts_finer {R R' : Nat → Nat → Bool} (h : ∀ a b, R' a b = true → R a b = true) (l : List Nat) :
    ((l.splitBy R).map Work.first).Sublist ((l.splitBy R').map Work.first) := by
  rw [splitBy_finer h l]
  have hne := List.nil_notMem_splitBy R l
  generalize l.splitBy R = gs at hne
  induction gs with
  | nil => exact List.Sublist.refl _
  | cons g gs ih =>
    rw [List.map_cons, List.flatMap_cons, List.map_append]
    obtain ⟨s, gs', he, hf⟩ := first_splitBy (R := R') (g := g) (fun h => hne (by rw [h]; simp))
    refine List.Sublist.append (l₁ := [Work.first g]) ?_ (ih (fun h => hne (by simp [h])))
    rw [he, List.map_cons, hf]
    exact List.singleton_sublist.mpr (by simp)

section
variable {W W' : Work}

/-- The columns are the least numbers that grow along the texts. -/
theorem column_least {f : Nat → Nat} (hpos : ∀ n, W.Used n → 1 ≤ f n) (hlt : ∀ k n, k ∈ W.before n → f k < f n) :
    ∀ k n, W.Used n → W.columnIn k n ≤ f n := by
  intro k
  induction k with
  | zero => intro n _; exact Nat.zero_le _
  | succ k ih =>
    intro n hn
    show Work.largest ((W.before n).map (W.columnIn k)) + 1 ≤ f n
    rcases Nat.eq_zero_or_pos (Work.largest ((W.before n).map (W.columnIn k))) with h0 | h0
    · have := hpos n hn
      omega
    · obtain ⟨j, hj, he⟩ := List.mem_map.mp (largest_mem h0)
      have h1 := ih j (used_of_before hj).1
      have h2 := hlt j n hj
      omega

theorem glued_more {rs : List (List Nat)} (h : W'.rows = W.rows ++ rs) (a b : Nat) (hg : W'.glued a b = true) : W.glued a b = true := by
  rw [glued_rows] at hg ⊢
  exact fun r hr => hg r (by rw [h]; exact List.mem_append_left _ hr)

theorem firsts_more {rs : List (List Nat)} (h : W'.rows = W.rows ++ rs) {r : List Nat} (hr : r ∈ W.rows) :
    ((r.splitBy W.glued).map Work.first).Sublist ((r.splitBy W'.glued).map Work.first) ∧ (r.splitBy W'.glued).map Work.first ∈ W'.heads.rows := by
  refine ⟨firsts_finer (glued_more h) r, ?_⟩
  rw [heads_rows, h]
  exact List.mem_map_of_mem (f := fun r => (r.splitBy W'.glued).map Work.first) (List.mem_append_left _ hr)

theorem heads_used {rs : List (List Nat)} (h : W'.rows = W.rows ++ rs) {n : Nat} (hn : W.heads.Used n) : W'.heads.Used n := by
  obtain ⟨r, hr, hm⟩ := hn
  rw [heads_rows] at hr
  obtain ⟨r0, hr0, rfl⟩ := List.mem_map.mp hr
  obtain ⟨h1, h2⟩ := firsts_more h hr0
  exact ⟨_, h2, h1.subset hm⟩

/-- A segment does not move to the left. -/
theorem heads_column_le {rs : List (List Nat)} (h : W'.rows = W.rows ++ rs) (S' : Sound W'.heads) {n : Nat} (hn : W.heads.Used n) :
    W.heads.column n ≤ W'.heads.column n := by
  refine column_least (f := W'.heads.column) (fun n hn => (S'.column_le (heads_used h hn)).1) ?_ _ n hn
  intro k n hk
  obtain ⟨r, hr, i, h1, h2⟩ := mem_before.mp hk
  rw [heads_rows] at hr
  obtain ⟨r0, hr0, rfl⟩ := List.mem_map.mp hr
  obtain ⟨h3, h4⟩ := firsts_more h hr0
  have := (S'.rising h4).sublist h3
  obtain ⟨q1, q2⟩ := List.getElem?_eq_some_iff.mp h1
  obtain ⟨q3, q4⟩ := List.getElem?_eq_some_iff.mp h2
  have := List.pairwise_iff_getElem.mp this i (i + 1) q1 q3 (by omega)
  rwa [q2, q4] at this

/-- There are at least as many columns of segments. -/
theorem heads_width_le {rs : List (List Nat)} (h : W'.rows = W.rows ++ rs) (S : Sound W.heads) (S' : Sound W'.heads) :
    W.heads.width ≤ W'.heads.width := by
  rcases Nat.eq_zero_or_pos W.heads.width with h0 | h0
  · omega
  · obtain ⟨n, hn, he⟩ := S.width_attained h0
    have h1 := heads_column_le h S' hn
    have h2 := (S'.column_le (heads_used h hn)).2
    omega

/-- For each node of a text the column of its segment. -/
def Spec.Work.places (W : Work) (r : List Nat) : List Nat :=
  (r.splitBy W.glued).flatMap (fun s => s.map (fun _ => W.heads.column (Work.first s) - 1))

theorem places_le {rs : List (List Nat)} (h : W'.rows = W.rows ++ rs) (S' : Sound W'.heads) {r : List Nat} (hr : r ∈ W.rows) :
    List.Forall₂ (· ≤ ·) (W.places r) (W'.places r) := by
  unfold Spec.Work.places
  have hhead : ∀ s ∈ r.splitBy W.glued, W.heads.column (Work.first s) ≤ W'.heads.column (Work.first s) := by
    intro s hs
    refine heads_column_le h S' ⟨(r.splitBy W.glued).map Work.first, ?_, List.mem_map_of_mem hs⟩
    rw [heads_rows]
    exact List.mem_map_of_mem (f := fun r => (r.splitBy W.glued).map Work.first) hr
  have hris := S'.rising (firsts_more h hr).2
  rw [splitBy_finer (glued_more h) r] at hris ⊢
  have hne := List.nil_notMem_splitBy W.glued r
  generalize r.splitBy W.glued = gs at hhead hris hne
  induction gs with
  | nil => exact List.Forall₂.nil
  | cons g gs ih =>
    rw [List.flatMap_cons, List.flatMap_cons, List.flatMap_append]
    rw [List.flatMap_cons, List.map_append] at hris
    have hp := List.pairwise_append.mp hris
    refine List.rel_append ?_ (ih (fun s hs => hhead s (by simp [hs])) hp.2.1 (fun h => hne (by simp [h])))
    obtain ⟨s0, gs0, he, hf⟩ := first_splitBy (R := W'.glued) (g := g) (fun h => hne (by rw [h]; simp))
    have hb : ∀ s ∈ g.splitBy W'.glued, W.heads.column (Work.first g) - 1 ≤ W'.heads.column (Work.first s) - 1 := by
      intro s hs
      have h1 := hhead g (by simp)
      have h2 := hp.1
      rw [he, List.map_cons, List.pairwise_cons] at h2
      rw [he] at hs
      rcases List.mem_cons.mp hs with rfl | hs
      · rw [hf]; omega
      · have := h2.1 _ (List.mem_map_of_mem hs)
        rw [hf] at this
        omega
    generalize hc : W.heads.column (Work.first g) - 1 = c at hb
    have hfl := List.flatten_splitBy W'.glued g
    conv in (List.map _ g) => rw [← hfl]
    clear hfl he hp hris
    generalize g.splitBy W'.glued = ss at hb
    clear hc
    induction ss with
    | nil => exact List.Forall₂.nil
    | cons s ss ihs =>
      rw [List.flatten_cons, List.map_append, List.flatMap_cons]
      refine List.rel_append ?_ (ihs (fun s hs => hb s (by simp [hs])))
      have := hb s (by simp)
      generalize W'.heads.column (Work.first s) - 1 = d at this
      clear hb
      induction s with
      | nil => exact List.Forall₂.nil
      | cons a s ihx => exact List.Forall₂.cons this ihx

end

end CollateX
