import Mathlib.Data.List.SplitBy
/-
Two texts cut into strips that are alternately shared and not shared: there is only one way to do it.
-/

namespace CollateX

section
variable {α β : Type}

/-- A piece of two texts: not marked, all of it is shared and equally long in both; marked, none of it is shared. -/
structure Strip (P : α → Prop) (Q : β → Prop) (x : Bool × List α × List β) : Prop where
  agree : x.1 = false → x.2.1 ≠ [] ∧ x.2.1.length = x.2.2.length ∧ (∀ t ∈ x.2.1, P t) ∧ ∀ u ∈ x.2.2, Q u
  differ : x.1 = true → (x.2.1 ≠ [] ∨ x.2.2 ≠ []) ∧ (∀ t ∈ x.2.1, ¬ P t) ∧ ∀ u ∈ x.2.2, ¬ Q u

theorem append_heads {a a' X X' : List α} (h : a ++ X = a' ++ X') (h1 : a ≠ []) (h2 : a' ≠ []) : ∃ t, t ∈ a ∧ t ∈ a' := by
  cases a with
  | nil => exact absurd rfl h1
  | cons s a =>
    cases a' with
    | nil => exact absurd rfl h2
    | cons s' a' =>
      simp only [List.cons_append, List.cons.injEq] at h
      exact ⟨s, by simp, by simp [h.1]⟩

theorem append_longer : ∀ {a a' X X' : List α}, a ++ X = a' ++ X' → a.length < a'.length → ∃ t X0, X = t :: X0 ∧ t ∈ a'
  | [], [], _, _, _, hl => by simp at hl
  | [], s :: a', X, X', h, _ => ⟨s, a' ++ X', h, by simp⟩
  | _ :: a, [], _, _, _, hl => by simp at hl
  | _ :: a, s :: a', X, X', h, hl => by
    simp only [List.cons_append, List.cons.injEq] at h
    obtain ⟨t, X0, h1, h2⟩ := append_longer h.2 (by simpa using hl)
    exact ⟨t, X0, h1, List.mem_cons_of_mem _ h2⟩

variable {P : α → Prop} {Q : β → Prop}

/-- The first piece is not shorter in one way of cutting than in another. -/
theorem Strip.not_shorter {x x' : Bool × List α × List β} {R : List (Bool × List α × List β)} {X' : List α} {Y' : List β}
    (h : ∀ y ∈ x :: R, Strip P Q y) (hc : (x :: R).IsChain (fun y z => y.1 ≠ z.1)) (h' : Strip P Q x') (hm : x.1 = x'.1)
    (h1 : x.2.1 ++ R.flatMap (fun y => y.2.1) = x'.2.1 ++ X') (h2 : x.2.2 ++ R.flatMap (fun y => y.2.2) = x'.2.2 ++ Y') :
    ¬ x.2.1.length < x'.2.1.length ∧ ¬ x.2.2.length < x'.2.2.length := by
  have hx := h x (by simp)
  cases hm1 : x.1 with
  | false =>
    have hm2 : x'.1 = false := by rw [← hm]; exact hm1
    obtain ⟨_, e1, _, _⟩ := hx.agree hm1
    obtain ⟨_, e2, p2, q2⟩ := h'.agree hm2
    have key : ¬ x.2.1.length < x'.2.1.length := by
      intro hl
      obtain ⟨t, X0, g1, g2⟩ := append_longer h1 hl
      obtain ⟨u, Y0, g3, g4⟩ := append_longer h2 (by omega)
      cases R with
      | nil => simp at g1
      | cons r R =>
        have hr : r.1 = true := by
          have := (List.isChain_cons_cons.mp hc).1
          rw [hm1] at this
          cases h0 : r.1 with
          | false => exact absurd h0.symm this
          | true => rfl
        obtain ⟨f1, f2, f3⟩ := (h r (by simp)).differ hr
        rcases f1 with f1 | f1
        · cases hr1 : r.2.1 with
          | nil => exact f1 hr1
          | cons s l =>
            rw [List.flatMap_cons, hr1, List.cons_append] at g1
            injection g1 with g1 _
            subst g1
            exact f2 s (by simp [hr1]) (p2 s g2)
        · cases hr1 : r.2.2 with
          | nil => exact f1 hr1
          | cons s l =>
            rw [List.flatMap_cons, hr1, List.cons_append] at g3
            injection g3 with g3 _
            subst g3
            exact f3 s (by simp [hr1]) (q2 s g4)
    exact ⟨key, by omega⟩
  | true =>
    have hm2 : x'.1 = true := by rw [← hm]; exact hm1
    obtain ⟨_, p2, q2⟩ := h'.differ hm2
    have hr : ∀ r R', R = r :: R' → r.1 = false := by
      rintro r R' rfl
      have := (List.isChain_cons_cons.mp hc).1
      rw [hm1] at this
      cases h0 : r.1 with
      | false => rfl
      | true => exact absurd h0.symm this
    constructor
    · intro hl
      obtain ⟨t, X0, g1, g2⟩ := append_longer h1 hl
      cases R with
      | nil => simp at g1
      | cons r R =>
        obtain ⟨f1, f2, f3, f4⟩ := (h r (by simp)).agree (hr r R rfl)
        cases hr1 : r.2.1 with
        | nil => exact f1 hr1
        | cons s l =>
          rw [List.flatMap_cons, hr1, List.cons_append] at g1
          injection g1 with g1 _
          subst g1
          exact p2 s g2 (f3 s (by simp [hr1]))
    · intro hl
      obtain ⟨t, X0, g1, g2⟩ := append_longer h2 hl
      cases R with
      | nil => simp at g1
      | cons r R =>
        obtain ⟨f1, f2, f3, f4⟩ := (h r (by simp)).agree (hr r R rfl)
        cases hr1 : r.2.2 with
        | nil =>
          rw [hr1, List.length_nil] at f2
          exact f1 (List.length_eq_zero_iff.mp f2)
        | cons s l =>
          rw [List.flatMap_cons, hr1, List.cons_append] at g1
          injection g1 with g1 _
          subst g1
          exact q2 s g2 (f4 s (by simp [hr1]))

/-- The first pieces have the same mark. -/
theorem Strip.same_mark {x x' : Bool × List α × List β} {X X' : List α} {Y Y' : List β} (h : Strip P Q x) (h' : Strip P Q x')
    (h1 : x.2.1 ++ X = x'.2.1 ++ X') (h2 : x.2.2 ++ Y = x'.2.2 ++ Y') : ¬ (x.1 = false ∧ x'.1 = true) := by
  rintro ⟨m1, m2⟩
  obtain ⟨e1, e2, p1, q1⟩ := h.agree m1
  obtain ⟨f1, p2, q2⟩ := h'.differ m2
  have e3 : x.2.2 ≠ [] := by
    intro h0
    rw [h0, List.length_nil] at e2
    exact e1 (List.length_eq_zero_iff.mp e2)
  rcases f1 with f1 | f1
  · obtain ⟨t, t1, t2⟩ := append_heads h1 e1 f1
    exact p2 t t2 (p1 t t1)
  · obtain ⟨t, t1, t2⟩ := append_heads h2 e3 f1
    exact q2 t t2 (q1 t t1)

theorem Strip.ne_nil {x : Bool × List α × List β} (h : Strip P Q x) : x.2.1 ≠ [] ∨ x.2.2 ≠ [] := by
  cases hm : x.1 with
  | false => exact Or.inl (h.agree hm).1
  | true => exact (h.differ hm).1

/-- There is only one way to cut two texts into pieces of alternating marks. -/
theorem strips_unique : ∀ {R R' : List (Bool × List α × List β)}, (∀ y ∈ R, Strip P Q y) → (∀ y ∈ R', Strip P Q y) →
    R.IsChain (fun y z => y.1 ≠ z.1) → R'.IsChain (fun y z => y.1 ≠ z.1) →
    R.flatMap (fun y => y.2.1) = R'.flatMap (fun y => y.2.1) → R.flatMap (fun y => y.2.2) = R'.flatMap (fun y => y.2.2) → R = R'
  | [], [], _, _, _, _, _, _ => rfl
  | [], x :: R', _, h', _, _, h1, h2 => by
    rw [List.flatMap_nil, List.flatMap_cons] at h1 h2
    have e1 := List.append_eq_nil_iff.mp h1.symm
    have e2 := List.append_eq_nil_iff.mp h2.symm
    rcases (h' x (by simp)).ne_nil with h0 | h0
    · exact absurd e1.1 h0
    · exact absurd e2.1 h0
  | x :: R, [], h, _, _, _, h1, h2 => by
    rw [List.flatMap_nil, List.flatMap_cons] at h1 h2
    have e1 := List.append_eq_nil_iff.mp h1
    have e2 := List.append_eq_nil_iff.mp h2
    rcases (h x (by simp)).ne_nil with h0 | h0
    · exact absurd e1.1 h0
    · exact absurd e2.1 h0
  | x :: R, x' :: R', h, h', hc, hc', h1, h2 => by
    rw [List.flatMap_cons, List.flatMap_cons] at h1 h2
    have hx := h x (by simp)
    have hx' := h' x' (by simp)
    have hm : x.1 = x'.1 := by
      have a1 := hx.same_mark hx' h1 h2
      have a2 := hx'.same_mark hx h1.symm h2.symm
      cases m1 : x.1 <;> cases m2 : x'.1 <;> simp_all
    obtain ⟨l1, l2⟩ := Strip.not_shorter h hc hx' hm h1 h2
    obtain ⟨l3, l4⟩ := Strip.not_shorter h' hc' hx hm.symm h1.symm h2.symm
    obtain ⟨e1, e2⟩ := List.append_inj h1 (by omega)
    obtain ⟨e3, e4⟩ := List.append_inj h2 (by omega)
    have ih := strips_unique (fun y hy => h y (List.mem_cons_of_mem _ hy)) (fun y hy => h' y (List.mem_cons_of_mem _ hy))
      hc.tail hc'.tail e2 e4
    rw [ih]
    congr 1
    exact Prod.ext hm (Prod.ext e1 e3)

/-! ### Neighbouring pieces of the same mark put together -/

/-- Pieces put together. -/
def glue (g : List (Bool × List α × List β)) : Bool × List α × List β :=
  ((g.head?.map Prod.fst).getD false, g.flatMap (fun y => y.2.1), g.flatMap (fun y => y.2.2))

/-- A chain of equal marks. -/
theorem chain_marks {γ : Type} {f : γ → Bool} : ∀ {g : List γ}, g.IsChain (fun x y => (f x == f y) = true) → ∀ x ∈ g, ∀ y ∈ g, f x = f y
  | [], _, _, h, _, _ => by cases h
  | [a], _, x, hx, y, hy => by
    rw [List.mem_singleton.mp hx, List.mem_singleton.mp hy]
  | a :: b :: g, h, x, hx, y, hy => by
    have h1 := List.isChain_cons_cons.mp h
    have hab : f a = f b := beq_iff_eq.mp h1.1
    have ih := chain_marks h1.2
    have key : ∀ z ∈ a :: b :: g, f z = f b := by
      intro z hz
      rcases List.mem_cons.mp hz with rfl | hz
      · exact hab
      · exact ih z hz b (by simp)
    rw [key x hx, key y hy]

theorem glue_strip {g : List (Bool × List α × List β)} (hne : g ≠ []) (h : ∀ y ∈ g, Strip P Q y)
    (hc : g.IsChain (fun x y => (x.1 == y.1) = true)) : Strip P Q (glue g) ∧ ∀ y ∈ g, (glue g).1 = y.1 := by
  have hm : ∀ y ∈ g, (glue g).1 = y.1 := by
    intro y hy
    cases g with
    | nil => exact absurd rfl hne
    | cons z g => exact chain_marks hc z (by simp) y hy
  obtain ⟨z, hz⟩ := List.exists_mem_of_ne_nil g hne
  refine ⟨⟨?_, ?_⟩, hm⟩
  · intro h0
    have hall : ∀ y ∈ g, y.1 = false := fun y hy => (hm y hy).symm.trans h0
    refine ⟨?_, ?_, ?_, ?_⟩
    · intro hn
      exact ((h z hz).agree (hall z hz)).1 (List.flatMap_eq_nil_iff.mp hn z hz)
    · show (g.flatMap (fun y => y.2.1)).length = (g.flatMap (fun y => y.2.2)).length
      rw [List.length_flatMap, List.length_flatMap]
      congr 1
      apply List.map_congr_left
      intro y hy
      exact ((h y hy).agree (hall y hy)).2.1
    · intro t ht
      obtain ⟨y, hy, hty⟩ := List.mem_flatMap.mp ht
      exact ((h y hy).agree (hall y hy)).2.2.1 t hty
    · intro t ht
      obtain ⟨y, hy, hty⟩ := List.mem_flatMap.mp ht
      exact ((h y hy).agree (hall y hy)).2.2.2 t hty
  · intro h0
    have hall : ∀ y ∈ g, y.1 = true := fun y hy => (hm y hy).symm.trans h0
    refine ⟨?_, ?_, ?_⟩
    · rcases ((h z hz).differ (hall z hz)).1 with h1 | h1
      · exact Or.inl fun hn => h1 (List.flatMap_eq_nil_iff.mp hn z hz)
      · exact Or.inr fun hn => h1 (List.flatMap_eq_nil_iff.mp hn z hz)
    · intro t ht
      obtain ⟨y, hy, hty⟩ := List.mem_flatMap.mp ht
      exact ((h y hy).differ (hall y hy)).2.1 t hty
    · intro t ht
      obtain ⟨y, hy, hty⟩ := List.mem_flatMap.mp ht
      exact ((h y hy).differ (hall y hy)).2.2 t hty

/-- Gluing the runs of equal marks gives the pieces of alternating marks. -/
theorem glued_eq {R R' : List (Bool × List α × List β)} (h : ∀ y ∈ R, Strip P Q y) (h' : ∀ y ∈ R', Strip P Q y)
    (hc' : R'.IsChain (fun y z => y.1 ≠ z.1)) (h1 : R.flatMap (fun y => y.2.1) = R'.flatMap (fun y => y.2.1))
    (h2 : R.flatMap (fun y => y.2.2) = R'.flatMap (fun y => y.2.2)) : R' = (R.splitBy (fun x y => x.1 == y.1)).map glue := by
  have hmem : ∀ g ∈ R.splitBy (fun x y => x.1 == y.1), g ≠ [] ∧ (∀ y ∈ g, y ∈ R) ∧ g.IsChain (fun x y => (x.1 == y.1) = true) := by
    intro g hg
    refine ⟨List.ne_nil_of_mem_splitBy hg, ?_, List.isChain_of_mem_splitBy hg⟩
    intro y hy
    rw [← List.flatten_splitBy (fun x y : Bool × List α × List β => x.1 == y.1) R]
    exact List.mem_flatten.mpr ⟨g, hg, hy⟩
  have hfm : ∀ {γ : Type} (f : Bool × List α × List β → List γ),
      (R.splitBy (fun x y => x.1 == y.1)).flatMap (fun g => g.flatMap f) = R.flatMap f := by
    intro γ f
    conv_rhs => rw [← List.flatten_splitBy (fun x y : Bool × List α × List β => x.1 == y.1) R]
    generalize R.splitBy (fun x y => x.1 == y.1) = L
    induction L with
    | nil => rfl
    | cons g L ih => rw [List.flatMap_cons, List.flatten_cons, List.flatMap_append, ih]
  symm
  refine strips_unique (P := P) (Q := Q) ?_ h' ?_ hc' ?_ ?_
  · intro y hy
    obtain ⟨g, hg, rfl⟩ := List.mem_map.mp hy
    obtain ⟨g1, g2, g3⟩ := hmem g hg
    exact (glue_strip g1 (fun y hy => h y (g2 y hy)) g3).1
  · rw [List.isChain_map]
    have hch := List.isChain_getLast_head_splitBy (fun x y : Bool × List α × List β => x.1 == y.1) R
    rw [List.isChain_iff_getElem] at hch ⊢
    intro i hi
    obtain ⟨ha, hb, hab⟩ := hch i hi
    have m1 := hmem _ (List.getElem_mem (Nat.lt_of_succ_lt hi))
    have m2 := hmem _ (List.getElem_mem hi)
    rw [(glue_strip m1.1 (fun y hy => h y (m1.2.1 y hy)) m1.2.2).2 _ (List.getLast_mem ha),
      (glue_strip m2.1 (fun y hy => h y (m2.2.1 y hy)) m2.2.2).2 _ (List.head_mem hb)]
    exact beq_eq_false_iff_ne.mp hab
  · rw [List.flatMap_map, ← h1, ← hfm]
    rfl
  · rw [List.flatMap_map, ← h2, ← hfm]
    rfl

end

end CollateX
