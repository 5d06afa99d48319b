import Verif.Proofs.WorkInduct
import Verif.Props.Runs
/-
Segments of a short program on both sides of a segment that all texts have.
-/

namespace CollateX
open Spec

theorem glued_rows {W : Work} {a b : Nat} : W.glued a b = true ↔
    ∀ r ∈ W.rows, (a ∉ r ∧ b ∉ r) ∨ ∃ i : Nat, r[i]? = some a ∧ r[i + 1]? = some b := by
  have hz : ∀ {r : List Nat} {a b : Nat}, (a, b) ∈ r.zip r.tail ↔ ∃ i : Nat, r[i]? = some a ∧ r[i + 1]? = some b := by
    intro r a b
    rw [List.mem_iff_getElem?]
    refine exists_congr fun i => ?_
    rw [List.getElem?_zip_eq_some]
    simp
  unfold Work.glued
  rw [List.all_eq_true]
  refine forall₂_congr fun r _ => ?_
  rw [Bool.or_eq_true, Bool.and_eq_true, Bool.not_eq_true', Bool.not_eq_true', List.contains_iff_mem, hz]
  simp

theorem splitBy_congr {α : Type} {r r' : α → α → Bool} {l : List α} (h : ∀ a ∈ l, ∀ b ∈ l, r a b = r' a b) : l.splitBy r = l.splitBy r' := by
  have e : l = l.attach.map Subtype.val := by simp
  rw [e, splitBy_map, splitBy_map]
  congr 1
  congr 1
  funext x y
  exact h _ x.2 _ y.2

theorem infix_splitBy {α : Type} {r : α → α → Bool} {l : List α} {gs : List (List α)} (h : gs <:+: l.splitBy r) : gs.flatten.splitBy r = gs :=
  List.splitBy_flatten (fun h0 => List.nil_notMem_splitBy r l (h.subset h0)) (fun _ hm => List.isChain_of_mem_splitBy (h.subset hm))
    ((List.isChain_getLast_head_splitBy r l).infix h)

section
variable {W V : Work}

theorem Sound.nodup (S : Sound W) {r : List Nat} (hr : r ∈ W.rows) : r.Nodup :=
  (S.rising hr).imp (fun h he => by rw [he] at h; omega)

theorem getElem_inj {α : Type} {l : List α} (h : l.Nodup) {i j : Nat} {a : α} (hi : l[i]? = some a) (hj : l[j]? = some a) : i = j := by
  obtain ⟨h1, h2⟩ := List.getElem?_eq_some_iff.mp hi
  obtain ⟨h3, h4⟩ := List.getElem?_eq_some_iff.mp hj
  exact (h.getElem_inj_iff (hi := h1) (hj := h3)).mp (h2.trans h4.symm)

/-- What is glued to a node follows it. -/
theorem Sound.next (S : Sound W) {r p q : List Nat} {a b : Nat} (hr : r ∈ W.rows) (he : r = p ++ a :: q) (hg : W.glued a b = true) :
    q.head? = some b := by
  rcases glued_rows.mp hg r hr with ⟨h1, _⟩ | ⟨i, h1, h2⟩
  · exact absurd (by rw [he]; simp) h1
  · have hp : r[p.length]? = some a := by rw [he]; simp
    have := getElem_inj (S.nodup hr) h1 hp
    subst this
    rw [he, List.getElem?_append_right (by omega), show p.length + 1 - p.length = 1 by omega] at h2
    rw [List.head?_eq_getElem?]
    simpa using h2

/-- The nodes that are glued one after the other are the same in all texts. -/
theorem Sound.same_segment (S : Sound W) {r r' : List Nat} (hr : r ∈ W.rows) (hr' : r' ∈ W.rows) :
    ∀ (a a' p p' u u' : List Nat) (n : Nat), r = p ++ n :: (a ++ u) → r' = p' ++ n :: (a' ++ u') →
      (n :: a).IsChain (fun x y => W.glued x y = true) → (n :: a').IsChain (fun x y => W.glued x y = true) →
      (∀ y ∈ u.head?, W.glued ((n :: a).getLast (by simp)) y = false) → (∀ y ∈ u'.head?, W.glued ((n :: a').getLast (by simp)) y = false) → a = a' := by
  intro a
  induction a with
  | nil =>
    intro a' p p' u u' n e e' _ c' k _
    cases a' with
    | nil => rfl
    | cons x a' =>
      have hg : W.glued n x = true := (List.isChain_cons_cons.mp c').1
      have := S.next hr e hg
      rw [List.nil_append] at this
      have := k x this
      rw [List.getLast_singleton, hg] at this
      cases this
  | cons x a ih =>
    intro a' p p' u u' n e e' c c' k k'
    have hg : W.glued n x = true := (List.isChain_cons_cons.mp c).1
    have hn := S.next hr' e' hg
    cases a' with
    | nil =>
      rw [List.nil_append] at hn
      have := k' x hn
      rw [List.getLast_singleton, hg] at this
      cases this
    | cons y a' =>
      have : y = x := by simpa using hn
      subst this
      congr 1
      refine ih a' (p ++ [n]) (p' ++ [n]) u u' y (by rw [e]; simp) (by rw [e']; simp) (List.isChain_cons_cons.mp c).2 (List.isChain_cons_cons.mp c').2 ?_ ?_
      · intro z hz
        have := k z hz
        rwa [List.getLast_cons (by simp)] at this
      · intro z hz
        have := k' z hz
        rwa [List.getLast_cons (by simp)] at this

/-- A text around the segment that begins with a node. -/
structure Around (W : Work) (n0 : Nat) (a : List Nat) (r : List Nat) (gl gr : List (List Nat)) : Prop where
  split : r.splitBy W.glued = gl ++ (n0 :: a) :: gr
  left : gl.flatten.splitBy W.glued = gl
  right : gr.flatten.splitBy W.glued = gr
  flat : r = gl.flatten ++ (n0 :: a) ++ gr.flatten

theorem heads_rows : W.heads.rows = W.rows.map (fun r => (r.splitBy W.glued).map Work.first) := by
  unfold Work.heads Work.segments
  rw [List.map_map]
  rfl

theorem around_one {n0 : Nat} {r : List Nat} (h : n0 ∈ (r.splitBy W.glued).map Work.first) : ∃ a gl gr, Around W n0 a r gl gr := by
  obtain ⟨s, hs, hf⟩ := List.mem_map.mp h
  obtain ⟨gl, gr, he⟩ := List.append_of_mem hs
  have hne := List.ne_nil_of_mem_splitBy hs
  cases s with
  | nil => exact absurd rfl hne
  | cons x a =>
    have : x = n0 := hf
    subst this
    refine ⟨a, gl, gr, he, infix_splitBy (l := r) ?_, infix_splitBy (l := r) ?_, ?_⟩
    · rw [he]; exact (List.prefix_append _ _).isInfix
    · rw [he]; exact ⟨gl ++ [x :: a], [], by simp⟩
    · conv => lhs; rw [← List.flatten_splitBy W.glued r, he]
      simp

theorem Around.bound {n0 : Nat} {a r : List Nat} {gl gr : List (List Nat)} (A : Around W n0 a r gl gr) :
    (n0 :: a).IsChain (fun x y => W.glued x y = true) ∧ (∀ y ∈ gr.flatten.head?, W.glued ((n0 :: a).getLast (by simp)) y = false) := by
  refine ⟨List.isChain_of_mem_splitBy (by rw [A.split]; simp), ?_⟩
  intro y hy
  have hb := List.isChain_getLast_head_splitBy W.glued r
  rw [A.split] at hb
  have hb := (List.isChain_append.mp hb).2.1
  cases gr with
  | nil => simp at hy
  | cons g gr =>
    obtain ⟨h1, h2, h3⟩ := (List.isChain_cons_cons.mp hb).1
    cases g with
    | nil => exact absurd rfl h2
    | cons z g =>
      have : z = y := by simpa using hy
      subst this
      exact h3

/-- If all texts have a segment that begins with a node, it is the same one. -/
theorem Sound.around (S : Sound W) {n0 : Nat} (hne : W.rows ≠ []) (h : ∀ r ∈ W.heads.rows, n0 ∈ r) :
    ∃ a, ∀ r ∈ W.rows, ∃ gl gr, Around W n0 a r gl gr := by
  have key : ∀ r ∈ W.rows, ∃ a gl gr, Around W n0 a r gl gr := by
    intro r hr
    refine around_one (h _ ?_)
    rw [heads_rows]
    exact List.mem_map_of_mem hr
  obtain ⟨r1, hr1⟩ := List.exists_mem_of_ne_nil _ hne
  obtain ⟨a, gl, gr, A⟩ := key r1 hr1
  refine ⟨a, ?_⟩
  intro r hr
  obtain ⟨a', gl', gr', A'⟩ := key r hr
  have := S.same_segment hr1 hr a a' gl.flatten gl'.flatten gr.flatten gr'.flatten n0 (by rw [A.flat]; simp) (by rw [A'.flat]; simp)
    A.bound.1 A'.bound.1 A.bound.2 A'.bound.2
  subst this
  exact ⟨gl', gr', A'⟩

/-! ### Columns of segments -/

/-- The columns of nodes that can be numbered are sound. -/
theorem sound_of_rank {ρ : Nat → Nat} (hb : ∀ n, W.Used n → n < W.words.length) (hpos : ∀ n, W.Used n → 0 < ρ n)
    (hlt : ∀ k n, k ∈ W.before n → ρ k < ρ n) (hd : ∀ n < W.words.length, ∃ m, W.Used m) : Sound W := by
  have stable : ∀ k k' n, W.Used n → ρ n ≤ k → ρ n ≤ k' → W.columnIn k n = W.columnIn k' n := by
    intro k
    induction k with
    | zero => intro k' n hn h; have := hpos n hn; omega
    | succ k ih =>
      intro k' n hn h h'
      cases k' with
      | zero => have := hpos n hn; omega
      | succ k' =>
        show Work.largest ((W.before n).map (W.columnIn k)) + 1 = Work.largest ((W.before n).map (W.columnIn k')) + 1
        congr 2
        apply List.map_congr_left
        intro j hj
        have := hlt j n hj
        exact ih k' j (used_of_before hj).1 (by omega) (by omega)
  have hc : ∀ n, W.Used n → W.columnIn (ρ n) n = Work.largest ((W.before n).map (fun j => W.columnIn (ρ j) j)) + 1 := by
    intro n hn
    have h0 := hpos n hn
    obtain ⟨m, hm⟩ : ∃ m, ρ n = m + 1 := ⟨ρ n - 1, by omega⟩
    rw [hm]
    show Work.largest ((W.before n).map (W.columnIn m)) + 1 = _
    congr 2
    apply List.map_congr_left
    intro j hj
    have := hlt j n hj
    exact stable _ _ j (used_of_before hj).1 (by omega) (by omega)
  have hcol := column_of (c := fun n => W.columnIn (ρ n) n) hb hc
  have hrec : ∀ n, W.Used n → W.column n = Work.largest ((W.before n).map W.column) + 1 := by
    intro n hn
    rw [hcol n hn, hc n hn]
    congr 2
    apply List.map_congr_left
    intro k hk
    exact (hcol k (used_of_before hk).1).symm
  refine ⟨hb, hrec, ?_⟩
  intro n hn
  by_cases hu : W.Used n
  · exact ⟨n, hu, le_refl _⟩
  · obtain ⟨m, hm⟩ := hd n hn
    refine ⟨m, hm, ?_⟩
    have h0 : W.before n = [] := by
      rw [List.eq_nil_iff_forall_not_mem]
      intro k hk
      exact hu (used_of_before hk).2
    have : W.column n ≤ 1 := by
      unfold Work.column
      cases W.words.length with
      | zero => show 0 ≤ 1; omega
      | succ k =>
        show Work.largest ((W.before n).map (W.columnIn k)) + 1 ≤ 1
        rw [h0]
        exact Nat.le_refl _
    have := hrec m hm
    omega

theorem first_mem {s : List Nat} (h : s ≠ []) : Work.first s ∈ s := by
  cases s with
  | nil => exact absurd rfl h
  | cons a s => simp [Work.first]

/-- The first nodes of the segments, in the order of the text. -/
theorem firsts_sublist (r : List Nat) : ((r.splitBy W.glued).map Work.first).Sublist r := by
  have hne := List.nil_notMem_splitBy W.glued r
  conv => rhs; rw [← List.flatten_splitBy W.glued r]
  generalize r.splitBy W.glued = gs at hne
  induction gs with
  | nil => exact List.Sublist.refl _
  | cons g gs ih =>
    have h1 : g ≠ [] := fun h => hne (by rw [h]; simp)
    rw [List.map_cons, List.flatten_cons]
    have h2 : (Work.first g :: []).Sublist g := List.singleton_sublist.mpr (first_mem h1)
    exact h2.append (ih (fun h => hne (by simp [h])))

theorem used_of_heads {n : Nat} (h : W.heads.Used n) : W.Used n := by
  obtain ⟨r, hr, hn⟩ := h
  rw [heads_rows] at hr
  obtain ⟨r0, hr0, rfl⟩ := List.mem_map.mp hr
  exact ⟨r0, hr0, (firsts_sublist r0).subset hn⟩

theorem Sound.heads (S : Sound W) (hd : ∀ n < W.words.length, W.Used n) : Sound W.heads := by
  refine sound_of_rank (ρ := W.column) (fun n hn => S.bound n (used_of_heads hn)) (fun n hn => by have := S.column_le (used_of_heads hn); omega) ?_ ?_
  · intro k n hk
    obtain ⟨r, hr, i, h1, h2⟩ := mem_before.mp hk
    rw [heads_rows] at hr
    obtain ⟨r0, hr0, rfl⟩ := List.mem_map.mp hr
    have hp := (S.rising hr0).sublist (firsts_sublist (W := W) r0)
    obtain ⟨q1, q2⟩ := List.getElem?_eq_some_iff.mp h1
    obtain ⟨q3, q4⟩ := List.getElem?_eq_some_iff.mp h2
    have := List.pairwise_iff_getElem.mp hp i (i + 1) q1 q3 (by omega)
    rwa [q2, q4] at this
  · intro n hn
    obtain ⟨r, hr, hm⟩ := hd n hn
    have hr' : (r.splitBy W.glued).map Work.first ∈ W.heads.rows := by rw [heads_rows]; exact List.mem_map_of_mem hr
    have hne : (r.splitBy W.glued) ≠ [] := by
      intro h0
      have := List.flatten_splitBy W.glued r
      rw [h0] at this
      rw [← this] at hm
      cases hm
    obtain ⟨s, hs⟩ := List.exists_mem_of_ne_nil _ hne
    exact ⟨_, _, hr', List.mem_map_of_mem hs⟩

/-! ### Segments on one side -/

section
variable {side sideH : List Nat → List Nat} {f : Nat → Nat}

theorem segments_side (hg : ∀ a b, V.Used a → V.Used b → V.glued a b = W.glued (f a) (f b)) {r r' : List Nat}
    (hr' : r' ∈ V.rows) (he : r'.map f = side r) : (side r).splitBy W.glued = (r'.splitBy V.glued).map (List.map f) := by
  rw [← he, splitBy_map]
  congr 1
  exact splitBy_congr (fun a ha b hb => (hg a b ⟨r', hr', ha⟩ ⟨r', hr', hb⟩).symm)

theorem firsts_map {gs : List (List Nat)} (h : [] ∉ gs) : (gs.map (List.map f)).map Work.first = (gs.map Work.first).map f := by
  rw [List.map_map, List.map_map]
  apply List.map_congr_left
  intro g hg
  cases g with
  | nil => exact absurd hg h
  | cons a g => rfl

theorem PartOf.heads (P : PartOf side W V f) (hg : ∀ a b, V.Used a → V.Used b → V.glued a b = W.glued (f a) (f b))
    (hs : ∀ r ∈ W.rows, ((side r).splitBy W.glued).map Work.first = sideH ((r.splitBy W.glued).map Work.first)) :
    PartOf sideH W.heads V.heads f := by
  refine ⟨?_, fun n hn => P.bound n (used_of_heads hn), fun n hn => P.words n (used_of_heads hn),
    fun a b ha hb h => P.inj a b (used_of_heads ha) (used_of_heads hb) h⟩
  rw [heads_rows, heads_rows, List.map_map, List.map_map]
  refine map_eq_of_map_eq P.rows ?_
  intro r' hr' r hr he
  simp only [Function.comp]
  rw [← hs r hr, segments_side hg hr' he, firsts_map (List.nil_notMem_splitBy _ _)]

end

section
variable {n0 : Nat} {f : Nat → Nat} (S : Sound W) (h0 : ∀ r ∈ W.rows, n0 ∈ r)
include S h0

theorem PartOf.left_glued (P : PartOf (leftOf n0) W V f) (a b : Nat) (ha : V.Used a) (hb : V.Used b) : V.glued a b = W.glued (f a) (f b) := by
  have hmem : ∀ {r r' : List Nat}, r ∈ W.rows → r' ∈ V.rows → r'.map f = leftOf n0 r → ∀ c, V.Used c → (f c ∈ r ↔ c ∈ r') := by
    intro r r' hr hr' he c hc
    constructor
    · intro h
      rcases S.side h0 hr h with ⟨h1, _⟩ | h1 | ⟨_, h1⟩
      · rw [← he] at h1
        obtain ⟨c', hc', h2⟩ := List.mem_map.mp h1
        rwa [← P.inj c' c ⟨r', hr', hc'⟩ hc h2]
      · have := (P.left_used S h0 hc).2
        rw [h1] at this
        omega
      · have := (P.left_used S h0 hc).2
        omega
    · intro h
      rw [split_at (h0 r hr), ← he]
      exact List.mem_append_left _ (List.mem_map_of_mem h)
  have hadj : ∀ {r r' : List Nat}, r ∈ W.rows → r' ∈ V.rows → r'.map f = leftOf n0 r →
      ((∃ i : Nat, r[i]? = some (f a) ∧ r[i + 1]? = some (f b)) ↔ ∃ i : Nat, r'[i]? = some a ∧ r'[i + 1]? = some b) := by
    intro r r' hr hr' he
    have hs := split_at (h0 r hr)
    constructor
    · rintro ⟨i, h1, h2⟩
      have hi : i + 1 < (leftOf n0 r).length := by
        by_contra hc
        rw [hs, List.getElem?_append_right (by omega)] at h2
        have hlt := (P.left_used S h0 hb).2
        rcases List.mem_cons.mp (List.mem_of_getElem? h2) with h3 | h3
        · rw [h3] at hlt; omega
        · have := S.right_gt h0 hr h3; omega
      rw [hs, List.getElem?_append_left (by omega), ← he, List.getElem?_map] at h1 h2
      obtain ⟨k, hk, hf⟩ := Option.map_eq_some_iff.mp h1
      obtain ⟨k', hk', hf'⟩ := Option.map_eq_some_iff.mp h2
      obtain rfl := P.inj k' b ⟨r', hr', List.mem_of_getElem? hk'⟩ hb hf'
      obtain rfl := P.inj k a ⟨r', hr', List.mem_of_getElem? hk⟩ ha hf
      exact ⟨i, hk, hk'⟩
    · rintro ⟨i, h1, h2⟩
      refine ⟨i, ?_, ?_⟩
      · rw [hs, ← he, List.getElem?_append_left (by simpa using (List.getElem?_eq_some_iff.mp h1).1), List.getElem?_map, h1]
        rfl
      · rw [hs, ← he, List.getElem?_append_left (by simpa using (List.getElem?_eq_some_iff.mp h2).1), List.getElem?_map, h2]
        rfl
  rw [Bool.eq_iff_iff, glued_rows, glued_rows]
  constructor
  · intro h r hr
    obtain ⟨r', hr', he⟩ := P.from hr
    rw [hmem hr hr' he a ha, hmem hr hr' he b hb, hadj hr hr' he]
    exact h r' hr'
  · intro h r' hr'
    obtain ⟨r, hr, he⟩ := P.to hr'
    have := h r hr
    rwa [hmem hr hr' he.symm a ha, hmem hr hr' he.symm b hb, hadj hr hr' he.symm] at this

theorem PartOf.right_glued (P : PartOf (rightOf n0) W V f) (a b : Nat) (ha : V.Used a) (hb : V.Used b) : V.glued a b = W.glued (f a) (f b) := by
  have hmem : ∀ {r r' : List Nat}, r ∈ W.rows → r' ∈ V.rows → r'.map f = rightOf n0 r → ∀ c, V.Used c → (f c ∈ r ↔ c ∈ r') := by
    intro r r' hr hr' he c hc
    constructor
    · intro h
      rcases S.side h0 hr h with ⟨_, h1⟩ | h1 | ⟨h1, _⟩
      · have := (P.right_used S h0 hc).2
        omega
      · have := (P.right_used S h0 hc).2
        rw [h1] at this
        omega
      · rw [← he] at h1
        obtain ⟨c', hc', h2⟩ := List.mem_map.mp h1
        rwa [← P.inj c' c ⟨r', hr', hc'⟩ hc h2]
    · intro h
      rw [split_at (h0 r hr), ← he]
      exact List.mem_append_right _ (List.mem_cons_of_mem _ (List.mem_map_of_mem h))
  have hadj : ∀ {r r' : List Nat}, r ∈ W.rows → r' ∈ V.rows → r'.map f = rightOf n0 r →
      ((∃ i : Nat, r[i]? = some (f a) ∧ r[i + 1]? = some (f b)) ↔ ∃ i : Nat, r'[i]? = some a ∧ r'[i + 1]? = some b) := by
    intro r r' hr hr' he
    have hs := split_at (h0 r hr)
    constructor
    · rintro ⟨i, h1, h2⟩
      have hi : (leftOf n0 r).length < i := by
        by_contra hc
        have hlt := (P.right_used S h0 ha).2
        rcases Nat.lt_or_ge i (leftOf n0 r).length with h3 | h3
        · rw [hs, List.getElem?_append_left (by omega)] at h1
          have := S.left_lt h0 hr (List.mem_of_getElem? h1)
          omega
        · rw [hs, List.getElem?_append_right (by omega), show i - (leftOf n0 r).length = 0 by omega] at h1
          simp only [List.getElem?_cons_zero, Option.some.injEq] at h1
          rw [← h1] at hlt
          omega
      obtain ⟨d, rfl⟩ : ∃ d, i = (leftOf n0 r).length + 1 + d := ⟨i - (leftOf n0 r).length - 1, by omega⟩
      rw [right_get (h0 r hr), ← he, List.getElem?_map] at h1
      rw [Nat.add_assoc _ d 1, right_get (h0 r hr), ← he, List.getElem?_map] at h2
      obtain ⟨k, hk, hf⟩ := Option.map_eq_some_iff.mp h1
      obtain ⟨k', hk', hf'⟩ := Option.map_eq_some_iff.mp h2
      obtain rfl := P.inj k' b ⟨r', hr', List.mem_of_getElem? hk'⟩ hb hf'
      obtain rfl := P.inj k a ⟨r', hr', List.mem_of_getElem? hk⟩ ha hf
      exact ⟨d, hk, hk'⟩
    · rintro ⟨i, h1, h2⟩
      refine ⟨(leftOf n0 r).length + 1 + i, ?_, ?_⟩
      · rw [right_get (h0 r hr), ← he, List.getElem?_map, h1]
        rfl
      · rw [Nat.add_assoc, right_get (h0 r hr), ← he, List.getElem?_map, h2]
        rfl
  rw [Bool.eq_iff_iff, glued_rows, glued_rows]
  constructor
  · intro h r hr
    obtain ⟨r', hr', he⟩ := P.from hr
    rw [hmem hr hr' he a ha, hmem hr hr' he b hb, hadj hr hr' he]
    exact h r' hr'
  · intro h r' hr'
    obtain ⟨r, hr, he⟩ := P.to hr'
    have := h r hr
    rwa [hmem hr hr' he.symm a ha, hmem hr hr' he.symm b hb, hadj hr hr' he.symm] at this

end

/-! ### The table of segments -/

section
variable {n0 : Nat} {a : List Nat} (S : Sound W) (hA : ∀ r ∈ W.rows, ∃ gl gr, Around W n0 a r gl gr)

include S in
theorem Around.sides {r : List Nat} {gl gr : List (List Nat)} (hr : r ∈ W.rows) (A : Around W n0 a r gl gr) :
    leftOf n0 r = gl.flatten ∧ rightOf ((n0 :: a).getLast (by simp)) r = gr.flatten ∧
    leftOf n0 ((r.splitBy W.glued).map Work.first) = gl.map Work.first ∧ rightOf n0 ((r.splitBy W.glued).map Work.first) = gr.map Work.first := by
  have hnd := S.nodup hr
  rw [A.flat, List.append_assoc] at hnd
  have h1 : n0 ∉ gl.flatten := fun h => (List.nodup_append.mp hnd).2.2 n0 h n0 (by simp) rfl
  have hne : [] ∉ gl := fun h => List.nil_notMem_splitBy W.glued r (by rw [A.split]; exact List.mem_append_left _ h)
  have h2 : n0 ∉ gl.map Work.first := by
    intro h
    obtain ⟨s, hs, rfl⟩ := List.mem_map.mp h
    exact h1 (List.mem_flatten.mpr ⟨s, hs, first_mem (fun h => hne (h ▸ hs))⟩)
  have h3 : (n0 :: a).getLast (by simp) ∉ gl.flatten ++ (n0 :: a).dropLast := by
    have e : r = (gl.flatten ++ (n0 :: a).dropLast) ++ (n0 :: a).getLast (by simp) :: gr.flatten := by
      conv => lhs; rw [A.flat]
      conv => lhs; rw [← List.dropLast_append_getLast (l := n0 :: a) (by simp)]
      simp
    have hnd := S.nodup hr
    rw [e] at hnd
    exact fun h => (List.nodup_append.mp hnd).2.2 _ h _ (by simp) rfl
  refine ⟨?_, ?_, ?_, ?_⟩
  · rw [A.flat, List.append_assoc]
    exact leftOf_append h1
  · have e : r = (gl.flatten ++ (n0 :: a).dropLast) ++ (n0 :: a).getLast (by simp) :: gr.flatten := by
      conv => lhs; rw [A.flat]
      conv => lhs; rw [← List.dropLast_append_getLast (l := n0 :: a) (by simp)]
      simp
    conv => lhs; rw [e]
    exact rightOf_append h3
  · rw [A.split, List.map_append]
    exact leftOf_append h2
  · rw [A.split, List.map_append]
    exact rightOf_append h2

theorem find?_congr_mem {α : Type} {p q : α → Bool} {l : List α} (h : ∀ x ∈ l, p x = q x) : l.find? p = l.find? q := by
  induction l with
  | nil => rfl
  | cons x l ih => rw [List.find?_cons, List.find?_cons, h x (by simp), ih (fun x hx => h x (by simp [hx]))]

theorem PartOf.segment_words {side : List Nat → List Nat} {f : Nat → Nat} (P : PartOf side W V f) {s : List Nat} (hs : ∀ n ∈ s, V.Used n) :
    (s.map f).filterMap (fun n => W.words[n]?) = s.filterMap (fun n => V.words[n]?) := by
  rw [List.filterMap_map]
  apply List.filterMap_congr
  intro n hn
  exact (P.words n (hs n hn)).symm

include hA

theorem around_heads : ∀ r ∈ W.heads.rows, n0 ∈ r := by
  intro r hr
  rw [heads_rows] at hr
  obtain ⟨r0, hr0, rfl⟩ := List.mem_map.mp hr
  obtain ⟨gl, gr, A⟩ := hA r0 hr0
  rw [A.split]
  simp [Work.first]

theorem around_mem : ∀ r ∈ W.rows, n0 ∈ r ∧ (n0 :: a).getLast (by simp) ∈ r := by
  intro r hr
  obtain ⟨gl, gr, A⟩ := hA r hr
  rw [A.flat]
  refine ⟨by simp, ?_⟩
  exact List.mem_append_left _ (List.mem_append_right _ (List.getLast_mem _))

include S

theorem PartOf.left_heads {f : Nat → Nat} (P : PartOf (leftOf n0) W V f) : PartOf (leftOf n0) W.heads V.heads f := by
  refine P.heads (P.left_glued S (fun r hr => (around_mem hA r hr).1)) ?_
  intro r hr
  obtain ⟨gl, gr, A⟩ := hA r hr
  obtain ⟨h1, _, h3, _⟩ := A.sides S hr
  rw [h1, h3, A.left]

theorem PartOf.right_heads {f : Nat → Nat} (P : PartOf (rightOf ((n0 :: a).getLast (by simp))) W V f) : PartOf (rightOf n0) W.heads V.heads f := by
  refine P.heads (P.right_glued S (fun r hr => (around_mem hA r hr).2)) ?_
  intro r hr
  obtain ⟨gl, gr, A⟩ := hA r hr
  obtain ⟨_, h2, _, h4⟩ := A.sides S hr
  rw [h2, h4, A.right]

/-- The table of segments on the left. -/
theorem PartOf.left_segmented {f : Nat → Nat} (P : PartOf (leftOf n0) W V f) (SH : Sound W.heads) (SV : Sound V.heads) (hn0 : W.heads.Used n0) :
    V.shownSegmented = W.shownSegmented.map (List.take V.heads.width) := by
  have hH := around_heads hA
  have PH := P.left_heads S hA
  have hg := P.left_glued S (fun r hr => (around_mem hA r hr).1)
  have hw := PH.left_width SH hH SV hn0
  have hle := (SH.column_le hn0).2
  have hne : W.heads.rows ≠ [] := by
    obtain ⟨r, hr, _⟩ := hn0
    exact List.ne_nil_of_mem hr
  unfold Work.shownSegmented Work.segments
  rw [List.map_map, List.map_map, List.map_map]
  refine map_eq_of_map_eq P.rows ?_
  intro r' hr' r hr he
  simp only [Function.comp]
  rw [← List.map_take, List.take_range, Nat.min_eq_left (by omega)]
  apply List.map_congr_left
  intro x hx
  rw [List.mem_range] at hx
  rw [PH.variantAt SH SV hne (x := x + 1) (y := x + 1) (fun r hr r' hr' he => PH.left_nodeAt SH hH SV hr hr' he (by omega))]
  congr 1
  obtain ⟨gl, gr, A⟩ := hA r hr
  obtain ⟨h1, _, h3, h4⟩ := A.sides S hr
  have hrow : (r.splitBy W.glued).map Work.first ∈ W.heads.rows := by rw [heads_rows]; exact List.mem_map_of_mem hr
  have hrow' : (r'.splitBy V.glued).map Work.first ∈ V.heads.rows := by rw [heads_rows]; exact List.mem_map_of_mem hr'
  have hgl : gl = (r'.splitBy V.glued).map (List.map f) := by
    rw [← segments_side hg hr' he, h1, A.left]
  have hused : ∀ s ∈ r'.splitBy V.glued, ∀ n ∈ s, V.Used n := by
    intro s hs n hn
    refine ⟨r', hr', ?_⟩
    rw [← List.flatten_splitBy V.glued r']
    exact List.mem_flatten.mpr ⟨s, hs, hn⟩
  have hfind : (r.splitBy W.glued).find? (fun s => decide (W.heads.column (Work.first s) = x + 1)) =
      ((r'.splitBy V.glued).find? (fun s => decide (V.heads.column (Work.first s) = x + 1))).map (List.map f) := by
    rw [A.split, List.find?_append]
    have hnone : ((n0 :: a) :: gr).find? (fun s => decide (W.heads.column (Work.first s) = x + 1)) = none := by
      rw [List.find?_eq_none]
      intro s hs
      rcases List.mem_cons.mp hs with rfl | hs
      · have : Work.first (n0 :: a) = n0 := rfl
        rw [this]
        simp only [decide_eq_true_eq]
        omega
      · have : Work.first s ∈ rightOf n0 ((r.splitBy W.glued).map Work.first) := by rw [h4]; exact List.mem_map_of_mem hs
        have := SH.right_gt hH hrow this
        simp only [decide_eq_true_eq]
        omega
    rw [hnone, Option.or_none, hgl, List.find?_map]
    congr 1
    apply find?_congr_mem
    intro s hs
    simp only [Function.comp]
    have hsne := List.ne_nil_of_mem_splitBy hs
    have hf : Work.first (s.map f) = f (Work.first s) := by
      cases s with
      | nil => exact absurd rfl hsne
      | cons y s => rfl
    rw [hf, PH.left_column SH hH _ ⟨_, hrow', List.mem_map_of_mem hs⟩]
  rw [hfind, Option.map_map]
  cases hk : (r'.splitBy V.glued).find? (fun s => decide (V.heads.column (Work.first s) = x + 1)) with
  | none => rfl
  | some s =>
    simp only [Option.map_some, Function.comp]
    rw [P.segment_words (hused s (List.mem_of_find?_eq_some hk))]

/-- The table of segments on the right. -/
theorem PartOf.right_segmented {f : Nat → Nat} (P : PartOf (rightOf ((n0 :: a).getLast (by simp))) W V f) (SH : Sound W.heads)
    (SV : Sound V.heads) (hn0 : W.heads.Used n0) : V.shownSegmented = W.shownSegmented.map (List.drop (W.heads.column n0)) := by
  have hH := around_heads hA
  have PH := P.right_heads S hA
  have hg := P.right_glued S (fun r hr => (around_mem hA r hr).2)
  have hw := PH.right_width SH hH SV hn0
  have hne : W.heads.rows ≠ [] := by
    obtain ⟨r, hr, _⟩ := hn0
    exact List.ne_nil_of_mem hr
  unfold Work.shownSegmented Work.segments
  rw [List.map_map, List.map_map, List.map_map]
  refine map_eq_of_map_eq P.rows ?_
  intro r' hr' r hr he
  simp only [Function.comp]
  rw [← List.map_drop, ← hw, List.range_add, List.drop_left' (by simp), List.map_map]
  apply List.map_congr_left
  intro x hx
  simp only [Function.comp]
  rw [PH.variantAt SH SV hne (x := W.heads.column n0 + x + 1) (y := x + 1)
    (fun r hr r' hr' he => PH.right_nodeAt SH hH SV hr hr' he (x := x + 1) (by omega))]
  congr 1
  obtain ⟨gl, gr, A⟩ := hA r hr
  obtain ⟨_, h2, h3, h4⟩ := A.sides S hr
  have hrow : (r.splitBy W.glued).map Work.first ∈ W.heads.rows := by rw [heads_rows]; exact List.mem_map_of_mem hr
  have hrow' : (r'.splitBy V.glued).map Work.first ∈ V.heads.rows := by rw [heads_rows]; exact List.mem_map_of_mem hr'
  have hgr : gr = (r'.splitBy V.glued).map (List.map f) := by
    rw [← segments_side hg hr' he, h2, A.right]
  have hused : ∀ s ∈ r'.splitBy V.glued, ∀ n ∈ s, V.Used n := by
    intro s hs n hn
    refine ⟨r', hr', ?_⟩
    rw [← List.flatten_splitBy V.glued r']
    exact List.mem_flatten.mpr ⟨s, hs, hn⟩
  have hfind : (r.splitBy W.glued).find? (fun s => decide (W.heads.column (Work.first s) = W.heads.column n0 + x + 1)) =
      ((r'.splitBy V.glued).find? (fun s => decide (V.heads.column (Work.first s) = x + 1))).map (List.map f) := by
    rw [A.split, List.find?_append, List.find?_cons]
    have hnone : gl.find? (fun s => decide (W.heads.column (Work.first s) = W.heads.column n0 + x + 1)) = none := by
      rw [List.find?_eq_none]
      intro s hs
      have : Work.first s ∈ leftOf n0 ((r.splitBy W.glued).map Work.first) := by rw [h3]; exact List.mem_map_of_mem hs
      have := SH.left_lt hH hrow this
      simp only [decide_eq_true_eq]
      omega
    have hself : decide (W.heads.column (Work.first (n0 :: a)) = W.heads.column n0 + x + 1) = false := by
      have : Work.first (n0 :: a) = n0 := rfl
      rw [this]
      simp only [decide_eq_false_iff_not]
      omega
    rw [hnone, hself, Option.none_or, hgr, List.find?_map]
    simp only
    congr 1
    apply find?_congr_mem
    intro s hs
    simp only [Function.comp]
    have hsne := List.ne_nil_of_mem_splitBy hs
    have hf : Work.first (s.map f) = f (Work.first s) := by
      cases s with
      | nil => exact absurd rfl hsne
      | cons y s => rfl
    rw [hf, ← PH.right_column SH hH _ ⟨_, hrow', List.mem_map_of_mem hs⟩, Nat.add_assoc]
    simp
  rw [hfind, Option.map_map]
  cases hk : (r'.splitBy V.glued).find? (fun s => decide (V.heads.column (Work.first s) = x + 1)) with
  | none => rfl
  | some s =>
    simp only [Option.map_some, Function.comp]
    rw [P.segment_words (hused s (List.mem_of_find?_eq_some hk))]

end

/-- The segments of a text, read off the table. -/
theorem Sound.segments_of_row (SH : Sound W.heads) {r : List Nat} (hr : r ∈ W.rows) :
    (List.range W.heads.width).filterMap (fun x => (r.splitBy W.glued).find? (fun s => decide (W.heads.column (Work.first s) = x + 1))) =
      r.splitBy W.glued := by
  have hrow : (r.splitBy W.glued).map Work.first ∈ W.heads.rows := by rw [heads_rows]; exact List.mem_map_of_mem hr
  have hp : (r.splitBy W.glued).Pairwise (fun a b => W.heads.column (Work.first a) < W.heads.column (Work.first b)) := by
    have := SH.rising hrow
    rwa [List.pairwise_map] at this
  have hat : ∀ {x : Nat} {s : List Nat}, (r.splitBy W.glued).find? (fun s => decide (W.heads.column (Work.first s) = x)) = some s →
      s ∈ r.splitBy W.glued ∧ W.heads.column (Work.first s) = x :=
    fun h => ⟨List.mem_of_find?_eq_some h, by simpa using List.find?_some h⟩
  have h1 : ((List.range W.heads.width).filterMap (fun x => (r.splitBy W.glued).find? (fun s => decide (W.heads.column (Work.first s) = x + 1)))).Pairwise
      (fun a b => W.heads.column (Work.first a) < W.heads.column (Work.first b)) := by
    rw [List.pairwise_filterMap]
    refine List.pairwise_lt_range.imp ?_
    intro x y hxy a ha b hb
    have := (hat ha).2
    have := (hat hb).2
    omega
  have : Std.Irrefl (fun a b : List Nat => W.heads.column (Work.first a) < W.heads.column (Work.first b)) := ⟨fun a => Nat.lt_irrefl _⟩
  have : Std.Antisymm (fun a b : List Nat => W.heads.column (Work.first a) < W.heads.column (Work.first b)) := ⟨fun a b h1 h2 => by omega⟩
  refine List.Pairwise.eq_of_mem_iff (r := fun a b => W.heads.column (Work.first a) < W.heads.column (Work.first b)) h1 hp ?_
  intro s
  rw [List.mem_filterMap]
  constructor
  · rintro ⟨x, _, hx⟩
    exact (hat hx).1
  · intro hs
    have hc := SH.column_le ⟨_, hrow, List.mem_map_of_mem hs⟩
    refine ⟨W.heads.column (Work.first s) - 1, List.mem_range.mpr (by omega), ?_⟩
    cases hf : (r.splitBy W.glued).find? (fun s' => decide (W.heads.column (Work.first s') = W.heads.column (Work.first s) - 1 + 1)) with
    | none =>
      have := List.find?_eq_none.mp hf s hs
      simp only [decide_eq_true_eq] at this
      omega
    | some s' =>
      obtain ⟨h2, h3⟩ := hat hf
      obtain ⟨i, hi⟩ := List.getElem?_of_mem hs
      obtain ⟨j, hj⟩ := List.getElem?_of_mem h2
      obtain ⟨q1, q2⟩ := List.getElem?_eq_some_iff.mp hi
      obtain ⟨q3, q4⟩ := List.getElem?_eq_some_iff.mp hj
      rcases Nat.lt_trichotomy i j with h4 | rfl | h4
      · have := List.pairwise_iff_getElem.mp hp i j q1 q3 h4
        rw [q2, q4] at this
        omega
      · rw [← q2, ← q4]
      · have := List.pairwise_iff_getElem.mp hp j i q3 q1 h4
        rw [q2, q4] at this
        omega

end

end CollateX
