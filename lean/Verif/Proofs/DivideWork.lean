import Verif.Proofs.Divide
import Verif.Proofs.Passage
import Verif.Proofs.WorkSegments
/-
Texts collated one after the other that have a passage in common.
-/

namespace CollateX
open Spec

/-! ### Places -/

theorem passage_place {L X R : List Str} (hn : X.Nodup) (he : ∀ x ∈ X, x ∉ L ∧ x ∉ R) {d y : Nat} {x : Str} (hx : X[d]? = some x)
    (hy : (L ++ X ++ R)[y]? = some x) : y = L.length + d := by
  have hm := List.mem_of_getElem? hx
  obtain ⟨h1, h2⟩ := he x hm
  rcases Nat.lt_or_ge y (L ++ X).length with h | h
  · rw [List.getElem?_append_left h] at hy
    rcases Nat.lt_or_ge y L.length with h' | h'
    · rw [List.getElem?_append_left h'] at hy
      exact absurd (List.mem_of_getElem? hy) h1
    · rw [List.getElem?_append_right h'] at hy
      have := getElem_inj hn hx hy
      omega
  · rw [List.getElem?_append_right h] at hy
    exact absurd (List.mem_of_getElem? hy) h2

theorem passage_get {L X R : List Str} {d : Nat} (hd : d < X.length) : (L ++ X ++ R)[L.length + d]? = X[d]? := by
  rw [List.getElem?_append_left (by rw [List.length_append]; omega), List.getElem?_append_right (by omega)]
  congr 1
  omega

theorem mem_firstOf_of {key : Nat × Nat → Nat} : ∀ {l : List (Nat × Nat)} {p : Nat × Nat}, p ∈ l → (∀ q ∈ l, key q = key p → q = p) → p ∈ firstOf key l
  | q :: l, p, h, hu => by
    rw [mem_firstOf_cons]
    rcases List.mem_cons.mp h with rfl | h
    · exact Or.inl rfl
    · by_cases he : key p = key q
      · exact Or.inl (hu q (by simp) he.symm).symm
      · exact Or.inr ⟨mem_firstOf_of h (fun r hr => hu r (by simp [hr])), he⟩

theorem numbered_get : ∀ {l : List (Option Nat)} {k j n : Nat}, l[j]? = some (some n) → (Work.numbered k l)[j]? = some n
  | some a :: l, k, 0, n, h => by simpa [Work.numbered] using h
  | none :: l, k, 0, n, h => by simp at h
  | some a :: l, k, j + 1, n, h => by
    rw [Work.numbered]
    exact numbered_get (l := l) (by simpa using h)
  | none :: l, k, j + 1, n, h => by
    rw [Work.numbered]
    exact numbered_get (l := l) (by simpa using h)

/-! ### Columns -/

section
variable {W : Work} (S : Sound W)
include S

/-- No column before an occupied one is empty. -/
theorem Sound.attained {n : Nat} (hn : W.Used n) : ∀ c, 1 ≤ c → c ≤ W.column n → ∃ m, W.Used m ∧ W.column m = c := by
  have key : ∀ e n, W.Used n → W.column n ≤ e → ∀ c, 1 ≤ c → c ≤ W.column n → ∃ m, W.Used m ∧ W.column m = c := by
    intro e
    induction e with
    | zero => intro n _ h c h1 h2; omega
    | succ e ih =>
      intro n hn h c h1 h2
      rcases Nat.eq_or_lt_of_le h2 with rfl | h3
      · exact ⟨n, hn, rfl⟩
      · have hc := S.column n hn
        have hpos : 0 < Work.largest ((W.before n).map W.column) := by omega
        obtain ⟨m, hm, he⟩ := List.mem_map.mp (largest_mem hpos)
        exact ih m (used_of_before hm).1 (by omega) c h1 (by omega)
  exact key _ n hn (Nat.le_refl _)

/-- Some columns are no more than the nodes in them. -/
theorem Sound.columns_le {n lo hi : Nat} (hn : W.Used n) (hhi : hi ≤ W.column n) {l : List Nat}
    (h : ∀ m, W.Used m → lo < W.column m → W.column m ≤ hi → m ∈ l) : hi - lo ≤ l.length := by
  have hsub : List.range (hi - lo) ⊆ l.map (fun m => W.column m - (lo + 1)) := by
    intro c hc
    rw [List.mem_range] at hc
    obtain ⟨m, h1, h2⟩ := S.attained hn (lo + 1 + c) (by omega) (by omega)
    exact List.mem_map.mpr ⟨m, h m h1 (by omega) (by omega), by omega⟩
  have := (List.subperm_of_subset List.nodup_range hsub).length_le
  simpa using this

end

/-! ### The passage in the rows -/

/-- A row of nodes for a text that has the passage: the nodes have the words of the text, and those of the passage are numbered from `n0` on. -/
structure HasPassage (W : Work) (X : List Str) (n0 : Nat) (p : List Str × List Str) (r : List Nat) : Prop where
  reads : r.map (fun n => W.words[n]?) = (p.1 ++ X ++ p.2).map some
  nodes : ∀ d < X.length, r[p.1.length + d]? = some (n0 + d)

section
variable {W : Work} {X : List Str} {n0 : Nat} {p : List Str × List Str} {r : List Nat}

theorem HasPassage.word (h : HasPassage W X n0 p r) {i n : Nat} (hi : r[i]? = some n) : W.words[n]? = (p.1 ++ X ++ p.2)[i]? ∧
    i < (p.1 ++ X ++ p.2).length := by
  have h1 := congrArg (fun l => l[i]?) h.reads
  simp only [List.getElem?_map, hi, Option.map_some] at h1
  cases hg : (p.1 ++ X ++ p.2)[i]? with
  | none => rw [hg] at h1; cases h1
  | some s =>
    rw [hg] at h1
    simp only [Option.map_some, Option.some.injEq] at h1
    exact ⟨h1, (List.getElem?_eq_some_iff.mp hg).1⟩

theorem HasPassage.length (h : HasPassage W X n0 p r) : r.length = p.1.length + X.length + p.2.length := by
  have := congrArg List.length h.reads
  simpa [Nat.add_assoc] using this

theorem HasPassage.mem (h : HasPassage W X n0 p r) {d : Nat} (hd : d < X.length) : n0 + d ∈ r := List.mem_of_getElem? (h.nodes d hd)

end

section
variable {W : Work} {X : List Str} {n0 : Nat} {parts : List (List Str × List Str)} (S : Sound W) (hW : ∀ n < W.words.length, W.Used n)
  (hne : parts ≠ []) (hX : X ≠ []) (hn : X.Nodup) (he : ∀ p ∈ parts, ∀ x ∈ X, x ∉ p.1 ∧ x ∉ p.2)
  (F : List.Forall₂ (HasPassage W X n0) parts W.rows)

include F in
theorem row_part {r : List Nat} (hr : r ∈ W.rows) : ∃ p ∈ parts, HasPassage W X n0 p r := by
  obtain ⟨i, hi⟩ := List.getElem?_of_mem hr
  obtain ⟨h1, h2⟩ := List.getElem?_eq_some_iff.mp hi
  have hl := F.length_eq
  exact ⟨parts[i]'(by omega), List.getElem_mem _, by rw [← h2]; exact List.Forall₂.get F (by omega) h1⟩

include F hne in
theorem passage_used {d : Nat} (hd : d < X.length) : W.Used (n0 + d) := by
  have hl := F.length_eq
  have h0 : 0 < parts.length := List.length_pos_iff.mpr hne
  exact ⟨W.rows[0]'(by omega), List.getElem_mem _, HasPassage.mem (List.Forall₂.get F h0 (by omega)) hd⟩

include S F hne in
/-- The columns of the passage follow each other. -/
theorem passage_column : ∀ d, d < X.length → W.column (n0 + d) = W.column n0 + d
  | 0, _ => rfl
  | d + 1, hd => by
    have ih := passage_column d (by omega)
    have hu := passage_used hne F hd
    have h1 := S.column _ hu
    have hb : ∀ m, m ∈ W.before (n0 + (d + 1)) → m = n0 + d := by
      intro m hm
      obtain ⟨r, hr, i, h2, h3⟩ := mem_before.mp hm
      obtain ⟨p, _, hp⟩ := row_part F hr
      have h4 := getElem_inj (S.nodup hr) h3 (hp.nodes (d + 1) hd)
      have h5 := hp.nodes d (by omega)
      rw [show p.1.length + d = i by omega, h2] at h5
      exact Option.some.inj h5
    have hle : Work.largest ((W.before (n0 + (d + 1))).map W.column) ≤ W.column (n0 + d) := by
      apply largest_le
      intro x hx
      obtain ⟨m, hm, rfl⟩ := List.mem_map.mp hx
      rw [hb m hm]
    have hlt : W.column (n0 + d) < W.column (n0 + (d + 1)) := by
      obtain ⟨r, hr, hm⟩ := hu
      obtain ⟨p, _, hp⟩ := row_part F hr
      exact S.lt (mem_before.mpr ⟨r, hr, p.1.length + d, hp.nodes d (by omega), hp.nodes (d + 1) hd⟩)
    omega

include S F hW in
/-- A column of the passage has one node. -/
theorem passage_only {d n : Nat} (hd : d < X.length) (h1 : n < W.words.length) (h : W.column n = W.column (n0 + d)) : n = n0 + d := by
  obtain ⟨r, hr, hm⟩ := hW n h1
  obtain ⟨p, _, hp⟩ := row_part F hr
  exact S.same_row hr hm (hp.mem hd) h

/-- Places and columns. -/
theorem Sound.place_lt (S : Sound W) {r : List Nat} (hr : r ∈ W.rows) {i j m n : Nat} (hi : r[i]? = some m) (hj : r[j]? = some n)
    (h : W.column m < W.column n) : i < j := by
  obtain ⟨h1, rfl⟩ := List.getElem?_eq_some_iff.mp hi
  obtain ⟨h2, rfl⟩ := List.getElem?_eq_some_iff.mp hj
  by_contra hc
  rcases Nat.eq_or_lt_of_le (Nat.le_of_not_lt hc) with rfl | h3
  · omega
  · have := List.pairwise_iff_getElem.mp (S.rising hr) j i h2 h1 h3
    omega

include S hW hne hX hn he F in
theorem passage_divides {q : List Str × List Str} (hq : ∀ x ∈ X, x ∉ q.1 ∧ x ∉ q.2)
    (ha : ∀ p ∈ parts, (∀ s ∈ p.1, s ∉ q.2) ∧ ∀ s ∈ p.2, s ∉ q.1) :
    Divides (W.same (q.1 ++ X ++ q.2)) (W.column n0 - 1) q.1.length X.length := by
  have hpos : 0 < X.length := List.length_pos_iff.mpr hX
  have hc0 := (S.column_le (passage_used hne F (d := 0) hpos)).1
  rw [Nat.add_zero] at hc0
  have hcol : ∀ d < X.length, W.column (n0 + d) = W.column n0 - 1 + d + 1 := by
    intro d hd
    rw [passage_column S hne F d hd]
    omega
  have hword : ∀ d < X.length, W.words[n0 + d]? = X[d]? := by
    intro d hd
    obtain ⟨r, hr, _⟩ := passage_used hne F hd
    obtain ⟨p, _, hp⟩ := row_part F hr
    rw [(hp.word (hp.nodes d hd)).1, passage_get hd]
  have hplace : ∀ {d y : Nat} {x : Str}, X[d]? = some x → (q.1 ++ X ++ q.2)[y]? = some x → y = q.1.length + d := fun h1 h2 => passage_place hn hq h1 h2
  constructor
  · intro d hd
    rw [same_iff]
    refine ⟨X[d], n0 + d, by rw [passage_get hd]; exact List.getElem?_eq_getElem hd, mem_fits.mpr ⟨S.bound _ (passage_used hne F hd), hcol d hd, ?_⟩⟩
    rw [hword d hd]
    exact List.getElem?_eq_getElem hd
  · intro d hd y hy
    by_contra h
    obtain ⟨b, n, h1, h2⟩ := same_iff.mp (Bool.not_eq_false _ ▸ h)
    obtain ⟨h3, h4, h5⟩ := mem_fits.mp h2
    obtain rfl := passage_only S hW F hd h3 (h4.trans (hcol d hd).symm)
    rw [hword d hd] at h5
    exact hy (hplace h5 h1)
  · intro d hd x hx
    by_contra h
    obtain ⟨b, n, h1, h2⟩ := same_iff.mp (Bool.not_eq_false _ ▸ h)
    obtain ⟨h3, h4, h5⟩ := mem_fits.mp h2
    rw [passage_get hd] at h1
    obtain ⟨r, hr, hm⟩ := hW n h3
    obtain ⟨p, hp, hP⟩ := row_part F hr
    obtain ⟨i, hi⟩ := List.getElem?_of_mem hm
    have h6 := (hP.word hi).1
    rw [h5] at h6
    have h7 := passage_place hn (he p hp) h1 h6.symm
    rw [h7, hP.nodes d hd] at hi
    obtain rfl := Option.some.inj hi
    have := hcol d hd
    omega
  · intro x hx y hy
    by_contra h
    obtain ⟨b, n, h1, h2⟩ := same_iff.mp (Bool.not_eq_false _ ▸ h)
    obtain ⟨h3, h4, h5⟩ := mem_fits.mp h2
    obtain ⟨r, hr, hm⟩ := hW n h3
    obtain ⟨p, hp, hP⟩ := row_part F hr
    obtain ⟨i, hi⟩ := List.getElem?_of_mem hm
    have h6 := (hP.word hi).1
    have h7 := S.place_lt hr hi (hP.nodes 0 hpos) (by rw [Nat.add_zero]; omega)
    rw [h5, List.append_assoc, List.getElem?_append_left (by omega)] at h6
    rw [List.getElem?_append_right (by rw [List.length_append]; omega)] at h1
    exact (ha p hp).1 b (List.mem_of_getElem? h6.symm) (List.mem_of_getElem? h1)
  · intro x hx y hy
    by_contra h
    obtain ⟨b, n, h1, h2⟩ := same_iff.mp (Bool.not_eq_false _ ▸ h)
    obtain ⟨h3, h4, h5⟩ := mem_fits.mp h2
    obtain ⟨r, hr, hm⟩ := hW n h3
    obtain ⟨p, hp, hP⟩ := row_part F hr
    obtain ⟨i, hi⟩ := List.getElem?_of_mem hm
    have h6 := (hP.word hi).1
    have hl := hcol (X.length - 1) (by omega)
    have h7 := S.place_lt hr (hP.nodes (X.length - 1) (by omega)) hi (by omega)
    rw [h5, List.getElem?_append_right (by rw [List.length_append]; omega)] at h6
    rw [List.append_assoc, List.getElem?_append_left hy] at h1
    exact (ha p hp).2 b (List.mem_of_getElem? h6.symm) (List.mem_of_getElem? h1)

/-- The words of some parts. -/
theorem forall₂_sum {α β γ : Type} {R : α → β → Prop} {g : α → β → List γ} {h : α → Nat} {l : List α} {m : List β} (F : List.Forall₂ R l m)
    (hg : ∀ a b, R a b → (g a b).length = h a) : (List.zipWith g l m).flatten.length = (l.map h).sum := by
  induction F with
  | nil => rfl
  | cons h1 _ ih => simp [ih, hg _ _ h1]

theorem mem_zipWith_flatten {α β γ : Type} {R : α → β → Prop} {g : α → β → List γ} {l : List α} {m : List β} (F : List.Forall₂ R l m) {b : β}
    (hb : b ∈ m) {x : γ} (hx : ∀ a, R a b → x ∈ g a b) : x ∈ (List.zipWith g l m).flatten := by
  induction F with
  | nil => cases hb
  | cons h1 _ ih =>
    rw [List.zipWith_cons_cons, List.flatten_cons, List.mem_append]
    rcases List.mem_cons.mp hb with rfl | hb
    · exact Or.inl (hx _ h1)
    · exact Or.inr (ih hb)

include S hne hX F in
/-- There are no more columns before the passage than words, and no more columns after it. -/
theorem passage_widths : W.column n0 - 1 ≤ (parts.map (fun p => p.1.length)).sum ∧ X.length ≤ W.width - (W.column n0 - 1) ∧
    W.width - (W.column n0 - 1 + X.length) ≤ (parts.map (fun p => p.2.length)).sum := by
  have hpos : 0 < X.length := List.length_pos_iff.mpr hX
  have hu0 := passage_used hne F (d := 0) hpos
  rw [Nat.add_zero] at hu0
  have hc0 := (S.column_le hu0).1
  have hlast := passage_column S hne F (X.length - 1) (by omega)
  have hlw := (S.column_le (passage_used hne F (d := X.length - 1) (by omega))).2
  refine ⟨?_, by omega, ?_⟩
  · have := S.columns_le (lo := 0) (hi := W.column n0 - 1) hu0 (by omega) (l := (List.zipWith (fun p r => r.take p.1.length) parts W.rows).flatten) (by
      rintro m ⟨r, hr, hm⟩ _ h2
      refine mem_zipWith_flatten F hr (fun p hp => ?_)
      obtain ⟨i, hi⟩ := List.getElem?_of_mem hm
      have h3 := S.place_lt hr hi (hp.nodes 0 hpos) (by rw [Nat.add_zero]; omega)
      refine List.mem_of_getElem? (i := i) ?_
      rw [List.getElem?_take_of_lt (by omega), hi])
    rw [forall₂_sum F (h := fun p => p.1.length)] at this
    · omega
    · intro p r hp
      rw [List.length_take, hp.length]
      omega
  · rcases Nat.eq_zero_or_pos (W.width - (W.column n0 - 1 + X.length)) with h0 | h0
    · omega
    obtain ⟨n, hn', hw⟩ := S.width_attained (by omega)
    have := S.columns_le (lo := W.column n0 - 1 + X.length) (hi := W.width) hn' (by omega)
      (l := (List.zipWith (fun p r => r.drop (p.1.length + X.length)) parts W.rows).flatten) (by
      rintro m ⟨r, hr, hm⟩ h1 _
      refine mem_zipWith_flatten F hr (fun p hp => ?_)
      obtain ⟨i, hi⟩ := List.getElem?_of_mem hm
      have h3 := S.place_lt hr (hp.nodes (X.length - 1) (by omega)) hi (by omega)
      refine List.mem_of_getElem? (i := i - (p.1.length + X.length)) ?_
      rw [List.getElem?_drop, show p.1.length + X.length + (i - (p.1.length + X.length)) = i by omega, hi])
    rw [forall₂_sum F (h := fun p => p.2.length)] at this
    · omega
    · intro p r hp
      rw [List.length_drop, hp.length]
      omega

include S hW hne hX hn he F in
/-- A further text with the passage is linked to it. -/
theorem passage_attached {q : List Str × List Str} (hq : ∀ x ∈ X, x ∉ q.1 ∧ x ∉ q.2)
    (ha : ∀ p ∈ parts, (∀ s ∈ p.1, s ∉ q.2) ∧ ∀ s ∈ p.2, s ∉ q.1)
    (hl1 : min (parts.map (fun p => p.1.length)).sum q.2.length < 2 * X.length)
    (hl2 : min (parts.map (fun p => p.2.length)).sum q.1.length < 2 * X.length) {d : Nat} (hd : d < X.length) :
    (W.nodesFor (q.1 ++ X ++ q.2) (W.firstFit (q.1 ++ X ++ q.2)))[q.1.length + d]? = some (some (n0 + d)) := by
  have hpos : 0 < X.length := List.length_pos_iff.mpr hX
  have D := passage_divides S hW hne hX hn he F hq ha
  obtain ⟨w1, w2, w3⟩ := passage_widths S hne hX F
  set B := q.1 ++ X ++ q.2 with hB
  set a := W.column n0 - 1 with hadef
  have hu0 := passage_used hne F (d := 0) hpos
  rw [Nat.add_zero] at hu0
  have hc0 := (S.column_le hu0).1
  have hlen : B.length = q.1.length + X.length + q.2.length := by rw [hB, List.length_append, List.length_append]
  have hthr := D.through hpos (W.width - (a + X.length)) q.2.length (by omega) (by omega)
  rw [show a + X.length + (W.width - (a + X.length)) = W.width by omega, ← hlen] at hthr
  have hmem : (a + d, q.1.length + d) ∈ (aligned (W.same B) W.width B.length).2 := by
    rw [hthr]
    refine List.mem_append_right _ (List.mem_append_left _ (List.mem_map.mpr ⟨(d, d), ?_, rfl⟩))
    simp [hd]
  have hBd : B[q.1.length + d]? = some X[d] := by rw [hB, passage_get hd]; exact List.getElem?_eq_getElem hd
  have hpick : W.firstFit B (a + d, q.1.length + d) = n0 + d := by
    obtain ⟨h1, h2, _⟩ := mem_fits.mp (firstFit_mem hBd (D.block d hd))
    refine passage_only S hW F hd h1 ?_
    rw [h2, passage_column S hne F d hd]
    omega
  have huniq : ∀ p ∈ (aligned (W.same B) W.width B.length).2, p.2 = q.1.length + d → p = (a + d, q.1.length + d) := by
    rintro ⟨x, y⟩ hp hy
    simp only at hy
    subst hy
    have hs := aligned_same _ _ _ _ hp
    by_contra hne'
    have := D.second d hd x (fun h => hne' (by rw [h]))
    simp only at hs
    rw [hs] at this
    cases this
  have hlinks : (a + d, q.1.length + d) ∈ W.links B (W.firstFit B) := by
    refine mem_firstOf_of hmem ?_
    rintro ⟨x, y⟩ hp hk
    refine huniq _ hp ?_
    rw [hpick] at hk
    have hs := aligned_same _ _ _ _ hp
    simp only at hs
    obtain ⟨b, _, hb, _⟩ := same_iff.mp hs
    obtain ⟨_, _, h3⟩ := mem_fits.mp (firstFit_mem hb hs)
    rw [hk] at h3
    have h4 := (mem_fits.mp (firstFit_mem hBd (D.block d hd))).2.2
    rw [hpick, h3] at h4
    obtain rfl := Option.some.inj h4
    exact passage_place hn hq (List.getElem?_eq_getElem hd) hb
  unfold Work.nodesFor
  rw [List.getElem?_map, List.getElem?_range (by omega), Option.map_some]
  cases hf : (W.links B (W.firstFit B)).find? (fun p => decide (p.2 = q.1.length + d)) with
  | none => exact absurd (List.find?_eq_none.mp hf _ hlinks) (by simp)
  | some p =>
    have h1 := huniq p (mem_links (List.mem_of_find?_eq_some hf)).1 (by simpa using List.find?_some hf)
    rw [Option.map_some, h1, hpick]

end

/-! ### All texts -/

/-- A passage that the texts have in common: its words are distinct and occur in no other place, and no word before it in one text occurs after it
in another. -/
structure Spec.SharedPassage (X : List Str) (parts : List (List Str × List Str)) : Prop where
  ne : X ≠ []
  distinct : X.Nodup
  elsewhere : ∀ p ∈ parts, ∀ x ∈ X, x ∉ p.1 ∧ x ∉ p.2
  apart : parts.Pairwise (fun p q => (∀ s ∈ p.1, s ∉ q.2) ∧ ∀ s ∈ p.2, s ∉ q.1)

/-- The passage is more than half as long as what a text has after it or else the earlier texts together before it, and the other way round. -/
def Spec.LongEnough (X : List Str) (parts : List (List Str × List Str)) : Prop :=
  ∀ (earlier : List (List Str × List Str)) (q : List Str × List Str), earlier ≠ [] → earlier ++ [q] <+: parts →
    min (earlier.map (fun p => p.1.length)).sum q.2.length < 2 * X.length ∧
    min (earlier.map (fun p => p.2.length)).sum q.1.length < 2 * X.length

/-- The text with the passage between two parts. -/
def Spec.around (X : List Str) (p : List Str × List Str) : List Str := p.1 ++ X ++ p.2

theorem workOf_passage {X : List Str} (parts : List (List Str × List Str)) (hne : parts ≠ [])
    (S : ∀ k < parts.length, Sound (workOf ((parts.map (around X)).take (k + 1))))
    (hW : ∀ k < parts.length, ∀ n < (workOf ((parts.map (around X)).take (k + 1))).words.length, (workOf ((parts.map (around X)).take (k + 1))).Used n)
    (hs : SharedPassage X parts) (hl : LongEnough X parts) :
    ∃ n0, List.Forall₂ (HasPassage (workOf (parts.map (around X))) X n0) parts (workOf (parts.map (around X))).rows := by
  induction parts using List.reverseRecOn with
  | nil => exact absurd rfl hne
  | append_singleton parts q ih =>
    cases parts with
    | nil =>
      refine ⟨q.1.length, ?_⟩
      simp only [List.nil_append, List.map_cons, List.map_nil]
      rw [workOf_single]
      refine List.Forall₂.cons ⟨?_, ?_⟩ List.Forall₂.nil
      · apply List.ext_getElem?
        intro i
        rcases Nat.lt_or_ge i (around X q).length with hi | hi
        · rw [List.getElem?_map, List.getElem?_range hi, Option.map_some, List.getElem?_map]
          change some ((around X q)[i]?) = Option.map some (around X q)[i]?
          rw [List.getElem?_eq_getElem hi]
          rfl
        · rw [List.getElem?_eq_none (by simpa using hi), List.getElem?_eq_none (by rw [List.length_map]; exact hi)]
      · intro d hd
        rw [List.getElem?_range]
        unfold around
        rw [List.length_append, List.length_append]
        omega
    | cons p0 ps =>
      have htake : ∀ k, k ≤ (p0 :: ps).length → (((p0 :: ps) ++ [q]).map (around X)).take k = ((p0 :: ps).map (around X)).take k := by
        intro k hk
        rw [List.map_append]
        exact List.take_append_of_le_length (by rw [List.length_map]; exact hk)
      have hap := List.pairwise_append.mp hs.apart
      obtain ⟨n0, F⟩ := ih (by simp)
        (fun k hk => by have := S k (by rw [List.length_append]; omega); rwa [htake _ (by omega)] at this)
        (fun k hk => by have := hW k (by rw [List.length_append]; omega); rwa [htake _ (by omega)] at this)
        ⟨hs.ne, hs.distinct, fun p hp => hs.elsewhere p (by simp only [List.mem_append]; exact Or.inl hp), hap.1⟩
        (fun e r h1 h2 => hl e r h1 (h2.trans (List.prefix_append _ _)))
      have ht : (((p0 :: ps) ++ [q]).map (around X)).take (ps.length + 1) = (p0 :: ps).map (around X) := by
        rw [htake _ (by simp)]
        exact List.take_of_length_le (by simp)
      have hS := S ps.length (by simp; omega)
      have hWc := hW ps.length (by simp; omega)
      rw [ht] at hS hWc
      refine ⟨n0, ?_⟩
      obtain ⟨l1, l2⟩ := hl (p0 :: ps) q (by simp) List.prefix_rfl
      have hlink := fun {d : Nat} (hd : d < X.length) => passage_attached hS hWc (by simp) hs.ne hs.distinct
        (fun p hp => hs.elsewhere p (List.mem_append_left _ hp)) F (q := q) (hs.elsewhere q (by simp)) (fun p hp => hap.2.2 p hp q (by simp)) l1 l2 hd
      have hreads := workOf_reads (((p0 :: ps) ++ [q]).map (around X))
      rw [List.map_append, List.map_singleton, workOf_snoc] at hreads ⊢
      generalize workOf ((p0 :: ps).map (around X)) = W at *
      have hB : around X q = q.1 ++ X ++ q.2 := rfl
      rw [← hB] at hlink
      unfold Work.add at hreads ⊢
      simp only [List.map_append, List.map_singleton] at hreads
      obtain ⟨hr1, hr2⟩ := List.append_inj hreads (by rw [List.length_map, List.length_map, List.length_map]; exact F.length_eq.symm)
      refine List.rel_append ?_ (List.Forall₂.cons ⟨?_, ?_⟩ List.Forall₂.nil)
      · refine List.forall₂_iff_get.mpr ⟨F.length_eq, fun i h1 h2 => ?_⟩
        have hF := List.Forall₂.get F h1 h2
        refine ⟨?_, hF.nodes⟩
        have := congrArg (fun l => l[i]?) hr1
        simp only [List.getElem?_map, List.getElem?_eq_getElem h2, List.getElem?_eq_getElem h1, Option.map_some, Option.some.injEq] at this
        exact this
      · exact (List.cons.inj hr2).1
      · intro d hd
        exact numbered_get (hlink hd)

end CollateX
