import Verif.Model.Transpositions
import Verif.Proofs.Dict
import Mathlib.Data.List.Nodup
/-
The loop of `TranspositionDetector`.
-/

namespace CollateX

/-! ### Lists -/

theorem mapE_ok {α β : Type} {f : α → Py β} {g : α → β} : ∀ {l : List α}, (∀ a ∈ l, f a = .ok (g a)) → mapE f l = .ok (l.map g)
  | [], _ => rfl
  | a :: l, h => by
    unfold mapE
    rw [h a (by simp), bind_ok, mapE_ok (fun a ha => h a (by simp [ha])), bind_ok]
    rfl

theorem insertCmp_perm {α : Type} (cmp : α → α → Int) (x : α) : ∀ l : List α, (insertCmp cmp x l).Perm (x :: l)
  | [] => List.Perm.refl _
  | y :: l => by
    unfold insertCmp
    split
    · exact List.Perm.refl _
    · exact ((insertCmp_perm cmp x l).cons y).trans (List.Perm.swap x y l)

theorem sortCmp_perm {α : Type} (cmp : α → α → Int) : ∀ l : List α, (sortCmp cmp l).Perm l
  | [] => List.Perm.refl _
  | x :: l => (insertCmp_perm cmp x _).trans ((sortCmp_perm cmp l).cons x)

theorem insertCmp_sorted {α : Type} {cmp : α → α → Int} (tr : ∀ a b c, cmp a b ≤ 0 → cmp b c ≤ 0 → cmp a c ≤ 0)
    (tot : ∀ a b, cmp a b ≤ 0 ∨ cmp b a ≤ 0) (x : α) : ∀ l : List α, l.Pairwise (fun a b => cmp a b ≤ 0) →
    (insertCmp cmp x l).Pairwise (fun a b => cmp a b ≤ 0)
  | [], _ => List.pairwise_singleton _ _
  | y :: l, h => by
    obtain ⟨h1, h2⟩ := List.pairwise_cons.mp h
    unfold insertCmp
    split
    · rename_i hxy
      refine List.pairwise_cons.mpr ⟨?_, h⟩
      intro z hz
      rcases List.mem_cons.mp hz with rfl | hz
      · exact hxy
      · exact tr _ _ _ hxy (h1 z hz)
    · rename_i hxy
      refine List.pairwise_cons.mpr ⟨?_, insertCmp_sorted tr tot x l h2⟩
      intro z hz
      rcases List.mem_cons.mp ((insertCmp_perm cmp x l).mem_iff.mp hz) with rfl | hz
      · exact (tot y z).resolve_right hxy
      · exact h1 z hz

theorem sortCmp_sorted {α : Type} {cmp : α → α → Int} (tr : ∀ a b c, cmp a b ≤ 0 → cmp b c ≤ 0 → cmp a c ≤ 0)
    (tot : ∀ a b, cmp a b ≤ 0 ∨ cmp b a ≤ 0) : ∀ l : List α, (sortCmp cmp l).Pairwise (fun a b => cmp a b ≤ 0)
  | [] => List.Pairwise.nil
  | x :: l => insertCmp_sorted tr tot x _ (sortCmp_sorted tr tot l)

theorem pair_sublist {α : Type} : ∀ {l : List α} {i j : Nat} {x y : α}, l[i]? = some x → l[j]? = some y → i < j → [x, y].Sublist l
  | [], _, _, _, _, h, _, _ => by simp at h
  | a :: l, 0, j + 1, x, y, h1, h2, _ => by
    simp only [List.getElem?_cons_zero, Option.some.injEq] at h1
    rw [List.getElem?_cons_succ] at h2
    subst h1
    exact List.Sublist.cons_cons _ (List.singleton_sublist.mpr (List.mem_of_getElem? h2))
  | a :: l, i + 1, j + 1, x, y, h1, h2, h => by
    rw [List.getElem?_cons_succ] at h1 h2
    exact List.Sublist.cons _ (pair_sublist h1 h2 (by omega))

/-- Of two members, in the order in which they stand. -/
theorem idxOf_lt_of_pair {α : Type} [BEq α] [LawfulBEq α] : ∀ {l : List α} {x y : α}, l.Nodup → [x, y].Sublist l → l.idxOf x < l.idxOf y
  | [], _, _, _, h => by simp at h
  | a :: l, x, y, hnd, h => by
    rw [List.nodup_cons] at hnd
    cases h with
    | cons _ h =>
      have hx : x ∈ l := h.subset (by simp)
      have hy : y ∈ l := h.subset (by simp)
      rw [List.idxOf_cons_ne _ (by rintro rfl; exact hnd.1 hx), List.idxOf_cons_ne _ (by rintro rfl; exact hnd.1 hy)]
      have := idxOf_lt_of_pair hnd.2 h
      omega
    | cons_cons _ h =>
      have hy : y ∈ l := h.subset (by simp)
      rw [List.idxOf_cons_self, List.idxOf_cons_ne _ (by rintro rfl; exact hnd.1 hy)]
      omega

theorem erase_map_of_inj {α β : Type} [BEq α] [LawfulBEq α] [BEq β] [LawfulBEq β] {f : α → β} : ∀ {l : List α} {x : α}, x ∈ l →
    (∀ y ∈ l, f y = f x → y = x) → (l.map f).erase (f x) = (l.erase x).map f
  | [], _, h, _ => by cases h
  | a :: l, x, h, hinj => by
    classical
    by_cases hax : a = x
    · subst hax; simp
    · have hf : f a ≠ f x := fun he => hax (hinj a (by simp) he)
      have hx : x ∈ l := by
        rcases List.mem_cons.mp h with e | h
        · exact absurd e.symm hax
        · exact h
      rw [List.map_cons, List.erase_cons_tail (by simpa using hf), List.erase_cons_tail (by simpa using hax), List.map_cons,
        erase_map_of_inj hx (fun y hy => hinj y (by simp [hy]))]

/-- A number that is not crossed by another stands at its place. -/
theorem place_of_uncrossed {G A B : List Nat} {x : Nat} (hG : G.Pairwise (· < ·)) (hp : G.Perm (A ++ x :: B)) (hA : ∀ a ∈ A, a < x)
    (hB : ∀ b ∈ B, x < b) : G[A.length]? = some x := by
  have tr : ∀ a b c : Nat, decide (a ≤ b) = true → decide (b ≤ c) = true → decide (a ≤ c) = true := by
    intro a b c h1 h2
    simp only [decide_eq_true_eq] at *
    omega
  have tot : ∀ a b : Nat, (decide (a ≤ b) || decide (b ≤ a)) = true := by
    intro a b
    simp only [Bool.or_eq_true, decide_eq_true_eq]
    omega
  have sA := List.pairwise_mergeSort tr tot A
  have sB := List.pairwise_mergeSort tr tot B
  have pA := List.mergeSort_perm A (fun a b => decide (a ≤ b))
  have pB := List.mergeSort_perm B (fun a b => decide (a ≤ b))
  have hS : (A.mergeSort (fun a b => decide (a ≤ b)) ++ x :: B.mergeSort (fun a b => decide (a ≤ b))).Pairwise (· ≤ ·) := by
    refine List.pairwise_append.mpr ⟨sA.imp (by simp), List.pairwise_cons.mpr ⟨?_, sB.imp (by simp)⟩, ?_⟩
    · intro b hb
      exact Nat.le_of_lt (hB b (pB.mem_iff.mp hb))
    · intro a ha b hb
      have h1 := hA a (pA.mem_iff.mp ha)
      rcases List.mem_cons.mp hb with rfl | hb
      · omega
      · have := hB b (pB.mem_iff.mp hb)
        omega
  have hperm : G.Perm (A.mergeSort (fun a b => decide (a ≤ b)) ++ x :: B.mergeSort (fun a b => decide (a ≤ b))) :=
    hp.trans (pA.symm.append (pB.symm.cons x))
  have heq := hperm.eq_of_pairwise (le := (· ≤ ·)) (fun a b _ _ h1 h2 => Nat.le_antisymm h1 h2) (hG.imp (fun h => Nat.le_of_lt h)) hS
  rw [heq, ← pA.length_eq, List.getElem?_append_right (Nat.le_refl _)]
  simp

/-- A number that does not stand at its place is crossed by another. -/
theorem crossed_of_displaced {G W : List Nat} {i x : Nat} (hG : G.Pairwise (· < ·)) (hp : G.Perm W) (hx : W[i]? = some x)
    (hne : G[i]? ≠ some x) : ∃ (j y : Nat), W[j]? = some y ∧ ((i < j ∧ y < x) ∨ (j < i ∧ x < y)) := by
  by_contra hno
  have hnd : W.Nodup := hp.nodup_iff.mp (hG.imp (fun h => Nat.ne_of_lt h))
  obtain ⟨hi, he⟩ := List.getElem?_eq_some_iff.mp hx
  have hsplit : W = W.take i ++ x :: W.drop (i + 1) := by
    conv_lhs => rw [← List.take_append_drop i W]
    rw [List.drop_eq_getElem_cons hi, he]
  have hA : ∀ a ∈ W.take i, a < x := by
    intro a ha
    obtain ⟨j, hj⟩ := List.getElem?_of_mem ha
    have hji := (List.getElem?_eq_some_iff.mp hj).1
    rw [List.length_take] at hji
    rw [List.getElem?_take_of_lt (by omega)] at hj
    by_contra hge
    have hne2 : a ≠ x := by
      rintro rfl
      obtain ⟨h1, h2⟩ := List.getElem?_eq_some_iff.mp hj
      have := (hnd.getElem_inj_iff (hi := h1) (hj := hi)).mp (by rw [h2, he])
      omega
    exact hno ⟨j, a, hj, Or.inr ⟨by omega, by omega⟩⟩
  have hB : ∀ b ∈ W.drop (i + 1), x < b := by
    intro b hb
    obtain ⟨j, hj⟩ := List.getElem?_of_mem hb
    rw [List.getElem?_drop] at hj
    by_contra hge
    have hne2 : b ≠ x := by
      rintro rfl
      obtain ⟨h1, h2⟩ := List.getElem?_eq_some_iff.mp hj
      have := (hnd.getElem_inj_iff (hi := h1) (hj := hi)).mp (by rw [h2, he])
      omega
    exact hno ⟨_, b, hj, Or.inl ⟨by omega, by omega⟩⟩
  apply hne
  have := place_of_uncrossed hG (by rw [← hsplit]; exact hp) hA hB
  rw [List.length_take, Nat.min_eq_left (by omega)] at this
  exact this

/-! ### The dictionaries -/

section
variable {f : PhraseMatch → VId × Token}

theorem phraseIndex_ok : ∀ (l : List PhraseMatch) (i : Nat) (d : Dict (VId × Token) Nat), (∀ pm ∈ l, lgetE pm 0 = .ok (f pm)) →
    (l.map f).Nodup → ∃ d', phraseIndex l i d = .ok d' ∧ (∀ (j : Nat) pm, l[j]? = some pm → dget d' (f pm) = some (i + j)) ∧
      ∀ k, k ∉ l.map f → dget d' k = dget d k
  | [], i, d, _, _ => ⟨d, rfl, by simp, by simp⟩
  | pm :: l, i, d, hf, hnd => by
    rw [List.map_cons, List.nodup_cons] at hnd
    obtain ⟨d', h1, h2, h3⟩ := phraseIndex_ok l (i + 1) (dset d (f pm) i) (fun p hp => hf p (by simp [hp])) hnd.2
    refine ⟨d', ?_, ?_, ?_⟩
    · unfold phraseIndex
      rw [hf pm (by simp), bind_ok]
      exact h1
    · intro j p hp
      cases j with
      | zero =>
        simp only [List.getElem?_cons_zero, Option.some.injEq] at hp
        subst hp
        rw [h3 _ hnd.1, dget_dset_self]
        rfl
      | succ j =>
        rw [List.getElem?_cons_succ] at hp
        rw [h2 j p hp]
        congr 1
        omega
    · intro k hk
      rw [List.map_cons, List.mem_cons, not_or] at hk
      rw [h3 k hk.2, dget_dset_ne]
      exact fun h => hk.1 h.symm

theorem mem_dset_cases {K V : Type} [DecidableEq K] : ∀ {d : Dict K V} {k : K} {v : V} {q : K × V}, q ∈ dset d k v → q = (k, v) ∨ q ∈ d
  | [], k, v, q, h => by
    simp only [dset, List.mem_singleton] at h
    exact Or.inl h
  | (k', v') :: d, k, v, q, h => by
    simp only [dset] at h
    split at h
    · rename_i he
      rcases List.mem_cons.mp h with h | h
      · exact Or.inl (by rw [h, he])
      · exact Or.inr (by simp [h])
    · rcases List.mem_cons.mp h with h | h
      · exact Or.inr (by simp [h])
      · rcases mem_dset_cases h with h | h
        · exact Or.inl h
        · exact Or.inr (by simp [h])

/-- The distance at an index. -/
def distAt (G W : List Nat) (i : Nat) : Nat := (((G[i]?.getD 0 : Nat) : Int) - (W[i]?.getD 0 : Nat)).natAbs

theorem phraseDistances_ok (G W : List Nat) : ∀ (l : List PhraseMatch) (i : Nat) (d : Dict (VId × Token) Nat),
    (∀ pm ∈ l, lgetE pm 0 = .ok (f pm)) → (l.map f).Nodup → i + l.length ≤ G.length → i + l.length ≤ W.length →
    ∃ d', phraseDistances G W l i d = .ok d' ∧ (∀ (j : Nat) pm, l[j]? = some pm → dget d' (f pm) = some (distAt G W (i + j))) ∧
      (∀ k, k ∉ l.map f → dget d' k = dget d k) ∧ ∀ q ∈ d', q ∈ d ∨ ∃ (j : Nat) (pm : PhraseMatch), l[j]? = some pm ∧ q.2 = distAt G W (i + j)
  | [], i, d, _, _, _, _ => ⟨d, rfl, by simp, by simp, fun q hq => Or.inl hq⟩
  | pm :: l, i, d, hf, hnd, hG, hW => by
    rw [List.map_cons, List.nodup_cons] at hnd
    rw [List.length_cons] at hG hW
    obtain ⟨g, hg⟩ : ∃ g, G[i]? = some g := ⟨_, List.getElem?_eq_getElem (by omega)⟩
    obtain ⟨w, hw⟩ : ∃ w, W[i]? = some w := ⟨_, List.getElem?_eq_getElem (by omega)⟩
    have hd : ((g : Int) - w).natAbs = distAt G W i := by unfold distAt; rw [hg, hw]; rfl
    obtain ⟨d', h1, h2, h3, h4⟩ := phraseDistances_ok G W l (i + 1) (dset d (f pm) (distAt G W i)) (fun p hp => hf p (by simp [hp]))
      hnd.2 (by omega) (by omega)
    refine ⟨d', ?_, ?_, ?_, ?_⟩
    · unfold phraseDistances
      rw [lgetE_eq_ok.mpr hg, bind_ok, lgetE_eq_ok.mpr hw, bind_ok, hf pm (by simp), bind_ok, hd]
      exact h1
    · intro j p hp
      cases j with
      | zero =>
        simp only [List.getElem?_cons_zero, Option.some.injEq] at hp
        subst hp
        rw [h3 _ hnd.1, dget_dset_self]
        rfl
      | succ j =>
        rw [List.getElem?_cons_succ] at hp
        rw [h2 j p hp, show i + 1 + j = i + (j + 1) by omega]
    · intro k hk
      rw [List.map_cons, List.mem_cons, not_or] at hk
      rw [h3 k hk.2, dget_dset_ne]
      exact fun h => hk.1 h.symm
    · intro q hq
      rcases h4 q hq with h | ⟨j, p, hj, he⟩
      · rcases mem_dset_cases h with rfl | h
        · exact Or.inr ⟨0, pm, rfl, rfl⟩
        · exact Or.inl h
      · exact Or.inr ⟨j + 1, p, by simpa using hj, by rw [he, show i + 1 + j = i + (j + 1) by omega]⟩

theorem le_foldl_max : ∀ (l : List Nat) (m : Nat), m ≤ l.foldl max m ∧ ∀ x ∈ l, x ≤ l.foldl max m
  | [], m => ⟨Nat.le_refl _, by simp⟩
  | a :: l, m => by
    obtain ⟨h1, h2⟩ := le_foldl_max l (max m a)
    rw [List.foldl_cons]
    refine ⟨by omega, ?_⟩
    intro x hx
    rcases List.mem_cons.mp hx with rfl | hx
    · omega
    · exact h2 x hx

theorem foldl_max_mem : ∀ (l : List Nat) (m : Nat), l.foldl max m = m ∨ l.foldl max m ∈ l
  | [], m => Or.inl rfl
  | a :: l, m => by
    rw [List.foldl_cons]
    rcases foldl_max_mem l (max m a) with h | h
    · rw [h]
      rcases Nat.le_total m a with h1 | h1
      · rw [Nat.max_eq_right h1]; simp
      · rw [Nat.max_eq_left h1]; simp
    · exact Or.inr (by simp [h])

theorem compareDistances_le {a b : Nat × PhraseMatch} : compareDistances a b ≤ 0 ↔ b.1 < a.1 ∨ (a.1 = b.1 ∧ a.2.length ≤ b.2.length) := by
  unfold compareDistances
  simp only
  split <;> omega

theorem comparePhrases_le {a b : Nat × Nat × PhraseMatch} : comparePhrases a b ≤ 0 ↔ a.1 < b.1 ∨ (a.1 = b.1 ∧ a.2.1 ≤ b.2.1) := by
  unfold comparePhrases
  simp only
  split <;> omega

/-- The phrase that is removed has the greatest distance. -/
theorem farthest_ok {dist : Dict (VId × Token) Nat} {left : List PhraseMatch} {D : PhraseMatch → Nat} (hf : ∀ pm ∈ left, lgetE pm 0 = .ok (f pm))
    (hD : ∀ pm ∈ left, dget dist (f pm) = some (D pm)) (hne : left ≠ []) :
    ∃ pm ∈ left, farthest dist left = .ok pm ∧ ∀ y ∈ left, D y ≤ D pm := by
  have h1 : mapE (fun pm => do
      let first ← lgetE pm 0
      let d ← dgetE dist first
      Except.ok (d, pm)) left = .ok (left.map (fun pm => (D pm, pm))) := by
    apply mapE_ok
    intro pm hpm
    rw [hf pm hpm, bind_ok]
    unfold dgetE
    rw [hD pm hpm]
    rfl
  have hsort := sortCmp_sorted (cmp := compareDistances)
    (by
      intro a b c h1 h2
      rw [compareDistances_le] at *
      omega)
    (by
      intro a b
      rw [compareDistances_le, compareDistances_le]
      omega) (left.map (fun pm => (D pm, pm)))
  have hperm := sortCmp_perm compareDistances (left.map (fun pm => (D pm, pm)))
  obtain ⟨⟨k, l⟩, hkl⟩ : ∃ q : (Nat × PhraseMatch) × List (Nat × PhraseMatch), sortCmp compareDistances (left.map (fun pm => (D pm, pm))) = q.1 :: q.2 := by
    cases h : sortCmp compareDistances (left.map (fun pm => (D pm, pm))) with
    | nil =>
      rw [h] at hperm
      have := hperm.length_eq
      simp only [List.length_nil, List.length_map] at this
      exact absurd (List.length_eq_zero_iff.mp this.symm) hne
    | cons a l => exact ⟨(a, l), rfl⟩
  simp only at hkl
  rw [hkl] at hsort hperm
  have hkm : k ∈ left.map (fun pm => (D pm, pm)) := hperm.mem_iff.mp (by simp)
  obtain ⟨pm, hpm, rfl⟩ := List.mem_map.mp hkm
  refine ⟨pm, hpm, ?_, ?_⟩
  · unfold farthest
    rw [h1, bind_ok, hkl]
    rfl
  · intro y hy
    have hym : (D y, y) ∈ (D pm, pm) :: l := hperm.mem_iff.mpr (List.mem_map.mpr ⟨y, hy, rfl⟩)
    rcases List.mem_cons.mp hym with h | h
    · injection h with h _
      omega
    · have := (List.pairwise_cons.mp hsort).1 _ h
      rw [compareDistances_le] at this
      simp only at this
      omega

end

/-! ### The loop -/

section
variable {f : PhraseMatch → VId × Token} {r : PhraseMatch → Nat} {pms order : List PhraseMatch} {index : Dict (VId × Token) Nat}

/-- The phrase stands on different sides of another one in the witness and in the graph. -/
def CrossesIn (r : PhraseMatch → Nat) (pms : List PhraseMatch) (x : PhraseMatch) : Prop :=
  ∃ y, ([x, y].Sublist pms ∧ r y < r x) ∨ ([y, x].Sublist pms ∧ r x < r y)

/-- What the loop starts from. -/
structure TransOK (f : PhraseMatch → VId × Token) (r : PhraseMatch → Nat) (pms order : List PhraseMatch)
    (index : Dict (VId × Token) Nat) : Prop where
  first : ∀ pm ∈ pms, lgetE pm 0 = .ok (f pm)
  firsts : (pms.map f).Nodup
  perm : order.Perm pms
  sorted : order.Pairwise (fun x y => r x < r y ∨ (r x = r y ∧ pms.idxOf x < pms.idxOf y))
  index : ∀ pm ∈ pms, dget index (f pm) = some (order.idxOf pm)

theorem TransOK.nodup (T : TransOK f r pms order index) : pms.Nodup := List.Nodup.of_map f T.firsts

theorem TransOK.get (T : TransOK f r pms order index) {pm : PhraseMatch} (h : pm ∈ pms) : order[order.idxOf pm]? = some pm := by
  have hm := T.perm.mem_iff.mpr h
  rw [List.getElem?_eq_getElem (List.idxOf_lt_length_iff.mpr hm), List.getElem_idxOf]

theorem TransOK.inj (T : TransOK f r pms order index) {x y : PhraseMatch} (hx : x ∈ pms) (hy : y ∈ pms)
    (h : order.idxOf x = order.idxOf y) : x = y := by
  have h1 := T.get hx
  rw [h, T.get hy] at h1
  exact (Option.some.inj h1).symm

theorem TransOK.lt (T : TransOK f r pms order index) {x y : PhraseMatch} (hx : x ∈ pms) (hy : y ∈ pms)
    (h : order.idxOf x < order.idxOf y) : r x < r y ∨ (r x = r y ∧ pms.idxOf x < pms.idxOf y) := by
  obtain ⟨l1, e1⟩ := List.getElem?_eq_some_iff.mp (T.get hx)
  obtain ⟨l2, e2⟩ := List.getElem?_eq_some_iff.mp (T.get hy)
  have := List.pairwise_iff_getElem.mp T.sorted _ _ l1 l2 h
  rwa [e1, e2] at this

structure TransInv (r : PhraseMatch → Nat) (pms order : List PhraseMatch) (s : TransSt) : Prop where
  sub : s.left.Sublist pms
  wit : s.witnessIx = s.left.map order.idxOf
  sorted : s.graphIx.Pairwise (· < ·)
  perm : s.graphIx.Perm s.witnessIx
  all : (s.left ++ s.found).Perm pms
  cross : ∀ x ∈ s.found, CrossesIn r pms x

theorem TransInv.add (I : TransInv r pms order s) (T : TransOK f r pms order index) {pm : PhraseMatch} (hm : pm ∈ s.left)
    (hc : CrossesIn r pms pm) : ∃ s', addTransposition index s pm = .ok s' ∧ TransInv r pms order s' ∧ s'.left = s.left.erase pm := by
  have hp := I.sub.subset hm
  have hw : order.idxOf pm ∈ s.witnessIx := by rw [I.wit]; exact List.mem_map.mpr ⟨pm, hm, rfl⟩
  have hg : order.idxOf pm ∈ s.graphIx := I.perm.mem_iff.mpr hw
  refine ⟨⟨s.graphIx.erase (order.idxOf pm), s.witnessIx.erase (order.idxOf pm), s.left.erase pm, s.found ++ [pm]⟩, ?_, ?_, rfl⟩
  · unfold addTransposition
    have hdi : dgetE index (f pm) = .ok (order.idxOf pm) := by unfold dgetE; rw [T.index pm hp]
    rw [T.first pm hp, bind_ok, hdi, bind_ok]
    unfold removeE
    rw [if_pos hm, bind_ok, if_pos hg, bind_ok, if_pos hw, bind_ok]
  · refine ⟨(List.erase_sublist).trans I.sub, ?_, I.sorted.sublist List.erase_sublist, I.perm.erase _, ?_, ?_⟩
    · simp only
      rw [I.wit]
      exact erase_map_of_inj hm (fun y hy h => T.inj (I.sub.subset hy) hp h)
    · simp only
      refine List.Perm.trans ?_ I.all
      have h1 := (List.perm_cons_erase hm).symm
      have h2 : (s.left.erase pm ++ (s.found ++ [pm])).Perm (pm :: s.left.erase pm ++ s.found) := by
        rw [← List.append_assoc]
        exact List.perm_append_comm
      exact h2.trans (h1.append_right _)
    · intro x hx
      simp only at hx
      rcases List.mem_append.mp hx with hx | hx
      · exact I.cross x hx
      · rw [List.mem_singleton] at hx
        subst hx
        exact hc

/-- A phrase that is not at its place crosses another one. -/
theorem TransInv.crosses (I : TransInv r pms order s) (T : TransOK f r pms order index) {i : Nat} {pm : PhraseMatch} (hm : s.left[i]? = some pm)
    (hd : s.graphIx[i]? ≠ some (order.idxOf pm)) : CrossesIn r pms pm := by
  have hp := I.sub.subset (List.mem_of_getElem? hm)
  obtain ⟨j, y, hj, hc⟩ := crossed_of_displaced I.sorted I.perm (i := i) (x := order.idxOf pm) (by rw [I.wit, List.getElem?_map, hm]; rfl) hd
  rw [I.wit, List.getElem?_map] at hj
  obtain ⟨z, hz, rfl⟩ := Option.map_eq_some_iff.mp hj
  have hzp := I.sub.subset (List.mem_of_getElem? hz)
  refine ⟨z, ?_⟩
  rcases hc with ⟨h1, h2⟩ | ⟨h1, h2⟩
  · left
    have hs := (pair_sublist hm hz h1).trans I.sub
    refine ⟨hs, ?_⟩
    have := idxOf_lt_of_pair T.nodup hs
    rcases T.lt hzp hp h2 with h | h
    · exact h
    · omega
  · right
    have hs := (pair_sublist hz hm h1).trans I.sub
    refine ⟨hs, ?_⟩
    have := idxOf_lt_of_pair T.nodup hs
    rcases T.lt hp hzp h2 with h | h
    · exact h
    · omega

/-- One round. -/
theorem TransInv.round (I : TransInv r pms order s) (T : TransOK f r pms order index) :
    (transRound order index s = .ok none ∧ s.graphIx = s.witnessIx) ∨
      ∃ s', transRound order index s = .ok (some s') ∧ TransInv r pms order s' ∧ s'.left.length < s.left.length := by
  have hwl : s.witnessIx.length = s.left.length := by rw [I.wit, List.length_map]
  have hgl : s.graphIx.length = s.left.length := by rw [I.perm.length_eq, hwl]
  have hfl : ∀ pm ∈ s.left, lgetE pm 0 = .ok (f pm) := fun pm hpm => T.first pm (I.sub.subset hpm)
  obtain ⟨dist, hd1, hd2, _, hd4⟩ := phraseDistances_ok (f := f) s.graphIx s.witnessIx s.left 0 [] hfl
    (List.Nodup.sublist (I.sub.map f) T.firsts) (by omega) (by omega)
  have hat : ∀ (j : Nat) pm, s.left[j]? = some pm → ∃ g, s.graphIx[j]? = some g ∧ s.witnessIx[j]? = some (order.idxOf pm) ∧
      distAt s.graphIx s.witnessIx j = ((g : Int) - order.idxOf pm).natAbs := by
    intro j pm hj
    have hjl := (List.getElem?_eq_some_iff.mp hj).1
    obtain ⟨g, hg⟩ : ∃ g, s.graphIx[j]? = some g := ⟨_, List.getElem?_eq_getElem (by omega)⟩
    have hw : s.witnessIx[j]? = some (order.idxOf pm) := by rw [I.wit, List.getElem?_map, hj]; rfl
    refine ⟨g, hg, hw, ?_⟩
    unfold distAt
    rw [hg, hw]
    rfl
  by_cases hz : (dist.map Prod.snd).foldl max 0 = 0
  · left
    refine ⟨?_, ?_⟩
    · unfold transRound
      rw [hd1, bind_ok, if_pos hz]
    · apply List.ext_getElem?
      intro j
      by_cases hj : j < s.left.length
      · obtain ⟨g, h1, h2, h3⟩ := hat j _ (List.getElem?_eq_getElem hj)
        have h4 := hd2 j _ (List.getElem?_eq_getElem hj)
        rw [Nat.zero_add, h3] at h4
        have h5 := (le_foldl_max (dist.map Prod.snd) 0).2 _ (List.mem_map.mpr ⟨_, dget_mem h4, rfl⟩)
        rw [hz] at h5
        simp only at h5
        rw [h1, h2]
        congr 1
        omega
      · rw [List.getElem?_eq_none (by omega), List.getElem?_eq_none (by omega)]
  · right
    obtain ⟨j0, pm0, hj0, hpos0⟩ : ∃ (j : Nat) (pm : PhraseMatch), s.left[j]? = some pm ∧ 0 < distAt s.graphIx s.witnessIx j := by
      rcases foldl_max_mem (dist.map Prod.snd) 0 with h | h
      · exact absurd h hz
      · obtain ⟨q, hq, he⟩ := List.mem_map.mp h
        rcases hd4 q hq with h | ⟨j, pm, h1, h2⟩
        · cases h
        · refine ⟨j, pm, h1, ?_⟩
          rw [Nat.zero_add] at h2
          omega
    have hlnd : s.left.Nodup := T.nodup.sublist I.sub
    obtain ⟨pm, hpm, hfar, hmax⟩ := farthest_ok (f := f) (dist := dist) (left := s.left)
      (D := fun pm => distAt s.graphIx s.witnessIx (s.left.idxOf pm)) hfl (by
        intro pm hpm
        have := hd2 (s.left.idxOf pm) pm (by
          rw [List.getElem?_eq_getElem (List.idxOf_lt_length_iff.mpr hpm), List.getElem_idxOf])
        rwa [Nat.zero_add] at this) (by rintro h; rw [h] at hj0; simp at hj0)
    have hpp := I.sub.subset hpm
    obtain ⟨i, hi⟩ : ∃ i, i = s.left.idxOf pm := ⟨_, rfl⟩
    have hli : s.left[i]? = some pm := by
      rw [hi, List.getElem?_eq_getElem (List.idxOf_lt_length_iff.mpr hpm), List.getElem_idxOf]
    have hpos : 0 < distAt s.graphIx s.witnessIx i := by
      have h1 := hmax pm0 (List.mem_of_getElem? hj0)
      have h2 : s.left.idxOf pm0 = j0 := by
        obtain ⟨l, e⟩ := List.getElem?_eq_some_iff.mp hj0
        rw [← e, hlnd.idxOf_getElem]
      rw [h2, ← hi] at h1
      omega
    have hdpm := hd2 i pm hli
    rw [Nat.zero_add] at hdpm
    obtain ⟨g, hg1, hg2, hg3⟩ := hat i pm hli
    have hcross : CrossesIn r pms pm := I.crosses T hli (by
      intro h
      rw [hg1] at h
      have := Option.some.inj h
      omega)
    -- the phrase at its place
    have hgm : order.idxOf pm ∈ s.graphIx := I.perm.mem_iff.mpr (List.mem_of_getElem? hg2)
    obtain ⟨pos, hpos'⟩ : ∃ pos, pos = s.graphIx.idxOf (order.idxOf pm) := ⟨_, rfl⟩
    have hgpos : s.graphIx[pos]? = some (order.idxOf pm) := by
      rw [hpos', List.getElem?_eq_getElem (List.idxOf_lt_length_iff.mpr hgm), List.getElem_idxOf]
    have hposl := (List.getElem?_eq_some_iff.mp hgpos).1
    obtain ⟨y, hy⟩ : ∃ y, s.left[pos]? = some y := ⟨_, List.getElem?_eq_getElem (by omega)⟩
    have hym := List.mem_of_getElem? hy
    have hyp := I.sub.subset hym
    obtain ⟨g', hy1, hy2, hy3⟩ := hat pos y hy
    have hyx : y ≠ pm := by
      rintro rfl
      have : pos = i := by
        rw [hi]
        obtain ⟨l, e⟩ := List.getElem?_eq_some_iff.mp hy
        rw [← e, hlnd.idxOf_getElem]
      rw [this, hg1] at hgpos
      have := Option.some.inj hgpos
      omega
    have hdy := hd2 pos y hy
    rw [Nat.zero_add] at hdy
    obtain ⟨s', hs1, hs2, hs3⟩ := I.add T hpm hcross
    have hlen : s'.left.length < s.left.length := by
      rw [hs3, List.length_erase_of_mem hpm]
      have := List.length_pos_of_mem hpm
      omega
    have hdi : dgetE index (f pm) = .ok (order.idxOf pm) := by unfold dgetE; rw [T.index pm hpp]
    have hdp : dgetE dist (f pm) = .ok (distAt s.graphIx s.witnessIx i) := by unfold dgetE; rw [hdpm]
    have hdy' : dgetE dist (f y) = .ok (distAt s.graphIx s.witnessIx pos) := by unfold dgetE; rw [hdy]
    have hix : indexE s.graphIx (order.idxOf pm) = .ok pos := by unfold indexE; rw [if_pos hgm, hpos']
    have hbase : ∀ k : Py (Option TransSt), (if distAt s.graphIx s.witnessIx i = distAt s.graphIx s.witnessIx pos ∧
        distAt s.graphIx s.witnessIx i > 1 then (addTransposition index s' y).bind (fun s'' => .ok (some s'')) else .ok (some s')) = k →
        transRound order index s = k := by
      intro k hk
      unfold transRound
      rw [hd1, bind_ok, if_neg hz, hfar, bind_ok, hfl pm hpm, bind_ok, hdi, bind_ok, hix, bind_ok, lgetE_eq_ok.mpr hy2, bind_ok,
        lgetE_eq_ok.mpr (T.get hyp), bind_ok, hs1, bind_ok, hdp, bind_ok, T.first y hyp, bind_ok, hdy', bind_ok]
      exact hk
    by_cases hc : distAt s.graphIx s.witnessIx i = distAt s.graphIx s.witnessIx pos ∧ distAt s.graphIx s.witnessIx i > 1
    · have hcy : CrossesIn r pms y := I.crosses T hy (by
        intro h
        rw [hy1] at h
        have := Option.some.inj h
        omega)
      have hym' : y ∈ s'.left := by
        rw [hs3]
        exact (List.mem_erase_of_ne hyx).mpr hym
      obtain ⟨s'', ht1, ht2, ht3⟩ := hs2.add T hym' hcy
      refine ⟨s'', hbase _ (by rw [if_pos hc, ht1]; rfl), ht2, ?_⟩
      rw [ht3, List.length_erase_of_mem hym']
      omega
    · exact ⟨s', hbase _ (by rw [if_neg hc]), hs2, hlen⟩

/-- The loop. -/
theorem transLoop_ok (T : TransOK f r pms order index) : ∀ (n : Nat) (s : TransSt), TransInv r pms order s → s.left.length < n →
    ∃ s', transLoop order index n s = .ok s' ∧ TransInv r pms order s' ∧ s'.graphIx = s'.witnessIx
  | 0, _, _, h => by omega
  | n + 1, s, I, h => by
    unfold transLoop
    rcases I.round T with ⟨h1, h2⟩ | ⟨s', h1, h2, h3⟩
    · rw [h1, bind_ok]
      exact ⟨s, rfl, I, h2⟩
    · rw [h1, bind_ok]
      exact transLoop_ok T n s' h2 (by omega)

end

/-! ### What the loop starts from -/

theorem graphOrder_ok {f : PhraseMatch → VId × Token} {r : PhraseMatch → Nat} {rk : Ranking} {pms : List PhraseMatch}
    (hf : ∀ pm ∈ pms, lgetE pm 0 = .ok (f pm)) (hr : ∀ pm ∈ pms, dgetE rk.byVertex (f pm).1 = .ok (r pm)) (hnd : pms.Nodup) :
    ∃ order, graphOrder rk pms = .ok order ∧ order.Perm pms ∧
      order.Pairwise (fun x y => r x < r y ∨ (r x = r y ∧ pms.idxOf x < pms.idxOf y)) := by
  unfold graphOrder
  by_cases hl : pms.length ≤ 1
  · rw [if_pos hl]
    refine ⟨pms, rfl, List.Perm.refl _, ?_⟩
    match pms, hl with
    | [], _ => exact List.Pairwise.nil
    | [a], _ => exact List.pairwise_singleton _ _
  · rw [if_neg hl]
    have h1 : mapE (phraseKey rk pms) pms = .ok (pms.map (fun pm => (r pm, pms.idxOf pm, pm))) := by
      apply mapE_ok
      intro pm hpm
      unfold phraseKey
      rw [hf pm hpm, bind_ok, hr pm hpm, bind_ok]
    rw [h1, bind_ok]
    have hsort := sortCmp_sorted (cmp := comparePhrases)
      (by
        intro a b c h1 h2
        rw [comparePhrases_le] at *
        omega)
      (by
        intro a b
        rw [comparePhrases_le, comparePhrases_le]
        omega) (pms.map (fun pm => (r pm, pms.idxOf pm, pm)))
    have hperm := sortCmp_perm comparePhrases (pms.map (fun pm => (r pm, pms.idxOf pm, pm)))
    generalize sortCmp comparePhrases (pms.map (fun pm => (r pm, pms.idxOf pm, pm))) = keys at hsort hperm ⊢
    have hp : (keys.map (fun k => k.2.2)).Perm pms := by
      have := hperm.map (fun k : Nat × Nat × PhraseMatch => k.2.2)
      rw [List.map_map] at this
      have he : pms.map ((fun k : Nat × Nat × PhraseMatch => k.2.2) ∘ fun pm => (r pm, pms.idxOf pm, pm)) = pms := List.map_id _
      rwa [he] at this
    refine ⟨_, rfl, hp, ?_⟩
    have hnd' : (keys.map (fun k => k.2.2)).Nodup := hp.nodup_iff.mpr hnd
    rw [List.pairwise_map]
    rw [List.nodup_iff_pairwise_ne, List.pairwise_map] at hnd'
    refine (hsort.and hnd').imp_of_mem ?_
    intro a b ha hb ⟨h1, h2⟩
    obtain ⟨x, hx, rfl⟩ := List.mem_map.mp (hperm.mem_iff.mp ha)
    obtain ⟨y, hy, rfl⟩ := List.mem_map.mp (hperm.mem_iff.mp hb)
    rw [comparePhrases_le] at h1
    simp only at h1 h2 ⊢
    have : pms.idxOf x ≠ pms.idxOf y := by
      intro h
      apply h2
      have e1 := List.getElem_idxOf (List.idxOf_lt_length_iff.mpr hx)
      have e2 := List.getElem_idxOf (List.idxOf_lt_length_iff.mpr hy)
      rw [← e1, ← e2]
      congr 1
    omega

/-- The detector succeeds; what it leaves is in the order of the graph, and what it finds crosses another phrase. -/
theorem detect_ok {f : PhraseMatch → VId × Token} {r : PhraseMatch → Nat} {rk : Ranking} {pms : List PhraseMatch}
    (hf : ∀ pm ∈ pms, lgetE pm 0 = .ok (f pm)) (hr : ∀ pm ∈ pms, dgetE rk.byVertex (f pm).1 = .ok (r pm)) (hnd : (pms.map f).Nodup) :
    ∃ ts rest, detectTranspositions false rk pms = .ok ts ∧ rest.Sublist pms ∧ (rest ++ ts).Perm pms ∧
      rest.Pairwise (fun x y => r x ≤ r y) ∧ ∀ x ∈ ts, CrossesIn r pms x := by
  by_cases he : pms = []
  · subst he
    exact ⟨[], [], rfl, List.Sublist.refl _, List.Perm.refl _, List.Pairwise.nil, by simp⟩
  obtain ⟨order, h1, h2, h3⟩ := graphOrder_ok hf hr (List.Nodup.of_map f hnd)
  obtain ⟨index, h4, h5, _⟩ := phraseIndex_ok (f := f) order 0 [] (fun pm hpm => hf pm (h2.mem_iff.mp hpm))
    ((h2.map f).nodup_iff.mpr hnd)
  have T : TransOK f r pms order index := by
    refine ⟨hf, hnd, h2, h3, ?_⟩
    intro pm hpm
    have hm := h2.mem_iff.mpr hpm
    have := h5 (order.idxOf pm) pm (by rw [List.getElem?_eq_getElem (List.idxOf_lt_length_iff.mpr hm), List.getElem_idxOf])
    rwa [Nat.zero_add] at this
  have hw : mapE (fun pm => do
      let first ← lgetE pm 0
      dgetE index first) pms = .ok (pms.map order.idxOf) := by
    apply mapE_ok
    intro pm hpm
    rw [hf pm hpm, bind_ok]
    unfold dgetE
    rw [T.index pm hpm]
  have hp : (List.range pms.length).Perm (pms.map order.idxOf) := by
    have hm : order.map order.idxOf = List.range pms.length := by
      apply List.ext_getElem
      · rw [List.length_map, List.length_range, h2.length_eq]
      · intro i hi1 hi2
        rw [List.getElem_map, List.getElem_range, (h2.nodup_iff.mpr T.nodup).idxOf_getElem]
    rw [← hm]
    exact h2.map _
  obtain ⟨s, hs1, I, hs2⟩ := transLoop_ok T (pms.length + 1) ⟨List.range pms.length, pms.map order.idxOf, pms, []⟩
    ⟨List.Sublist.refl _, rfl, List.pairwise_lt_range, hp, by simp, by simp⟩ (by simp)
  refine ⟨s.found, s.left, ?_, I.sub, I.all, ?_, I.cross⟩
  · unfold detectTranspositions
    rw [if_neg he, if_neg (by simp), h1, bind_ok, h4, bind_ok, hw, bind_ok, hs1, bind_ok]
  · have hs := I.sorted
    rw [hs2, I.wit, List.pairwise_map] at hs
    refine hs.imp_of_mem ?_
    intro x y hx hy h
    rcases T.lt (I.sub.subset hx) (I.sub.subset hy) h with h | h <;> omega

end CollateX
