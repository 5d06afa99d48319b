import Verif.Proofs.WorkParts
/-
Collating a further text, cut at a node that stands in every text.
-/

namespace CollateX
open Spec

/-! ### Numbering new words -/

/-- The words that are not linked. -/
def newOf (l : List (Option Nat)) (B : List Str) : List Str := (l.zip B).filterMap (fun p => if p.1 = none then some p.2 else none)

theorem newOf_append {l m : List (Option Nat)} {B C : List Str} (h : l.length = B.length) : newOf (l ++ m) (B ++ C) = newOf l B ++ newOf m C := by
  unfold newOf
  rw [List.zip_append h, List.filterMap_append]

theorem newOf_length : ∀ {l : List (Option Nat)} {B : List Str}, l.length = B.length → (newOf l B).length = l.count none
  | [], [], _ => rfl
  | o :: l, b :: B, h => by
    have ih := newOf_length (l := l) (B := B) (by simpa using h)
    unfold newOf at ih ⊢
    cases o with
    | none => simp [ih]
    | some n => simp [ih]

theorem newOf_map {l : List (Option Nat)} {B : List Str} (f : Nat → Nat) : newOf (l.map (Option.map f)) B = newOf l B := by
  unfold newOf
  rw [List.zip_map_left, List.filterMap_map]
  apply List.filterMap_congr
  intro p _
  cases h : p.1 <;> simp [h]

theorem numbered_append : ∀ {l m : List (Option Nat)} {k : Nat},
    Work.numbered k (l ++ m) = Work.numbered k l ++ Work.numbered (k + l.count none) m
  | [], m, k => by simp [Work.numbered]
  | some n :: l, m, k => by
    rw [List.cons_append, Work.numbered, Work.numbered, numbered_append]
    simp
  | none :: l, m, k => by
    rw [List.cons_append, Work.numbered, Work.numbered, numbered_append]
    simp only [List.count_cons_self, List.cons_append]
    rw [show k + 1 + l.count none = k + (l.count none + 1) by omega]

theorem numbered_length : ∀ {l : List (Option Nat)} {k : Nat}, (Work.numbered k l).length = l.length
  | [], _ => rfl
  | some n :: l, k => by rw [Work.numbered, List.length_cons, numbered_length, List.length_cons]
  | none :: l, k => by rw [Work.numbered, List.length_cons, numbered_length, List.length_cons]

theorem mem_numbered : ∀ {l : List (Option Nat)} {k n : Nat}, n ∈ Work.numbered k l ↔ some n ∈ l ∨ (k ≤ n ∧ n < k + l.count none)
  | [], k, n => by simp [Work.numbered]
  | some a :: l, k, n => by
    rw [Work.numbered, List.mem_cons, mem_numbered, List.mem_cons, List.count_cons_of_ne (by simp)]
    simp only [Option.some.injEq]
    tauto
  | none :: l, k, n => by
    rw [Work.numbered, List.mem_cons, mem_numbered, List.mem_cons, List.count_cons_self]
    simp only [reduceCtorEq, false_or]
    constructor
    · rintro (rfl | h | h)
      · right; omega
      · exact Or.inl h
      · right; omega
    · rintro (h | h)
      · exact Or.inr (Or.inl h)
      · rcases Nat.eq_or_lt_of_le h.1 with e | e
        · exact Or.inl e.symm
        · right; right; omega

theorem numbered_map {f g : Nat → Nat} : ∀ {l : List (Option Nat)} {k k' : Nat}, (∀ n, some n ∈ l → g n = f n) → (∀ i < l.count none, g (k + i) = k' + i) →
    (Work.numbered k l).map g = Work.numbered k' (l.map (Option.map f))
  | [], _, _, _, _ => rfl
  | some a :: l, k, k', h1, h2 => by
    rw [Work.numbered, List.map_cons, List.map_cons, Option.map_some, Work.numbered, h1 a (by simp),
      numbered_map (fun n hn => h1 n (by simp [hn])) (fun i hi => h2 i (by simpa using hi))]
  | none :: l, k, k', h1, h2 => by
    rw [Work.numbered, List.map_cons, List.map_cons, Option.map_none, Work.numbered,
      numbered_map (k' := k' + 1) (fun n hn => h1 n (by simp [hn])) (fun i hi => by
        have := h2 (i + 1) (by simpa using hi)
        rw [show k + 1 + i = k + (i + 1) by omega, this]
        omega)]
    have := h2 0 (by simp)
    rw [Nat.add_zero, Nat.add_zero] at this
    rw [this]

/-- The nodes of a further text have its words. -/
theorem numbered_reads {base : List Str} : ∀ {l : List (Option Nat)} {B pre : List Str}, l.length = B.length → base <+: pre →
    (∀ (j n : Nat), l[j]? = some (some n) → ∃ b, B[j]? = some b ∧ base[n]? = some b) →
      (Work.numbered pre.length l).map (fun n => (pre ++ newOf l B)[n]?) = B.map some
  | [], [], _, _, _, _ => rfl
  | some a :: l, b :: B, pre, hl, hp, h => by
    have hnew : newOf (some a :: l) (b :: B) = newOf l B := by simp [newOf]
    rw [Work.numbered, List.map_cons, List.map_cons, hnew]
    congr 1
    · obtain ⟨b', h1, h2⟩ := h 0 a rfl
      obtain rfl : b = b' := by simpa using h1
      obtain ⟨q, rfl⟩ := hp
      have hlt := (List.getElem?_eq_some_iff.mp h2).1
      rw [List.append_assoc, List.getElem?_append_left hlt, h2]
    · exact numbered_reads (by simpa using hl) hp (fun j n hj => by
        obtain ⟨b', h1, h2⟩ := h (j + 1) n hj
        exact ⟨b', by simpa using h1, h2⟩)
  | none :: l, b :: B, pre, hl, hp, h => by
    have hnew : newOf (none :: l) (b :: B) = b :: newOf l B := by simp [newOf]
    rw [Work.numbered, List.map_cons, List.map_cons, hnew]
    congr 1
    · rw [List.getElem?_append_right (le_refl _), Nat.sub_self]
      rfl
    · have := numbered_reads (base := base) (l := l) (B := B) (pre := pre ++ [b]) (by simpa using hl) (hp.trans (List.prefix_append _ _))
        (fun j n hj => by
          obtain ⟨b', h1, h2⟩ := h (j + 1) n hj
          exact ⟨b', by simpa using h1, h2⟩)
      rw [List.length_append, List.length_singleton] at this
      simpa using this

/-! ### One side of a further text -/

/-- New nodes are numbered from the end. -/
def stretched (f : Nat → Nat) (N M : Nat) (n : Nat) : Nat := if n < N then f n else M + (n - N)

theorem PartOf.extend {side : List Nat → List Nat} {W V : Work} {f : Nat → Nat} (P : PartOf side W V f) (hW : ∀ n, V.Used n → f n < W.words.length)
    (hcov : ∀ n < V.words.length, V.Used n) {l : List (Option Nat)} {B : List Str} (hl : l.length = B.length)
    (hlV : ∀ n, some n ∈ l → n < V.words.length) (pre post : List Str) {row : List Nat}
    (hrow : side row = Work.numbered (W.words.length + pre.length) (l.map (Option.map f))) :
    PartOf side ⟨W.words ++ (pre ++ (newOf l B ++ post)), W.rows ++ [row]⟩ ⟨V.words ++ newOf l B, V.rows ++ [Work.numbered V.words.length l]⟩
      (stretched f V.words.length (W.words.length + pre.length)) ∧
    (∀ n < (V.words ++ newOf l B).length, Work.Used ⟨V.words ++ newOf l B, V.rows ++ [Work.numbered V.words.length l]⟩ n) := by
  have hused : ∀ n, Work.Used ⟨V.words ++ newOf l B, V.rows ++ [Work.numbered V.words.length l]⟩ n ↔ n < (V.words ++ newOf l B).length := by
    intro n
    rw [List.length_append, newOf_length hl]
    constructor
    · rintro ⟨r, hr, hn⟩
      rcases List.mem_append.mp hr with h | h
      · have := P.bound n ⟨r, h, hn⟩
        omega
      · rw [List.mem_singleton] at h
        rw [h] at hn
        rcases mem_numbered.mp hn with h1 | h1
        · have := hlV n h1
          omega
        · omega
    · intro hn
      by_cases h : n < V.words.length
      · obtain ⟨r, hr, hm⟩ := hcov n h
        exact ⟨r, List.mem_append_left _ hr, hm⟩
      · exact ⟨_, List.mem_append_right _ (List.mem_singleton.mpr rfl), mem_numbered.mpr (Or.inr (by omega))⟩
  refine ⟨⟨?_, fun n hn => (hused n).mp hn, ?_, ?_⟩, fun n hn => (hused n).mpr hn⟩
  · rw [List.map_append, List.map_append]
    congr 1
    · rw [← P.rows]
      apply List.map_congr_left
      intro r hr
      apply List.map_congr_left
      intro n hn
      exact if_pos (P.bound n ⟨r, hr, hn⟩)
    · rw [List.map_singleton, List.map_singleton, hrow]
      congr 1
      apply numbered_map
      · intro n hn
        exact if_pos (hlV n hn)
      · intro i _
        unfold stretched
        rw [if_neg (by omega)]
        omega
  · intro n hn
    have hb := (hused n).mp hn
    simp only [stretched]
    by_cases h : n < V.words.length
    · rw [if_pos h, List.getElem?_append_left h, List.getElem?_append_left (hW n (hcov n h)), P.words n (hcov n h)]
    · rw [if_neg h, List.getElem?_append_right (by omega), List.getElem?_append_right (by omega), List.getElem?_append_right (by omega),
        show W.words.length + pre.length + (n - V.words.length) - W.words.length - pre.length = n - V.words.length by omega,
        List.getElem?_append_left (by rw [List.length_append] at hb; omega)]
  · intro a b ha hb he
    have hb1 := (hused a).mp ha
    have hb2 := (hused b).mp hb
    simp only [stretched] at he
    by_cases h1 : a < V.words.length <;> by_cases h2 : b < V.words.length
    · rw [if_pos h1, if_pos h2] at he
      exact P.inj a b (hcov a h1) (hcov b h2) he
    · rw [if_pos h1, if_neg h2] at he
      have := hW a (hcov a h1)
      omega
    · rw [if_neg h1, if_pos h2] at he
      have := hW b (hcov b h2)
      omega
    · rw [if_neg h1, if_neg h2] at he
      omega

/-! ### Links -/

theorem firstOf_append {key : Nat × Nat → Nat} : ∀ {l m : List (Nat × Nat)}, (∀ p ∈ l, ∀ q ∈ m, key p ≠ key q) →
    firstOf key (l ++ m) = firstOf key l ++ firstOf key m
  | [], _, _ => rfl
  | p :: l, m, h => by
    rw [List.cons_append, firstOf, firstOf, firstOf_append (fun q hq => h q (by simp [hq])), List.filter_append]
    have : (firstOf key m).filter (fun q => decide (key q ≠ key p)) = firstOf key m := by
      rw [List.filter_eq_self]
      intro q hq
      have := h p (by simp) q (mem_of_firstOf hq)
      simpa using this.symm
    rw [this]
    rfl

theorem firstOf_map {key : Nat × Nat → Nat} (g : Nat × Nat → Nat × Nat) : ∀ {l : List (Nat × Nat)},
    firstOf key (l.map g) = (firstOf (fun p => key (g p)) l).map g
  | [] => rfl
  | p :: l => by
    rw [List.map_cons, firstOf, firstOf, firstOf_map g, List.map_cons, List.filter_map]
    rfl

section
variable {W : Work} {B : List Str}

theorem mem_fits {x n : Nat} {b : Str} : n ∈ W.fits x b ↔ n < W.words.length ∧ W.column n = x + 1 ∧ W.words[n]? = some b := by
  unfold Work.fits
  rw [List.mem_filter, List.mem_range]
  simp

theorem same_iff {x j : Nat} : W.same B x j = true ↔ ∃ b n, B[j]? = some b ∧ n ∈ W.fits x b := by
  unfold Work.same
  cases hB : B[j]? with
  | none => simp
  | some b =>
    simp only [Bool.not_eq_true', Option.some.injEq]
    constructor
    · intro h
      obtain ⟨n, hn⟩ := List.exists_mem_of_ne_nil (W.fits x b) (fun h0 => by rw [h0] at h; cases h)
      exact ⟨b, n, rfl, hn⟩
    · rintro ⟨b', n, rfl, hn⟩
      cases hl : W.fits x b with
      | nil => rw [hl] at hn; cases hn
      | cons a l => rfl

theorem firstFit_mem {x j : Nat} {b : Str} (hb : B[j]? = some b) (h : W.same B x j = true) : W.firstFit B (x, j) ∈ W.fits x b := by
  obtain ⟨b', n, h1, h2⟩ := same_iff.mp h
  rw [hb] at h1
  obtain rfl := Option.some.inj h1
  unfold Work.firstFit
  simp only [hb]
  cases hl : W.fits x b with
  | nil => rw [hl] at h2; cases h2
  | cons a l => simp

theorem fits_unique (hu : W.Untwinned) {x a c : Nat} {b : Str} (ha : a ∈ W.fits x b) (hc : c ∈ W.fits x b) : a = c := by
  obtain ⟨a1, a2, a3⟩ := mem_fits.mp ha
  obtain ⟨c1, c2, c3⟩ := mem_fits.mp hc
  refine List.inj_on_of_nodup_map hu (List.mem_range.mpr a1) (List.mem_range.mpr c1) ?_
  rw [a2, a3, c2, c3]

theorem nodesFor_length {pick : Nat × Nat → Nat} : (W.nodesFor B pick).length = B.length := by
  unfold Work.nodesFor
  simp

theorem nodesFor_some {pick : Nat × Nat → Nat} {j n : Nat} (h : (W.nodesFor B pick)[j]? = some (some n)) :
    ∃ x, (x, j) ∈ W.links B pick ∧ pick (x, j) = n := by
  unfold Work.nodesFor at h
  rw [List.getElem?_map] at h
  obtain ⟨j', h1, h2⟩ := Option.map_eq_some_iff.mp h
  obtain ⟨hj, rfl⟩ : j < B.length ∧ j = j' := by
    have := (List.getElem?_eq_some_iff.mp h1)
    obtain ⟨h3, h4⟩ := this
    rw [List.getElem_range] at h4
    exact ⟨by simpa using h3, h4⟩
  obtain ⟨p, h3, h4⟩ := Option.map_eq_some_iff.mp h2
  have h5 : p.2 = j := by simpa using List.find?_some h3
  have h6 := List.mem_of_find?_eq_some h3
  obtain ⟨x, y⟩ := p
  simp only at h5
  subst h5
  exact ⟨x, h6, h4⟩

theorem mem_links {pick : Nat × Nat → Nat} {p : Nat × Nat} (h : p ∈ W.links B pick) :
    p ∈ (aligned (W.same B) W.width B.length).2 ∧ W.same B p.1 p.2 = true :=
  ⟨mem_of_firstOf h, aligned_same _ _ _ p (mem_of_firstOf h)⟩

/-- The node of a linked word. -/
theorem nodesFor_fits {j n : Nat} (h : (W.nodesFor B (W.firstFit B))[j]? = some (some n)) :
    ∃ x b, B[j]? = some b ∧ (x, j) ∈ (aligned (W.same B) W.width B.length).2 ∧ W.firstFit B (x, j) = n ∧ n ∈ W.fits x b := by
  obtain ⟨x, h1, h2⟩ := nodesFor_some h
  obtain ⟨h3, h4⟩ := mem_links h1
  obtain ⟨b, m, h5, h6⟩ := same_iff.mp h4
  have := firstFit_mem h5 h4
  rw [h2] at this
  exact ⟨x, b, h5, h3, h2, this⟩

end

/-- The nodes of the texts have their words. -/
theorem workOf_reads (ts : List (List Str)) : (workOf ts).rows.map (List.map (fun n => (workOf ts).words[n]?)) = ts.map (List.map some) := by
  induction ts using List.reverseRecOn with
  | nil => rfl
  | append_singleton ts B ih =>
    rw [workOf_snoc]
    generalize workOf ts = W at ih ⊢
    unfold Work.add
    rw [List.map_append, List.map_append]
    congr 1
    · rw [← ih]
      apply List.map_congr_left
      intro r hr
      apply List.map_congr_left
      intro n hn
      have : W.words[n]? ≠ none := by
        have h1 : r.map (fun n => W.words[n]?) ∈ ts.map (List.map some) := by rw [← ih]; exact List.mem_map_of_mem hr
        obtain ⟨t, _, ht⟩ := List.mem_map.mp h1
        have h2 : W.words[n]? ∈ t.map some := by rw [ht]; exact List.mem_map.mpr ⟨n, hn, rfl⟩
        obtain ⟨s, _, hs⟩ := List.mem_map.mp h2
        rw [← hs]
        simp
      have hlt : n < W.words.length := by
        by_contra hc
        exact this (List.getElem?_eq_none (by omega))
      simp only
      rw [List.getElem?_append_left hlt]
    · rw [List.map_singleton, List.map_singleton]
      congr 1
      refine numbered_reads (base := W.words) nodesFor_length List.prefix_rfl ?_
      intro j n hj
      obtain ⟨x, b, h1, _, _, h2⟩ := nodesFor_fits hj
      exact ⟨b, h1, (mem_fits.mp h2).2.2⟩

end CollateX
