import Verif.Model.Hashed
import Verif.Props.RangeOps
/-
C113: keys that are equal are found in dictionaries.
-/

namespace CollateX

open Spec

namespace Spec

/-- The value that was entered last under a key for which `p` holds. -/
def lastEntered {K V : Type} (p : K → Bool) (l : List (K × V)) : Option V := (l.reverse.find? (fun e => p e.1)).map Prod.snd

end Spec

section
variable {K V : Type}

/-- Equality of keys is an equivalence and equal keys have the same hash value, for keys that satisfy `P`. -/
structure HashKey.Lawful (c : HashKey K) (P : K → Prop) : Prop where
  refl : ∀ a, P a → c.eq a a = true
  symm : ∀ a b, P a → P b → c.eq a b = true → c.eq b a = true
  trans : ∀ a b d, P a → P b → P d → c.eq a b = true → c.eq b d = true → c.eq a d = true
  hash : ∀ a b, P a → P b → c.eq a b = true → c.hash a = c.hash b

theorem HashKey.Lawful.same {c : HashKey K} {P : K → Prop} (h : c.Lawful P) {a b : K} (ha : P a) (hb : P b) :
    c.same a b = c.eq a b := by
  unfold HashKey.same
  cases e : c.eq a b with
  | false => simp
  | true => simp [h.hash a b ha hb e]

/-- Looking among all the entries is as good as looking in the place of the key. -/
theorem get_entries (c : HashKey K) (n : Nat) (k : K) : ∀ l : List (K × V),
    ((l.filter (fun e => c.hash e.1 % (n : Int) == c.hash k % (n : Int))).find? (fun e => c.same e.1 k)) = l.find? (fun e => c.same e.1 k)
  | [] => rfl
  | e :: l => by
    rw [List.filter_cons]
    by_cases h : c.hash e.1 = c.hash k
    · simp only [h, beq_self_eq_true, if_true]
      rw [List.find?_cons, List.find?_cons, get_entries c n k l]
    · have hs : c.same e.1 k = false := by simp [HashKey.same, h]
      split
      · rw [List.find?_cons, List.find?_cons, get_entries c n k l]
      · rw [List.find?_cons, hs, get_entries c n k l]

theorem setEntry_cons (c : HashKey K) (n : Nat) (k : K) (v : V) (e : K × V) (l : List (K × V)) :
    setEntry c n k v (e :: l) = if c.same e.1 k then (e.1, v) :: l else e :: setEntry c n k v l := by
  rw [setEntry]
  by_cases h : c.same e.1 k = true
  · have : c.hash e.1 = c.hash k := by
      unfold HashKey.same at h
      simp only [Bool.and_eq_true, beq_iff_eq] at h
      exact h.1
    simp [h, this]
  · simp [h]

theorem setEntry_find {c : HashKey K} {P : K → Prop} (h : c.Lawful P) (n : Nat) {k : K} (hk : P k) (v : V) {q : K} (hq : P q) :
    ∀ l : List (K × V), (∀ e ∈ l, P e.1) →
    ((setEntry c n k v l).find? (fun e => c.same e.1 q)).map Prod.snd =
      (if c.eq k q then some v else (l.find? (fun e => c.same e.1 q)).map Prod.snd) ∧ (∀ e ∈ setEntry c n k v l, P e.1)
  | [], _ => by
    constructor
    · simp only [setEntry, List.find?_cons, List.find?_nil, h.same hk hq]
      cases c.eq k q <;> rfl
    · intro e he
      simp only [setEntry, List.mem_singleton] at he
      exact he ▸ hk
  | e :: l, hl => by
    have he : P e.1 := hl e (by simp)
    obtain ⟨i1, i2⟩ := setEntry_find h n hk v hq l (fun x hx => hl x (by simp [hx]))
    rw [setEntry_cons]
    by_cases hs : c.same e.1 k = true
    · rw [if_pos hs]
      constructor
      · simp only [List.find?_cons, h.same he hq]
        rw [h.same he hk] at hs
        cases e1 : c.eq e.1 q with
        | true =>
          rw [h.trans k e.1 q hk he hq (h.symm _ _ he hk hs) e1]
          rfl
        | false =>
          have : c.eq k q = false := by
            by_contra hc
            rw [h.trans e.1 k q he hk hq hs (by simpa using hc)] at e1
            simp at e1
          rw [this]
          rfl
      · intro x hx
        rcases List.mem_cons.mp hx with rfl | hx
        · exact he
        · exact hl x (by simp [hx])
    · rw [if_neg hs]
      constructor
      · simp only [List.find?_cons, h.same he hq]
        rw [h.same he hk] at hs
        cases e1 : c.eq e.1 q with
        | true =>
          have : c.eq k q = false := by
            by_contra hc
            exact hs (h.trans e.1 q k he hq hk e1 (h.symm _ _ hk hq (by simpa using hc)))
          rw [this]
          rfl
        | false => exact i1
      · intro x hx
        rcases List.mem_cons.mp hx with rfl | hx
        · exact he
        · exact i2 x hx

/-- What was entered last under an equal key is found. -/
theorem get_ofList {c : HashKey K} {P : K → Prop} (h : c.Lawful P) (n : Nat) {q : K} (hq : P q) (l : List (K × V)) (hl : ∀ e ∈ l, P e.1) :
    (HashTable.ofList c n l).get c q = lastEntered (fun k => c.eq k q) l := by
  have key : ∀ (l : List (K × V)) (d : HashTable K V), (∀ e ∈ l, P e.1) → (∀ e ∈ d.entries, P e.1) →
      (l.foldl (fun d e => d.set c e.1 e.2) d).get c q = ((l.reverse.find? (fun e => c.eq e.1 q)).map Prod.snd).or (d.get c q) := by
    intro l
    induction l with
    | nil => intro d _ _; rfl
    | cons e l ih =>
      intro d h1 h2
      have he : P e.1 := h1 e (by simp)
      obtain ⟨i1, i2⟩ := setEntry_find h d.slots he e.2 hq d.entries h2
      rw [List.foldl_cons, ih (d.set c e.1 e.2) (fun x hx => h1 x (by simp [hx])) i2]
      have e1 : (d.set c e.1 e.2).get c q = if c.eq e.1 q then some e.2 else d.get c q := by
        unfold HashTable.get HashTable.set
        rw [get_entries, get_entries]
        exact i1
      rw [e1, List.reverse_cons, List.find?_append]
      cases l.reverse.find? (fun e => c.eq e.1 q) with
      | some x => rfl
      | none =>
        simp only [List.find?_cons, List.find?_nil]
        cases c.eq e.1 q <;> rfl
  rw [HashTable.ofList, key l ⟨n, []⟩ hl (by simp)]
  unfold lastEntered
  cases (l.reverse.find? (fun e => c.eq e.1 q)).map Prod.snd <;> rfl

end

theorem coord_lawful (word : Int → Int) : (coordKey word).Lawful (fun _ => True) := by
  have heq : ∀ a b : Coord, (coordKey word).eq a b = true ↔ a = b := by
    intro a b
    cases a
    cases b
    simp [coordKey]
  refine ⟨fun a _ => (heq a a).mpr rfl, fun a b _ _ h => (heq b a).mpr ((heq a b).mp h).symm,
    fun a b d _ _ _ h1 h2 => (heq a d).mpr (((heq a b).mp h1).trans ((heq b d).mp h2)), fun a b _ _ h => ?_⟩
  rw [(heq a b).mp h]

/-- C113: in a table of matches, whatever its size, `has_match` and `get_match` answer for the coordinates that were asked for, although
different coordinates can have the same hash value: the match that was entered last at this place. -/
theorem C113_coordinates {V : Type} (word : Int → Int) (slots : Nat) (l : List (Coord × V)) (y x : Int) :
    (hashedHas word (HashTable.ofList (coordKey word) slots l) y x = true ↔ ∃ v, (⟨y, x⟩, v) ∈ l) ∧
    (∀ v, hashedGet word (HashTable.ofList (coordKey word) slots l) y x = .ok v ↔
      ∃ a b, l = a ++ (⟨y, x⟩, v) :: b ∧ ∀ w, (⟨y, x⟩, w) ∉ b) ∧
    ((∀ v, (⟨y, x⟩, v) ∉ l) → hashedGet word (HashTable.ofList (coordKey word) slots l) y x = .error .keyError) := by
  have hget := get_ofList (coord_lawful word) slots (q := ⟨y, x⟩) trivial l (fun _ _ => trivial)
  have hp : ∀ e : Coord × V, (coordKey word).eq e.1 ⟨y, x⟩ = true ↔ e.1 = ⟨y, x⟩ := by
    rintro ⟨⟨i, r⟩, v⟩
    simp [coordKey]
  unfold hashedHas hashedGet
  rw [hget]
  unfold lastEntered
  refine ⟨?_, ?_, ?_⟩
  · rw [Option.isSome_map, List.find?_isSome]
    constructor
    · rintro ⟨⟨k, v⟩, h1, h2⟩
      exact ⟨v, by rw [← (hp _).mp h2]; simpa using h1⟩
    · rintro ⟨v, hv⟩
      exact ⟨(⟨y, x⟩, v), by simpa using hv, (hp _).mpr rfl⟩
  · intro v
    constructor
    · intro h
      cases e : l.reverse.find? (fun e => (coordKey word).eq e.1 ⟨y, x⟩) with
      | none =>
        rw [e] at h
        cases h
      | some p =>
        rw [e] at h
        obtain ⟨h1, as, bs, h2, h3⟩ := List.find?_eq_some_iff_append.mp e
        have hv : p.2 = v := by simpa using h
        refine ⟨bs.reverse, as.reverse, ?_, ?_⟩
        · have := congrArg List.reverse h2
          rw [List.reverse_reverse] at this
          rw [this]
          have hp1 := (hp p).mp h1
          obtain ⟨k, w⟩ := p
          simp only at hv hp1
          subst hv hp1
          simp
        · intro w hw
          have := h3 _ (List.mem_reverse.mp hw)
          simp [coordKey] at this
    · rintro ⟨a, b, rfl, hb⟩
      have hn : b.reverse.find? (fun e => (coordKey word).eq e.1 ⟨y, x⟩) = none := by
        rw [List.find?_eq_none]
        rintro ⟨k, w⟩ hk hc
        have := (hp _).mp hc
        simp only at this
        subst this
        exact hb w (by simpa using hk)
      rw [List.reverse_append, List.reverse_cons, List.append_assoc, List.find?_append, hn]
      simp [coordKey]
  · intro h
    have hn : l.reverse.find? (fun e => (coordKey word).eq e.1 ⟨y, x⟩) = none := by
      rw [List.find?_eq_none]
      rintro ⟨k, w⟩ hk hc
      have := (hp _).mp hc
      simp only at this
      subst this
      exact h w (by simpa using hk)
    rw [hn]
    rfl

/-- C113: the model's table of matches (`Cube`), in which coordinates are compared as pairs, answers as the table of hash values does. -/
theorem C113_cube (word : Int → Int) (slots : Nat) (l : List ((Int × Int) × (VId × Token))) (y x : Int) :
    let m : Cube := l.foldl (fun m e => dset m e.1 e.2) []
    let d := HashTable.ofList (coordKey word) slots (l.map (fun e => ((⟨e.1.1, e.1.2⟩ : Coord), e.2)))
    m.has y x = hashedHas word d y x ∧ dgetE m (y, x) = hashedGet word d y x := by
  have hget := get_ofList (coord_lawful word) slots (q := ⟨y, x⟩) trivial (l.map (fun e => ((⟨e.1.1, e.1.2⟩ : Coord), e.2)))
    (fun _ _ => trivial)
  have hset : ∀ (m : Cube) (k : Int × Int) (v : VId × Token), dget (dset m k v) (y, x) = if k = (y, x) then some v else dget m (y, x) := by
    intro m k v
    induction m with
    | nil => rfl
    | cons e m ih =>
      obtain ⟨k', v'⟩ := e
      rw [dset]
      split
      · rename_i h1
        subst h1
        rw [dget, dget]
        split <;> rfl
      · rename_i h1
        rw [dget, dget, ih]
        split
        · rename_i h2
          rw [if_neg]
          rintro rfl
          exact h1 h2
        · rfl
  have hd : ∀ (l : List ((Int × Int) × (VId × Token))) (m : Cube), dget (l.foldl (fun m e => dset m e.1 e.2) m) (y, x) =
      ((l.reverse.find? (fun e => e.1 == (y, x))).map Prod.snd).or (dget m (y, x)) := by
    intro l
    induction l with
    | nil => intro m; rfl
    | cons e l ih =>
      intro m
      rw [List.foldl_cons, ih, List.reverse_cons, List.find?_append, hset]
      cases l.reverse.find? (fun e => e.1 == (y, x)) with
      | some p => rfl
      | none =>
        simp only [List.find?_cons, List.find?_nil]
        by_cases h : e.1 = (y, x)
        · simp [h]
        · have hf : (e.1 == (y, x)) = false := beq_eq_false_iff_ne.mpr h
          rw [hf, if_neg h]
          rfl
  have hmain : dget (l.foldl (fun m e => dset m e.1 e.2) ([] : Cube)) (y, x) =
      (HashTable.ofList (coordKey word) slots (l.map (fun e => ((⟨e.1.1, e.1.2⟩ : Coord), e.2)))).get (coordKey word) ⟨y, x⟩ := by
    rw [hd, hget]
    unfold lastEntered
    rw [← List.map_reverse, List.find?_map]
    have : ((fun e : Coord × (VId × Token) => (coordKey word).eq e.1 ⟨y, x⟩) ∘
        (fun e : (Int × Int) × (VId × Token) => ((⟨e.1.1, e.1.2⟩ : Coord), e.2))) = fun e => e.1 == (y, x) := by
      funext e
      obtain ⟨⟨a, b⟩, v⟩ := e
      rfl
    rw [this, Option.map_map, dget]
    cases l.reverse.find? (fun e => e.1 == (y, x)) <;> rfl
  intro m d
  refine ⟨?_, ?_⟩
  · unfold Cube.has dmem hashedHas
    exact congrArg Option.isSome hmain
  · unfold dgetE hashedGet
    rw [show dget m (y, x) = d.get (coordKey word) ⟨y, x⟩ from hmain]
    cases d.get (coordKey word) ⟨y, x⟩ <;> rfl

/-- The printed form depends on the elements only, given the padding and `autostep`. -/
theorem rangeStrStep_congr {a : Option Int} {p : Option Nat} {e e' : List Nat} (h : ∀ x, x ∈ e ↔ x ∈ e') :
    rangeStrStep a ⟨e, p⟩ = rangeStrStep a ⟨e', p⟩ := by
  have hs : sortedNats e = sortedNats e' := sorted_unique (sortedNats_sorted _) (sortedNats_sorted _) (fun x => by
    rw [mem_sortedNats, mem_sortedNats, h])
  have hc : contiguousSlices ⟨e, p⟩ = contiguousSlices ⟨e', p⟩ := by
    unfold contiguousSlices
    rw [hs]
  unfold rangeStrStep slices foldedSlices
  rw [hc]

theorem block_lawful (hash : Str → Int) (p : Option Nat) (a : Option Int) :
    (blockKey hash).Lawful (fun r => r.padding = p ∧ r.autostep = a) := by
  have heq : ∀ r s : RObj, (blockKey hash).eq r s = true ↔ ∀ x, x ∈ r.elems ↔ x ∈ s.elems := fun r s => (C82_comparisons r s).2.1
  refine ⟨fun r _ => (heq r r).mpr (fun _ => Iff.rfl), fun r s _ _ h => (heq s r).mpr (fun x => ((heq r s).mp h x).symm),
    fun r s t _ _ _ h1 h2 => (heq r t).mpr (fun x => ((heq r s).mp h1 x).trans ((heq s t).mp h2 x)), ?_⟩
  rintro ⟨e, p1, a1⟩ ⟨e', p2, a2⟩ ⟨h1, h2⟩ ⟨h3, h4⟩ h
  simp only at h1 h2 h3 h4
  subst h1 h2 h3 h4
  exact congrArg hash (rangeStrStep_congr ((heq _ _).mp h))

/-- C113 for blocks, partial: if all the range sets have the same padding and the same `autostep`, what is found is what was entered last
under a block with the same elements, whatever the hash function and the size of the table. Not for range sets with different
paddings (`C113_padding`) or different values of `autostep` (`C113_autostep`). -/
theorem C113_blocks_partial {V : Type} (hash : Str → Int) (slots : Nat) (p : Option Nat) (a : Option Int) (l : List (RObj × V))
    (hl : ∀ e ∈ l, e.1.padding = p ∧ e.1.autostep = a) (b : RObj) (hb : b.padding = p ∧ b.autostep = a) (v : V) :
    (HashTable.ofList (blockKey hash) slots l).get (blockKey hash) b = some v ↔
      ∃ l₁ r l₂, l = l₁ ++ (r, v) :: l₂ ∧ (∀ x, x ∈ r.elems ↔ x ∈ b.elems) ∧ ∀ e ∈ l₂, ¬ ∀ x, x ∈ e.1.elems ↔ x ∈ b.elems := by
  rw [get_ofList (block_lawful hash p a) slots hb l hl]
  have heq : ∀ r s : RObj, (blockKey hash).eq r s = true ↔ ∀ x, x ∈ r.elems ↔ x ∈ s.elems := fun r s => (C82_comparisons r s).2.1
  unfold lastEntered
  rw [Option.map_eq_some_iff]
  constructor
  · rintro ⟨⟨r, w⟩, h1, h2⟩
    simp only at h2
    subst h2
    obtain ⟨h3, as, bs, h4, h5⟩ := List.find?_eq_some_iff_append.mp h1
    have h6 := congrArg List.reverse h4
    rw [List.reverse_reverse, List.reverse_append, List.reverse_cons, List.append_assoc] at h6
    refine ⟨bs.reverse, r, as.reverse, h6, (heq _ _).mp h3, fun e he hc => ?_⟩
    have h7 := h5 e (List.mem_reverse.mp he)
    simp only [(heq _ _).mpr hc] at h7
    simp at h7
  · rintro ⟨l₁, r, l₂, rfl, h1, h2⟩
    refine ⟨(r, v), ?_, rfl⟩
    rw [List.find?_eq_some_iff_append]
    refine ⟨(heq _ _).mpr h1, l₂.reverse, l₁.reverse, by simp, fun e he => ?_⟩
    have := h2 e (List.mem_reverse.mp he)
    rw [← heq] at this
    simpa using this

/-- C113 fails for paddings: if the hash function tells the two printed forms apart, a block that was entered is not found again under an
equal block. -/
theorem C113_padding (hash : Str → Int) (h : hash (S "1") ≠ hash (S "01")) (slots : Nat) :
    let a : RObj := ⟨[1], none, none⟩
    let b : RObj := ⟨[1], some 2, none⟩
    (blockKey hash).eq a b = true ∧ (HashTable.ofList (blockKey hash) slots [(a, 0)]).get (blockKey hash) a = some 0 ∧
      (HashTable.ofList (blockKey hash) slots [(a, 0)]).get (blockKey hash) b = none := by
  have h1 : rangeStrStep none (RObj.rset ⟨[1], none, none⟩) = S "1" := by decide
  have h2 : rangeStrStep none (RObj.rset ⟨[1], some 2, none⟩) = S "01" := by decide
  intro a b
  have ha : (blockKey hash).hash a = hash (S "1") := congrArg hash h1
  have hb : (blockKey hash).hash b = hash (S "01") := congrArg hash h2
  refine ⟨show RObj.eq a b = true by decide, ?_, ?_⟩
  · have : (blockKey hash).eq a a = true := show RObj.eq a a = true by decide
    simp [HashTable.ofList, HashTable.set, setEntry, HashTable.get, HashKey.same, this]
  · have : (blockKey hash).hash a ≠ (blockKey hash).hash b := by
      rw [ha, hb]
      exact h
    unfold HashTable.get
    rw [get_entries]
    simp [HashTable.ofList, HashTable.set, setEntry, HashKey.same, this]

/-- C113 fails for different values of `autostep`. -/
theorem C113_autostep (hash : Str → Int) (h : hash (S "1,3,5") ≠ hash (S "1-5/2")) (slots : Nat) :
    let a : RObj := ⟨[1, 3, 5], none, none⟩
    let b : RObj := ⟨[1, 3, 5], none, some 3⟩
    (blockKey hash).eq a b = true ∧ (HashTable.ofList (blockKey hash) slots [(a, 0)]).get (blockKey hash) a = some 0 ∧
      (HashTable.ofList (blockKey hash) slots [(a, 0)]).get (blockKey hash) b = none := by
  have h1 : rangeStrStep none (RObj.rset ⟨[1, 3, 5], none, none⟩) = S "1,3,5" := by decide
  have h2 : rangeStrStep (some 3) (RObj.rset ⟨[1, 3, 5], none, some 3⟩) = S "1-5/2" := by decide
  intro a b
  have ha : (blockKey hash).hash a = hash (S "1,3,5") := congrArg hash h1
  have hb : (blockKey hash).hash b = hash (S "1-5/2") := congrArg hash h2
  refine ⟨show RObj.eq a b = true by decide, ?_, ?_⟩
  · have : (blockKey hash).eq a a = true := show RObj.eq a a = true by decide
    simp [HashTable.ofList, HashTable.set, setEntry, HashTable.get, HashKey.same, this]
  · have : (blockKey hash).hash a ≠ (blockKey hash).hash b := by
      rw [ha, hb]
      exact h
    unfold HashTable.get
    rw [get_entries]
    simp [HashTable.ofList, HashTable.set, setEntry, HashKey.same, this]

/-- Different coordinates with the same hash value, in a table with eight places. -/
example : let d := HashTable.ofList (coordKey id) 8 [(⟨0, 10⟩, 'a'), (⟨1, 0⟩, 'b'), (⟨2, 7⟩, 'c'), (⟨0, 10⟩, 'd')]
    (coordKey id).hash ⟨0, 10⟩ = (coordKey id).hash ⟨1, 0⟩ ∧ hashedGet id d 0 10 = .ok 'd' ∧ hashedGet id d 1 0 = .ok 'b' ∧
    hashedGet id d 2 7 = .ok 'c' ∧ hashedHas id d 2 (-10) = false ∧ hashedGet id d 2 (-10) = .error .keyError := by
  decide

/-- Two blocks with the same elements and a third one. -/
example : let key := blockKey (fun s => (s.length : Int))
    let d := HashTable.ofList key 8 [(⟨[3, 4, 5], none, none⟩, 'a'), (⟨[7, 8, 9], none, none⟩, 'b'), (⟨[5, 4, 3], none, none⟩, 'c')]
    key.hash ⟨[3, 4, 5], none, none⟩ = key.hash ⟨[7, 8, 9], none, none⟩ ∧ d.get key ⟨[4, 3, 5], none, none⟩ = some 'c' ∧
    d.get key ⟨[8, 7, 9], none, none⟩ = some 'b' ∧ d.get key ⟨[3], none, none⟩ = none := by
  decide

end CollateX
