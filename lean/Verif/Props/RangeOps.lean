import Verif.Model.RangeOps
import Verif.Props.FoldedSlices
import Verif.Props.RangeSet
/-
C82–C84: the operations of range sets.
-/

namespace CollateX

namespace Spec

/-- A range set has the numbers of which `p` is true, and the given padding and `autostep`. -/
def Is (r : RObj) (p : Nat → Prop) (padding : Option Nat) (autostep : Option Int) : Prop :=
  (∀ x, x ∈ r.elems ↔ p x) ∧ r.padding = padding ∧ r.autostep = autostep

/-- How many numbers less than `x` are in the range set. -/
def numBelow (r : RObj) (x : Nat) : Nat := ((List.range x).filter (· ∈ r.elems)).length

end Spec

open Spec

/-! ### C82 -/

/-- C82, operations that make a new range set, under Python 2.7: union, symmetric difference. -/
theorem C82_new_python2 (r s : RObj) :
    (∃ u, r.union false s = .ok u ∧ Is u (fun x => x ∈ r.elems ∨ x ∈ s.elems) r.padding r.autostep) ∧
    (∃ u, r.symm false s = .ok u ∧
      Is u (fun x => (x ∈ r.elems ∧ x ∉ s.elems) ∨ (x ∈ s.elems ∧ x ∉ r.elems)) r.padding r.autostep) := by
  refine ⟨⟨_, rfl, fun x => ?_, rfl, rfl⟩, ⟨_, rfl, fun x => ?_, rfl, rfl⟩⟩
  · simp
  · simp

/-- C82, intersection, difference and copy make new range sets, under both versions. -/
theorem C82_new_partial (r s : RObj) :
    Is (r.inter s) (fun x => x ∈ r.elems ∧ x ∈ s.elems) r.padding r.autostep ∧
    Is (r.diff s) (fun x => x ∈ r.elems ∧ x ∉ s.elems) r.padding r.autostep ∧
    Is r.copy (fun x => x ∈ r.elems) r.padding r.autostep := by
  refine ⟨⟨fun x => ?_, ?_, rfl⟩, ⟨fun x => ?_, ?_, rfl⟩, ⟨fun x => ?_, ?_, rfl⟩⟩ <;>
    simp [RObj.inter, RObj.diff, RObj.copy, RObj.update, RObj.empty, RObj.interUpdate, RObj.diffUpdate]

/-- C82, operations that change a range set: its padding stays if it has one, and only `update` takes over that of the other set. -/
theorem C82_in_place (r s : RObj) :
    Is (r.update s) (fun x => x ∈ r.elems ∨ x ∈ s.elems) (r.padding.or s.padding) r.autostep ∧
    Is (r.ior s) (fun x => x ∈ r.elems ∨ x ∈ s.elems) r.padding r.autostep ∧
    Is (r.interUpdate s) (fun x => x ∈ r.elems ∧ x ∈ s.elems) r.padding r.autostep ∧
    Is (r.diffUpdate s) (fun x => x ∈ r.elems ∧ x ∉ s.elems) r.padding r.autostep ∧
    Is (r.symmUpdate s) (fun x => (x ∈ r.elems ∧ x ∉ s.elems) ∨ (x ∈ s.elems ∧ x ∉ r.elems)) r.padding r.autostep ∧
    Is r.clear (fun _ => False) none r.autostep := by
  refine ⟨⟨fun x => ?_, ?_, rfl⟩, ⟨fun x => ?_, rfl, rfl⟩, ⟨fun x => ?_, rfl, rfl⟩, ⟨fun x => ?_, rfl, rfl⟩, ⟨fun x => ?_, rfl, rfl⟩,
    ⟨fun x => ?_, rfl, rfl⟩⟩
  · simp [RObj.update]
  · cases hr : r.padding <;> cases hs : s.padding <;> simp [RObj.update, hr, hs]
  · simp [RObj.ior]
  · simp [RObj.interUpdate]
  · simp [RObj.diffUpdate]
  · simp [RObj.symmUpdate]
  · simp [RObj.clear]

/-- C82, single numbers: `remove` raises for a number that is not there, `discard` does not. -/
theorem C82_single (r : RObj) (x : Nat) :
    (∀ pad, Is (r.add x pad) (fun y => y ∈ r.elems ∨ y = x) (r.padding.or (if pad = 0 then none else some pad)) r.autostep) ∧
    Is (r.discard x) (fun y => y ∈ r.elems ∧ y ≠ x) r.padding r.autostep ∧
    (x ∈ r.elems → r.remove x = .ok (r.discard x)) ∧ (x ∉ r.elems → r.remove x = .error .keyError) := by
  refine ⟨fun pad => ⟨fun y => ?_, ?_, rfl⟩, ⟨fun y => ?_, rfl, rfl⟩, fun h => ?_, fun h => ?_⟩
  · simp [RObj.add]
  · cases hr : r.padding <;> rcases Nat.eq_zero_or_pos pad with h | h <;> simp [RObj.add, hr, h, Nat.ne_of_gt]
  · simp [RObj.discard]
  · unfold RObj.remove; rw [if_pos h]; rfl
  · unfold RObj.remove; rw [if_neg h]

/-- C82, `updaten` and `fromlist`: the numbers of all the range sets. -/
theorem C82_from_list (l : List RObj) (autostep : Option Int) :
    (∀ x, x ∈ (RObj.fromList l autostep).elems ↔ ∃ r ∈ l, x ∈ r.elems) ∧ (RObj.fromList l autostep).autostep = autostep ∧
    (RObj.fromList l autostep).padding = l.findSome? RObj.padding := by
  have key : ∀ (l : List RObj) (r : RObj), Is (r.updaten l) (fun x => x ∈ r.elems ∨ ∃ s ∈ l, x ∈ s.elems)
      (r.padding.or (l.findSome? RObj.padding)) r.autostep := by
    intro l
    induction l with
    | nil => intro r; exact ⟨fun x => by simp [RObj.updaten], by simp [RObj.updaten], rfl⟩
    | cons s l ih =>
      intro r
      obtain ⟨h1, h2, h3⟩ := ih (r.update s)
      obtain ⟨u1, u2, u3⟩ := (C82_in_place r s).1
      refine ⟨fun x => ?_, ?_, h3.trans u3⟩
      · rw [show r.updaten (s :: l) = (r.update s).updaten l from rfl, h1]
        show (x ∈ (r.update s).elems ∨ _) ↔ _
        rw [u1]
        simp [or_assoc]
      · rw [show r.updaten (s :: l) = (r.update s).updaten l from rfl, h2, u2]
        cases hr : r.padding <;> cases hs : s.padding <;> simp [hs]
  obtain ⟨h1, h2, h3⟩ := key l (RObj.empty autostep)
  refine ⟨fun x => ?_, h3, ?_⟩
  · rw [show RObj.fromList l autostep = (RObj.empty autostep).updaten l from rfl, h1]
    simp [RObj.empty]
  · rw [show RObj.fromList l autostep = (RObj.empty autostep).updaten l from rfl, h2]
    simp [RObj.empty]

theorem robj_sorted_nodup {l : List Nat} (h : l.Pairwise (· < ·)) : l.Nodup := h.imp (fun h => Nat.ne_of_lt h)

/-- Of two nodup lists, one inside the other: if it is at least as long, it has all the elements. -/
theorem robj_subset_of_length {a b : List Nat} (ha : a.Nodup) (h : ∀ x ∈ a, x ∈ b) (hl : b.length ≤ a.length) :
    ∀ x ∈ b, x ∈ a := by
  have hsub : a.Subperm b := List.subperm_of_subset ha h
  have := hsub.perm_of_length_le hl
  intro x hx
  exact this.mem_iff.mpr hx

theorem robj_len_le {r s : RObj} (h : ∀ x ∈ r.elems, x ∈ s.elems) : r.len ≤ s.len := by
  have hsub : (sortedNats r.elems).Subperm (sortedNats s.elems) :=
    List.subperm_of_subset (robj_sorted_nodup (sortedNats_sorted _)) (fun x hx => mem_sortedNats.mpr (h x (mem_sortedNats.mp hx)))
  exact hsub.length_le

/-- C82, comparisons: of range sets with their elements, whatever their padding and `autostep`. -/
theorem C82_comparisons (r s : RObj) :
    (r.subset s = true ↔ ∀ x ∈ r.elems, x ∈ s.elems) ∧
    (r.eq s = true ↔ ∀ x, x ∈ r.elems ↔ x ∈ s.elems) ∧
    (r.lt s = true ↔ (∀ x ∈ r.elems, x ∈ s.elems) ∧ ∃ x ∈ s.elems, x ∉ r.elems) ∧
    (r.containsSet s = true ↔ ∀ x ∈ s.elems, x ∈ r.elems) ∧
    (∀ x, r.containsNat x = true ↔ x ∈ r.elems) := by
  have hsub : ∀ r s : RObj, r.subset s = true ↔ ∀ x ∈ r.elems, x ∈ s.elems := by
    intro r s
    simp [RObj.subset]
  have hall : ∀ r s : RObj, (∀ x ∈ r.elems, x ∈ s.elems) → s.len ≤ r.len → ∀ x ∈ s.elems, x ∈ r.elems := by
    intro r s h hl x hx
    have := robj_subset_of_length (robj_sorted_nodup (sortedNats_sorted r.elems))
      (fun x hx => mem_sortedNats.mpr (h x (mem_sortedNats.mp hx))) hl x (mem_sortedNats.mpr hx)
    exact mem_sortedNats.mp this
  refine ⟨hsub r s, ?_, ?_, hsub s r, fun x => by simp [RObj.containsNat]⟩
  · unfold RObj.eq
    rw [Bool.and_eq_true, beq_iff_eq, hsub]
    constructor
    · rintro ⟨h1, h2⟩ x
      exact ⟨h2 x, hall r s h2 (by omega) x⟩
    · intro h
      have h1 := robj_len_le (r := r) (s := s) (fun x => (h x).mp)
      have h2 := robj_len_le (r := s) (s := r) (fun x => (h x).mpr)
      exact ⟨by omega, fun x => (h x).mp⟩
  · unfold RObj.lt
    rw [Bool.and_eq_true, decide_eq_true_iff, hsub]
    constructor
    · rintro ⟨h1, h2⟩
      refine ⟨h2, ?_⟩
      by_contra h3
      have := robj_len_le (r := s) (s := r) (fun x hx => by
        by_contra h4
        exact h3 ⟨x, hx, h4⟩)
      omega
    · rintro ⟨h1, x, h2, h3⟩
      refine ⟨?_, h1⟩
      by_contra h4
      exact h3 (hall r s h1 (by omega) x h2)

/-- C82, `difference_update` with `strict`. -/
theorem C82_strict (r s : RObj) :
    ((∀ x ∈ s.elems, x ∈ r.elems) → r.diffStrict s = .ok (r.diffUpdate s)) ∧
    (∀ x ∈ s.elems, x ∉ r.elems → r.diffStrict s = .error .keyError) := by
  have h := (C82_comparisons r s).2.2.2.1
  unfold RObj.diffStrict
  refine ⟨fun hs => by rw [if_pos (h.mpr hs)], fun x hx hr => ?_⟩
  rw [if_neg]
  intro hc
  exact hr (h.mp hc x hx)

/-- C82 is not true of the code: under Python 3, union and symmetric difference raise for all range sets. -/
theorem C82_python3 (r s : RObj) : r.union true s = .error .attributeError ∧ r.symm true s = .error .attributeError := ⟨rfl, rfl⟩

/-- C82: `RangeSet(r)` loses the `autostep` of `r`, which `r.copy()` keeps. -/
theorem C82_constructor_loses (r : RObj) : (RObj.ofRange r none).getAutostep = none ∧ r.copy.getAutostep = r.getAutostep := ⟨rfl, rfl⟩

/-- C82: `RangeSet(r, autostep=a)` has the elements and the padding of `r`, so with the `autostep` of `r` it is printed as `r`. -/
theorem C82_constructor (r : RObj) (a : Option Int) : (RObj.ofRange r a).eq r = true ∧ (∀ x, x ∈ (RObj.ofRange r a).elems ↔ x ∈ r.elems) ∧
    (RObj.ofRange r a).padding = r.padding ∧ rangeStrStep a (RObj.ofRange r a).rset = rangeStrStep a r.rset ∧
    (RObj.ofRange r a).striter = r.striter := by
  refine ⟨?_, fun x => Iff.rfl, rfl, rfl, rfl⟩
  unfold RObj.eq RObj.ofRange RObj.len RObj.subset
  simp

/-- C82: `a |= b` and `a.update(b)` can leave different paddings. -/
theorem C82_two_unions : ∃ r s : RObj, (r.update s).eq (r.ior s) = true ∧ (r.update s).padding ≠ (r.ior s).padding :=
  ⟨⟨[1], none, none⟩, ⟨[2], some 3, none⟩, by decide, by decide⟩

/-- C82: equal range sets can be printed differently, and then equal blocks (extended_suffix_array.py 40–46) have different hash values,
which are those of the printed forms. -/
theorem C82_equal_not_same_text : ∃ r s : RObj, r.eq s = true ∧ rangeStrStep r.autostep r.rset ≠ rangeStrStep s.autostep s.rset :=
  ⟨⟨[1], none, none⟩, ⟨[1], some 2, none⟩, by decide, by decide⟩

/-- Two range sets with different attributes. -/
example : (RObj.inter ⟨[5, 1, 3, 3], some 2, some 3⟩ ⟨[3, 4, 5], none, none⟩) = ⟨[5, 3, 3], some 2, some 3⟩ ∧
    (RObj.getAutostep ⟨[5, 1], none, some 3⟩ = some 3) ∧ RObj.eq ⟨[5, 3, 3], some 2, some 3⟩ ⟨[3, 5], none, none⟩ = true ∧
    RObj.lt ⟨[5, 3, 3], some 2, some 3⟩ ⟨[3, 5, 4], none, none⟩ = true ∧ RObj.lt ⟨[5, 3, 3], none, none⟩ ⟨[3, 5], none, none⟩ = false := by
  decide

/-! ### C83 -/

theorem robj_sorted_filter_lt {l : List Nat} (hl : l.Pairwise (· < ·)) {i x : Nat} :
    l[i]? = some x ↔ x ∈ l ∧ (l.filter (· < x)).length = i := by
  induction l generalizing i with
  | nil => simp
  | cons a l ih =>
    obtain ⟨h1, h2⟩ := List.pairwise_cons.mp hl
    cases i with
    | zero =>
      simp only [List.getElem?_cons_zero, Option.some.injEq, List.mem_cons]
      constructor
      · rintro rfl
        refine ⟨Or.inl rfl, ?_⟩
        rw [List.length_eq_zero_iff, List.filter_eq_nil_iff]
        intro y hy
        rcases List.mem_cons.mp hy with rfl | hy
        · simp
        · have := h1 y hy
          simp; omega
      · rintro ⟨rfl | hx, h⟩
        · rfl
        · have := h1 x hx
          rw [List.filter_cons_of_pos (by simpa using this)] at h
          simp at h
    | succ i =>
      rw [List.getElem?_cons_succ, ih h2]
      constructor
      · rintro ⟨hx, h⟩
        have := h1 x hx
        rw [List.filter_cons_of_pos (by simpa using this)]
        exact ⟨by simp [hx], by simp [h]⟩
      · rintro ⟨hx, h⟩
        rcases List.mem_cons.mp hx with rfl | hx
        · exfalso
          rw [List.filter_cons_of_neg (by simp)] at h
          have : l.filter (· < x) = [] := by
            rw [List.filter_eq_nil_iff]
            intro y hy
            have := h1 y hy
            simp; omega
          rw [this] at h
          simp at h
        · have := h1 x hx
          rw [List.filter_cons_of_pos (by simpa using this)] at h
          exact ⟨hx, by simpa using h⟩

theorem robj_range_sorted (n : Nat) : (List.range n).Pairwise (· < ·) := by
  rw [List.pairwise_iff_getElem]
  intro i j hi hj h
  simpa using h

theorem numBelow_eq (r : RObj) (x : Nat) : numBelow r x = ((sortedNats r.elems).filter (· < x)).length := by
  unfold numBelow
  congr 1
  refine sorted_unique ((robj_range_sorted x).filter _) ((sortedNats_sorted _).filter _) (fun y => ?_)
  simp [mem_sortedNats, and_comm]

/-- C83, indexing: `r[i]` is the element below which there are `i` others, and `r[-k]` is `r[len(r) - k]`; IndexError otherwise. -/
theorem C83_get_item (r : RObj) :
    (∀ (i : Nat) (x : Nat), r.getItem i = .ok x ↔ x ∈ r.elems ∧ numBelow r x = i) ∧
    (∀ k : Nat, 0 < k → k ≤ r.len → r.getItem (-(k : Int)) = r.getItem ((r.len - k : Nat) : Int)) ∧
    (∀ i : Int, r.getItem i = .error .indexError ↔ (r.len : Int) ≤ i ∨ i < -(r.len : Int)) := by
  refine ⟨fun i x => ?_, fun k hk hkl => ?_, fun i => ?_⟩
  · unfold RObj.getItem
    simp only [Int.natCast_nonneg, if_true, Int.toNat_natCast]
    rw [lgetE_eq_ok, robj_sorted_filter_lt (sortedNats_sorted _), mem_sortedNats, numBelow_eq]
  · have hl : k ≤ (sortedNats r.elems).length := hkl
    unfold RObj.getItem RObj.len
    simp only
    rw [if_neg (by omega), if_pos (by omega), if_pos (by omega)]
    congr 1
    omega
  · unfold RObj.getItem RObj.len
    simp only
    have herr : ∀ n : Nat, lgetE (sortedNats r.elems) n = .error .indexError ↔ (sortedNats r.elems).length ≤ n := by
      intro n
      unfold lgetE
      cases h : (sortedNats r.elems)[n]? with
      | none => simpa using h
      | some v =>
        have := (List.getElem?_eq_some_iff.mp h).1
        simp; omega
    split
    · rw [herr]; omega
    · split
      · rw [herr]; omega
      · simp; omega

theorem sortedNats_of_sorted {l : List Nat} (h : l.Pairwise (· < ·)) : sortedNats l = l :=
  sorted_unique (sortedNats_sorted _) h (fun _ => mem_sortedNats)

theorem robj_splitLoop_ok (r : RObj) (size left : Nat) : ∀ (n i b : Nat), 
    (r.splitLoop size left n i b).length = n ∧
    (∀ p ∈ r.splitLoop size left n i b, p.padding = r.padding ∧ p.autostep = r.autostep) ∧
    (r.splitLoop size left n i b).flatMap RObj.elems =
      ((sortedNats r.elems).drop b).take (n * size + (min left (i + n) - min left i)) ∧
    (b + n * size + (min left (i + n) - min left i) ≤ (sortedNats r.elems).length → ∀ p ∈ r.splitLoop size left n i b,
      p.elems.Pairwise (· < ·) ∧ (p.elems.length = size ∨ (p.elems.length = size + 1 ∧ i < left))) := by
  intro n
  induction n with
  | zero => intro i b; simp [RObj.splitLoop]
  | succ n ih =>
    intro i b
    set len := size + if i < left then 1 else 0 with hlen
    have hstep : r.splitLoop size left (n + 1) i b = r.getSlice b (b + len) :: r.splitLoop size left n (i + 1) (b + len) := rfl
    obtain ⟨h1, h2, h3, h4⟩ := ih (i + 1) (b + len)
    have harith : (n + 1) * size + (min left (i + (n + 1)) - min left i) =
        len + (n * size + (min left (i + 1 + n) - min left (i + 1))) := by
      rw [Nat.succ_mul, hlen]
      split <;> omega
    have hsl : (r.getSlice b (b + len)).elems = ((sortedNats r.elems).drop b).take len := by
      show ((sortedNats r.elems).take (b + len)).drop b = _
      rw [List.drop_take]
      congr 1
      omega
    rw [hstep]
    refine ⟨by simp [h1], ?_, ?_, ?_⟩
    · intro p hp
      rcases List.mem_cons.mp hp with rfl | hp
      · exact ⟨rfl, rfl⟩
      · exact h2 p hp
    · rw [List.flatMap_cons, h3, harith, hsl]
      generalize n * size + (min left (i + 1 + n) - min left (i + 1)) = k
      clear_value len
      rw [← List.drop_drop]
      exact List.take_add.symm
    · intro hb p hp
      rcases List.mem_cons.mp hp with rfl | hp
      · rw [hsl]
        refine ⟨((sortedNats_sorted _).sublist (List.drop_sublist _ _)).sublist (List.take_sublist _ _), ?_⟩
        rw [List.length_take, List.length_drop, Nat.min_eq_left (by omega), hlen]
        split
        · right; exact ⟨rfl, by assumption⟩
        · left; rfl
      · obtain ⟨g1, g2⟩ := h4 (by omega) p hp
        refine ⟨g1, ?_⟩
        rcases g2 with g | ⟨g, g'⟩
        · exact Or.inl g
        · exact Or.inr ⟨g, by omega⟩

/-- C83, `split` under Python 2.7: as many parts as asked for, or as there are numbers; in order, they are the numbers of the range set, and
their sizes differ by one at most. -/
theorem C83_split_partial (r : RObj) (nbr : Nat) (h : 0 < nbr) : ∃ ps, r.split false nbr = .ok ps ∧ ps.length = min nbr r.len ∧
    (ps.flatMap RObj.elems).Pairwise (· < ·) ∧ (∀ x, x ∈ ps.flatMap RObj.elems ↔ x ∈ r.elems) ∧
    (∀ p ∈ ps, p.elems ≠ [] ∧ p.padding = r.padding ∧ p.autostep = r.autostep) ∧
    ∀ p ∈ ps, ∀ q ∈ ps, p.elems.length ≤ q.elems.length + 1 := by
  obtain ⟨h1, h2, h3, h4⟩ := robj_splitLoop_ok r (r.len / nbr) (r.len % nbr) (min nbr r.len) 0 0
  have hdm := Nat.div_add_mod r.len nbr
  have hmod := Nat.mod_lt r.len h
  have htotal : min nbr r.len * (r.len / nbr) + (min (r.len % nbr) (0 + min nbr r.len) - min (r.len % nbr) 0) = r.len := by
    rcases Nat.lt_or_ge r.len nbr with hlt | hge
    · rw [Nat.div_eq_of_lt hlt, Nat.mod_eq_of_lt hlt]
      omega
    · rw [Nat.min_eq_left hge]
      omega
  have hall : (r.splitLoop (r.len / nbr) (r.len % nbr) (min nbr r.len) 0 0).flatMap RObj.elems = sortedNats r.elems := by
    rw [h3, htotal, List.drop_zero]
    exact List.take_of_length_le (Nat.le_refl _)
  refine ⟨_, by unfold RObj.split; rw [if_neg (by omega)]; rfl, h1, ?_, ?_, ?_, ?_⟩
  · rw [hall]; exact sortedNats_sorted _
  · intro x; rw [hall]; exact mem_sortedNats
  · intro p hp
    obtain ⟨_, g⟩ := h4 (by rw [Nat.zero_add, htotal]; exact Nat.le_refl _) p hp
    refine ⟨?_, h2 p hp⟩
    intro he
    rw [he] at g
    rcases g with g | ⟨g, _⟩
    · simp only [List.length_nil] at g
      have hz : r.len < nbr := (Nat.div_eq_zero_iff_lt h).mp g.symm
      -- then every part has one element
      have hs : r.len / nbr = 0 := Nat.div_eq_of_lt hz
      have hm : r.len % nbr = r.len := Nat.mod_eq_of_lt hz
      rw [hs, hm] at hp
      have : ∀ (n i b : Nat), i + n ≤ r.len → b + n ≤ r.len → ∀ p ∈ r.splitLoop 0 r.len n i b, p.elems.length = 1 := by
        intro n
        induction n with
        | zero => intro i b _ _ p hp; cases hp
        | succ n ih =>
          intro i b hi hb p hp
          have hstep : r.splitLoop 0 r.len (n + 1) i b = r.getSlice b (b + 1) :: r.splitLoop 0 r.len n (i + 1) (b + 1) := by
            rw [RObj.splitLoop]
            simp only [if_pos (show i < r.len by omega)]
          rw [hstep] at hp
          rcases List.mem_cons.mp hp with rfl | hp
          · show (((sortedNats r.elems).take (b + 1)).drop b).length = 1
            rw [List.length_drop, List.length_take]
            have : r.len = (sortedNats r.elems).length := rfl
            omega
          · exact ih (i + 1) (b + 1) (by omega) (by omega) p hp
      have := this (min nbr r.len) 0 0 (by omega) (by omega) p hp
      rw [he] at this
      simp at this
    · simp at g
  · intro p hp q hq
    obtain ⟨_, g⟩ := h4 (by rw [Nat.zero_add, htotal]; exact Nat.le_refl _) p hp
    obtain ⟨_, g'⟩ := h4 (by rw [Nat.zero_add, htotal]; exact Nat.le_refl _) q hq
    omega

/-- C83 is not true of the code: under Python 3, `split` raises for every range set that is not empty. -/
theorem C83_python3 (r : RObj) (nbr : Nat) (h : 0 < nbr) (hr : r.elems ≠ []) : r.split true nbr = .error .typeError := by
  have : r.len ≠ 0 := by
    intro h0
    obtain ⟨x, hx⟩ := List.exists_mem_of_ne_nil _ hr
    have hx' : x ∈ sortedNats r.elems := mem_sortedNats.mpr hx
    rw [List.length_eq_zero_iff.mp h0] at hx'
    cases hx'
  unfold RObj.split
  rw [if_neg (by omega)]
  simp only [if_true]
  rw [if_neg (by omega)]

/-- C83, the limits: no parts cannot be asked for, and the empty range set has none, under both versions. -/
theorem C83_split_limits (py3 : Bool) (r : RObj) : r.split py3 0 = .error .assertionError ∧
    ∀ nbr, 0 < nbr → r.elems = [] → r.split py3 nbr = .ok [] := by
  refine ⟨rfl, ?_⟩
  intro nbr h he
  have hl : r.len = 0 := by
    unfold RObj.len
    rw [List.length_eq_zero_iff, List.eq_nil_iff_forall_not_mem]
    intro x hx
    rw [mem_sortedNats, he] at hx
    cases hx
  unfold RObj.split
  rw [if_neg (by omega), hl, Nat.min_zero]
  cases py3 <;> rfl

theorem contiguous_go (r : RObj) : ∀ l : List (Nat × Nat), (∀ s ∈ l, s.1 < s.2) →
    RObj.contiguous.go r l = if ∀ s ∈ l, s.2 - s.1 < 1000000000 then
      .ok (l.map (fun s => ⟨pyRange s.1 s.2 1, if 0 < r.padding.getD 0 then some (r.padding.getD 0) else none, none⟩))
      else .error .assertionError
  | [], _ => by simp [RObj.contiguous.go]
  | s :: l, hl => by
    have h1 := hl s (by simp)
    have ih := contiguous_go r l (fun t ht => hl t (by simp [ht]))
    rw [RObj.contiguous.go, ih]
    unfold RObj.fromSlice RSet.addRange
    rw [if_neg (by omega), if_neg (by omega), if_neg (by omega)]
    by_cases h2 : s.2 - s.1 < 1000000000
    · by_cases h3 : ∀ t ∈ l, t.2 - t.1 < 1000000000
      · have h4 : ∀ t ∈ s :: l, t.2 - t.1 < 1000000000 := by
          intro t ht
          rcases List.mem_cons.mp ht with rfl | ht
          · exact h2
          · exact h3 t ht
        rw [if_neg (not_not.mpr h2), if_pos h3, if_pos h4]
        simp only [bind_ok, List.map_cons, List.nil_append, and_true]
      · have h4 : ¬ ∀ t ∈ s :: l, t.2 - t.1 < 1000000000 := fun h => h3 (fun t ht => h t (by simp [ht]))
        rw [if_neg (not_not.mpr h2), if_neg h3, if_neg h4]
        rfl
    · have h4 : ¬ ∀ t ∈ s :: l, t.2 - t.1 < 1000000000 := fun h => h2 (h s (by simp))
      rw [if_pos h2, if_neg h4]
      rfl

/-- C83, `contiguous`: if no run is too long, each part is a maximal run, with the padding of the range set, every number is in a part, and
the parts are in order. If a run is too long it raises. -/
theorem C83_contiguous (r : RObj) :
    ((∀ a b, MaximalRun (· ∈ r.elems) a b → b - a < 1000000000) → ∃ ps, r.contiguous = .ok ps ∧
      (∀ p ∈ ps, ∃ a b, MaximalRun (· ∈ r.elems) a b ∧
        Is p (fun x => a ≤ x ∧ x < b) (if r.padding = some 0 then none else r.padding) none) ∧
      (∀ x ∈ r.elems, ∃ p ∈ ps, x ∈ p.elems) ∧
      ps.Pairwise (fun p q => ∀ x ∈ p.elems, ∀ y ∈ q.elems, x < y)) ∧
    ∀ a b, MaximalRun (· ∈ r.elems) a b → 1000000000 ≤ b - a → r.contiguous = .error .assertionError := by
  obtain ⟨c1, c2, c3⟩ := C48_contiguous r.rset
  have hrs : r.rset.elems = r.elems := rfl
  rw [hrs] at c1 c3
  obtain ⟨d1, _, _⟩ := contiguousSlices_ok r.rset
  have hgo := contiguous_go r (contiguousSlices r.rset) d1
  constructor
  · intro h
    rw [if_pos (fun s hs => h s.1 s.2 (c1 s hs))] at hgo
    refine ⟨_, hgo, ?_, ?_, ?_⟩
    · intro p hp
      obtain ⟨s, hs, rfl⟩ := List.mem_map.mp hp
      refine ⟨s.1, s.2, c1 s hs, fun x => mem_pyRange_one, ?_, rfl⟩
      cases hpad : r.padding with
      | none => simp
      | some n => cases n <;> simp
    · intro x hx
      obtain ⟨s, hs, h1⟩ := (c3 x).mp hx
      exact ⟨_, List.mem_map_of_mem hs, mem_pyRange_one.mpr h1⟩
    · rw [List.pairwise_map]
      refine c2.imp ?_
      intro s t hst x hx y hy
      have h1 := mem_pyRange_one.mp hx
      have h2 := mem_pyRange_one.mp hy
      omega
  · intro a b hab hbig
    unfold RObj.contiguous
    rw [hgo, if_neg]
    intro hall
    -- the run is one of the slices
    obtain ⟨s, hs, h1, h2⟩ := (c3 a).mp (hab.inside a (Nat.le_refl _) hab.nonempty)
    have hm := c1 s hs
    have e1 : s.1 = a := by
      by_contra hne
      exact hab.before (a - 1) (by omega) (hm.inside (a - 1) (by omega) (by omega))
    have e2 : s.2 = b := by
      rcases Nat.lt_trichotomy s.2 b with h | h | h
      · exact absurd (hab.inside s.2 (by omega) h) hm.after
      · exact h
      · exact absurd (hm.inside b (by have := hab.nonempty; omega) h) hab.after
    have := hall s hs
    omega

/-- A range set with padding, cut in two ways. -/
example : (RObj.split false ⟨[5, 1, 3, 9, 4], some 2, some 3⟩ 3).map (·.map RObj.elems) = .ok [[1, 3], [4, 5], [9]] ∧
    (RObj.contiguous ⟨[5, 1, 3, 9, 4], some 2, some 3⟩).map (·.map RObj.elems) = .ok [[1], [3, 4, 5], [9]] ∧
    RObj.getItem ⟨[5, 1, 3, 9, 4], some 2, some 3⟩ (-2) = .ok 5 := by decide

/-! ### C84 -/

/-- The strings of `striter` are the elements in increasing order, each once, with at least as many digits as the padding and without
needless zeros: reading them with `int()` gives the elements back. -/
theorem C82_striter (r : RObj) : ∃ l : List Nat, l.Pairwise (· < ·) ∧ (∀ x, x ∈ l ↔ x ∈ r.elems) ∧
    r.striter.map pyInt = l.map (fun x : Nat => some (x : Int)) ∧
    r.striter.map List.length = l.map (fun x => max (r.padding.getD 0) (Nat.toDigits 10 x).length) := by
  refine ⟨sortedNats r.elems, sortedNats_sorted _, fun x => mem_sortedNats, ?_, ?_⟩
  · unfold RObj.striter
    rw [List.map_map]
    refine List.map_congr_left (fun x _ => ?_)
    simp only [Function.comp_apply]
    rw [pyInt_digits (fun c hc => padded_digits hc) (padded_ne _ _), padded_value]
  · unfold RObj.striter
    rw [List.map_map]
    refine List.map_congr_left (fun x _ => ?_)
    simp only [Function.comp_apply]
    unfold padded
    rw [natStr_digits, List.length_append, List.length_replicate]
    omega

example : RObj.striter ⟨[12, 3, 100, 3], some 2, none⟩ = [S "03", S "12", S "100"] := by decide +kernel

/-- C84, as far as it holds: a range set that is not empty, with numbers that are neither too large nor too far apart, comes back from
`pickle` or `copy.deepcopy` with the same numbers, padding and `autostep`. Missing: the empty range set (`C84_empty`) and numbers too far
apart. -/
theorem C84_pickle_partial (r : RObj) (hne : r.elems ≠ [])
    (hb : ∀ x ∈ r.elems, x ≤ 10000000000000000159028911097599180468360808563945281389781327557747838772170381060813469985856815104)
    (hd : ∀ x ∈ r.elems, ∀ y ∈ r.elems, y < x + 999999999) :
    ∃ r', unreduce r.reduce = .ok r' ∧ Is r' (· ∈ r.elems) r.padding r.autostep ∧ r'.eq r = true := by
  obtain ⟨r0, h1, h2⟩ := C71_print_parse_partial r.autostep r.rset hne hb hd
  refine ⟨⟨r0.elems, r.padding, r.autostep⟩, ?_, ⟨h2, rfl, rfl⟩, ?_⟩
  · unfold unreduce RObj.reduce
    rw [h1]
    rfl
  · exact (C82_comparisons _ _).2.1.mpr h2

/-- C84 is not true of the code: an empty range set cannot be read back, whatever its padding and `autostep`. -/
theorem C84_empty (padding : Option Nat) (autostep : Option Int) :
    unreduce (RObj.reduce ⟨[], padding, autostep⟩) = .error .rangeSetParseError := by
  have : (RObj.reduce ⟨[], padding, autostep⟩) = ([], padding, autostep) := by
    unfold RObj.reduce rangeStrStep slices
    cases autostep with
    | none => rfl
    | some v =>
      simp only
      split <;> rfl
  rw [this]
  unfold unreduce
  rw [C48_empty_set.2.1]
  rfl

/-- C84 without `autostep`: exactly the range sets of C48 can be read back. -/
theorem C84_iff (r : RObj) (h : r.autostep = none) : (∃ r', unreduce r.reduce = .ok r') ↔ Printable (· ∈ r.elems) := by
  have h1 := C48_parse_iff r.rset
  unfold unreduce RObj.reduce
  rw [h, C71_default]
  refine Iff.trans ?_ h1
  constructor
  · rintro ⟨r', e⟩
    obtain ⟨r0, e0, _⟩ := bind_eq_ok.mp e
    exact ⟨r0, e0⟩
  · rintro ⟨r0, e0⟩
    rw [e0]
    exact ⟨_, rfl⟩

example : unreduce (RObj.reduce ⟨[9, 1, 3, 5], some 3, some 3⟩) = .ok ⟨[1, 3, 5, 9], some 3, some 3⟩ ∧
    (RObj.reduce ⟨[9, 1, 3, 5], some 3, some 3⟩).1 = S "001-005/2,009" := by decide +kernel

end CollateX
