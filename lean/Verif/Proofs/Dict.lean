import Verif.Model.Basic
/-
Lemmas about insertion-ordered dicts.
-/

namespace CollateX

section
variable {K V : Type} [DecidableEq K]

@[simp] theorem dget_nil (k : K) : dget ([] : Dict K V) k = none := rfl

theorem dget_cons (k' : K) (v : V) (d : Dict K V) (k : K) :
    dget ((k', v) :: d) k = if k' = k then some v else dget d k := rfl

theorem dget_dset (d : Dict K V) (k : K) (v : V) (k' : K) :
    dget (dset d k v) k' = if k = k' then some v else dget d k' := by
  induction d with
  | nil => simp [dset, dget]
  | cons p d ih =>
    obtain ⟨a, b⟩ := p
    simp only [dset]
    split
    · rename_i h; subst h; simp only [dget]; split <;> simp_all
    · rename_i h; simp only [dget, ih]; split
      · rename_i h2; subst h2; simp [Ne.symm h]
      · rfl

@[simp] theorem dget_dset_self (d : Dict K V) (k : K) (v : V) : dget (dset d k v) k = some v := by
  simp [dget_dset]

theorem dget_dset_ne (d : Dict K V) {k k' : K} (v : V) (h : k ≠ k') : dget (dset d k v) k' = dget d k' := by
  simp [dget_dset, h]

theorem dget_append (d e : Dict K V) (k : K) : dget (d ++ e) k = (dget d k).or (dget e k) := by
  induction d with
  | nil => simp
  | cons p d ih => obtain ⟨a, b⟩ := p; simp only [List.cons_append, dget]; split <;> simp [ih]

theorem dget_mem {d : Dict K V} {k : K} {v : V} (h : dget d k = some v) : (k, v) ∈ d := by
  induction d with
  | nil => simp at h
  | cons p d ih =>
    obtain ⟨a, b⟩ := p
    simp only [dget] at h
    split at h
    · simp_all
    · exact List.mem_cons_of_mem _ (ih h)

theorem dget_eq_none_iff {d : Dict K V} {k : K} : dget d k = none ↔ k ∉ d.map Prod.fst := by
  induction d with
  | nil => simp
  | cons p d ih =>
    obtain ⟨a, b⟩ := p
    simp only [dget, List.map_cons, List.mem_cons, not_or]
    split
    · simp_all
    · rename_i h; simp [ih, Ne.symm h]

theorem dget_isSome_iff {d : Dict K V} {k : K} : (dget d k).isSome ↔ k ∈ d.map Prod.fst := by
  have h := dget_eq_none_iff (d := d) (k := k)
  cases hd : dget d k with
  | none => simpa using h.mp hd
  | some v => exact ⟨fun _ => List.mem_map_of_mem (f := Prod.fst) (dget_mem hd), fun _ => rfl⟩

theorem dmem_iff {d : Dict K V} {k : K} : dmem d k = true ↔ k ∈ d.map Prod.fst := dget_isSome_iff

theorem exists_dget_of_mem_keys {d : Dict K V} {k : K} (h : k ∈ d.map Prod.fst) : ∃ v, dget d k = some v :=
  Option.isSome_iff_exists.mp (dget_isSome_iff.mpr h)

theorem dget_of_mem {d : Dict K V} (nd : (d.map Prod.fst).Nodup) {k : K} {v : V} (h : (k, v) ∈ d) :
    dget d k = some v := by
  induction d with
  | nil => simp at h
  | cons p d ih =>
    obtain ⟨a, b⟩ := p
    simp only [List.map_cons, List.nodup_cons] at nd
    simp only [dget]
    rcases List.mem_cons.mp h with h | h
    · simp at h; simp [h.1, h.2]
    · split
      · rename_i h2; subst h2
        exact absurd (List.mem_map_of_mem (f := Prod.fst) h) nd.1
      · exact ih nd.2 h

theorem dget_iff_mem {d : Dict K V} (nd : (d.map Prod.fst).Nodup) {k : K} {v : V} :
    dget d k = some v ↔ (k, v) ∈ d := ⟨dget_mem, dget_of_mem nd⟩

theorem keys_dset (d : Dict K V) (k : K) (v : V) :
    (dset d k v).map Prod.fst = if k ∈ d.map Prod.fst then d.map Prod.fst else d.map Prod.fst ++ [k] := by
  induction d with
  | nil => simp [dset]
  | cons p d ih =>
    obtain ⟨a, b⟩ := p
    simp only [dset]
    split
    · rename_i h; subst h; simp
    · rename_i h
      simp only [List.map_cons, ih, List.mem_cons]
      by_cases h2 : k ∈ d.map Prod.fst
      · simp [h2]
      · simp [h2, Ne.symm h]

theorem mem_keys_dset {d : Dict K V} {k k' : K} {v : V} :
    k' ∈ (dset d k v).map Prod.fst ↔ k' = k ∨ k' ∈ d.map Prod.fst := by
  rw [keys_dset]; split
  · constructor
    · exact Or.inr
    · rintro (rfl | h)
      · assumption
      · exact h
  · simp [or_comm]

theorem nodup_keys_dset {d : Dict K V} (nd : (d.map Prod.fst).Nodup) (k : K) (v : V) :
    ((dset d k v).map Prod.fst).Nodup := by
  rw [keys_dset]; split
  · exact nd
  · rename_i h
    rw [List.nodup_append]
    refine ⟨nd, by simp, ?_⟩
    intro a ha b hb hab
    simp at hb; subst hb; subst hab; exact h ha

theorem dset_of_not_mem {d : Dict K V} {k : K} (h : k ∉ d.map Prod.fst) (v : V) : dset d k v = d ++ [(k, v)] := by
  induction d with
  | nil => rfl
  | cons p d ih =>
    obtain ⟨a, b⟩ := p
    simp only [List.map_cons, List.mem_cons, not_or] at h
    simp [dset, Ne.symm h.1, ih h.2]

theorem dgetE_eq_ok {d : Dict K V} {k : K} {v : V} : dgetE d k = .ok v ↔ dget d k = some v := by
  unfold dgetE; split <;> simp_all

theorem dgetE_of_dget {d : Dict K V} {k : K} {v : V} (h : dget d k = some v) : dgetE d k = .ok v :=
  dgetE_eq_ok.mpr h

/-- `d.update(e)`, looked up. -/
theorem dget_dupdate (d e : Dict K V) (ne : (e.map Prod.fst).Nodup) (k : K) :
    dget (dupdate d e) k = (dget e k).or (dget d k) := by
  unfold dupdate
  induction e generalizing d with
  | nil => simp
  | cons p e ih =>
    obtain ⟨a, b⟩ := p
    simp only [List.map_cons, List.nodup_cons] at ne
    rw [List.foldl_cons, ih _ ne.2, dget_dset]
    simp only [dget]
    by_cases h : a = k
    · subst h
      have : dget e a = none := dget_eq_none_iff.mpr ne.1
      simp [this]
    · simp [h]

theorem nodup_keys_dupdate (d e : Dict K V) (nd : (d.map Prod.fst).Nodup) :
    ((dupdate d e).map Prod.fst).Nodup := by
  unfold dupdate
  induction e generalizing d with
  | nil => exact nd
  | cons p e ih => rw [List.foldl_cons]; exact ih _ (nodup_keys_dset nd _ _)

theorem mem_keys_dupdate (d e : Dict K V) (k : K) :
    k ∈ (dupdate d e).map Prod.fst ↔ k ∈ e.map Prod.fst ∨ k ∈ d.map Prod.fst := by
  unfold dupdate
  induction e generalizing d with
  | nil => simp
  | cons p e ih =>
    rw [List.foldl_cons, ih, mem_keys_dset]
    simp only [List.map_cons, List.mem_cons]
    constructor
    · rintro (h | h | h) <;> simp [h]
    · rintro ((h | h) | h) <;> simp [h]

end

theorem lgetE_eq_ok {α : Type} {l : List α} {i : Nat} {v : α} : lgetE l i = .ok v ↔ l[i]? = some v := by
  unfold lgetE; split <;> simp_all

theorem dget_setdefaultAppend {K A : Type} [DecidableEq K] (d : Dict K (List A)) (k : K) (a : A) (k' : K) :
    dget (setdefaultAppend d k a) k' = if k = k' then some ((dget d k).getD [] ++ [a]) else dget d k' := by
  unfold setdefaultAppend
  split <;> rename_i h <;> simp only [h, dget_dset] <;> rfl

theorem keys_setdefaultAppend {K A : Type} [DecidableEq K] (d : Dict K (List A)) (k : K) (a : A) :
    (setdefaultAppend d k a).map Prod.fst
      = if k ∈ d.map Prod.fst then d.map Prod.fst else d.map Prod.fst ++ [k] := by
  unfold setdefaultAppend
  split <;> rw [keys_dset]

/-- Monadic bind on `Py`, when the first step succeeds. -/
theorem bind_ok {α β : Type} (a : α) (f : α → Py β) : ((.ok a : Py α) >>= f) = f a := rfl

theorem bind_eq_ok {α β : Type} {x : Py α} {f : α → Py β} {b : β} :
    (x >>= f) = .ok b ↔ ∃ a, x = .ok a ∧ f a = .ok b := by
  cases x with
  | error e => simp [bind, Except.bind]
  | ok a => simp [bind, Except.bind]

end CollateX
