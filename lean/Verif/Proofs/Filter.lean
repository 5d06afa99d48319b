import Verif.Proofs.Prefix
import Verif.Proofs.Collated
/-
The properties filter: what the aligner asks it before it puts a token on a vertex.
-/

namespace CollateX
open Spec

namespace Spec

/-- The part of a token's record that the user sees: without the two bookkeeping keys. -/
def visible (t : Token) : TokenData := t.data.filter (fun p => p.1 ≠ .sigil ∧ p.1 ≠ .pos)

/-- The records of the tokens are dicts: no key twice. -/
def Records (ws : List Witness) : Prop := ∀ w ∈ ws, ∀ t ∈ w.tokens, (t.data.map Prod.fst).Nodup

/-- Token `i` of witness `l` is on the vertex `v`. -/
def On (ws : List Witness) (g : VGraph) (l i : Nat) (v : VId) : Prop :=
  ∃ (w : Witness) (t : Token), ws[l]? = some w ∧ w.tokens[i]? = some t ∧ CarriesAt g v w.sigil [t]

/-- Token `i` of witness `l`. -/
def tokenAt (ws : List Witness) (l i : Nat) : Option Token := (ws[l]?).bind (fun w => w.tokens[i]?)

end Spec

theorem ddel_eq_filter {K V : Type} [DecidableEq K] (k : K) : ∀ (d : Dict K V), (d.map Prod.fst).Nodup →
    ddel d k = d.filter (fun p => p.1 ≠ k)
  | [], _ => rfl
  | (k', v) :: d, h => by
    simp only [List.map_cons, List.nodup_cons] at h
    unfold ddel
    split
    · rename_i he
      subst he
      rw [List.filter_cons_of_neg (by simp)]
      symm
      rw [List.filter_eq_self]
      intro p hp
      simp only [decide_not, Bool.not_eq_eq_eq_not, Bool.not_true, decide_eq_false_iff_not]
      intro he
      exact h.1 (List.mem_map.mpr ⟨p, hp, he⟩)
    · rename_i he
      rw [List.filter_cons_of_pos (by simpa using he), ddel_eq_filter k d h.2]

theorem filteredData_eq {t : Token} (hnd : (t.data.map Prod.fst).Nodup) {d : TokenData} (h : filteredData t = .ok d) :
    d = visible t := by
  unfold filteredData at h
  split at h
  · obtain rfl := Except.ok.inj h
    rw [ddel_eq_filter _ _ hnd, ddel_eq_filter]
    · rw [List.filter_filter]
      unfold visible
      congr 1
      funext p
      simp [Bool.and_comm]
    · exact hnd.sublist (List.Sublist.map _ List.filter_sublist)
  · cases h

theorem filter_dset {K V : Type} [DecidableEq K] (P : K → Bool) {k : K} (hk : P k = false) (v : V) : ∀ d : Dict K V,
    (dset d k v).filter (fun p => P p.1) = d.filter (fun p => P p.1)
  | [] => by simp [dset, hk]
  | (k', v') :: d => by
    unfold dset
    split
    · rename_i he; subst he; simp [hk]
    · simp only [List.filter_cons, filter_dset P hk v d]

theorem visible_indexToken (σ : Str) (pos : Nat) (t : Token) : visible (indexToken σ pos t) = visible t := by
  unfold visible indexToken
  simp only
  have h := filter_dset (V := JVal) (fun k : Key => decide (k ≠ .sigil ∧ k ≠ .pos)) (k := .pos) (by simp) (.nat pos)
    (dset t.data .sigil (.str σ))
  have h2 := filter_dset (V := JVal) (fun k : Key => decide (k ≠ .sigil ∧ k ≠ .pos)) (k := .sigil) (by simp) (.str σ) t.data
  rw [h, h2]

theorem dset_keys_nodup {K V : Type} [DecidableEq K] (k : K) (v : V) : ∀ {d : Dict K V}, (d.map Prod.fst).Nodup →
    ((dset d k v).map Prod.fst).Nodup := by
  intro d hd
  exact nodup_keys_dset hd k v

/-- What the aligner asked the filter: token `i` of witness `l` with the token `d` places before a token `j` of an earlier
witness `k'` on the same vertex, where the strings of the `d + 1` tokens agree. -/
def Asked (f : PFilter) (ws : List Witness) (ps : List WPath) (l i : Nat) (v : VId) : Prop :=
  ∃ (k j d : Nat) (w x : Witness) (p : WPath) (t t' u : Token), k < l ∧ d ≤ i ∧ d ≤ j ∧ ws[k]? = some w ∧ ps[k]? = some p ∧
    p.segs[j]? = some (v, [t']) ∧ ws[l]? = some x ∧ x.tokens[i]? = some t ∧ w.tokens[j - d]? = some u ∧
    (∃ d1 d2, filteredData t = .ok d1 ∧ filteredData u = .ok d2 ∧ f d1 d2 = true) ∧
    ∀ e, e ≤ d → ∃ a c, w.tokens[j - e]? = some a ∧ x.tokens[i - e]? = some c ∧ a.str = c.str

/-- Whenever a token shares a vertex with an earlier witness, the filter was asked. -/
def AllAsked (f : PFilter) (ws : List Witness) (ps : List WPath) : Prop :=
  ∀ (l i : Nat) (v : VId) (ts : List Token) (P : WPath), ps[l]? = some P → P.segs[i]? = some (v, ts) →
    (∃ (k : Nat) (p : WPath), k < l ∧ ps[k]? = some p ∧ v ∈ p.inner) → Asked f ws ps l i v

theorem allAsked_step {ts : TopoFn} {f : PFilter} {ti : TokenIndex} (L : Layout ti) :
    StepKeeps ts (some f) ti (fun _ ps => AllAsked f ti.ws ps) := by
  intro s s' ps w P rkf o m r cube cells al hs hne hw hs' hst ha l i v us Q hQ hseg hshare
  obtain ⟨k0, p0, hk0, hp0, hv0⟩ := hshare
  have hlen : l < ps.length ∨ l = ps.length := by
    have := (List.getElem?_eq_some_iff.mp hQ).1
    simp at this; omega
  rcases hlen with hl | hl
  · rw [List.getElem?_append_left hl] at hQ
    rw [List.getElem?_append_left (by omega)] at hp0
    obtain ⟨k, j, d, w', x, p, t, t', u, h1, h2, h3, h4, h5, h6⟩ := ha l i v us Q hQ hseg ⟨k0, p0, hk0, hp0, hv0⟩
    refine ⟨k, j, d, w', x, p, t, t', u, h1, h2, h3, h4, ?_, h6⟩
    rw [List.getElem?_append_left (by omega)]; exact h5
  · subst hl
    rw [List.getElem?_append_left hk0] at hp0
    have hQP : Q = P := by simpa using hQ.symm
    subst hQP
    have hsegm := List.mem_of_getElem? hseg
    rw [hst.path] at hsegm hseg
    simp only at hsegm hseg
    obtain ⟨t, htm, rfl, hor⟩ := newSegs_mem hsegm
    have hti : w.tokens[i]? = some t := by
      have h2 : ((newSegs al s.g.next w.tokens).map Prod.snd)[i]? = some [t] := by rw [List.getElem?_map, hseg]; rfl
      rw [newSegs_snd, List.getElem?_map] at h2
      obtain ⟨t2, h3, h4⟩ := Option.map_eq_some_iff.mp h2
      simp only [List.cons.injEq, and_true] at h4
      rw [h3, h4]
    have hvlt : v < s.g.next := by
      obtain ⟨q, hq, rfl⟩ := List.mem_map.mp hv0
      exact hs.ginv.fresh _ (hs.ginv.segs_in p0 (List.mem_of_getElem? hp0) q hq).1
    have hal : dget al t = some v := by
      rcases hor with h | ⟨_, h, _⟩
      · exact h
      · omega
    obtain ⟨y, x, hyx⟩ := hst.facts.src t v hal
    obtain ⟨i', q, t', h1, h2, h3, h4, h5, h6, d, l', x', g1, g2, g3, g4, g5, g6, g7⟩ := hst.hits _ v t hyx
    have hii : i' = i := by
      obtain ⟨a, ha'⟩ := List.getElem?_eq_some_iff.mp h1
      obtain ⟨b, hb⟩ := List.getElem?_eq_some_iff.mp hti
      exact ((L.tokens_nodup hw).getElem_inj_iff (hi := a) (hj := b)).mp (by rw [ha', hb])
    subst hii
    obtain ⟨t3, k, j, w', p, e1, e2, e3, e4, e5⟩ := (hs.va q v).mp h3
    -- the position lies in one witness
    have hkl : l' = k := by
      have hj := (List.getElem?_eq_some_iff.mp e3).1
      have hk := (List.getElem?_eq_some_iff.mp e1).1
      have hl' := (List.getElem?_eq_some_iff.mp g4).1
      rcases Nat.lt_trichotomy l' k with h | h | h
      · have := off_lt ti.ws l' k x' g4 h (by omega)
        omega
      · exact h
      · have := off_lt ti.ws k l' w' e1 h (by omega)
        omega
    subst hkl
    rw [g4] at e1
    obtain rfl := Option.some.inj e1
    have hdj : d ≤ j := by omega
    have hkps := (List.getElem?_eq_some_iff.mp e2).1
    -- tokens of the array are tokens of the witness
    have harr : ∀ e, e ≤ d → ti.arr[q - e]? = x'.tokens[j - e]? := by
      intro e he
      have hj := (List.getElem?_eq_some_iff.mp e3).1
      obtain ⟨a, ha'⟩ : ∃ a, x'.tokens[j - e]? = some a := ⟨_, List.getElem?_eq_getElem (by omega)⟩
      have := L.arr_tok l' (j - e) x' a g4 ha'
      have e6 : off ti.ws l' + (j - e) = q - e := by omega
      rw [e6] at this
      rw [this, ha']
    unfold filterMatch at g3
    simp only at g3
    obtain ⟨u, k1, k2⟩ := bind_eq_ok.mp g3
    obtain ⟨d1, k3, k4⟩ := bind_eq_ok.mp k2
    obtain ⟨d2, k5, k6⟩ := bind_eq_ok.mp k4
    refine ⟨l', j, d, x', w, p, t, t3, u, hkps, g1, hdj, g4, ?_, e4, hw, h1, ?_, ⟨d1, d2, k3, k5, Except.ok.inj k6⟩, ?_⟩
    · rw [List.getElem?_append_left hkps]; exact e2
    · rw [← harr d (Nat.le_refl _)]; exact lgetE_eq_ok.mp k1
    · intro e he
      obtain ⟨a, c, k7, k8, k9⟩ := g7 e he
      exact ⟨a, c, by rw [← harr e he]; exact k7, k8, k9⟩

end CollateX
