import Verif.Model.FromJson
import Verif.Spec.FromJson
import Verif.Proofs.Again
/-
Reading a collation from a JSON document.
-/

namespace CollateX
open Spec

theorem dictOf_nodup {l : List (Str × Json)} (h : (l.map Prod.fst).Nodup) : dictOf l = l := by
  have key : ∀ (l acc : List (Str × Json)), ((acc ++ l).map Prod.fst).Nodup → l.foldl (fun d e => dset d e.1 e.2) acc = acc ++ l := by
    intro l
    induction l with
    | nil => intro acc _; simp
    | cons e l ih =>
      intro acc h
      have hn : e.1 ∉ acc.map Prod.fst := by
        intro hm
        rw [List.map_append, List.nodup_append] at h
        exact h.2.2 _ hm _ (by simp) rfl
      rw [List.foldl_cons, dset_of_not_mem hn, ih _ (by simpa using h)]
      simp
  exact key l [] (by simpa using h)

theorem jsonKey_eq (s : Str) : jsonKey s = keyOf s := rfl

theorem jsonValue_eq (code : Json → Str) (v : Json) : jsonValue code v = valueOf code v := by
  unfold jsonValue valueOf
  split <;> simp_all

/-- A record that is read: the same entries in some order. -/
theorem jsonRecord_reads {raw : Str → Json} {code : Json → Str} {d : TokenData} (hd : IsRecord raw code d) {v : Json}
    (h : RecordOf raw d v) : ∃ d', jsonRecord code v = .ok d' ∧ d'.Perm d := by
  obtain ⟨l, l', rfl, hp, hf⟩ := h
  have e : l'.map (fun e => (jsonKey e.1, jsonValue code e.2)) = d := by
    have hn := hd.names
    have hv := hd.values
    clear hp hd
    induction hf with
    | nil => rfl
    | @cons e a d l' h _ ih =>
      rw [List.map_cons, ih (fun s v h => hn s v (by simp [h])) (fun k r h => hv k r (by simp [h]))]
      obtain ⟨k, x⟩ := e
      obtain ⟨s, y⟩ := a
      obtain ⟨h1, h2⟩ := h
      simp only at h1 h2
      have hk : jsonKey s = k := by
        cases h1 with
        | t => decide
        | n => decide
        | sigil => decide
        | pos => decide
        | other s => exact keyOf_other (hn s x (by simp))
      have hx : jsonValue code y = x := by
        cases x with
        | str s' => simp only [ReadsValue] at h2; subst h2; rfl
        | nat n => simp only [ReadsValue] at h2; subst h2; rfl
        | raw r => rw [jsonValue_eq]; exact hv k r (by simp) y h2
      simp only [hk, hx]
  have nd' : (l'.map Prod.fst).Nodup := by
    have h1 := hd.keys
    rw [← e, List.map_map] at h1
    have h2 : ((l'.map Prod.fst).map jsonKey).Nodup := by rw [List.map_map]; exact h1
    exact h2.of_map
  have nd : (l.map Prod.fst).Nodup := (hp.map Prod.fst).nodup_iff.mpr nd'
  refine ⟨_, rfl, ?_⟩
  rw [dictOf_nodup nd]
  exact (hp.map _).trans (by rw [e])

theorem jsonRecords_reads {raw : Str → Json} {code : Json → Str} {ds : List TokenData} {vs : List Json}
    (h : List.Forall₂ (RecordOf raw) ds vs) (hd : ∀ d ∈ ds, IsRecord raw code d) :
    ∃ ds', jsonRecords code vs = .ok ds' ∧ List.Forall₂ (fun d d' => d'.Perm d) ds ds' := by
  induction h with
  | nil => exact ⟨[], rfl, .nil⟩
  | @cons d v ds vs h _ ih =>
    obtain ⟨d', h1, h2⟩ := jsonRecord_reads (hd d (by simp)) h
    obtain ⟨ds', h3, h4⟩ := ih (fun d hd' => hd d (by simp [hd']))
    exact ⟨d' :: ds', by simp only [jsonRecords, h1, h3, bind_ok], .cons h2 h4⟩

/-- Two results that fail alike or give related values. -/
def Alike {α : Type} (R : α → α → Prop) (a b : Py α) : Prop :=
  match a with
  | .error e => b = .error e
  | .ok x => ∃ y, b = .ok y ∧ R x y

theorem Alike.bind {α β : Type} {R : α → α → Prop} {T : β → β → Prop} {a b : Py α} (h : Alike R a b) {f g : α → Py β}
    (hfg : ∀ x y, R x y → Alike T (f x) (g y)) : Alike T (a.bind f) (b.bind g) := by
  cases a with
  | error e => simp only [Alike] at h; subst h; rfl
  | ok x =>
    obtain ⟨y, rfl, hR⟩ := h
    exact hfg x y hR

theorem tokenString_perm {d d' : TokenData} (h : d'.Perm d) (nd : (d.map Prod.fst).Nodup) : tokenString d' = tokenString d := by
  unfold tokenString
  simp only [perm_dget h.symm nd]

theorem tokenValues_perm {ds ds' : List TokenData} (h : List.Forall₂ (fun d d' => d'.Perm d) ds ds')
    (hd : ∀ d ∈ ds, (d.map Prod.fst).Nodup) :
    Alike (List.Forall₂ (fun (x y : JVal × TokenData) => y.1 = x.1 ∧ y.2.Perm x.2)) (tokenValues ds) (tokenValues ds') := by
  induction h with
  | nil => exact ⟨[], rfl, .nil⟩
  | @cons d d' ds ds' h _ ih =>
    simp only [tokenValues]
    rw [tokenString_perm h (hd d (by simp))]
    cases hts : tokenString d with
    | error e => rfl
    | ok v =>
      refine Alike.bind (ih fun d hd' => hd d (by simp [hd'])) ?_
      intro x y hxy
      exact ⟨_, rfl, .cons ⟨rfl, h⟩ hxy⟩

theorem joinable_perm {xs ys : List (JVal × TokenData)}
    (h : List.Forall₂ (fun (x y : JVal × TokenData) => y.1 = x.1 ∧ y.2.Perm x.2) xs ys) :
    Alike (List.Forall₂ (fun (t t' : Token) => t'.str = t.str ∧ t'.data.Perm t.data)) (joinable xs) (joinable ys) := by
  induction h with
  | nil => exact ⟨[], rfl, .nil⟩
  | @cons x y xs ys h _ ih =>
    obtain ⟨v, d⟩ := x
    obtain ⟨v', d'⟩ := y
    obtain ⟨h1, h2⟩ := h
    simp only at h1 h2
    subst h1
    cases v' with
    | str s =>
      simp only [joinable]
      refine Alike.bind ih ?_
      intro x y hxy
      exact ⟨_, rfl, .cons ⟨rfl, h2⟩ hxy⟩
    | nat n => rfl
    | raw r => rfl

theorem sameWitness_refl (w : Witness) : SameWitness w w :=
  ⟨rfl, List.forall₂_same.mpr fun _ _ => ⟨rfl, .refl _⟩⟩

/-- A witness that is read is the one that was described. -/
theorem jsonWitness_reads {raw : Str → Json} {code : Json → Str} (cc : CharClass) {w : WitnessData} {v : Json} (h : WitnessOf raw w v)
    (hd : ∀ ds, w.tokens = some ds → ∀ d ∈ ds, IsRecord raw code d) :
    Alike SameWitness (mkWitness cc w) ((jsonWitness code v).bind (mkWitness cc)) := by
  obtain ⟨l, rfl, nd, h1, h2, h3, h4⟩ := h.obj
  have get : ∀ k x, dget (dictOf l) k = some x ↔ (k, x) ∈ l := by
    intro k x
    rw [dictOf_nodup nd]
    exact dget_iff_mem nd
  have none_of : ∀ k, (∀ x, (k, x) ∉ l) → dget (dictOf l) k = none := by
    intro k hk
    cases hg : dget (dictOf l) k with
    | none => rfl
    | some x => exact absurd ((get k x).mp hg) (hk x)
  obtain ⟨id, content, tokens⟩ := w
  simp only at h1 h2 h3 h4 hd
  unfold jsonWitness mkWitness
  cases id with
  | none =>
    have : dget (dictOf l) (S "id") = none := none_of _ (by
      intro x hx
      obtain ⟨s, hs, _⟩ := (h1 x).mp hx
      cases hs)
    simp only [this]
    rfl
  | some σ =>
    have e1 : dget (dictOf l) (S "id") = some (.str σ) := (get _ _).mpr ((h1 _).mpr ⟨σ, rfl, rfl⟩)
    simp only [e1]
    cases content with
    | some c =>
      have e2 : dget (dictOf l) (S "content") = some (.str c) := (get _ _).mpr ((h2 _).mpr ⟨c, rfl, rfl⟩)
      simp only [e2]
      exact ⟨_, rfl, sameWitness_refl _⟩
    | none =>
      have e2 : dget (dictOf l) (S "content") = none := none_of _ (by
        intro x hx
        obtain ⟨s, hs, _⟩ := (h2 x).mp hx
        cases hs)
      simp only [e2]
      cases tokens with
      | none =>
        have e3 : dget (dictOf l) (S "tokens") = none := none_of _ (by
          intro x hx
          obtain ⟨_, _, hs, _⟩ := h3 x hx
          cases hs)
        simp only [e3]
        exact ⟨_, rfl, sameWitness_refl _⟩
      | some ds =>
        obtain ⟨x, hx⟩ := h4 (by simp)
        obtain ⟨ds', vs, e, rfl, hf⟩ := h3 x hx
        obtain rfl := Option.some.inj e
        have e3 : dget (dictOf l) (S "tokens") = some (.arr vs) := (get _ _).mpr hx
        obtain ⟨ds', k1, k2⟩ := jsonRecords_reads hf (hd ds rfl)
        simp only [e3, k1, bind_ok]
        refine Alike.bind (tokenValues_perm k2 fun d hd' => (hd ds rfl d hd').keys) ?_
        intro x y hxy
        refine Alike.bind (joinable_perm hxy) ?_
        intro ts ts' hts
        exact ⟨_, rfl, rfl, hts⟩

theorem addJson_reads {raw : Str → Json} {code : Json → Str} (cc : CharClass) {data : List WitnessData} {vs : List Json}
    (h : List.Forall₂ (WitnessOf raw) data vs) (hd : ∀ w ∈ data, ∀ ds, w.tokens = some ds → ∀ d ∈ ds, IsRecord raw code d) :
    ∀ c c', List.Forall₂ SameWitness c c' →
      Alike (List.Forall₂ SameWitness) (addWitnesses cc c data) (addJsonWitnesses code cc c' vs) := by
  induction h with
  | nil => intro c c' hc; exact ⟨c', rfl, hc⟩
  | @cons w v data vs h _ ih =>
    intro c c' hc
    have hw := jsonWitness_reads (code := code) cc h (hd w (by simp))
    have hr : addJsonWitnesses code cc c' (v :: vs) =
        ((jsonWitness code v).bind (mkWitness cc)).bind (fun u => addJsonWitnesses code cc (c' ++ [u]) vs) := by
      simp only [addJsonWitnesses, addWitness]
      cases jsonWitness code v with
      | error e => rfl
      | ok d =>
        cases hm : mkWitness cc d with
        | error e => simp only [bind_ok, hm, Except.bind]; rfl
        | ok u => simp only [bind_ok, hm, Except.bind]
    have hl : addWitnesses cc c (w :: data) = (mkWitness cc w).bind (fun u => addWitnesses cc (c ++ [u]) data) := by
      simp only [addWitnesses, addWitness]
      cases mkWitness cc w with
      | error e => rfl
      | ok u => rfl
    rw [hr, hl]
    refine Alike.bind hw ?_
    intro x y hxy
    exact ih (fun w hw => hd w (by simp [hw])) _ _ (List.rel_append hc (.cons hxy .nil))

end CollateX
