import Verif.Props.Runs
/-
Two witnesses that differ in one token: C93.
-/

namespace CollateX
open Spec

/-- A row of a table in which one column is variant: the tokens before it, what stands in it, the tokens after it. -/
def Spec.oneVariant (x : List Str) (u : Option Str) (y : List Str) : List (Bool × Option (List Str)) :=
  x.map (fun s => (false, some [s])) ++ (true, u.map (fun s => [s])) :: y.map (fun s => (false, some [s]))

/-- The tokens of an unanimous stretch in one cell. -/
def Spec.oneCell (x : List Str) : List (Bool × Option (List Str)) := if x = [] then [] else [(false, some x)]

/-- The same with segmentation. -/
def Spec.oneVariantSegmented (x : List Str) (u : Option Str) (y : List Str) : List (Bool × Option (List Str)) :=
  oneCell x ++ (true, u.map (fun s => [s])) :: oneCell y

/-! ### Arrangements -/

/-- The same strings in both rows. -/
def inBoth (l : List Str) : List Pairing := l.map (fun s => (some s, some s))

theorem inBoth_of {cols : List Pairing} (hf : ∀ c ∈ cols, c ≠ (none, none)) (he : ∀ c ∈ cols, c.1 = c.2) :
    cols = inBoth (cols.filterMap Prod.fst) ∧ cols.filterMap Prod.snd = cols.filterMap Prod.fst := by
  induction cols with
  | nil => exact ⟨rfl, rfl⟩
  | cons c cols ih =>
    obtain ⟨i1, i2⟩ := ih (fun c hc => hf c (by simp [hc])) (fun c hc => he c (by simp [hc]))
    obtain ⟨c1, c2⟩ := c
    obtain rfl : c1 = c2 := he (c1, c2) (by simp)
    cases c1 with
    | none => exact absurd rfl (hf (none, none) (by simp))
    | some s =>
      refine ⟨?_, ?_⟩
      · simp only [List.filterMap_cons]
        unfold inBoth at i1 ⊢
        rw [List.map_cons, ← i1]
      · simp only [List.filterMap_cons, i2]

theorem arrangement_lengths (cols : List Pairing) (hf : ∀ c ∈ cols, c ≠ (none, none)) :
    cols.length + cols.countP (fun c => decide (c.1 = c.2)) ≤ (cols.filterMap Prod.fst).length + (cols.filterMap Prod.snd).length := by
  induction cols with
  | nil => simp
  | cons c cols ih =>
    have ih := ih (fun c hc => hf c (by simp [hc]))
    obtain ⟨c1, c2⟩ := c
    cases c1 with
    | none =>
      cases c2 with
      | none => exact absurd rfl (hf (none, none) (by simp))
      | some t =>
        rw [List.countP_cons_of_neg (by simp)]
        simp only [List.filterMap_cons, List.length_cons]
        omega
    | some s =>
      cases c2 with
      | none =>
        rw [List.countP_cons_of_neg (by simp)]
        simp only [List.filterMap_cons, List.length_cons]
        omega
      | some t =>
        rw [List.countP_cons]
        simp only [List.filterMap_cons, List.length_cons]
        split <;> omega

/-- A list with one element that is not good. -/
theorem split_one {γ : Type} (P : γ → Bool) : ∀ {l : List γ}, l.countP P + 1 = l.length →
    ∃ l1 c l2, l = l1 ++ c :: l2 ∧ P c = false ∧ (∀ d ∈ l1, P d = true) ∧ ∀ d ∈ l2, P d = true
  | [], h => by simp at h
  | c :: l, h => by
    cases hc : P c with
    | false =>
      refine ⟨[], c, l, rfl, hc, by simp, ?_⟩
      rw [List.countP_cons_of_neg (by simp [hc]), List.length_cons] at h
      exact List.countP_eq_length.mp (by omega)
    | true =>
      rw [List.countP_cons_of_pos hc, List.length_cons] at h
      obtain ⟨l1, d, l2, e, h1, h2, h3⟩ := split_one P (l := l) (by omega)
      refine ⟨c :: l1, d, l2, by rw [e]; rfl, h1, ?_, h3⟩
      intro x hx
      rcases List.mem_cons.mp hx with rfl | hx
      · exact hc
      · exact h2 x hx

/-- A best arrangement of two texts that differ in one token. -/
theorem best_single {x y : List Str} {u v : Option Str} (huv : u ≠ v) {A B : List Str} (hA : A = x ++ u.toList ++ y)
    (hB : B = x ++ v.toList ++ y) {cols : List Pairing} (ha : Arrangement A B cols)
    (hbest : ∀ cols', Arrangement A B cols' → balance cols' ≤ balance cols) :
    ∃ X u' v' Y, cols = inBoth X ++ (u', v') :: inBoth Y ∧ u' ≠ v' ∧ A = X ++ u'.toList ++ Y ∧ B = X ++ v'.toList ++ Y := by
  have hlen := arrangement_lengths cols ha.full
  rw [ha.first, ha.second] at hlen
  have fst1 : ∀ l, (inBoth l).filterMap Prod.fst = l := by
    intro l
    unfold inBoth
    rw [List.filterMap_map]
    exact List.filterMap_some
  have snd1 : ∀ l, (inBoth l).filterMap Prod.snd = l := by
    intro l
    unfold inBoth
    rw [List.filterMap_map]
    exact List.filterMap_some
  have arr : Arrangement A B (inBoth x ++ (u, v) :: inBoth y) := by
    refine ⟨?_, ?_, ?_⟩
    · rw [List.filterMap_append, List.filterMap_cons, fst1, fst1, hA]
      cases u <;> simp
    · rw [List.filterMap_append, List.filterMap_cons, snd1, snd1, hB]
      cases v <;> simp
    · intro c hc h0
      subst h0
      rcases List.mem_append.mp hc with hc | hc
      · obtain ⟨s, _, hs⟩ := List.mem_map.mp hc
        cases hs
      · rcases List.mem_cons.mp hc with hc | hc
        · injection hc with h1 h2
          exact huv (h1.symm.trans h2)
        · obtain ⟨s, _, hs⟩ := List.mem_map.mp hc
          cases hs
  have hb := hbest _ arr
  rw [balance_eq, balance_eq] at hb
  have hcb : ∀ l, (inBoth l).countP (fun c => decide (c.1 = c.2)) = l.length := by
    intro l
    have : (inBoth l).length = l.length := by simp [inBoth]
    rw [← this]
    apply List.countP_eq_length.mpr
    intro c hc
    obtain ⟨s, _, rfl⟩ := List.mem_map.mp hc
    simp
  rw [List.countP_append, List.countP_cons_of_neg (by simpa using huv), hcb, hcb] at hb
  simp only [List.length_append, List.length_cons, inBoth, List.length_map] at hb
  have hul : u.toList.length ≤ 1 ∧ v.toList.length ≤ 1 := by
    cases u <;> cases v <;> simp
  have hle : cols.countP (fun c => decide (c.1 = c.2)) ≤ cols.length := List.countP_le_length
  have hlA := congrArg List.length hA
  have hlB := congrArg List.length hB
  simp only [List.length_append] at hlA hlB
  have hne : cols.countP (fun c => decide (c.1 = c.2)) ≠ cols.length := by
    intro he
    have hall : ∀ c ∈ cols, c.1 = c.2 := by
      intro c hc
      simpa using List.countP_eq_length.mp he c hc
    have := (inBoth_of ha.full hall).2
    rw [ha.first, ha.second, hA, hB, List.append_cancel_right_eq, List.append_cancel_left_eq] at this
    apply huv
    cases u <;> cases v <;> simp_all
  push_cast at hb
  obtain ⟨l1, c, l2, e, h1, h2, h3⟩ := split_one (fun c : Pairing => decide (c.1 = c.2)) (l := cols) (by omega)
  obtain ⟨i1, i2⟩ := inBoth_of (cols := l1) (fun c hc => ha.full c (by rw [e]; simp [hc])) (fun c hc => by simpa using h2 c hc)
  obtain ⟨j1, j2⟩ := inBoth_of (cols := l2) (fun c hc => ha.full c (by rw [e]; simp [hc])) (fun c hc => by simpa using h3 c hc)
  refine ⟨l1.filterMap Prod.fst, c.1, c.2, l2.filterMap Prod.fst, ?_, by simpa using h1, ?_, ?_⟩
  · rw [← i1, ← j1, e]
  · rw [← ha.first, e, List.filterMap_append, List.filterMap_cons]
    cases c.1 <;> simp
  · rw [← ha.second, e, List.filterMap_append, List.filterMap_cons, i2, j2]
    cases c.2 <;> simp

/-- No two neighbours are equal. -/
def TwinFree (l : List Str) : Prop := ∀ (i : Nat) (a : Str), l[i]? = some a → l[i + 1]? ≠ some a

theorem change_not_later {x y X Y : List Str} {u v u' v' : Option Str} {A B : List Str} (huv : u ≠ v) (hA : A = x ++ u.toList ++ y)
    (hB : B = x ++ v.toList ++ y) (hA' : A = X ++ u'.toList ++ Y) (hB' : B = X ++ v'.toList ++ Y) (hrB : TwinFree B)
    (hrA : v ≠ none ∨ TwinFree A) : ¬ x.length < X.length := by
  intro hl
  have hsame : A[x.length]? = B[x.length]? := by
    rw [hA', hB', List.append_assoc, List.append_assoc, List.getElem?_append_left hl, List.getElem?_append_left hl]
  have atx : ∀ (z : Option Str), (x ++ z.toList ++ y)[x.length]? = (z.toList ++ y)[0]? := by
    intro z
    rw [List.append_assoc, List.getElem?_append_right (Nat.le_refl _), Nat.sub_self]
  have atx1 : ∀ (z : Option Str), (x ++ z.toList ++ y)[x.length + 1]? = (z.toList ++ y)[1]? := by
    intro z
    rw [List.append_assoc, List.getElem?_append_right (by omega)]
    congr 1
    omega
  cases u with
  | some s =>
    cases v with
    | some t =>
      rw [hA, hB, atx, atx] at hsame
      simp at hsame
      exact huv (by rw [hsame])
    | none =>
      rcases hrA with h | h
      · exact h rfl
      · refine h x.length s ?_ ?_
        · rw [hA, atx]; rfl
        · rw [hA, atx1]
          rw [hA, hB, atx, atx] at hsame
          simpa using hsame.symm
  | none =>
    cases v with
    | some t =>
      refine hrB x.length t ?_ ?_
      · rw [hB, atx]; rfl
      · rw [hB, atx1]
        rw [hA, hB, atx, atx] at hsame
        simpa using hsame
    | none => exact huv rfl

/-- Where two texts without equal neighbours differ. -/
theorem change_place {x y X Y : List Str} {u v u' v' : Option Str} {A B : List Str} (huv : u ≠ v) (huv' : u' ≠ v')
    (hA : A = x ++ u.toList ++ y) (hB : B = x ++ v.toList ++ y) (hA' : A = X ++ u'.toList ++ Y) (hB' : B = X ++ v'.toList ++ Y)
    (hrB : TwinFree B) (hrA : v ≠ none ∨ TwinFree A) : X = x ∧ u' = u ∧ v' = v ∧ Y = y := by
  have l1 := congrArg List.length hA
  have l2 := congrArg List.length hB
  have l3 := congrArg List.length hA'
  have l4 := congrArg List.length hB'
  simp only [List.length_append] at l1 l2 l3 l4
  have lt : ∀ (z : Option Str), z.toList.length = if z = none then 0 else 1 := by
    intro z
    cases z <;> simp
  rw [lt] at l1 l2 l3 l4
  have hn : (u = none ∧ v = none → False) ∧ (u' = none ∧ v' = none → False) :=
    ⟨fun h => huv (h.1.trans h.2.symm), fun h => huv' (h.1.trans h.2.symm)⟩
  have hvn : (v' = none ↔ v = none) ∧ (u' = none ↔ u = none) := by
    by_cases c1 : u = none <;> by_cases c2 : v = none <;> by_cases c3 : u' = none <;> by_cases c4 : v' = none <;>
      simp only [c1, c2, c3, c4, if_true, if_false] at l1 l2 l3 l4 hn ⊢ <;> first | (simp; done) | (exfalso; omega) | (exfalso; simp at hn)
  have hrA' : v' ≠ none ∨ TwinFree A := by
    rcases hrA with h | h
    · exact Or.inl fun h0 => h (hvn.1.mp h0)
    · exact Or.inr h
  have a1 := change_not_later huv hA hB hA' hB' hrB hrA
  have a2 := change_not_later huv' hA' hB' hA hB hrB hrA'
  have hlu : u.toList.length = u'.toList.length := by
    rw [lt, lt]
    by_cases c : u = none
    · rw [if_pos c, if_pos (hvn.2.mpr c)]
    · rw [if_neg c, if_neg (fun h => c (hvn.2.mp h))]
  have hlv : v.toList.length = v'.toList.length := by
    rw [lt, lt]
    by_cases c : v = none
    · rw [if_pos c, if_pos (hvn.1.mpr c)]
    · rw [if_neg c, if_neg (fun h => c (hvn.1.mp h))]
  have e1 := hA.symm.trans hA'
  have e2 := hB.symm.trans hB'
  rw [List.append_assoc, List.append_assoc] at e1 e2
  obtain ⟨f1, f2⟩ := List.append_inj e1 (by omega)
  obtain ⟨f3, f4⟩ := List.append_inj f2 hlu
  obtain ⟨_, g2⟩ := List.append_inj e2 (by omega)
  obtain ⟨g3, _⟩ := List.append_inj g2 hlv
  have tl : ∀ {z z' : Option Str}, z.toList = z'.toList → z' = z := by
    intro z z' h
    cases z <;> cases z' <;> simp_all
  exact ⟨f1.symm, tl f3, tl g3, f4.symm⟩

/-! ### The marks of a table with two rows -/

theorem twoRows_agree {t : Table} {cols : List Pairing} (ht : TwoRows t cols) {j : Nat} {c : Pairing} (hc : cols[j]? = some c)
    (hf : c ≠ (none, none)) : RowsAgree t j ↔ c.1 = c.2 := by
  unfold TwoRows at ht
  have hl := congrArg List.length ht
  simp only [List.length_map, List.length_cons, List.length_nil] at hl
  obtain ⟨r1, r2, hr⟩ : ∃ r1 r2, t.rows = [r1, r2] := by
    match t.rows, hl with
    | [r1, r2], _ => exact ⟨r1, r2, rfl⟩
  rw [hr] at ht
  simp only [List.map_cons, List.map_nil, List.cons.injEq, and_true] at ht
  have e1 := congrArg (fun l => l[j]?) ht.1
  have e2 := congrArg (fun l => l[j]?) ht.2
  simp only [List.getElem?_map, hc, Option.map_some] at e1 e2
  obtain ⟨c1, c2⟩ := c
  unfold RowsAgree
  rw [hr]
  constructor
  · rintro ⟨l, hne, h⟩
    obtain ⟨ts, h1, h2⟩ := h r1 (by simp)
    obtain ⟨us, h3, h4⟩ := h r2 (by simp)
    rw [h1] at e1
    rw [h3] at e2
    simp only [Option.map_some, Option.some.injEq] at e1 e2
    rw [h2] at e1
    rw [h4] at e2
    rw [e1] at e2
    cases c1 <;> cases c2 <;> simp_all
  · intro he
    simp only at he
    subst he
    cases c1 with
    | none => exact absurd rfl hf
    | some s =>
      refine ⟨[s], by simp, ?_⟩
      have key : ∀ r : Row, Option.map (Option.map (List.map Token.str)) r.cells[j]? = some (Option.map (fun a => [a]) (some s)) →
          ∃ ts, r.cells[j]? = some (some ts) ∧ ts.map Token.str = [s] := by
        intro r h
        obtain ⟨x, h1, h2⟩ := Option.map_eq_some_iff.mp h
        simp only [Option.map_some] at h2
        obtain ⟨ts, h3, h4⟩ := Option.map_eq_some_iff.mp h2
        exact ⟨ts, by rw [h1, h3], h4⟩
      intro row hrow
      simp only [List.mem_cons, List.not_mem_nil, or_false] at hrow
      rcases hrow with rfl | rfl
      · exact key _ e1
      · exact key _ e2

/-- The table of two texts that differ in one token. -/
theorem single_core (env : Env) (hts : TopoSpec env.topo) (wA wB : Witness) (hv : Valid [wA, wB])
    (hs : ∀ w ∈ [wA, wB], w.sigil ≠ []) (hrep : NoRepeats wB) (o : Opts) (ho : ExactMatching o) (hf : o.pfilter = none)
    (hseg : o.segmentation = false) {x y : List Str} {u v : Option Str} (huv : u ≠ v) (hA : strings wA = x ++ u.toList ++ y)
    (hB : strings wB = x ++ v.toList ++ y) :
    ∃ t X u' v' Y, collateTable env [wA, wB] o = .ok t ∧ u' ≠ v' ∧ strings wA = X ++ u'.toList ++ Y ∧ strings wB = X ++ v'.toList ++ Y ∧
      markedStrings t = [oneVariant X u' Y, oneVariant X v' Y] := by
  obtain ⟨t, cols, ht, h2, harr, hbest⟩ := C65_best_partial env hts wA wB hv hs hrep o ho hf hseg
  obtain ⟨X, u', v', Y, hcols, huv', hA', hB'⟩ := best_single huv hA hB harr hbest
  refine ⟨t, X, u', v', Y, ht, huv', hA', hB', ?_⟩
  have hlen : t.columns.length = cols.length := by
    obtain ⟨_, h3, _⟩ := C26_table_shape env hts [wA, wB] hv hs o ho t ht
    have hl := congrArg List.length h2
    simp only [List.length_map, List.length_cons, List.length_nil] at hl
    obtain ⟨r1, r2, hr⟩ : ∃ r1 r2, t.rows = [r1, r2] := by
      match t.rows, hl with
      | [r1, r2], _ => exact ⟨r1, r2, rfl⟩
    have h4 := (h3 r1 (by rw [hr]; simp)).1
    unfold TwoRows at h2
    rw [hr] at h2
    simp only [List.map_cons, List.map_nil, List.cons.injEq, and_true] at h2
    have h5 := congrArg List.length h2.1
    simp only [List.length_map] at h5
    omega
  have hmarks : t.columns.map Column.variant = cols.map (fun c => decide (c.1 ≠ c.2)) := by
    apply List.ext_getElem?
    intro j
    rw [List.getElem?_map, List.getElem?_map]
    by_cases hj : j < t.columns.length
    · have hc := List.getElem?_eq_getElem hj
      have hd := List.getElem?_eq_getElem (show j < cols.length by omega)
      rw [hc, hd, Option.map_some, Option.map_some, Option.some.injEq]
      have k1 := C77_variant_iff_differ_partial env hts wA wB hv hs hrep o ho hf t ht j _ hc
      rw [twoRows_agree h2 hd (harr.full _ (List.getElem_mem _))] at k1
      rw [Bool.eq_iff_iff, k1, decide_eq_true_iff]
    · rw [List.getElem?_eq_none (by omega), List.getElem?_eq_none (by omega)]
      rfl
  rw [markedStrings_eq]
  unfold tableSummary
  simp only
  rw [h2, hmarks]
  simp only [List.map_cons, List.map_nil, List.zip_map']
  rw [hcols]
  simp [oneVariant, inBoth, huv', Function.comp_def]

/-! ### With segmentation -/

theorem joinedCells_map {α β : Type} (f : α → β) (cs : List (Option (List α))) :
    joinedCells (cs.map (Option.map (List.map f))) = (joinedCells cs).map (List.map f) := by
  unfold joinedCells
  have h1 : (cs.map (Option.map (List.map f))).all Option.isNone = cs.all Option.isNone := by
    rw [List.all_map]
    congr 1
    funext x
    cases x <;> rfl
  have h2 : ((cs.map (Option.map (List.map f))).filterMap id).flatten = ((cs.filterMap id).flatten).map f := by
    clear h1
    induction cs with
    | nil => rfl
    | cons c cs ih =>
      cases c with
      | none => simpa using ih
      | some l =>
        simp only [List.map_cons, Option.map_some, List.filterMap_cons, id]
        rw [List.flatten_cons, List.flatten_cons, List.map_append]
        exact congrArg _ ih
  rw [h1, h2]
  split <;> rfl

theorem mergedRuns_map {α β : Type} (f : α → β) (l : List (Bool × Option (List α))) :
    mergedRuns (l.map (fun x => (x.1, x.2.map (List.map f)))) = (mergedRuns l).map (fun x => (x.1, x.2.map (List.map f))) := by
  unfold mergedRuns
  rw [splitBy_map, List.map_map, List.map_map]
  apply List.map_congr_left
  intro g _
  simp only [Function.comp, List.any_map, List.map_map]
  refine Prod.ext rfl ?_
  simp only
  rw [← joinedCells_map, List.map_map]
  rfl

theorem chain_of_marks {γ : Type} {f : γ → Bool} {b : Bool} : ∀ {g : List γ}, (∀ x ∈ g, f x = b) →
    g.IsChain (fun x y => (f x == f y) = true)
  | [], _ => List.isChain_nil
  | [a], _ => List.isChain_singleton a
  | a :: c :: g, h => List.isChain_cons_cons.mpr ⟨by rw [h a (by simp), h c (by simp)]; simp,
      chain_of_marks fun x hx => h x (List.mem_cons_of_mem _ hx)⟩

theorem merged_one (x : List Str) : mergedRuns (x.map (fun s => (false, some [s]))) = oneCell x := by
  unfold mergedRuns oneCell
  cases x with
  | nil => rfl
  | cons s x =>
    rw [List.splitBy_of_isChain (by simp) (chain_of_marks (f := Prod.fst) (b := false) (by
      intro y hy
      obtain ⟨s, _, rfl⟩ := List.mem_map.mp hy
      rfl)), if_neg (by simp)]
    simp only [List.map_cons, List.map_nil]
    congr 1
    refine Prod.ext ?_ ?_
    · simp
    · have h1 : ∀ l : List Str, ((List.map (Prod.snd ∘ fun s : Str => (false, some [s])) l).filterMap id).flatten = l := by
        intro l
        induction l with
        | nil => rfl
        | cons a l ih =>
          simp only [List.map_cons, Function.comp, List.filterMap_cons, id, List.flatten_cons]
          exact congrArg (List.cons a) ih
      simp only [joinedCells, List.map_map]
      rw [if_neg (by simp)]
      have := h1 (s :: x)
      simp only [List.map_cons] at this
      rw [← this]
      rfl

theorem merged_variant (X : List Str) (u : Option Str) (Y : List Str) : mergedRuns (oneVariant X u Y) = oneVariantSegmented X u Y := by
  have happ : ∀ {l m : List (Bool × Option (List Str))}, (∀ x ∈ l.getLast?, ∀ y ∈ m.head?, (x.1 == y.1) = false) →
      mergedRuns (l ++ m) = mergedRuns l ++ mergedRuns m := by
    intro l m h
    unfold mergedRuns
    rw [List.splitBy_append h, List.map_append]
  have falses : ∀ {l : List Str} {x : Bool × Option (List Str)}, x ∈ l.map (fun s => (false, some [s])) → x.1 = false := by
    intro l x hx
    obtain ⟨s, _, rfl⟩ := List.mem_map.mp hx
    rfl
  unfold oneVariant oneVariantSegmented
  rw [happ, merged_one]
  · congr 1
    rw [← List.singleton_append, happ, merged_one]
    · have : mergedRuns [(true, u.map (fun s => [s]))] = [(true, u.map (fun s => [s]))] := by
        unfold mergedRuns
        rw [List.splitBy_of_isChain (by simp) (List.isChain_singleton _)]
        cases u <;> rfl
      rw [this]
      rfl
    · intro x hx y hy
      have h1 := falses (List.mem_of_mem_head? hy)
      simp only [List.getLast?_singleton, Option.mem_def, Option.some.injEq] at hx
      subst hx
      rw [h1]
      rfl
  · intro x hx y hy
    have h1 := falses (List.mem_of_mem_getLast? hx)
    simp only [List.head?_cons, Option.mem_def, Option.some.injEq] at hy
    subst hy
    rw [h1]
    rfl

theorem markedStrings_merged {t t' : Table}
    (h : t'.rows.map (fun r => (r.header, markedRow t' r)) = t.rows.map (fun r => (r.header, mergedRuns (markedRow t r)))) :
    markedStrings t' = (markedStrings t).map mergedRuns := by
  have h2 := congrArg (List.map (fun x : Str × List (Bool × Option (List Token)) => x.2.map (fun x => (x.1, x.2.map (List.map Token.str))))) h
  rw [List.map_map, List.map_map] at h2
  unfold markedStrings
  rw [List.map_map]
  refine Eq.trans h2 ?_
  apply List.map_congr_left
  intro r _
  simp only [Function.comp]
  rw [mergedRuns_map]

/-! ### C93 -/

/-- What a table shows of two texts, without and with segmentation. -/
def Spec.showsChange (seg : Bool) (x : List Str) (u : Option Str) (y : List Str) : List (Bool × Option (List Str)) :=
  if seg then oneVariantSegmented x u y else oneVariant x u y

/-- C93 if no two neighbouring tokens of the second witness are equal (what is missing: second witnesses with equal neighbours, for which
the claim is false, see `C93_repeats`), wherever the change is: two witnesses that differ in one token, which is replaced, added or left
out, have one variant column; all other tokens stand in columns of their own that are not variant, or, with segmentation, in one column
before it and one column after it. -/
theorem C93_one_variant_partial (env : Env) (hts : TopoSpec env.topo) (wA wB : Witness) (hv : Valid [wA, wB])
    (hs : ∀ w ∈ [wA, wB], w.sigil ≠ []) (hrep : NoRepeats wB) (o : Opts) (ho : ExactMatching o) (hf : o.pfilter = none)
    (x y : List Str) (u v : Option Str) (huv : u ≠ v) (hA : strings wA = x ++ u.toList ++ y) (hB : strings wB = x ++ v.toList ++ y) :
    ∃ t X u' v' Y, collateTable env [wA, wB] o = .ok t ∧ u' ≠ v' ∧ strings wA = X ++ u'.toList ++ Y ∧ strings wB = X ++ v'.toList ++ Y ∧
      markedStrings t = [showsChange o.segmentation X u' Y, showsChange o.segmentation X v' Y] := by
  have ho1 : ExactMatching { o with segmentation := false } := ⟨ho.astar, ho.detect, ho.near⟩
  obtain ⟨t, X, u', v', Y, h1, h2, h3, h4, h5⟩ := single_core env hts wA wB hv hs hrep { o with segmentation := false } ho1 hf rfl huv hA hB
  obtain ⟨t1, t', k1, k2, k3⟩ := C92_segmentation_merges_runs env hts wA wB hv hs o ho
  rw [h1] at k1
  obtain rfl := Except.ok.inj k1
  cases hseg : o.segmentation with
  | false =>
    have ho' : { o with segmentation := false } = o := by rw [← hseg]
    rw [ho'] at h1
    exact ⟨t, X, u', v', Y, h1, h2, h3, h4, h5⟩
  | true =>
    have ho' : { o with segmentation := true } = o := by rw [← hseg]
    rw [ho'] at k2
    refine ⟨t', X, u', v', Y, k2, h2, h3, h4, ?_⟩
    rw [markedStrings_merged k3, h5]
    simp only [List.map_cons, List.map_nil, merged_variant]
    rfl

/-- C93 if no two neighbouring tokens of the second witness are equal, and none of the first if the second leaves a token out (what is missing
as before; which of several equal neighbours is left out cannot be told): the variant column is in the place of the change. -/
theorem C93_single_change_partial (env : Env) (hts : TopoSpec env.topo) (wA wB : Witness) (hv : Valid [wA, wB])
    (hs : ∀ w ∈ [wA, wB], w.sigil ≠ []) (hrep : NoRepeats wB) (o : Opts) (ho : ExactMatching o) (hf : o.pfilter = none)
    (x y : List Str) (u v : Option Str) (huv : u ≠ v) (hA : strings wA = x ++ u.toList ++ y) (hB : strings wB = x ++ v.toList ++ y)
    (hplace : v ≠ none ∨ NoRepeats wA) :
    ∃ t, collateTable env [wA, wB] o = .ok t ∧ markedStrings t = [showsChange o.segmentation x u y, showsChange o.segmentation x v y] := by
  obtain ⟨t, X, u', v', Y, h1, h2, h3, h4, h5⟩ := C93_one_variant_partial env hts wA wB hv hs hrep o ho hf x y u v huv hA hB
  obtain ⟨rfl, rfl, rfl, rfl⟩ := change_place huv h2 hA hB h3 h4 hrep hplace
  exact ⟨t, h1, h5⟩

/-! ### Cases, and equal neighbours -/

/-- A second witness with equal neighbours. -/
def equalNeighbours : List Witness := [wordsWitness "A" ["a", "x"], wordsWitness "B" ["a", "a"]]

/-- C93 is false without the restriction: `a x` and `a a` differ in one word, but two columns are variant, and the words before it do not
stand in one column. -/
theorem C93_repeats : Valid equalNeighbours ∧ (∀ w ∈ equalNeighbours, w.sigil ≠ []) ∧
    (collateTable exampleEnv equalNeighbours { segmentation := false }).map tableSummary =
      .ok ⟨[true, false, true], [S "A", S "B"], [[none, some [S "a"], some [S "x"]], [some [S "a"], some [S "a"], none]]⟩ :=
  ⟨valid_of_check (by decide) (by decide) (by decide) (by decide), by decide, by decide +kernel⟩

/-- Nor for a word added at the end of a text with equal neighbours. -/
theorem C93_added_at_end : Valid [wordsWitness "A" ["b", "b"], wordsWitness "B" ["b", "b", "a"]] ∧
    (collateTable exampleEnv [wordsWitness "A" ["b", "b"], wordsWitness "B" ["b", "b", "a"]] { segmentation := false }).map tableSummary =
      .ok ⟨[true, false, true], [S "A", S "B"], [[none, some [S "b"], some [S "b"]], [some [S "b"], some [S "b"], some [S "a"]]]⟩ :=
  ⟨valid_of_check (by decide) (by decide) (by decide) (by decide), by decide +kernel⟩

theorem noRepeats_of_check {w : Witness} (h : ∀ i ∈ List.range (strings w).length, (strings w)[i]? ≠ (strings w)[i + 1]?) : NoRepeats w := by
  intro i a h1 h2
  exact h i (List.mem_range.mpr (List.getElem?_eq_some_iff.mp h1).1) (by rw [h1, h2])

/-- A replaced word, with the hypotheses of C93 and the tables. -/
example : Valid [wordsWitness "A" ["a", "b", "c", "d"], wordsWitness "B" ["a", "b", "x", "d"]] ∧
    NoRepeats (wordsWitness "B" ["a", "b", "x", "d"]) ∧ some (S "c") ≠ some (S "x") ∧
    strings (wordsWitness "A" ["a", "b", "c", "d"]) = [S "a", S "b"] ++ (some (S "c")).toList ++ [S "d"] ∧
    strings (wordsWitness "B" ["a", "b", "x", "d"]) = [S "a", S "b"] ++ (some (S "x")).toList ++ [S "d"] ∧
    (collateTable exampleEnv [wordsWitness "A" ["a", "b", "c", "d"], wordsWitness "B" ["a", "b", "x", "d"]] { segmentation := false }).map
        tableSummary =
      .ok ⟨[false, false, true, false], [S "A", S "B"],
        [[some [S "a"], some [S "b"], some [S "c"], some [S "d"]], [some [S "a"], some [S "b"], some [S "x"], some [S "d"]]]⟩ ∧
    (collateTable exampleEnv [wordsWitness "A" ["a", "b", "c", "d"], wordsWitness "B" ["a", "b", "x", "d"]] { segmentation := true }).map
        tableSummary =
      .ok ⟨[false, true, false], [S "A", S "B"],
        [[some [S "a", S "b"], some [S "c"], some [S "d"]], [some [S "a", S "b"], some [S "x"], some [S "d"]]]⟩ :=
  ⟨valid_of_check (by decide) (by decide) (by decide) (by decide), noRepeats_of_check (by decide), by decide, by decide, by decide,
    by decide +kernel, by decide +kernel⟩

/-- One of two equal neighbours is left out; the place is not determined by the texts. -/
example : (collateTable exampleEnv [wordsWitness "A" ["a", "b", "b", "d"], wordsWitness "B" ["a", "b", "d"]] { segmentation := true }).map
    tableSummary = .ok ⟨[false, true, false], [S "A", S "B"],
      [[some [S "a"], some [S "b"], some [S "b", S "d"]], [some [S "a"], none, some [S "b", S "d"]]]⟩ := by
  decide +kernel

end CollateX
