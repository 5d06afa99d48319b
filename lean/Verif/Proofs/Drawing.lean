import Verif.Spec.Display
import Verif.Proofs.Export
import Verif.Proofs.Near
/-
Lemmas on the drawing of the variant graph.
-/

namespace CollateX
open Spec

/-! ### Escaping -/

theorem escapeHtml_append (a b : Str) : escapeHtml (a ++ b) = escapeHtml a ++ escapeHtml b := by
  induction a with
  | nil => rfl
  | cons c a ih => simp [escapeHtml, ih]

theorem escapeHtml_plain (s : Str) : '<' ∉ escapeHtml s ∧ '>' ∉ escapeHtml s := by
  induction s with
  | nil => simp [escapeHtml]
  | cons c s ih =>
    unfold escapeHtml
    split
    · simp only [List.mem_append, not_or]
      exact ⟨⟨by decide, ih.1⟩, ⟨by decide, ih.2⟩⟩
    · split
      · simp only [List.mem_append, not_or]
        exact ⟨⟨by decide, ih.1⟩, ⟨by decide, ih.2⟩⟩
      · rename_i h1 h2
        simp only [List.mem_append, List.mem_singleton, not_or]
        exact ⟨⟨fun e => h1 e.symm, ih.1⟩, ⟨fun e => h2 e.symm, ih.2⟩⟩

theorem unescape_cons {c : Char} (h : c ≠ '&') (s : Str) : unescape (c :: s) = c :: unescape s := by
  rw [unescape]
  · intro cs e _; exact h e
  · intro cs e _; exact h e

theorem unescape_escapeHtml {s : Str} (h : '&' ∉ s) : unescape (escapeHtml s) = s := by
  induction s with
  | nil => rfl
  | cons c s ih =>
    have hc : c ≠ '&' := fun e => h (by simp [e])
    have ih := ih (fun e => h (by simp [e]))
    unfold escapeHtml
    split
    · rename_i h1
      subst h1
      show unescape ('&' :: 'l' :: 't' :: ';' :: escapeHtml s) = _
      rw [unescape, ih]
    · split
      · rename_i h1
        subst h1
        show unescape ('&' :: 'g' :: 't' :: ';' :: escapeHtml s) = _
        rw [unescape, ih]
      · show unescape (c :: escapeHtml s) = _
        rw [unescape_cons hc, ih]

theorem svgReading_iff : ∀ {ts : List Token} {r : Str}, svgReading ts = .ok r ↔ ∃ s, TextOf ts s ∧ r = escapeHtml s
  | [], r => by
    constructor
    · intro h
      obtain rfl := Except.ok.inj h
      exact ⟨[], textOf_nil, rfl⟩
    · rintro ⟨s, h, rfl⟩
      obtain rfl := TextOf.unique h textOf_nil
      rfl
  | t :: ts, r => by
    unfold svgReading
    constructor
    · intro h
      obtain ⟨a, ha, h⟩ := bind_eq_ok.mp h
      obtain ⟨b, hb, h⟩ := bind_eq_ok.mp h
      obtain rfl := Except.ok.inj h
      obtain ⟨s, h1, rfl⟩ := svgReading_iff.mp hb
      refine ⟨a ++ s, ?_, (escapeHtml_append _ _).symm⟩
      have : TextOf [t] a := ⟨[a], by simp [tokenT_ok.mp ha], by simp⟩
      exact textOf_append (a := [t]).mpr ⟨a, s, this, h1, rfl⟩
    · rintro ⟨s, h, rfl⟩
      obtain ⟨x, y, ⟨l, hl, rfl⟩, h2, rfl⟩ := textOf_append (a := [t]).mp h
      have h3 : svgReading ts = .ok (escapeHtml y) := svgReading_iff.mpr ⟨y, h2, rfl⟩
      cases l with
      | nil => cases hl
      | cons a l =>
        cases l with
        | cons _ _ => simp at hl
        | nil =>
          have h4 : tokenT t = .ok a := tokenT_ok.mpr (by simpa using hl)
          rw [h4, h3]
          simp [bind_ok, escapeHtml_append]

/-! ### The readings at a vertex -/

theorem flatMap_dset {K A : Type} [DecidableEq K] (k : K) (a : A) (d : Dict K (List A)) :
    ((setdefaultAppend d k a).flatMap Prod.snd).Perm (d.flatMap Prod.snd ++ [a]) := by
  have key : ∀ (d : Dict K (List A)), ((dset d k ((dget d k).getD [] ++ [a])).flatMap Prod.snd).Perm (d.flatMap Prod.snd ++ [a]) := by
    intro d
    induction d with
    | nil => simp [dset, dget]
    | cons p d ih =>
      obtain ⟨k', l⟩ := p
      unfold dset dget
      split
      · simp only [Option.getD_some, List.flatMap_cons, List.append_assoc]
        exact List.Perm.append_left _ List.perm_append_comm
      · simp only [List.flatMap_cons, List.append_assoc]
        exact List.Perm.append_left _ ih
  have e : setdefaultAppend d k a = dset d k ((dget d k).getD [] ++ [a]) := by
    unfold setdefaultAppend
    cases dget d k <;> rfl
  rw [e]
  exact key d

theorem reverseReadings_ok : ∀ (l : Dict Str (List Token)) (d : Dict Str (List Str)), (∀ p ∈ l, ∃ s, TextOf p.2 s) →
    (d.map Prod.fst).Nodup → (∀ r ∈ d, r.2 ≠ []) → ∃ d', reverseReadings l d = .ok d' ∧ (d'.map Prod.fst).Nodup ∧
      (∀ r ∈ d', r.2 ≠ []) ∧ (d'.flatMap Prod.snd).Perm (d.flatMap Prod.snd ++ l.map Prod.fst) ∧
      ∀ r ∈ d', ∀ σ ∈ r.2, (∃ r0 ∈ d, r0.1 = r.1 ∧ σ ∈ r0.2) ∨ ∃ ts, (σ, ts) ∈ l ∧ svgReading ts = .ok r.1
  | [], d, _, hnd, hne => ⟨d, rfl, hnd, hne, by simp, fun r hr σ hσ => Or.inl ⟨r, hr, rfl, hσ⟩⟩
  | (σ, ts) :: l, d, h, hnd, hne => by
    obtain ⟨s, hs⟩ := h (σ, ts) (by simp)
    have h1 : svgReading ts = .ok (escapeHtml s) := svgReading_iff.mpr ⟨s, hs, rfl⟩
    have e : ∀ k, setdefaultAppend d k σ = dset d k ((dget d k).getD [] ++ [σ]) := by
      intro k
      unfold setdefaultAppend
      cases dget d k <;> rfl
    obtain ⟨d', h2, h3, h4, h5, h6⟩ := reverseReadings_ok l (setdefaultAppend d (escapeHtml s) σ) (fun p hp => h p (by simp [hp]))
      (by rw [e]; exact nodup_keys_dset hnd _ _)
      (by
        intro r hr
        rw [e] at hr
        rcases mem_dset hr with hr | rfl
        · exact hne r hr
        · simp)
    refine ⟨d', by unfold reverseReadings; rw [h1]; exact h2, h3, h4, ?_, ?_⟩
    · refine h5.trans ?_
      refine ((flatMap_dset _ _ _).append_right _).trans ?_
      simp
    · intro r hr τ hτ
      rcases h6 r hr τ hτ with ⟨r0, hr0, e0, hm⟩ | ⟨ts', hm, hr'⟩
      · rw [e] at hr0
        rcases mem_dset hr0 with hr0 | rfl
        · exact Or.inl ⟨r0, hr0, e0, hm⟩
        · simp only [List.mem_append, List.mem_singleton] at hm
          rcases hm with hm | hm
          · left
            cases hdg : dget d (escapeHtml s) with
            | none => rw [hdg] at hm; cases hm
            | some l0 =>
              rw [hdg] at hm
              exact ⟨(escapeHtml s, l0), dget_mem hdg, e0, hm⟩
          · subst hm
            right
            exact ⟨ts, by simp, by rw [h1]; exact congrArg _ e0⟩
      · exact Or.inr ⟨ts', by simp [hm], hr'⟩

theorem insertReading_perm (x : Str × List Str) : ∀ l, (insertReading x l).Perm (x :: l)
  | [] => List.Perm.refl _
  | y :: l => by
    unfold insertReading
    split
    · exact ((insertReading_perm x l).cons y).trans (List.Perm.swap _ _ _)
    · exact List.Perm.refl _

theorem sortedReadings_perm : ∀ d, (sortedReadings d).Perm d
  | [] => List.Perm.refl _
  | x :: d => (insertReading_perm x _).trans ((sortedReadings_perm d).cons x)

theorem commaJoin_eq : ∀ l, commaJoin l = [',', ' '].intercalate l
  | [] => rfl
  | [s] => by simp [commaJoin]
  | s :: t :: l => by
    rw [commaJoin, commaJoin_eq (t :: l)]
    · simp [List.intercalate, S]
    · simp

/-- The label of a vertex in the full drawing. -/
theorem svgLabel_ok {x : Vertex} {rank : Nat} (hnd : (x.tokens.map Prod.fst).Nodup) (h : ∀ p ∈ x.tokens, ∃ s, TextOf p.2 s) :
    ∃ rows, svgLabel x rank = .ok (fullLabel x.label rank rows) ∧ ReadingRows x.tokens rows := by
  obtain ⟨d, h1, h2, h3, h4, h5⟩ := reverseReadings_ok x.tokens [] h (by simp) (by simp)
  have hp := sortedReadings_perm d
  refine ⟨sortedReadings d, ?_, ?_⟩
  · unfold svgLabel
    rw [h1, bind_ok]
    unfold fullLabel
    have e : ∀ l : List (Str × List Str), l.flatMap readingRow = (l.map (fun p => S "<TR><TD ALIGN='LEFT'><FONT FACE='Bukyvede'>" ++ p.1 ++
        S "</FONT></TD><TD ALIGN='LEFT'>" ++ [',', ' '].intercalate p.2 ++ S "</TD></TR>")).flatten := by
      intro l
      rw [List.flatMap_def]
      congr 1
      apply List.map_congr_left
      intro p _
      unfold readingRow
      rw [commaJoin_eq]
    rw [e, natStr_eq]
    have e2 : S "<<TABLE CELLSPACING=\"0\"><TR><TD ALIGN='LEFT'><B>" = S "<<TABLE CELLSPACING=\"0\">" ++ S "<TR><TD ALIGN='LEFT'><B>" := by decide
    rw [e2]
    simp only [List.append_assoc]
  · refine ⟨((hp.map Prod.fst).nodup_iff).mpr h2, ?_, fun r hr => h3 r (hp.mem_iff.mp hr), ?_, ?_⟩
    · exact (hp.flatMap_right _).trans (by simpa using h4)
    · intro r hr
      have hr := hp.mem_iff.mp hr
      obtain ⟨σ, hσ⟩ := List.exists_mem_of_ne_nil _ (h3 r hr)
      rcases h5 r hr σ hσ with ⟨r0, hr0, _⟩ | ⟨ts, _, hs⟩
      · cases hr0
      · obtain ⟨s, _, e⟩ := svgReading_iff.mp hs
        rw [e]
        exact escapeHtml_plain s
    · intro r hr σ hσ
      rcases h5 r (hp.mem_iff.mp hr) σ hσ with ⟨r0, hr0, _⟩ | ⟨ts, hm, hs⟩
      · cases hr0
      · obtain ⟨s, h6, e⟩ := svgReading_iff.mp hs
        exact ⟨ts, s, (dget_iff_mem hnd).mpr hm, h6, fun hamp => by rw [e]; exact unescape_escapeHtml hamp⟩

/-! ### The statements -/

theorem svgNodes_ok (simple : Bool) (rk : Ranking) (rank : Nat → Nat) : ∀ (nodes : Dict Nat Vertex) (counter : Nat),
    (nodes.map Prod.fst).Nodup → (∀ p ∈ nodes, dget rk.byVertex p.1 = some (rank p.1)) →
    (∀ p ∈ nodes, (p.2.tokens.map Prod.fst).Nodup ∧ ∀ q ∈ p.2.tokens, ∃ s, TextOf q.2 s) →
    ∃ (labels : List (Str × Str)) (mapping : Dict Nat Str), svgNodes simple rk counter nodes = .ok (labels.map (fun p => .node p.1 p.2), mapping) ∧
      (∀ p ∈ mapping, ∃ k, counter < k ∧ p.2 = natStr k) ∧ mapping.map Prod.fst = nodes.map Prod.fst ∧ (mapping.map Prod.snd).Nodup ∧
      List.Forall₂ (fun (n : Str × Str) (p : Nat × Vertex) => (p.1, n.1) ∈ mapping ∧
        if simple then n.2 = (if p.2.label = [] then S "#" else p.2.label)
        else ∃ rows, ReadingRows p.2.tokens rows ∧ n.2 = fullLabel p.2.label (rank p.1) rows) labels nodes
  | [], counter, _, _, _ => ⟨[], [], rfl, by simp, rfl, by simp, .nil⟩
  | (v, x) :: nodes, counter, hnd, hr, ht => by
    simp only [List.map_cons, List.nodup_cons] at hnd
    obtain ⟨labels, mapping, h1, h2, h3, h4, h5⟩ := svgNodes_ok simple rk rank nodes (counter + 1) hnd.2 (fun p hp => hr p (by simp [hp]))
      (fun p hp => ht p (by simp [hp]))
    have hl : ∃ label, (if simple then .ok (if x.label = [] then S "#" else x.label)
        else do
          let r ← dgetE rk.byVertex v
          svgLabel x r : Py Str) = .ok label ∧ if simple then label = (if x.label = [] then S "#" else x.label)
        else ∃ rows, ReadingRows x.tokens rows ∧ label = fullLabel x.label (rank v) rows := by
      cases simple with
      | true => exact ⟨_, rfl, rfl⟩
      | false =>
        obtain ⟨rows, a, b⟩ := svgLabel_ok (rank := rank v) (ht (v, x) (by simp)).1 (ht (v, x) (by simp)).2
        refine ⟨_, ?_, rows, b, rfl⟩
        rw [if_neg (by simp), dgetE_of_dget (hr (v, x) (by simp))]
        exact a
    obtain ⟨label, hl1, hl2⟩ := hl
    refine ⟨(natStr (counter + 1), label) :: labels, (v, natStr (counter + 1)) :: mapping, ?_, ?_, ?_, ?_, ?_⟩
    · unfold svgNodes
      rw [hl1, h1]
      rfl
    · intro p hp
      rcases List.mem_cons.mp hp with rfl | hp
      · exact ⟨counter + 1, by omega, rfl⟩
      · obtain ⟨k, hk, e⟩ := h2 p hp
        exact ⟨k, by omega, e⟩
    · simp [h3]
    · simp only [List.map_cons, List.nodup_cons]
      refine ⟨?_, h4⟩
      intro hm
      obtain ⟨p, hp, e⟩ := List.mem_map.mp hm
      obtain ⟨k, hk, e2⟩ := h2 p hp
      have := natStr_inj (e2.symm.trans e)
      omega
    · refine .cons ⟨by simp, hl2⟩ (h5.imp ?_)
      rintro a b ⟨h, h'⟩
      exact ⟨by simp [h], h'⟩

section
variable {mapping : Dict Nat Str} {name : Nat → Str}

theorem svgEdges_ok : ∀ (es : List Edge), (∀ e ∈ es, dget mapping e.src = some (name e.src) ∧ dget mapping e.tgt = some (name e.tgt)) →
    svgEdges mapping es = .ok (es.map (fun e => .edge (name e.src) (name e.tgt) e.label))
  | [], _ => rfl
  | e :: es, h => by
    unfold svgEdges
    rw [dgetE_of_dget (h e (by simp)).1, dgetE_of_dget (h e (by simp)).2, svgEdges_ok es (fun e he => h e (by simp [he]))]
    rfl

theorem svgNear_ok : ∀ (es : List (Nat × Nat)), (∀ e ∈ es, dget mapping e.1 = some (name e.1) ∧ dget mapping e.2 = some (name e.2)) →
    svgNear mapping es = .ok (es.map (fun e => .dashed (name e.1) (name e.2)))
  | [], _ => rfl
  | e :: es, h => by
    unfold svgNear
    rw [dgetE_of_dget (h e (by simp)).1, dgetE_of_dget (h e (by simp)).2, svgNear_ok es (fun e he => h e (by simp [he]))]
    rfl

theorem svgNames_ok : ∀ (vs : List Nat), (∀ v ∈ vs, dget mapping v = some (name v)) → svgNames mapping vs = .ok (vs.map name)
  | [], _ => rfl
  | v :: vs, h => by
    unfold svgNames
    rw [dgetE_of_dget (h v (by simp)), svgNames_ok vs (fun v hv => h v (by simp [hv]))]
    rfl

theorem svgRanks_ok : ∀ (ps : List (Nat × List Nat)), (∀ p ∈ ps, ∀ v ∈ p.2, dget mapping v = some (name v)) →
    svgRanks mapping ps = .ok (ps.map (fun p => .same (p.2.map name)))
  | [], _ => rfl
  | p :: ps, h => by
    unfold svgRanks
    rw [svgNames_ok p.2 (h p (by simp)), svgRanks_ok ps (fun p hp => h p (by simp [hp]))]
    rfl

end

/-- Listing by key. -/
theorem flatMap_filter_perm {α : Type} (k : α → Nat) {vs : List Nat} (hnd : vs.Nodup) : ∀ (l : List α), (∀ a ∈ l, k a ∈ vs) →
    (vs.flatMap (fun v => l.filter (fun a => k a = v))).Perm l
  | [], _ => by simp
  | a :: l, h => by
    have ih := flatMap_filter_perm k hnd l (fun b hb => h b (by simp [hb]))
    refine List.Perm.trans ?_ (ih.cons a)
    have ha := h a (by simp)
    clear ih h
    induction vs with
    | nil => cases ha
    | cons v vs ihv =>
      simp only [List.nodup_cons] at hnd
      simp only [List.flatMap_cons]
      by_cases e : k a = v
      · rw [List.filter_cons_of_pos (by simpa using e), List.cons_append]
        refine List.Perm.cons _ (List.Perm.append_left _ ?_)
        have : ∀ w ∈ vs, (a :: l).filter (fun a => k a = w) = l.filter (fun a => k a = w) := by
          intro w hw
          rw [List.filter_cons_of_neg]
          simp only [decide_eq_true_eq]
          rintro rfl
          rw [e] at hw
          exact hnd.1 hw
        rw [List.flatMap_def, List.flatMap_def, List.map_congr_left this]
      · rw [List.filter_cons_of_neg (by simpa using e)]
        have ha' : k a ∈ vs := by
          rcases List.mem_cons.mp ha with h | h
          · exact absurd h e
          · exact h
        refine ((ihv hnd.2 ha').append_left _).trans ?_
        exact List.perm_middle

section
variable {α β γ δ : Type} (fa : α → Str × Str) (fb : β → Str × Str × Str) (fc : γ → Str × Str) (fd : δ → List Str)

/-- The statements of a drawing. -/
def statements (A : List α) (B : List β) (C : List γ) (D : List δ) : List Drawn :=
  A.map (fun p => .node (fa p).1 (fa p).2) ++ B.map (fun p => .edge (fb p).1 (fb p).2.1 (fb p).2.2) ++
    C.map (fun p => .dashed (fc p).1 (fc p).2) ++ D.map (fun p => .same (fd p))

variable (A : List α) (B : List β) (C : List γ) (D : List δ)

theorem filterMap_map_some {ε ζ η : Type} (f : ε → ζ) (p : ζ → Option η) (q : ε → η) (l : List ε) (h : ∀ a, p (f a) = some (q a)) :
    (l.map f).filterMap p = l.map q := by
  induction l with
  | nil => rfl
  | cons a l ih => rw [List.map_cons, List.filterMap_cons, h, ih]; rfl

theorem filterMap_map_none {ε ζ η : Type} (f : ε → ζ) (p : ζ → Option η) (h : ∀ a, p (f a) = none) (l : List ε) :
    (l.map f).filterMap p = [] := by
  induction l with
  | nil => rfl
  | cons a l ih => rw [List.map_cons, List.filterMap_cons, h, ih]

theorem nodesOf_statements : nodesOf (statements fa fb fc fd A B C D) = A.map fa := by
  unfold nodesOf statements
  rw [List.filterMap_append, List.filterMap_append, List.filterMap_append, filterMap_map_some _ _ fa (l := A) (by intro a; rfl),
    filterMap_map_none _ _ (fun _ => rfl), filterMap_map_none _ _ (fun _ => rfl), filterMap_map_none _ _ (fun _ => rfl)]
  simp

theorem edgesOf_statements : edgesOf (statements fa fb fc fd A B C D) = B.map fb := by
  unfold edgesOf statements
  rw [List.filterMap_append, List.filterMap_append, List.filterMap_append, filterMap_map_none _ _ (fun _ => rfl),
    filterMap_map_some _ _ fb (l := B) (by intro a; rfl), filterMap_map_none _ _ (fun _ => rfl), filterMap_map_none _ _ (fun _ => rfl)]
  simp

theorem dashedOf_statements : dashedOf (statements fa fb fc fd A B C D) = C.map fc := by
  unfold dashedOf statements
  rw [List.filterMap_append, List.filterMap_append, List.filterMap_append, filterMap_map_none _ _ (fun _ => rfl),
    filterMap_map_none _ _ (fun _ => rfl), filterMap_map_some _ _ fc (l := C) (by intro a; rfl), filterMap_map_none _ _ (fun _ => rfl)]
  simp

theorem groupsOf_statements : groupsOf (statements fa fb fc fd A B C D) = D.map fd := by
  unfold groupsOf statements
  rw [List.filterMap_append, List.filterMap_append, List.filterMap_append, filterMap_map_none _ _ (fun _ => rfl),
    filterMap_map_none _ _ (fun _ => rfl), filterMap_map_none _ _ (fun _ => rfl), filterMap_map_some _ _ fd (l := D) (by intro a; rfl)]
  simp

end

/-- The drawing of a graph shows it. -/
theorem drawGraph_ok {ts : TopoFn} {g : VGraph} {rk : Ranking} {o : List VId} {rank : VId → Nat} {m : Nat} (hrk : rankingOf ts g = .ok rk)
    (hnd : g.vertices.Nodup) (ho : o.Perm g.vertices) (R : RankedBy o rank m rk) (hends : ∀ p ∈ g.pairs, p.1 ∈ g.vertices ∧ p.2 ∈ g.vertices)
    (hnear : ∀ p ∈ g.near, p.1 ∈ g.vertices ∧ p.2 ∈ g.vertices)
    (htok : ∀ p ∈ g.nodes, (p.2.tokens.map Prod.fst).Nodup ∧ ∀ q ∈ p.2.tokens, ∃ s, TextOf q.2 s) (simple : Bool) :
    ∃ ds name, drawGraph ts simple g = .ok ds ∧ DrawnAs g rank simple ds name ∧
      dashedOf ds = (g.vertices.flatMap (fun v => g.near.filter (fun e => e.1 = v))).map (fun e => (name e.1, name e.2)) := by
  obtain ⟨labels, mapping, h1, h2, h3, h4, h5⟩ := svgNodes_ok simple rk rank g.nodes 0 hnd
    (fun p hp => by
      rw [R.bv]
      exact dget_map_self rank o p.1 (ho.mem_iff.mpr (List.mem_map.mpr ⟨p, hp, rfl⟩))) htok
  obtain ⟨L, hbr, hL, hmem⟩ := R.br
  have hkeys : (mapping.map Prod.fst).Nodup := by rw [h3]; exact hnd
  generalize hname : (fun v => (dget mapping v).getD []) = name
  have hget : ∀ v ∈ g.vertices, dget mapping v = some (name v) := by
    intro v hv
    have : v ∈ mapping.map Prod.fst := by rw [h3]; exact hv
    obtain ⟨s, hs⟩ := exists_dget_of_mem_keys this
    rw [hs, ← hname]
    simp [hs]
  have hnameOf : ∀ v s, (v, s) ∈ mapping → name v = s := by
    intro v s hm
    rw [← hname]
    simp [(dget_iff_mem hkeys).mpr hm]
  have hinj : ∀ u ∈ g.vertices, ∀ v ∈ g.vertices, name u = name v → u = v := by
    intro u hu v hv e
    have a := dget_mem (hget u hu)
    have b := dget_mem (hget v hv)
    rw [e] at a
    have := List.inj_on_of_nodup_map h4 a b rfl
    exact congrArg Prod.fst this
  have hpE : (g.vertices.flatMap g.outEdges).Perm g.edges := by
    have := flatMap_filter_perm (fun e : Edge => e.src) hnd g.edges (fun e he => (hends _ (mem_pairs_of_edge he)).1)
    exact this
  have hpN : (g.vertices.flatMap (fun v => g.near.filter (fun e => e.1 = v))).Perm g.near :=
    flatMap_filter_perm (fun e : Nat × Nat => e.1) hnd g.near (fun e he => (hnear e he).1)
  have e1 := svgEdges_ok (mapping := mapping) (name := name) (g.vertices.flatMap g.outEdges) (fun e he => by
    have := hends _ (mem_pairs_of_edge (hpE.mem_iff.mp he))
    exact ⟨hget _ this.1, hget _ this.2⟩)
  have e2 := svgNear_ok (mapping := mapping) (name := name) (g.vertices.flatMap (fun v => g.near.filter (fun e => e.1 = v))) (fun e he => by
    have := hnear _ (hpN.mem_iff.mp he)
    exact ⟨hget _ this.1, hget _ this.2⟩)
  have hlev : ∀ p ∈ rk.byRank, ∀ v ∈ p.2, v ∈ g.vertices ∧ rank v = p.1 := by
    intro p hp v hv
    rw [hbr] at hp
    obtain ⟨k, hk, rfl⟩ := List.mem_map.mp hp
    have := (hmem k (List.mem_range.mp hk) v).mp hv
    exact ⟨ho.mem_iff.mp this.1, this.2⟩
  have e3 := svgRanks_ok (mapping := mapping) (name := name) rk.byRank (fun p hp v hv => hget v (hlev p hp v hv).1)
  refine ⟨statements (fun p : Str × Str => p) (fun e : Edge => (name e.src, name e.tgt, e.label)) (fun e : Nat × Nat => (name e.1, name e.2))
    (fun p : Nat × List Nat => p.2.map name) labels (g.vertices.flatMap g.outEdges)
    (g.vertices.flatMap (fun v => g.near.filter (fun e => e.1 = v))) rk.byRank, name, by
    unfold drawGraph
    rw [hrk]
    simp only [bind_ok, h1, e1, e2, e3]
    rfl, ⟨hinj, ?_, ?_, ?_, ?_⟩, dashedOf_statements _ _ _ _ _ _ _ _⟩
  · rw [nodesOf_statements, List.map_id']
    refine h5.imp ?_
    rintro a b ⟨h, h'⟩
    exact ⟨(hnameOf _ _ h).symm, h'⟩
  · rw [edgesOf_statements]
    exact hpE.map _
  · rw [dashedOf_statements]
    exact hpN.map _
  · rw [groupsOf_statements]
    intro u hu v hv
    constructor
    · rintro ⟨l, hl, h6, h7⟩
      obtain ⟨p, hp, rfl⟩ := List.mem_map.mp hl
      obtain ⟨u', hu', eu⟩ := List.mem_map.mp h6
      obtain ⟨v', hv', ev⟩ := List.mem_map.mp h7
      have a := hlev p hp u' hu'
      have b := hlev p hp v' hv'
      rw [← hinj _ a.1 _ hu eu, ← hinj _ b.1 _ hv ev, a.2, b.2]
    · intro e
      have hum := ho.mem_iff.mpr hu
      have hvm := ho.mem_iff.mpr hv
      have hlt := R.lt u hum
      refine ⟨(L (rank u)).map name, ?_, ?_, ?_⟩
      · rw [hbr]
        exact List.mem_map.mpr ⟨_, List.mem_map.mpr ⟨rank u, List.mem_range.mpr hlt, rfl⟩, rfl⟩
      · exact List.mem_map.mpr ⟨u, (hmem _ hlt u).mpr ⟨hum, rfl⟩, rfl⟩
      · exact List.mem_map.mpr ⟨v, (hmem _ hlt v).mpr ⟨hvm, e.symm⟩, rfl⟩

end CollateX
