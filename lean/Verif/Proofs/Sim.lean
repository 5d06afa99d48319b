import Verif.Proofs.Aligner
import Mathlib.Data.List.Forall2
/-
Two runs of the code on data that differ in sigla, strings and token records, but not in shape: every operation on the graph
and on the table preserves the correspondence.
-/

namespace CollateX

/-! ### Results and dicts -/

/-- Both computations succeed with corresponding results, or both raise the same exception. -/
inductive PyRel {α β : Type} (Q : α → β → Prop) : Py α → Py β → Prop
  | ok {a : α} {b : β} : Q a b → PyRel Q (.ok a) (.ok b)
  | error (e : PyErr) : PyRel Q (.error e) (.error e)

theorem PyRel.bind {α β γ δ : Type} {Q : α → β → Prop} {P : γ → δ → Prop} {x : Py α} {y : Py β} {f : α → Py γ} {h : β → Py δ}
    (hx : PyRel Q x y) (hf : ∀ a b, Q a b → PyRel P (f a) (h b)) : PyRel P (x >>= f) (y >>= h) := by
  cases hx with
  | ok hq => exact hf _ _ hq
  | error e => exact .error e

theorem PyRel.of_ok {α β : Type} {Q : α → β → Prop} {x : Py α} {y : Py β} (h : PyRel Q x y) {a : α} {b : β} (hx : x = .ok a)
    (hy : y = .ok b) : Q a b := by
  cases h with
  | ok hq => rw [← Except.ok.inj hx, ← Except.ok.inj hy]; exact hq
  | error e => cases hx

section
variable {K K' V V' : Type} [DecidableEq K] [DecidableEq K'] {R : K → K' → Prop} {Q : V → V' → Prop}

/-- The correspondence is one-to-one. -/
def OneOne (R : K → K' → Prop) : Prop := ∀ a a' b b', R a a' → R b b' → (a = b ↔ a' = b')

/-- Corresponding dicts: the same order of corresponding keys and values. -/
abbrev DRel (R : K → K' → Prop) (Q : V → V' → Prop) (d : Dict K V) (d' : Dict K' V') : Prop :=
  List.Forall₂ (fun p q => R p.1 q.1 ∧ Q p.2 q.2) d d'

theorem DRel.get (hR : OneOne R) {d : Dict K V} {d' : Dict K' V'} (h : DRel R Q d d') {k : K} {k' : K'} (hk : R k k') :
    Option.Rel Q (dget d k) (dget d' k') := by
  induction h with
  | nil => exact .none
  | @cons p q d d' hpq _ ih =>
    obtain ⟨a, v⟩ := p
    obtain ⟨a', v'⟩ := q
    simp only [dget]
    by_cases he : a = k
    · rw [if_pos he, if_pos ((hR _ _ _ _ hpq.1 hk).mp he)]
      exact .some hpq.2
    · rw [if_neg he, if_neg (fun e => he ((hR _ _ _ _ hpq.1 hk).mpr e))]
      exact ih

theorem DRel.set (hR : OneOne R) {d : Dict K V} {d' : Dict K' V'} (h : DRel R Q d d') {k : K} {k' : K'} (hk : R k k')
    {v : V} {v' : V'} (hv : Q v v') : DRel R Q (dset d k v) (dset d' k' v') := by
  induction h with
  | nil => exact .cons ⟨hk, hv⟩ .nil
  | @cons p q d d' hpq hd ih =>
    obtain ⟨a, w⟩ := p
    obtain ⟨a', w'⟩ := q
    simp only [dset]
    by_cases he : a = k
    · rw [if_pos he, if_pos ((hR _ _ _ _ hpq.1 hk).mp he)]
      exact .cons ⟨hpq.1, hv⟩ hd
    · rw [if_neg he, if_neg (fun e => he ((hR _ _ _ _ hpq.1 hk).mpr e))]
      exact .cons hpq ih

theorem DRel.update (hR : OneOne R) {e : Dict K V} {e' : Dict K' V'} (he : DRel R Q e e') : ∀ {d : Dict K V} {d' : Dict K' V'},
    DRel R Q d d' → DRel R Q (dupdate d e) (dupdate d' e') := by
  unfold dupdate
  induction he with
  | nil => intro d d' h; exact h
  | cons hpq _ ih =>
    intro d d' h
    rw [List.foldl_cons, List.foldl_cons]
    exact ih (h.set hR hpq.1 hpq.2)

theorem oneOne_eq : OneOne (fun a b : K => a = b) := by
  rintro a _ b _ rfl rfl
  exact Iff.rfl

end

/-! ### Graphs -/

section
variable {R : Str → Str → Prop} {T : Token → Token → Prop}

/-- Corresponding vertices: the same witnesses with corresponding tokens; the labels are not compared. -/
def VRel (R : Str → Str → Prop) (T : Token → Token → Prop) (x x' : Vertex) : Prop :=
  DRel R (List.Forall₂ T) x.tokens x'.tokens

/-- Corresponding edges: the same ends; the labels are not compared. -/
def ERel (e e' : Edge) : Prop := e.src = e'.src ∧ e.tgt = e'.tgt

structure GRel (R : Str → Str → Prop) (T : Token → Token → Prop) (g g' : VGraph) : Prop where
  nodes : DRel (fun a b : VId => a = b) (VRel R T) g.nodes g'.nodes
  edges : List.Forall₂ ERel g.edges g'.edges
  near : g.near = g'.near
  next : g.next = g'.next

theorem forall₂_map {α β γ δ : Type} {P : α → β → Prop} {Q : γ → δ → Prop} {f : α → γ} {h : β → δ} {l : List α} {l' : List β}
    (hl : List.Forall₂ P l l') (hf : ∀ a b, P a b → Q (f a) (h b)) : List.Forall₂ Q (l.map f) (l'.map h) := by
  induction hl with
  | nil => exact .nil
  | cons hp _ ih => exact .cons (hf _ _ hp) ih

theorem forall₂_append {α β : Type} {P : α → β → Prop} {l m : List α} {l' m' : List β}
    (hl : List.Forall₂ P l l') (hm : List.Forall₂ P m m') : List.Forall₂ P (l ++ m) (l' ++ m') := by
  induction hl with
  | nil => exact hm
  | cons hp _ ih => exact .cons hp ih

theorem forall₂_filter {α β : Type} {P : α → β → Prop} {f : α → Bool} {h : β → Bool} {l : List α} {l' : List β}
    (hl : List.Forall₂ P l l') (hf : ∀ a b, P a b → f a = h b) : List.Forall₂ P (l.filter f) (l'.filter h) := by
  induction hl with
  | nil => exact .nil
  | cons hp _ ih =>
    rw [List.filter_cons, List.filter_cons, hf _ _ hp]
    split
    · exact .cons hp ih
    · exact ih

theorem forall₂_map_eq {α β γ : Type} {P : α → β → Prop} {f : α → γ} {h : β → γ} {l : List α} {l' : List β}
    (hl : List.Forall₂ P l l') (hf : ∀ a b, P a b → f a = h b) : l.map f = l'.map h := by
  induction hl with
  | nil => rfl
  | cons hp _ ih => rw [List.map_cons, List.map_cons, hf _ _ hp, ih]

theorem GRel.vertices {g g' : VGraph} (h : GRel R T g g') : g.vertices = g'.vertices := forall₂_map_eq h.nodes (fun _ _ h => h.1)

theorem GRel.pairs {g g' : VGraph} (h : GRel R T g g') : g.pairs = g'.pairs :=
  forall₂_map_eq h.edges (fun _ _ h => by rw [h.1, h.2])

theorem GRel.outEdges {g g' : VGraph} (h : GRel R T g g') (v : VId) : List.Forall₂ ERel (g.outEdges v) (g'.outEdges v) :=
  forall₂_filter h.edges (fun _ _ h => by rw [h.1])

theorem GRel.inEdges {g g' : VGraph} (h : GRel R T g g') (v : VId) : List.Forall₂ ERel (g.inEdges v) (g'.inEdges v) :=
  forall₂_filter h.edges (fun _ _ h => by rw [h.2])

theorem VRel.addToken (hR : OneOne R) {x x' : Vertex} (h : VRel R T x x') {σ σ' : Str} (hσ : R σ σ') {t t' : Token} (ht : T t t') :
    VRel R T (x.addToken σ t) (x'.addToken σ' t') := by
  have hg := DRel.get hR h hσ
  unfold Vertex.addToken
  cases e : dget x.tokens σ with
  | none =>
    rw [e] at hg
    cases e' : dget x'.tokens σ' with
    | some _ => rw [e'] at hg; cases hg
    | none => exact DRel.set hR h hσ (.cons ht .nil)
  | some ts =>
    rw [e] at hg
    cases e' : dget x'.tokens σ' with
    | none => rw [e'] at hg; cases hg
    | some ts' =>
      rw [e'] at hg
      cases hg with
      | some hg => exact DRel.set hR h hσ (forall₂_append hg (.cons ht .nil))

theorem VRel.mk (hne : ∀ a b, R a b → a ≠ [] ∧ b ≠ []) {σ σ' : Str} (hσ : R σ σ') {t t' : Token} (ht : T t t') :
    VRel R T (mkVertex (some t) (some σ) none) (mkVertex (some t') (some σ') none) := by
  obtain ⟨h1, h2⟩ := hne _ _ hσ
  obtain ⟨c, l, rfl⟩ := List.exists_cons_of_ne_nil h1
  obtain ⟨c', l', rfl⟩ := List.exists_cons_of_ne_nil h2
  exact .cons ⟨hσ, .cons ht .nil⟩ .nil

theorem GRel.addVertex (hne : ∀ a b, R a b → a ≠ [] ∧ b ≠ []) {g g' : VGraph} (h : GRel R T g g') {σ σ' : Str} (hσ : R σ σ')
    {t t' : Token} (ht : T t t') : GRel R T (g.addVertex t σ).1 (g'.addVertex t' σ').1 ∧ (g.addVertex t σ).2 = (g'.addVertex t' σ').2 :=
  ⟨⟨forall₂_append h.nodes (.cons ⟨h.next, VRel.mk hne hσ ht⟩ .nil), h.edges, h.near, by
    show g.next + 1 = g'.next + 1; rw [h.next]⟩, h.next⟩

theorem GRel.addTokenAt (hR : OneOne R) {g g' : VGraph} (h : GRel R T g g') (v : VId) {σ σ' : Str} (hσ : R σ σ')
    {t t' : Token} (ht : T t t') : GRel R T (g.addTokenAt v σ t) (g'.addTokenAt v σ' t') := by
  refine ⟨forall₂_map h.nodes ?_, h.edges, h.near, h.next⟩
  rintro ⟨a, x⟩ ⟨b, y⟩ ⟨h1, h2⟩
  simp only at h1 h2
  subst h1
  by_cases he : a = v
  · simp only [if_pos he]
    exact ⟨trivial, h2.addToken hR hσ ht⟩
  · simp only [if_neg he]
    exact ⟨trivial, h2⟩

theorem GRel.hasEdge {g g' : VGraph} (h : GRel R T g g') (u v : VId) : g.hasEdge u v = g'.hasEdge u v := by
  unfold VGraph.hasEdge
  have := h.edges
  generalize g.edges = l at this
  generalize g'.edges = l' at this
  induction this with
  | nil => rfl
  | cons hp _ ih => rw [List.any_cons, List.any_cons, hp.1, hp.2, ih]

theorem GRel.connect {g g' : VGraph} (h : GRel R T g g') (u v : VId) (σ σ' : Str) :
    GRel R T (g.connect u v σ) (g'.connect u v σ') := by
  unfold VGraph.connect
  rw [h.hasEdge]
  split
  · refine ⟨h.nodes, forall₂_map h.edges ?_, h.near, h.next⟩
    intro a b hab
    have h1 := hab.1
    have h2 := hab.2
    by_cases he : a.src = u ∧ a.tgt = v
    · rw [if_pos he, if_pos (by rw [← h1, ← h2]; exact he)]
      exact hab
    · rw [if_neg he, if_neg (by rw [← h1, ← h2]; exact he)]
      exact hab
  · exact ⟨h.nodes, forall₂_append h.edges (.cons ⟨rfl, rfl⟩ .nil), h.near, h.next⟩

/-- `merge`, when corresponding tokens are aligned with the same vertices. -/
theorem GRel.merge (hR : OneOne R) (hne : ∀ a b, R a b → a ≠ [] ∧ b ≠ []) {g g' : VGraph} (h : GRel R T g g') {σ σ' : Str}
    (hσ : R σ σ') {al al' : Dict Token VId} {ts ts' : List Token}
    (ht : List.Forall₂ (fun t t' => T t t' ∧ dget al t = dget al' t') ts ts') :
    GRel R T (merge g σ ts al).1 (merge g' σ' ts' al').1 := by
  have key : ∀ (s s' : MergeSt), GRel R T s.g s'.g → s.last = s'.last →
      GRel R T (ts.foldl (mergeStep σ al) s).g (ts'.foldl (mergeStep σ' al') s').g ∧
      (ts.foldl (mergeStep σ al) s).last = (ts'.foldl (mergeStep σ' al') s').last := by
    induction ht with
    | nil => intro s s' h1 h2; exact ⟨h1, h2⟩
    | @cons t t' ts ts' htt _ ih =>
      intro s s' h1 h2
      rw [List.foldl_cons, List.foldl_cons]
      apply ih
      · unfold mergeStep
        rw [htt.2, h2]
        cases dget al' t' with
        | none =>
          simp only
          have := h1.addVertex hne hσ htt.1
          rw [this.2]
          exact this.1.connect _ _ _ _
        | some v => exact (h1.addTokenAt hR v hσ htt.1).connect _ _ _ _
      · unfold mergeStep
        rw [htt.2]
        cases dget al' t' with
        | none => exact h1.next
        | some v => rfl
  have := key { g := g, t2v := [], last := startV } { g := g', t2v := [], last := startV } h rfl
  unfold CollateX.merge
  simp only
  rw [this.2]
  exact this.1.connect _ _ _ _

/-! ### Ranking -/

theorem rankOfIn_rel {es es' : List Edge} (h : List.Forall₂ ERel es es') (bv : Dict VId Nat) : ∀ acc,
    rankOfIn bv es acc = rankOfIn bv es' acc := by
  induction h with
  | nil => intro acc; rfl
  | cons hp _ ih =>
    intro acc
    unfold rankOfIn
    rw [hp.1]
    exact congrArg (fun f => _ >>= f) (funext fun r => ih _)

theorem GRel.rankPass {g g' : VGraph} (h : GRel R T g g') (vs : List VId) : ∀ r, rankPass g vs r = rankPass g' vs r := by
  induction vs with
  | nil => intro r; rfl
  | cons v vs ih =>
    intro r
    unfold CollateX.rankPass
    rw [rankOfIn_rel (h.inEdges v)]
    exact congrArg (fun f => _ >>= f) (funext fun k => ih _)

theorem GRel.nearPass {g g' : VGraph} (h : GRel R T g g') (vs : List VId) : ∀ r, nearPass g vs r = nearPass g' vs r := by
  induction vs with
  | nil => intro r; rfl
  | cons v vs ih =>
    intro r
    unfold CollateX.nearPass VGraph.inNear
    rw [h.near]
    exact congrArg (fun f => _ >>= f) (funext fun k => ih _)

theorem GRel.ranking {g g' : VGraph} (h : GRel R T g g') (ts : TopoFn) : rankingOf ts g = rankingOf ts g' := by
  have hp : g.edges.map (fun e => (e.src, e.tgt)) = g'.edges.map (fun e => (e.src, e.tgt)) := h.pairs
  unfold rankingOf VGraph.topo
  rw [h.vertices, hp]
  refine congrArg (fun f => _ >>= f) (funext fun o => ?_)
  rw [h.rankPass]
  exact congrArg (fun f => _ >>= f) (funext fun r => h.nearPass _ _)

/-! ### join -/

theorem GRel.vertexE {g g' : VGraph} (h : GRel R T g g') (v : VId) : PyRel (VRel R T) (g.vertexE v) (g'.vertexE v) := by
  have := DRel.get oneOne_eq h.nodes (k := v) (k' := v) rfl
  unfold VGraph.vertexE dgetE
  cases e : dget g.nodes v with
  | none =>
    rw [e] at this
    cases e' : dget g'.nodes v with
    | some _ => rw [e'] at this; cases this
    | none => exact .error _
  | some x =>
    rw [e] at this
    cases e' : dget g'.nodes v with
    | none => rw [e'] at this; cases this
    | some y =>
      rw [e'] at this
      cases this with
      | some hxy => exact .ok hxy

theorem VRel.joinTokens (hR : OneOne R) {d d' : Dict Str (List Token)} (hd : DRel R (List.Forall₂ T) d d') :
    ∀ {x x' : Vertex}, VRel R T x x' → PyRel (VRel R T) (joinTokens x d) (joinTokens x' d') := by
  induction hd with
  | nil => intro x x' h; exact .ok h
  | @cons p q d d' hpq _ ih =>
    intro x x' h
    obtain ⟨σ, ts⟩ := p
    obtain ⟨σ', ts'⟩ := q
    obtain ⟨h1, h2⟩ := hpq
    simp only at h1 h2
    cases h2 with
    | nil => exact .error _
    | cons ht _ => exact ih (h.addToken hR h1 ht)

theorem GRel.setVertex {g g' : VGraph} (h : GRel R T g g') (v : VId) {x x' : Vertex} (hx : VRel R T x x') :
    GRel R T (g.setVertex v x) (g'.setVertex v x') := by
  refine ⟨forall₂_map h.nodes ?_, h.edges, h.near, h.next⟩
  rintro ⟨a, y⟩ ⟨b, y'⟩ ⟨h1, h2⟩
  simp only at h1 h2
  subst h1
  by_cases he : a = v
  · simp only [if_pos he]; exact ⟨trivial, hx⟩
  · simp only [if_neg he]; exact ⟨trivial, h2⟩

theorem GRel.joinVertices (hR : OneOne R) (cc : CharClass) {g g' : VGraph} (h : GRel R T g g') (c v : VId) :
    PyRel (GRel R T) (joinVertices cc g c v) (joinVertices cc g' c v) := by
  unfold CollateX.joinVertices
  refine (h.vertexE v).bind fun x x' hx => ?_
  refine (h.vertexE c).bind fun y y' hy => ?_
  refine PyRel.bind (VRel.joinTokens hR hy (x := { x with label := joinLabel cc x.label y.label })
    (x' := { x' with label := joinLabel cc x'.label y'.label }) hx) fun z z' hz => ?_
  exact .ok (h.setVertex v hz)

theorem GRel.removeEdge {g g' : VGraph} (h : GRel R T g g') (u v : VId) : GRel R T (g.removeEdge u v) (g'.removeEdge u v) :=
  ⟨h.nodes, forall₂_filter h.edges (fun _ _ h => by rw [h.1, h.2]), h.near, h.next⟩

theorem GRel.removeNode {g g' : VGraph} (h : GRel R T g g') (v : VId) : GRel R T (g.removeNode v) (g'.removeNode v) :=
  ⟨forall₂_filter h.nodes (fun _ _ h => by rw [h.1]), forall₂_filter h.edges (fun _ _ h => by rw [h.1, h.2]), h.near, h.next⟩

theorem GRel.moveEdges {es es' : List Edge} (he : List.Forall₂ ERel es es') (c v : VId) : ∀ {g g' : VGraph}, GRel R T g g' →
    GRel R T (moveEdges g c v es) (moveEdges g' c v es') := by
  induction he with
  | nil => intro g g' h; exact h
  | cons hp _ ih =>
    intro g g' h
    unfold CollateX.moveEdges
    rw [hp.2]
    exact ih ((h.removeEdge _ _).connect _ _ _ _)

theorem GRel.joinLoop (hR : OneOne R) (cc : CharClass) (fuel : Nat) : ∀ {g g' : VGraph} (pr q : List VId), GRel R T g g' →
    PyRel (GRel R T) (joinLoop cc fuel g pr q) (joinLoop cc fuel g' pr q) := by
  induction fuel with
  | zero =>
    intro g g' pr q h
    cases q with
    | nil => exact .ok h
    | cons v q => exact .error _
  | succ fuel ih =>
    intro g g' pr q h
    cases q with
    | nil => exact .ok h
    | cons v q =>
      have ho := h.outEdges v
      unfold CollateX.joinLoop
      simp only
      rw [forall₂_map_eq ho (fun _ _ h => h.2)]
      generalize g.outEdges v = out at ho
      generalize g'.outEdges v = out' at ho
      cases ho with
      | nil => exact ih _ _ h
      | @cons e e' es es' hp hes =>
        cases hes with
        | cons _ _ => exact ih _ _ h
        | nil =>
          simp only
          have hin := (h.inEdges e.tgt).length_eq
          rw [hp.2] at hin ⊢
          rw [hin]
          split
          · refine (h.joinVertices hR cc e'.tgt v).bind fun g1 g1' h1 => ?_
            exact ih _ _ (((GRel.moveEdges (h1.outEdges _) _ _ h1).removeEdge _ _).removeNode _)
          · exact ih _ _ h

theorem GRel.join (hR : OneOne R) (cc : CharClass) {g g' : VGraph} (h : GRel R T g g') :
    PyRel (GRel R T) (join cc g) (join cc g') := by
  unfold CollateX.join
  have hf : joinFuel g = joinFuel g' := by unfold joinFuel; rw [h.nodes.length_eq]
  rw [hf, forall₂_map_eq (h.outEdges startV) (fun _ _ h => h.2)]
  exact h.joinLoop hR cc _ _ _

/-! ### The table -/

/-- Corresponding columns. -/
def ColRel (R : Str → Str → Prop) (T : Token → Token → Prop) (c c' : Column) : Prop :=
  c.variant = c'.variant ∧ DRel R (List.Forall₂ T) c.tokens c'.tokens

theorem GRel.columnLoop (hR : OneOne R) {g g' : VGraph} (h : GRel R T g g') (a b : Nat) (vs : List VId) : ∀ {c c' : Option Column},
    Option.Rel (ColRel R T) c c' → Option.Rel (ColRel R T) (columnLoop g a b vs c) (columnLoop g' a b vs c') := by
  induction vs with
  | nil => intro c c' hc; exact hc
  | cons v vs ih =>
    intro c c' hc
    unfold CollateX.columnLoop
    split
    · exact ih hc
    · apply ih
      have hv := DRel.get oneOne_eq h.nodes (k := v) (k' := v) rfl
      have hd : DRel R (List.Forall₂ T) (match dget g.nodes v with | some x => x.tokens | none => [])
          (match dget g'.nodes v with | some x => x.tokens | none => []) := by
        generalize dget g.nodes v = x at hv
        generalize dget g'.nodes v = x' at hv
        cases hv with
        | none => exact .nil
        | some hx => exact hx
      have h0 : ColRel R T (c.getD { tokens := [], variant := false }) (c'.getD { tokens := [], variant := false }) := by
        cases hc with
        | none => exact ⟨rfl, .nil⟩
        | some hc => exact hc
      have hu := DRel.update hR hd h0.2
      refine .some ⟨?_, hu⟩
      exact congrArg (fun n => decide (a > 1) || decide (n ≠ b)) hu.length_eq

theorem GRel.columns (hR : OneOne R) {g g' : VGraph} (h : GRel R T g g') (n : Nat) (l : Dict Nat (List VId)) :
    List.Forall₂ (ColRel R T) (l.filterMap (fun p => CollateX.columnLoop g p.2.length n p.2 none))
      (l.filterMap (fun p => CollateX.columnLoop g' p.2.length n p.2 none)) := by
  induction l with
  | nil => exact .nil
  | cons p l ih =>
    have := h.columnLoop hR p.2.length n p.2 (c := none) (c' := none) .none
    rw [List.filterMap_cons, List.filterMap_cons]
    generalize CollateX.columnLoop g p.2.length n p.2 none = c at this
    generalize CollateX.columnLoop g' p.2.length n p.2 none = c' at this
    cases this with
    | none => exact ih
    | some hc => exact .cons hc ih

/-- Corresponding rows: corresponding cells. -/
def RowRel (T : Token → Token → Prop) (r r' : Row) : Prop := List.Forall₂ (Option.Rel (List.Forall₂ T)) r.cells r'.cells

theorem GRel.table (hR : OneOne R) {g g' : VGraph} (h : GRel R T g g') {ws ws' : List Witness}
    (hw : List.Forall₂ (fun w w' => R w.sigil w'.sigil) ws ws') (r : Ranking) :
    List.Forall₂ (ColRel R T) (mkTable ws g r).columns (mkTable ws' g' r).columns ∧
      List.Forall₂ (RowRel T) (mkTable ws g r).rows (mkTable ws' g' r).rows := by
  have hc := h.columns hR ws.length r.byRank
  unfold mkTable
  simp only
  rw [← hw.length_eq]
  refine ⟨hc, forall₂_map hw fun w w' hσ => ?_⟩
  exact forall₂_map hc fun c c' hcc => DRel.get hR hcc.2 hσ

end

end CollateX
