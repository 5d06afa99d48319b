import Verif.Props.Export
import Verif.Props.Display
/-
C96: which outputs fail, and on what.
-/

namespace CollateX

namespace Spec

/-- What is wrong with the text of a token if it must be a string. -/
def textError (t : Token) : Option PyErr :=
  match dget t.data .t with
  | none => some .keyError
  | some (.str _) => none
  | some _ => some .typeError

/-- What is wrong with the text of a token if it need only be there. -/
def absentError (t : Token) : Option PyErr := if dget t.data .t = none then some .keyError else none

/-- A result that is there exactly if none of the tokens `P` is bad, and which otherwise is an error that one of the bad tokens gives. -/
def FailsOn {α : Type} (bad : Token → Option PyErr) (P : Token → Prop) (r : Py α) : Prop :=
  ((∃ x, r = .ok x) ↔ ∀ t, P t → bad t = none) ∧ ∀ e, r = .error e → ∃ t, P t ∧ bad t = some e

/-- The tokens of witnesses. -/
def TokenOf (ws : List Witness) (t : Token) : Prop := ∃ w ∈ ws, t ∈ w.tokens

/-- The tokens of columns. -/
def InColumns (cs : List Column) (t : Token) : Prop := ∃ c ∈ cs, ∃ σ ts, dget c.tokens σ = some ts ∧ t ∈ ts

end Spec

open Spec

theorem failsOn_ok {α : Type} {bad : Token → Option PyErr} {P : Token → Prop} (h : ∀ t, ¬ P t) (x : α) :
    FailsOn bad P (.ok x : Py α) :=
  ⟨⟨fun _ t ht => absurd ht (h t), fun _ => ⟨x, rfl⟩⟩, fun e he => by simp at he⟩

theorem failsOn_bind {α β : Type} {bad : Token → Option PyErr} {P Q R : Token → Prop} {r : Py α} {f : α → Py β}
    (h1 : FailsOn bad P r) (h2 : ∀ x, FailsOn bad Q (f x)) (h : ∀ t, R t ↔ P t ∨ Q t) : FailsOn bad R (r >>= f) := by
  cases r with
  | error e =>
    refine ⟨⟨fun ⟨x, hx⟩ => by simp [bind, Except.bind] at hx, fun hall => ?_⟩, fun e' he => ?_⟩
    · obtain ⟨t, ht, hb⟩ := h1.2 e rfl
      rw [hall t ((h t).mpr (Or.inl ht))] at hb
      simp at hb
    · obtain ⟨t, ht, hb⟩ := h1.2 e rfl
      simp only [bind, Except.bind, Except.error.injEq] at he
      exact ⟨t, (h t).mpr (Or.inl ht), he ▸ hb⟩
  | ok x =>
    have h3 := h1.1.mp ⟨x, rfl⟩
    refine ⟨⟨fun ⟨y, hy⟩ t ht => ?_, fun hall => ?_⟩, fun e he => ?_⟩
    · rcases (h t).mp ht with ht | ht
      · exact h3 t ht
      · exact (h2 x).1.mp ⟨y, hy⟩ t ht
    · exact (h2 x).1.mpr (fun t ht => hall t ((h t).mpr (Or.inr ht)))
    · obtain ⟨t, ht, hb⟩ := (h2 x).2 e he
      exact ⟨t, (h t).mpr (Or.inr ht), hb⟩

/-- A last step that cannot fail. -/
theorem failsOn_map {α β : Type} {bad : Token → Option PyErr} {P : Token → Prop} {r : Py α} {f : α → β}
    (h1 : FailsOn bad P r) : FailsOn bad P (r >>= fun x => (.ok (f x) : Py β)) :=
  failsOn_bind h1 (Q := fun _ => False) (fun x => failsOn_ok (fun _ h => h) _) (fun t => by simp)

theorem Spec.FailsOn.congr {α : Type} {bad : Token → Option PyErr} {P Q : Token → Prop} {r : Py α} (h : FailsOn bad P r)
    (hpq : ∀ t, P t ↔ Q t) : FailsOn bad Q r := by
  have : P = Q := funext fun t => propext (hpq t)
  rw [← this]; exact h

/-- What is bad depends on the texts alone. -/
theorem Spec.FailsOn.same {α : Type} {bad : Token → Option PyErr} {P Q : Token → Prop} {r : Py α} (h : FailsOn bad P r)
    (h1 : ∀ t, P t → ∃ u, Q u ∧ bad u = bad t) (h2 : ∀ t, Q t → ∃ u, P u ∧ bad u = bad t) : FailsOn bad Q r := by
  refine ⟨⟨fun hx t ht => ?_, fun hall => h.1.mpr (fun t ht => ?_)⟩, fun e he => ?_⟩
  · obtain ⟨u, hu, hb⟩ := h2 t ht
    rw [← hb]; exact h.1.mp hx u hu
  · obtain ⟨u, hu, hb⟩ := h1 t ht
    rw [← hb]; exact hall u hu
  · obtain ⟨t, ht, hb⟩ := h.2 e he
    obtain ⟨u, hu, hb'⟩ := h1 t ht
    exact ⟨u, hu, hb'.trans hb⟩

theorem failsOn_tokenT (t : Token) : FailsOn textError (· = t) (tokenT t) := by
  unfold FailsOn textError tokenT
  cases h : dget t.data .t with
  | none => simp [h]
  | some v => cases v <;> simp [h]

theorem failsOn_tokenTStr (t : Token) : FailsOn absentError (· = t) (tokenTStr t) := by
  unfold FailsOn absentError tokenTStr
  cases h : dget t.data .t with
  | none => simp [h]
  | some v => cases v <;> simp [h]

theorem failsOn_cellText : ∀ ts : List Token, FailsOn textError (· ∈ ts) (cellText ts)
  | [] => failsOn_ok (by simp) _
  | t :: ts => failsOn_bind (failsOn_tokenT t) (fun a => failsOn_map (failsOn_cellText ts)) (by simp)

theorem failsOn_xmlText : ∀ ts : List Token, FailsOn absentError (· ∈ ts) (xmlText ts)
  | [] => failsOn_ok (by simp) _
  | t :: ts => failsOn_bind (failsOn_tokenTStr t) (fun a => failsOn_map (failsOn_xmlText ts)) (by simp)

/-- The tokens of cells. -/
def InCells (cs : List (Option (List Token))) (t : Token) : Prop := ∃ ts, some ts ∈ cs ∧ t ∈ ts

theorem inCells_cons {c : Option (List Token)} {cs : List (Option (List Token))} (t : Token) :
    InCells (c :: cs) t ↔ (∃ ts, c = some ts ∧ t ∈ ts) ∨ InCells cs t := by
  unfold InCells
  constructor
  · rintro ⟨ts, h1, h2⟩
    rcases List.mem_cons.mp h1 with h | h
    · exact Or.inl ⟨ts, h.symm, h2⟩
    · exact Or.inr ⟨ts, h, h2⟩
  · rintro (⟨ts, h, h2⟩ | ⟨ts, h, h2⟩)
    · exact ⟨ts, by simp [h], h2⟩
    · exact ⟨ts, by simp [h], h2⟩

theorem failsOn_cellsToStrings : ∀ cs : List (Option (List Token)), FailsOn textError (InCells cs) (cellsToStrings cs)
  | [] => failsOn_ok (by simp [InCells]) _
  | c :: cs => by
    refine failsOn_bind (P := fun t => ∃ ts, c = some ts ∧ t ∈ ts) ?_ (fun a => failsOn_map (failsOn_cellsToStrings cs)) inCells_cons
    cases c with
    | none => exact failsOn_ok (by simp) _
    | some ts =>
      cases ts with
      | nil => exact failsOn_ok (by simp) _
      | cons t ts => exact (failsOn_map (failsOn_cellText (t :: ts))).congr (by simp)

theorem failsOn_printText (c : Option (List Token)) : FailsOn textError (fun t => ∃ ts, c = some ts ∧ t ∈ ts) (printText c) := by
  cases c with
  | none => exact failsOn_ok (by simp) _
  | some ts =>
    cases ts with
    | nil => exact failsOn_ok (by simp) _
    | cons t ts => exact (failsOn_cellText (t :: ts)).congr (by simp)

theorem failsOn_printCells (cc : CharClass) : ∀ cs : List (Option (List Token)), FailsOn textError (InCells cs) (printCells cc cs)
  | [] => failsOn_ok (by simp [InCells]) _
  | c :: cs => failsOn_bind (failsOn_printText c) (fun _ => failsOn_map (failsOn_printCells cc cs)) inCells_cons

/-- The tokens of rows. -/
def InRows (rs : List Row) (t : Token) : Prop := ∃ r ∈ rs, InCells r.cells t

theorem inRows_cons {r : Row} {rs : List Row} (t : Token) : InRows (r :: rs) t ↔ InCells r.cells t ∨ InRows rs t := by
  simp [InRows]

theorem failsOn_csvRows (d : Char) : ∀ rs : List Row, FailsOn textError (InRows rs) (csvRows d rs)
  | [] => failsOn_ok (by simp [InRows]) _
  | r :: rs => failsOn_bind (failsOn_cellsToStrings r.cells) (fun _ => failsOn_map (failsOn_csvRows d rs)) inRows_cons

theorem failsOn_printHorizontal (cc : CharClass) : ∀ rs : List Row, FailsOn textError (InRows rs) (printHorizontal cc rs)
  | [] => failsOn_ok (by simp [InRows]) _
  | r :: rs => failsOn_bind (failsOn_printCells cc r.cells) (fun _ => failsOn_map (failsOn_printHorizontal cc rs)) inRows_cons

/-- The tokens of the items of a dictionary. -/
def InItems (d : List (Str × List Token)) (t : Token) : Prop := ∃ p ∈ d, t ∈ p.2

theorem failsOn_xmlRdgs : ∀ d : List (Str × List Token), FailsOn absentError (InItems d) (xmlRdgs d)
  | [] => failsOn_ok (by simp [InItems]) _
  | (k, v) :: d => failsOn_bind (failsOn_xmlText v) (fun _ => failsOn_map (failsOn_xmlRdgs d)) (by simp [InItems])

theorem failsOn_teiGroup (cc : CharClass) : ∀ (d : List (Str × List Token)) (e : Dict Str (List Str)) (b : Bool),
    FailsOn textError (InItems d) (teiGroup cc d e b)
  | [], _, _ => failsOn_ok (by simp [InItems]) _
  | (k, v) :: d, e, b => failsOn_bind (failsOn_cellText v) (fun _ => failsOn_teiGroup cc d _ _) (by simp [InItems])

theorem inItems_sorted (c : Column) (hc : (c.tokens.map Prod.fst).Nodup) (t : Token) :
    InItems (sortedItems c.tokens) t ↔ ∃ σ ts, dget c.tokens σ = some ts ∧ t ∈ ts := by
  unfold InItems
  simp only [(sortedItems_perm c.tokens).mem_iff]
  constructor
  · rintro ⟨⟨σ, ts⟩, h, ht⟩
    exact ⟨σ, ts, (dget_iff_mem hc).mpr h, ht⟩
  · rintro ⟨σ, ts, h, ht⟩
    exact ⟨(σ, ts), dget_mem h, ht⟩

theorem inColumns_cons {c : Column} {cs : List Column} (t : Token) :
    InColumns (c :: cs) t ↔ (∃ σ ts, dget c.tokens σ = some ts ∧ t ∈ ts) ∨ InColumns cs t := by
  simp [InColumns]

theorem failsOn_exportXml : ∀ cs : List Column, (∀ c ∈ cs, (c.tokens.map Prod.fst).Nodup) → FailsOn absentError (InColumns cs) (exportXml cs)
  | [], _ => failsOn_ok (by simp [InColumns]) _
  | c :: cs, h => failsOn_bind ((failsOn_xmlRdgs _).congr (inItems_sorted c (h c (by simp))))
      (fun _ => failsOn_map (failsOn_exportXml cs (fun d hd => h d (by simp [hd])))) inColumns_cons

theorem failsOn_teiColumns (cc : CharClass) (n : Nat) : ∀ cs : List Column, (∀ c ∈ cs, (c.tokens.map Prod.fst).Nodup) →
    FailsOn textError (InColumns cs) (teiColumns cc n cs)
  | [], _ => failsOn_ok (by simp [InColumns]) _
  | c :: cs, h => failsOn_bind (failsOn_map ((failsOn_teiGroup cc _ _ _).congr (inItems_sorted c (h c (by simp)))))
      (fun _ => failsOn_map (failsOn_teiColumns cc n cs (fun d hd => h d (by simp [hd])))) inColumns_cons

theorem failsOn_html2Cell (c : Column) (σ : Str) : FailsOn textError (fun t => ∃ ts, dget c.tokens σ = some ts ∧ t ∈ ts) (html2Cell c σ) := by
  unfold html2Cell
  cases dget c.tokens σ with
  | none => exact failsOn_ok (by simp) _
  | some ts =>
    cases ts with
    | nil => exact failsOn_ok (by simp) _
    | cons t ts => exact (failsOn_map (failsOn_cellText (t :: ts))).congr (by simp)

theorem failsOn_html2Cells (c : Column) : ∀ ws : Collation,
    FailsOn textError (fun t => ∃ w ∈ ws, ∃ ts, dget c.tokens w.sigil = some ts ∧ t ∈ ts) (html2Cells c ws)
  | [] => failsOn_ok (by simp) _
  | w :: ws => failsOn_bind (failsOn_html2Cell c w.sigil) (fun _ => failsOn_map (failsOn_html2Cells c ws)) (by simp)

theorem failsOn_html2Rows (ws : Collation) : ∀ cs : List Column,
    FailsOn textError (fun t => ∃ c ∈ cs, ∃ w ∈ ws, ∃ ts, dget c.tokens w.sigil = some ts ∧ t ∈ ts) (html2Rows ws cs)
  | [] => failsOn_ok (by simp) _
  | c :: cs => failsOn_bind (failsOn_html2Cells c ws) (fun _ => failsOn_map (failsOn_html2Rows ws cs)) (by simp)

theorem inRows_iff {t : Table} (G : GoodTable t) (u : Token) : InRows t.rows u ↔ InColumns t.columns u := by
  constructor
  · rintro ⟨r, hr, ts, h, hu⟩
    rw [G.cells r hr, List.mem_map] at h
    obtain ⟨c, hc, h⟩ := h
    exact ⟨c, hc, r.header, ts, h, hu⟩
  · rintro ⟨c, hc, σ, ts, h, hu⟩
    have h1 := (G.keys c hc).2 σ (List.mem_map_of_mem (dget_mem h))
    obtain ⟨r, hr, rfl⟩ := List.mem_map.mp h1
    refine ⟨r, hr, ts, ?_, hu⟩
    rw [G.cells r hr, List.mem_map]
    exact ⟨c, hc, h⟩

/-- The tokens in the rows are the tokens of the witnesses, up to the bookkeeping keys. -/
theorem rows_tokens (env : Env) (hts : TopoSpec env.topo) (ws : List Witness) (hv : Valid ws)
    (hs : ∀ w ∈ ws, w.sigil ≠ []) (o : Opts) (ho : ExactMatching o) (t : Table) (h : collateTable env ws o = .ok t) :
    (∀ u, InRows t.rows u → ∃ x, TokenOf ws x ∧ dget x.data .t = dget u.data .t) ∧
    (∀ u, TokenOf ws u → ∃ x, InRows t.rows x ∧ dget x.data .t = dget u.data .t) := by
  obtain ⟨G, hh⟩ := goodTable_of env hts ws hv hs o ho t h
  have hlen : t.rows.length = ws.length := by rw [← List.length_map (f := Row.header), hh, List.length_map]
  constructor
  · rintro u ⟨r, hr, ts, h1, hu⟩
    obtain ⟨k, hk⟩ := List.mem_iff_getElem?.mp hr
    have hkl := (List.getElem?_eq_some_iff.mp hk).1
    have hw : ws[k]? = some ws[k] := List.getElem?_eq_getElem (by omega)
    have h25 := C25_table_lossless env hts ws hv o ho t h k _ r hw (hs _ (List.mem_of_getElem? hw)) hk
    have : u ∈ (r.cells.filterMap id).flatten := List.mem_flatten.mpr ⟨ts, List.mem_filterMap.mpr ⟨some ts, h1, rfl⟩, hu⟩
    obtain ⟨x, hx, hxu⟩ := forall₂_mem h25 _ this
    exact ⟨x, ⟨_, List.mem_of_getElem? hw, hx⟩, (hxu.2.1 .t (by simp [Bookkeeping])).symm⟩
  · rintro u ⟨w, hw, hu⟩
    obtain ⟨k, hk⟩ := List.mem_iff_getElem?.mp hw
    have hkl := (List.getElem?_eq_some_iff.mp hk).1
    have hr : t.rows[k]? = some t.rows[k] := List.getElem?_eq_getElem (by omega)
    have h25 := C25_table_lossless env hts ws hv o ho t h k w _ hk (hs w hw) hr
    obtain ⟨x, hx, hxu⟩ := forall₂_mem_left h25 _ hu
    obtain ⟨ts, h1, h2⟩ := List.mem_flatten.mp hx
    obtain ⟨c, h3, h4⟩ := List.mem_filterMap.mp h1
    simp only [id] at h4
    subst h4
    exact ⟨x, ⟨_, List.mem_of_getElem? hr, ts, h3, h2⟩, hxu.2.1 .t (by simp [Bookkeeping])⟩

/-- The rows and the columns have bad tokens exactly if the witnesses have. -/
theorem Spec.FailsOn.toWitnesses {α : Type} {env : Env} (hts : TopoSpec env.topo) {ws : List Witness} (hv : Valid ws)
    (hs : ∀ w ∈ ws, w.sigil ≠ []) {o : Opts} (ho : ExactMatching o) {t : Table} (h : collateTable env ws o = .ok t)
    {bad : Token → Option PyErr} (hb : ∀ u v : Token, dget u.data .t = dget v.data .t → bad u = bad v) {r : Py α}
    (hr : FailsOn bad (InColumns t.columns) r) : FailsOn bad (TokenOf ws) r := by
  obtain ⟨G, _⟩ := goodTable_of env hts ws hv hs o ho t h
  obtain ⟨h1, h2⟩ := rows_tokens env hts ws hv hs o ho t h
  refine (hr.congr (fun u => (inRows_iff G u).symm)).same (fun u hu => ?_) (fun u hu => ?_)
  · obtain ⟨x, hx, e⟩ := h1 u hu
    exact ⟨x, hx, hb _ _ e⟩
  · obtain ⟨x, hx, e⟩ := h2 u hu
    exact ⟨x, hx, hb _ _ e⟩

theorem textError_congr (u v : Token) (h : dget u.data .t = dget v.data .t) : textError u = textError v := by
  unfold textError; rw [h]

theorem absentError_congr (u v : Token) (h : dget u.data .t = dget v.data .t) : absentError u = absentError v := by
  unfold absentError; rw [h]

/-- C96: the outputs that show the texts of the tokens in cells (CSV, TSV, TEI and coloured HTML) are there exactly if every token has a
text `t` that is a string. Otherwise the error is KeyError, and then there is a token without `t`, or TypeError, and then there is a token
whose `t` is no string. -/
theorem C96_texts (env : Env) (hts : TopoSpec env.topo) (ws : List Witness) (hv : Valid ws) (hs : ∀ w ∈ ws, w.sigil ≠ [])
    (o : Opts) (ho : ExactMatching o) (hout : o.output ∈ ["csv".toList, "tsv".toList, "tei".toList, "html2".toList]) :
    FailsOn textError (TokenOf ws) (collate env ws o) := by
  obtain ⟨t, ws', g, rk, h1, h2, rfl, h4⟩ := exists_table env hts ws hv o ho
  obtain ⟨G, hh⟩ := goodTable_of env hts ws hv hs o ho _ h2
  have hk : ∀ c ∈ (mkTable ws' g rk).columns, (c.tokens.map Prod.fst).Nodup := fun c hc => (G.keys c hc).1
  refine Spec.FailsOn.toWitnesses hts hv hs ho h2 textError_congr ?_
  unfold collate render
  rw [h1]
  simp only [bind_ok]
  simp only [List.mem_cons, List.not_mem_nil, or_false] at hout
  rcases hout with e | e | e | e <;> rw [e]
  · exact failsOn_map ((failsOn_csvRows _ _).congr (inRows_iff G))
  · exact failsOn_map ((failsOn_csvRows _ _).congr (inRows_iff G))
  · exact failsOn_map (failsOn_teiColumns _ _ _ hk)
  · refine failsOn_map ((failsOn_html2Rows _ _).congr (fun u => ?_))
    constructor
    · rintro ⟨c, hc, w, _, ts, h5, h6⟩
      exact ⟨c, hc, _, ts, h5, h6⟩
    · rintro ⟨c, hc, σ, ts, h5, h6⟩
      have h7 := (G.keys c hc).2 σ (List.mem_map_of_mem (dget_mem h5))
      rw [hh, ← h4] at h7
      obtain ⟨w, hw, rfl⟩ := List.mem_map.mp h7
      exact ⟨c, hc, w, hw, ts, h5, h6⟩

/-- C96, XML: the XML output is there exactly if every token has a `t`, which need not be a string; the error is KeyError. -/
theorem C96_xml (env : Env) (hts : TopoSpec env.topo) (ws : List Witness) (hv : Valid ws) (hs : ∀ w ∈ ws, w.sigil ≠ [])
    (o : Opts) (ho : ExactMatching o) (hout : o.output = "xml".toList) : FailsOn absentError (TokenOf ws) (collate env ws o) := by
  obtain ⟨t, ws', g, rk, h1, h2, rfl, h4⟩ := exists_table env hts ws hv o ho
  obtain ⟨G, hh⟩ := goodTable_of env hts ws hv hs o ho _ h2
  have hk : ∀ c ∈ (mkTable ws' g rk).columns, (c.tokens.map Prod.fst).Nodup := fun c hc => (G.keys c hc).1
  refine Spec.FailsOn.toWitnesses hts hv hs ho h2 absentError_congr ?_
  unfold collate render
  rw [h1]
  simp only [bind_ok]
  rw [hout]
  exact failsOn_map (failsOn_exportXml _ hk)

/-- C96, the printed table: it can be printed (in rows) exactly if every token has a text `t` that is a string. -/
theorem C96_printed (env : Env) (hts : TopoSpec env.topo) (ws : List Witness) (hv : Valid ws) (hs : ∀ w ∈ ws, w.sigil ≠ [])
    (o : Opts) (ho : ExactMatching o) (t : Table) (h : collateTable env ws o = .ok t) (f : WrapFn) :
    FailsOn textError (TokenOf ws) (printTable env.cc f "horizontal".toList t) := by
  obtain ⟨G, hh⟩ := goodTable_of env hts ws hv hs o ho _ h
  refine Spec.FailsOn.toWitnesses hts hv hs ho h textError_congr ?_
  exact failsOn_map ((failsOn_printHorizontal _ _).congr (inRows_iff G))

/-- C96, the other outputs: the JSON output and the table object are always there. -/
theorem C96_always (env : Env) (hts : TopoSpec env.topo) (ws : List Witness) (hv : Valid ws) (o : Opts) (ho : ExactMatching o)
    (hout : o.output ∈ ["json".toList, "table".toList, "graph".toList]) : ∃ x, collate env ws o = .ok x := by
  obtain ⟨t, ws', g, rk, h1, h2, rfl, h4⟩ := exists_table env hts ws hv o ho
  unfold collate render
  rw [h1]
  simp only [bind_ok]
  simp only [List.mem_cons, List.not_mem_nil, or_false] at hout
  rcases hout with e | e | e <;> rw [e]
  · by_cases hl : o.layout = S "vertical"
    · exact ⟨_, by rw [if_neg (by decide), if_neg (by decide), if_pos (by decide), if_pos hl]⟩
    · exact ⟨_, by rw [if_neg (by decide), if_neg (by decide), if_pos (by decide), if_neg hl]⟩
  · exact ⟨_, rfl⟩
  · exact ⟨_, rfl⟩

/-- Records that have a normalised form only. -/
def onlyNormalised : List WitnessData :=
  [⟨some (S "A"), none, some [[(.n, .str (S "a"))], [(.n, .str (S "b"))]]⟩, ⟨some (S "B"), none, some [[(.n, .str (S "a"))]]⟩]

/-- Records with a number as `t`. -/
def numberText : List WitnessData :=
  [⟨some (S "A"), none, some [[(.n, .str (S "a")), (.t, .nat 1)]]⟩, ⟨some (S "B"), none, some [[(.n, .str (S "a")), (.t, .str (S "a"))]]⟩]

/-- The witnesses made from the records. -/
def onlyNormalisedWs : List Witness :=
  [⟨S "A", [⟨S "a", [(.n, .str (S "a"))]⟩, ⟨S "b", [(.n, .str (S "b"))]⟩]⟩, ⟨S "B", [⟨S "a", [(.n, .str (S "a"))]⟩]⟩]

/-- The witnesses made from the records. -/
def numberTextWs : List Witness :=
  [⟨S "A", [⟨S "a", [(.n, .str (S "a")), (.t, .nat 1)]⟩]⟩, ⟨S "B", [⟨S "a", [(.n, .str (S "a")), (.t, .str (S "a"))]⟩]⟩]

example : Valid onlyNormalisedWs ∧ (∀ w ∈ onlyNormalisedWs, w.sigil ≠ []) ∧ TopoSpec exampleEnv.topo :=
  ⟨valid_of_check (by decide) (by decide) (by decide) (by decide), by decide, kahn_spec⟩

/-- C96, an example: records without `t` are accepted and collated, there is a JSON output, but with every kind of output that
shows texts the result is KeyError. With a number as `t` the XML output is there, and CSV gives TypeError. -/
theorem C96_example : addWitnesses exampleEnv.cc [] onlyNormalised = .ok onlyNormalisedWs ∧
    addWitnesses exampleEnv.cc [] numberText = .ok numberTextWs ∧
    (∃ x, collate exampleEnv onlyNormalisedWs { output := S "json" } = .ok x) ∧
    collate exampleEnv onlyNormalisedWs { output := S "csv" } = .error .keyError ∧
    collate exampleEnv onlyNormalisedWs { output := S "xml" } = .error .keyError ∧
    (∃ x, collate exampleEnv numberTextWs { output := S "xml" } = .ok x) ∧
    collate exampleEnv numberTextWs { output := S "csv" } = .error .typeError := by
  have v1 : Valid onlyNormalisedWs := valid_of_check (by decide) (by decide) (by decide) (by decide)
  have v2 : Valid numberTextWs := valid_of_check (by decide) (by decide) (by decide) (by decide)
  have s1 : ∀ w ∈ onlyNormalisedWs, w.sigil ≠ [] := by decide
  have s2 : ∀ w ∈ numberTextWs, w.sigil ≠ [] := by decide
  have err : ∀ (ws : List Witness) (bad : Token → Option PyErr) (e : PyErr) (r : Py Output), FailsOn bad (TokenOf ws) r →
      (∃ t, TokenOf ws t ∧ bad t ≠ none) → (∀ t, TokenOf ws t → bad t = none ∨ bad t = some e) → r = .error e := by
    intro ws bad e r h ⟨t, ht, hb⟩ hall
    cases r with
    | ok x => exact absurd (h.1.mp ⟨x, rfl⟩ t ht) hb
    | error e' =>
      obtain ⟨u, hu, hb'⟩ := h.2 e' rfl
      rcases hall u hu with h | h
      · rw [h] at hb'; simp at hb'
      · rw [h] at hb'
        rw [Option.some.inj hb']
  have split : ∀ (ws : List Witness) (P : Token → Prop), (∀ w ∈ ws, ∀ t ∈ w.tokens, P t) → ∀ t, TokenOf ws t → P t :=
    fun ws P h t ⟨w, hw, ht⟩ => h w hw t ht
  refine ⟨by decide, by decide, C96_always _ kahn_spec _ v1 _ ⟨rfl, rfl, rfl⟩ (by decide), ?_, ?_, ?_, ?_⟩
  · exact err _ _ _ _ (C96_texts _ kahn_spec _ v1 s1 _ ⟨rfl, rfl, rfl⟩ (by decide))
      ⟨_, ⟨_, List.mem_cons_self, List.mem_cons_self⟩, by decide⟩ (split _ _ (by decide))
  · exact err _ _ _ _ (C96_xml _ kahn_spec _ v1 s1 _ ⟨rfl, rfl, rfl⟩ rfl)
      ⟨_, ⟨_, List.mem_cons_self, List.mem_cons_self⟩, by decide⟩ (split _ _ (by decide))
  · exact (C96_xml _ kahn_spec _ v2 s2 _ ⟨rfl, rfl, rfl⟩ rfl).1.mpr (split _ _ (by decide))
  · exact err _ _ _ _ (C96_texts _ kahn_spec _ v2 s2 _ ⟨rfl, rfl, rfl⟩ (by decide))
      ⟨_, ⟨_, List.mem_cons_self, List.mem_cons_self⟩, by decide⟩ (split _ _ (by decide))

end CollateX
